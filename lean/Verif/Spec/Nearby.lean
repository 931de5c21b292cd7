import Verif.Model.KalmanOps
import Mathlib.Topology.Instances.Matrix

/-!
# Nearby arguments, nearby filters

A family of calls `a i` along a filter `f` (a sequence, or all values near a point) approaches one call.  The forms of the
arguments (`None`, a number, an array) are the same along the family.
-/

namespace Filterpy.Spec

open Filter Topology

variable {ι : Type} {n m l : ℕ}

/-- An optional argument approaches another: both absent, or both present and close. -/
inductive OptNear {E : Type} [TopologicalSpace E] (f : Filter ι) : (ι → Option E) → Option E → Prop
  | none : OptNear f (fun _ => none) none
  | some {v : ι → E} {v' : E} (h : Tendsto v f (𝓝 v')) : OptNear f (fun i => some (v i)) (some v')

/-- A noise argument approaches another: `None`, a number or a matrix. -/
inductive ArgNear (f : Filter ι) : (ι → MatArg n) → MatArg n → Prop
  | none : ArgNear f (fun _ => .none) .none
  | scalar {c : ι → ℝ} {c' : ℝ} (h : Tendsto c f (𝓝 c')) : ArgNear f (fun i => .scalar (c i)) (.scalar c')
  | mat {A : ι → Mat n n} {A' : Mat n n} (h : Tendsto A f (𝓝 A')) : ArgNear f (fun i => .mat (A i)) (.mat A')

/-- A control argument approaches another. -/
inductive UNear (f : Filter ι) : (ι → UArg l) → UArg l → Prop
  | none : UNear f (fun _ => .none) .none
  | scalar {c : ι → ℝ} {c' : ℝ} (h : Tendsto c f (𝓝 c')) : UNear f (fun i => .scalar (c i)) (.scalar c')
  | vec {u : ι → Vec l} {u' : Vec l} (h : Tendsto u f (𝓝 u')) : UNear f (fun i => .vec (u i)) (.vec u')

/-- A call approaches another.  `drowned`: a measurement whose noise grows without bound approaches no measurement,
whatever it reads. -/
inductive OpNear (f : Filter ι) : (ι → KFOp n m l) → KFOp n m l → Prop
  | predict {u u' B B' F F' Q Q'} (hu : UNear f u u') (hB : OptNear f B B') (hF : OptNear f F F')
      (hQ : ArgNear f Q Q') : OpNear f (fun i => .predict (u i) (B i) (F i) (Q i)) (.predict u' B' F' Q')
  | update {z z' R R' H H'} (hz : Tendsto z f (𝓝 z')) (hR : ArgNear f R R') (hH : OptNear f H H') :
      OpNear f (fun i => .update (some (z i)) (R i) (H i)) (.update (some z') R' H')
  | missing {R : ι → MatArg m} {R'} {H : ι → Option (Mat m n)} {H'} : OpNear f (fun i => .update none (R i) (H i)) (.update none R' H')
  | drowned {r : ι → ℝ} {z : ι → Vec m} {z' : Vec m} {R : Mat m m} {H H' R'' H''} (hr : Tendsto r f atTop)
      (hz : Tendsto z f (𝓝 z')) (hR : R.det ≠ 0) (hH : OptNear f H H') :
      OpNear f (fun i => .update (some (z i)) (.mat (r i • R)) (H i)) (.update none R'' H'')
  | correlated {z z' R R' H H'} (hz : Tendsto z f (𝓝 z')) (hR : ArgNear f R R') (hH : OptNear f H H') :
      OpNear f (fun i => .updateCorrelated (some (z i)) (R i) (H i)) (.updateCorrelated (some z') R' H')
  | sequential {start len : ℕ} {z : ι → Vec len} {z' R R' H H'} (hz : Tendsto z f (𝓝 z')) (hR : ArgNear f R R')
      (hH : OptNear f H H') : OpNear f (fun i => .updateSequential start len (z i) (R i) (H i))
        (.updateSequential start len z' R' H')
  | setAlpha {v : ι → ℝ} {v' : ℝ} (hv : Tendsto v f (𝓝 v')) (h1 : ∀ i, 1 ≤ v i) :
      OpNear f (fun i => .setAlpha (v i)) (.setAlpha v')

/-- A Kalman filter approaches another in estimate, model and noises; both invert with `numpy.linalg.inv`. -/
structure KFNear (f : Filter ι) (s : ι → KF n m l) (t : KF n m l) : Prop where
  x : Tendsto (fun i => (s i).x) f (𝓝 t.x)
  P : Tendsto (fun i => (s i).P) f (𝓝 t.P)
  F : Tendsto (fun i => (s i).F) f (𝓝 t.F)
  Q : Tendsto (fun i => (s i).Q) f (𝓝 t.Q)
  H : Tendsto (fun i => (s i).H) f (𝓝 t.H)
  R : Tendsto (fun i => (s i).R) f (𝓝 t.R)
  B : OptNear f (fun i => (s i).B) t.B
  M : Tendsto (fun i => (s i).M) f (𝓝 t.M)
  alpha : Tendsto (fun i => (s i).alphaSq) f (𝓝 t.alphaSq)
  xPrior : Tendsto (fun i => (s i).xPrior) f (𝓝 t.xPrior)
  PPrior : Tendsto (fun i => (s i).PPrior) f (𝓝 t.PPrior)
  xPost : Tendsto (fun i => (s i).xPost) f (𝓝 t.xPost)
  PPost : Tendsto (fun i => (s i).PPost) f (𝓝 t.PPost)
  inv : ∀ i, (s i).inv = npInv
  inv' : t.inv = npInv

/-- The results of the last measurement approach others: residual, its covariance and the inverse, gain. -/
structure ResidualNear (f : Filter ι) (s : ι → KF n m l) (t : KF n m l) : Prop where
  y : Tendsto (fun i => (s i).y) f (𝓝 t.y)
  S : Tendsto (fun i => (s i).S) f (𝓝 t.S)
  SI : Tendsto (fun i => (s i).SI) f (𝓝 t.SI)
  K : Tendsto (fun i => (s i).K) f (𝓝 t.K)

end Filterpy.Spec
