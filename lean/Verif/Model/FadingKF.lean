import Verif.Model.KalmanFilter

/-!
# Model of `filterpy/kalman/fading_memory.py`, class `FadingKalmanFilter`
-/

namespace Filterpy

open Matrix

/-- The attributes of a `FadingKalmanFilter` (fading_memory.py 155-193).  `B = none` stands for
the initial scalar `B = 0.`; the initial `K = 0` is the zero matrix. -/
structure FKF (n m l : ℕ) where
  alphaSq : ℝ
  x : Vec n
  P : Mat n n
  Q : Mat n n
  B : Option (Mat n l)
  F : Mat n n
  H : Mat m n
  R : Mat m m
  z : Fin m → Option ℝ
  K : Mat n m
  y : Vec m
  S : Mat m m
  SI : Mat m m
  logLik : Option ℝ
  lik : Option ℝ
  mahal : Option ℝ
  xPrior : Vec n
  PPrior : Mat n n
  xPost : Vec n
  PPost : Mat n n

namespace FKF

variable {n m l : ℕ}

/-- The attribute values set by `__init__` (fading_memory.py 155-193). -/
noncomputable def fresh (alpha : ℝ) (n m l : ℕ) : FKF n m l where
  alphaSq := alpha ^ 2
  x := 0
  P := 1
  Q := 1
  B := none
  F := 1
  H := 0
  R := 1
  z := fun _ => none
  K := 0
  y := 0
  S := 0
  SI := 0
  logLik := some (Real.log floatMin)
  lik := some floatMin
  mahal := none
  xPrior := 0
  PPrior := 1
  xPost := 0
  PPost := 1

/-- A `FadingKalmanFilter` of some dimension. -/
structure Sized where
  n : ℕ
  m : ℕ
  l : ℕ
  kf : FKF n m l

/-- `FadingKalmanFilter.__init__(alpha, dim_x, dim_z, dim_u)` (fading_memory.py 144-193):
`assert`s on the arguments. -/
noncomputable def init (alpha : ℝ) (dimX dimZ dimU : ℤ) : Except Err Sized :=
  if ¬ 1 ≤ alpha then .error .assertion
  else if ¬ 0 < dimX then .error .assertion
  else if ¬ 0 < dimZ then .error .assertion
  else if ¬ 0 ≤ dimU then .error .assertion
  else .ok ⟨dimX.toNat, dimZ.toNat, dimU.toNat, fresh alpha _ _ _⟩

/-- `FadingKalmanFilter.update(z, R)` (fading_memory.py 195-253).  With `z = None` only `z` and
the posterior copies are written.  A failing inverse leaves `y` and `S` stored. -/
noncomputable def update (s : FKF n m l) (z : Option (Vec m)) (R : MatArg m := .none) :
    Exec (FKF n m l) :=
  match z with
  | none => .ok { s with z := fun _ => none, xPost := s.x, PPost := s.P }
  | some z =>
    let R := R.resolve s.R
    let y := z - s.H *ᵥ s.x
    let PHT := s.P * s.Hᵀ
    let S := s.H * PHT + R
    match npInv S with
    | none => .error (.linAlgError, { s with y := y, S := S })
    | some SI =>
      let K := PHT * SI
      let x := s.x + K *ᵥ y
      let I_KH := 1 - K * s.H
      let P := I_KH * s.P * I_KHᵀ + K * R * Kᵀ
      .ok { s with
        y := y, S := S, SI := SI, K := K, x := x, P := P
        z := fun i => some (z i), xPost := x, PPost := P
        logLik := none, lik := none, mahal := none }

/-- `dot(self.B, u)` added to the state column (fading_memory.py 267).  With the initial
`B = 0.`, `0. * u` is a zero array of `u`'s shape: adding it is harmless for scalar `u` and when
the shapes broadcast (`dim_u = dim_x` or `1`).  With a matrix `B` and scalar `u`, `B * u` is an
`(n, l)` array, which keeps the state a vector only for `l = 1`.  Other runs leave the model. -/
noncomputable def control (B : Option (Mat n l)) (u : UArg l) : Except Err (Vec n) :=
  match B, u with
  | _, .none => .error .typeError
  | none, .scalar _ => .ok 0
  | none, .vec _ => if l = n ∨ l = 1 then .ok 0 else .error .shape
  | some B, .vec u => .ok (B *ᵥ u)
  | some B, .scalar c =>
      if h : l = 1 then .ok (fun i => c * B i ⟨0, by omega⟩) else .error .shape

/-- `FadingKalmanFilter.predict(u=0)` (fading_memory.py 255-274). -/
noncomputable def predict (s : FKF n m l) (u : UArg l := .scalar 0) : Exec (FKF n m l) :=
  match control s.B u with
  | .error e => .error (e, s)
  | .ok bu =>
    let x := s.F *ᵥ s.x + bu
    let P := s.alphaSq • (s.F * s.P * s.Fᵀ) + s.Q
    .ok { s with x := x, P := P, xPrior := x, PPrior := P }

/-- `FadingKalmanFilter.get_prediction(u=0)` (fading_memory.py 352-371). -/
noncomputable def getPrediction (s : FKF n m l) (u : UArg l := .scalar 0) :
    Except Err (Vec n × Mat n n) :=
  match control s.B u with
  | .error e => .error e
  | .ok bu => .ok (s.F *ᵥ s.x + bu, s.alphaSq • (s.F * s.P * s.Fᵀ) + s.Q)

/-- `FadingKalmanFilter.residual_of(z)` (fading_memory.py 374-378): uses the current `x`. -/
def residualOf (s : FKF n m l) (z : Vec m) : Vec m := z - s.H *ᵥ s.x

/-- The property `alpha` (fading_memory.py 399-403). -/
noncomputable def alpha (s : FKF n m l) : ℝ := Real.sqrt s.alphaSq

/-- The loop of `batch_filter` (fading_memory.py 332-348) over the zipped `(z, R)` pairs. -/
noncomputable def batchLoop (updateFirst : Bool) :
    FKF n m l → List (Option (Vec m) × MatArg m) →
      Except (Err × FKF n m l) (List (KF.BatchOut n) × FKF n m l)
  | s, [] => .ok ([], s)
  | s, r :: rows =>
    if updateFirst then do
      let s1 ← s.update r.1 r.2
      let s2 ← s1.predict
      let (out, s') ← batchLoop updateFirst s2 rows
      .ok (⟨s1.x, s1.P, s2.x, s2.P⟩ :: out, s')
    else do
      let s1 ← s.predict
      let s2 ← s1.update r.1 r.2
      let (out, s') ← batchLoop updateFirst s2 rows
      .ok (⟨s2.x, s2.P, s1.x, s1.P⟩ :: out, s')

/-- `FadingKalmanFilter.batch_filter(zs, Rs, update_first)` (fading_memory.py 276-350). -/
noncomputable def batchFilter (s : FKF n m l) (zs : List (Option (Vec m)))
    (Rs : Option (List (MatArg m)) := none) (updateFirst : Bool := false) :
    Except (Err × FKF n m l) (List (KF.BatchOut n) × FKF n m l) :=
  batchLoop updateFirst s (zs.zip (Rs.getD (List.replicate zs.length .none)))

end FKF
end Filterpy
