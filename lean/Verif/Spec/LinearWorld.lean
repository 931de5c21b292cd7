import Verif.Spec.Prob
import Verif.Model.KalmanFilter

/-!
# Specification: a linear system observed by a `KalmanFilter`

The world has a true state vector `X`, a process noise `w` per time step and a measurement
noise `v` per measurement.  The filter sees only the measurements.
-/

namespace Filterpy.Spec

open MeasureTheory ProbabilityTheory Matrix

/-- What happens at one point of the history: the system moves and the user calls
`predict(u, B, F, Q)`; the system is measured and the user calls `update(z, R, H)`; or a
measurement is missing and the user calls `update(None)`. -/
inductive Event (Ω : Type*) (n m l : ℕ)
  | move (u : Option (Vec l)) (B : Option (Mat n l)) (F : Option (Mat n n)) (Q : MatArg n)
      (w : Ω → Vec n)
  | measure (R : MatArg m) (H : Option (Mat m n)) (v : Ω → Vec m)
  | miss

namespace Event

variable {Ω : Type*} {n m l : ℕ}

/-- Dimension of the noise entering at this event. -/
def dim : Event Ω n m l → ℕ
  | move .. => n
  | measure .. => m
  | miss => 0

/-- The noise entering at this event. -/
def noise : (e : Event Ω n m l) → Ω → Vec e.dim
  | move _ _ _ _ w => w
  | measure _ _ v => v
  | miss => fun _ => 0

/-- The covariance the filter assumes for that noise: the per-call `Q`/`R`, or the default. -/
noncomputable def noiseCov (Q : Mat n n) (R : Mat m m) : (e : Event Ω n m l) → Mat e.dim e.dim
  | move _ _ _ Q' _ => Q'.resolve Q
  | measure R' _ _ => R'.resolve R
  | miss => 0

end Event

/-- The effect `B u` of the control input on the true state (none without `B` or `u`). -/
noncomputable def controlEffect {n l : ℕ} : Option (Mat n l) → Option (Vec l) → Vec n
  | some B, some u => B *ᵥ u
  | _, _ => 0

/-- `None` or an array, as passed to `predict(u)`. -/
def uArg {l : ℕ} : Option (Vec l) → UArg l
  | none => .none
  | some u => .vec u

/-- One event, in the outcome `ω`, acting on the pair (filter object, true state). -/
noncomputable def worldStep {Ω : Type*} {n m l : ℕ} (ω : Ω) (c : KF n m l × Vec n) :
    Event Ω n m l → Except (Err × KF n m l) (KF n m l × Vec n)
  | .move u B F Q w => do
      let kf' ← c.1.predict (uArg u) B F Q
      .ok (kf', (F.getD c.1.F) *ᵥ c.2 + controlEffect (B.or c.1.B) u + w ω)
  | .measure R H v => do
      let kf' ← c.1.update (some ((H.getD c.1.H) *ᵥ c.2 + v ω)) R H
      .ok (kf', c.2)
  | .miss => do
      let kf' ← c.1.update none
      .ok (kf', c.2)

/-- A whole history of events in the outcome `ω`. -/
noncomputable def worldRun {Ω : Type*} {n m l : ℕ} (ω : Ω) :
    KF n m l × Vec n → List (Event Ω n m l) → Except (Err × KF n m l) (KF n m l × Vec n)
  | c, [] => .ok c
  | c, e :: es => do
      let c' ← worldStep ω c e
      worldRun ω c' es

end Filterpy.Spec
