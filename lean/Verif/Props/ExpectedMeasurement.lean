import Verif.Model.Reads
import Verif.Model.SquareRoot
import Verif.Props.KalmanPreviews
import Verif.Props.FadingKF
import Verif.Props.HInfinity

/-!
# `measurement_of_state` and `residual_of`

`measurement_of_state(x)` is the measurement that a filter standing at `x` expects: an update with exactly that
measurement finds no residual and does not move the state.  `residual_of(z)` is how far `z` is from it.
-/

namespace Filterpy

open Matrix

variable {n m l : ℕ}

/-- **C09 (`KalmanFilter`).** -/
theorem C09_expected (s s' : KF n m l) (x : Vec n) (R : MatArg m)
    (h : ({ s with x := x } : KF n m l).update (some (s.measurementOfState x)) R = .ok s') :
    s'.y = 0 ∧ s'.x = x := by
  obtain ⟨SI, -, rfl⟩ := KF.update_ok h
  simp [KF.measurementOfState]

/-- **C09 (`FadingKalmanFilter`).** -/
theorem C09_fading_expected (s s' : FKF n m l) (x : Vec n) (R : MatArg m)
    (h : ({ s with x := x } : FKF n m l).update (some (s.measurementOfState x)) R = .ok s') :
    s'.y = 0 ∧ s'.x = x := by
  simp only [FKF.update] at h
  split at h
  · cases h
  · obtain rfl := Except.ok.inj h
    simp [FKF.measurementOfState]

/-- **C09 (`SquareRootKalmanFilter`).** -/
theorem C09_square_root_expected (L : SqrtLib n m) (s : SRKF n m l) (x : Vec n) (R : MatArg m) (z : Vec m) :
    (({ s with x := x } : SRKF n m l).update L (some (s.measurementOfState x)) R).y = 0 ∧
    (({ s with x := x } : SRKF n m l).update L (some (s.measurementOfState x)) R).x = x ∧
    (s.update L (some z) R).y = s.residualOf z ∧ s.residualOf z = z - s.measurementOfState s.x := by
  simp [SRKF.measurementOfState, SRKF.update, SRKF.residualOf]

/-- **C09 (`HInfinityFilter`).** -/
theorem C09_hinf_expected (s s' : HInf n m l) (x : Vec n)
    (h : ({ s with x := x } : HInf n m l).update (some (s.measurementOfState x)) = .ok s') :
    s'.y = 0 ∧ s'.x = x := by
  obtain ⟨L, -, rfl⟩ := hinf_update_ok h
  simp [HInf.measurementOfState]

/-- The constant-velocity filter, asked about another state than its own. -/
example : ∃ s', ({ cvKF with x := ![3, -1] } : KF 2 1 1).update (some (cvKF.measurementOfState ![3, -1])) = .ok s' ∧
    s'.y = 0 ∧ s'.x = ![3, -1] := by
  obtain ⟨s', h, -⟩ := update_pd ({ cvKF with x := ![3, -1] } : KF 2 1 1) (cvKF.measurementOfState ![3, -1]) .none none
    rfl PosDef.one PosDef.one
  exact ⟨s', h, C09_expected cvKF s' _ _ h⟩

end Filterpy
