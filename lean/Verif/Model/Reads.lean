import Verif.Model.EKF
import Verif.Model.UKF
import Verif.Model.Cubature

/-!
# Model of the cached properties `log_likelihood`, `likelihood`, `mahalanobis` of the other filter classes

`expf` is the floating-point exponential, which may underflow to `0`; `math.sqrt` of a negative number
raises `ValueError`.
-/

namespace Filterpy

open Matrix

variable {n m l : ℕ}

namespace FKF

/-- The property `log_likelihood` (fading_memory.py 405-412). -/
noncomputable def readLogLik (s : FKF n m l) : ℝ × FKF n m l :=
  match s.logLik with
  | some v => (v, s)
  | none => (logpdf s.y s.S, { s with logLik := some (logpdf s.y s.S) })

/-- The property `likelihood` (fading_memory.py 414-427). -/
noncomputable def readLik (expf : ℝ → ℝ) (s : FKF n m l) : ℝ × FKF n m l :=
  match s.lik with
  | some v => (v, s)
  | none =>
    let (ll, s') := s.readLogLik
    let v := if expf ll = 0 then floatMin else expf ll
    (v, { s' with lik := some v })

/-- The property `mahalanobis` (fading_memory.py 429-441). -/
noncomputable def readMahal (s : FKF n m l) : Except Err (ℝ × FKF n m l) :=
  match s.mahal with
  | some v => .ok (v, s)
  | none =>
    let d := s.y ⬝ᵥ (s.SI *ᵥ s.y)
    if d < 0 then .error .valueError
    else .ok (Real.sqrt d, { s with mahal := some (Real.sqrt d) })

/-- `FadingKalmanFilter.measurement_of_state(x)` (fading_memory.py 381-396). -/
def measurementOfState (s : FKF n m l) (x : Vec n) : Vec m := s.H *ᵥ x

end FKF

namespace EKF

/-- The property `log_likelihood` (EKF.py 372-380). -/
noncomputable def readLogLik (s : EKF n m l) : ℝ × EKF n m l :=
  match s.logLik with
  | some v => (v, s)
  | none => (logpdf s.y s.S, { s with logLik := some (logpdf s.y s.S) })

/-- The property `likelihood` (EKF.py 382-395). -/
noncomputable def readLik (expf : ℝ → ℝ) (s : EKF n m l) : ℝ × EKF n m l :=
  match s.lik with
  | some v => (v, s)
  | none =>
    let (ll, s') := s.readLogLik
    let v := if expf ll = 0 then floatMin else expf ll
    (v, { s' with lik := some v })

/-- The property `mahalanobis` (EKF.py 397-409). -/
noncomputable def readMahal (s : EKF n m l) : Except Err (ℝ × EKF n m l) :=
  match s.mahal with
  | some v => .ok (v, s)
  | none =>
    let d := s.y ⬝ᵥ (s.SI *ᵥ s.y)
    if d < 0 then .error .valueError
    else .ok (Real.sqrt d, { s with mahal := some (Real.sqrt d) })

end EKF

/-- The property `likelihood` (UKF.py 750-762). -/
noncomputable def UKF.readLik {p : SigmaPts n} (expf : ℝ → ℝ) (s : UKF n m p) : ℝ × UKF n m p :=
  match s.lik with
  | some v => (v, s)
  | none =>
    let (ll, s') := s.readLogLik
    let v := if expf ll = 0 then floatMin else expf ll
    (v, { s' with lik := some v })

namespace CKF

/-- The property `likelihood` (CubatureKalmanFilter.py 401-414). -/
noncomputable def readLik (expf : ℝ → ℝ) (s : CKF n m) : ℝ × CKF n m :=
  match s.lik with
  | some v => (v, s)
  | none =>
    let (ll, s') := s.readLogLik
    let v := if expf ll = 0 then floatMin else expf ll
    (v, { s' with lik := some v })

/-- The property `mahalanobis` (CubatureKalmanFilter.py 416-428): `self.y.T` raises `AttributeError` while `y` is
still the number `0` of `__init__`. -/
noncomputable def readMahal (s : CKF n m) : Except Err (ℝ × CKF n m) :=
  match s.mahal with
  | some v => .ok (v, s)
  | none =>
    if s.yArray = false then .error .attributeError else
    let d := s.y ⬝ᵥ (s.SI *ᵥ s.y)
    if d < 0 then .error .valueError
    else .ok (Real.sqrt d, { s with mahal := some (Real.sqrt d) })

end CKF

end Filterpy
