import Verif.Props.KalmanMonotone
import Mathlib.Analysis.SpecialFunctions.Log.Basic

/-!
# What a measurement is worth

The words used by property C136: the log-volume of a covariance (the entropy of the estimation error up to a constant
that depends on the number of states only, see `C136_entropy`) and the worth of a measurement, which is how much of it the
call `update` removes.
-/

namespace Filterpy.Spec

open Matrix

variable {n m l : ℕ}


/-- Half the logarithm of the determinant of a covariance: the entropy of the normal law with that covariance, up to a
constant that depends on the number of variables only. -/
noncomputable def logVolume (P : Mat n n) : ℝ := Real.log P.det / 2

/-- What the call `update(z, R, H)` is worth: by how much it reduces the entropy. -/
noncomputable def worthOf (s : KF n m l) (e : Meas n m) : ℝ :=
  match s.update (some e.1) e.2.1 e.2.2 with
  | .ok s' => logVolume s.P - logVolume s'.P
  | .error _ => 0

/-- What each of several measurements is worth when it is its turn. -/
noncomputable def worths (s : KF n m l) : List (Meas n m) → List ℝ
  | [] => []
  | e :: ms => worthOf s e ::
    match s.update (some e.1) e.2.1 e.2.2 with
    | .ok s' => worths s' ms
    | .error _ => []

end Filterpy.Spec
