import Verif.Model.KalmanFilter

/-!
# Histories of calls on a `KalmanFilter` object

`KFOp` enumerates the public calls a user can make on an existing object, `step` dispatches
to the method models and `run` executes a list of calls, stopping at the first exception
(which carries the state the object is left in).
-/

namespace Filterpy

/-- A public call on a `KalmanFilter` (the methods of kalman_filter.py 437-824 and the
properties 1203-1267). -/
inductive KFOp (n m l : ℕ)
  | predict (u : UArg l) (B : Option (Mat n l)) (F : Option (Mat n n)) (Q : MatArg n)
  | update (z : Option (Vec m)) (R : MatArg m) (H : Option (Mat m n))
  | updateSequential (start : ℕ) (len : ℕ) (zi : Vec len) (Ri : MatArg len)
      (Hi : Option (Mat len n))
  | predictSteadystate (u : UArg l) (B : Option (Mat n l))
  | updateSteadystate (z : Option (Vec m))
  | updateCorrelated (z : Option (Vec m)) (R : MatArg m) (H : Option (Mat m n))
  | readLogLik
  | readLik
  | readMahal
  | setAlpha (v : ℝ)

namespace KF

variable {n m l : ℕ}

/-- Executes one call.  `expf` is the floating-point `math.exp`. -/
noncomputable def step (expf : ℝ → ℝ) (s : KF n m l) : KFOp n m l → Exec (KF n m l)
  | .predict u B F Q => s.predict u B F Q
  | .update z R H => s.update z R H
  | .updateSequential start _ zi Ri Hi => s.updateSequential start zi Ri Hi
  | .predictSteadystate u B => s.predictSteadystate u B
  | .updateSteadystate z => .ok (s.updateSteadystate z)
  | .updateCorrelated z R H => s.updateCorrelated z R H
  | .readLogLik => .ok s.readLogLik.2
  | .readLik => .ok (s.readLik expf).2
  | .readMahal => match s.readMahal with
    | .ok r => .ok r.2
    | .error e => .error (e, s)
  | .setAlpha v => s.setAlpha v

/-- Executes a history of calls, stopping at the first exception. -/
noncomputable def run (expf : ℝ → ℝ) (s : KF n m l) : List (KFOp n m l) → Exec (KF n m l)
  | [] => .ok s
  | op :: ops => match s.step expf op with
    | .ok s' => run expf s' ops
    | .error e => .error e

end KF

end Filterpy
