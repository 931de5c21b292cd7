import Verif.Model.IMM
import Verif.Model.MMAE
import Verif.Model.Reads
import Verif.Model.InformationFilter
import Verif.Model.SquareRoot
import Verif.Model.EnKF
import Verif.Model.HInfinity

/-!
# The other filter classes in the banks

`IMMEstimator` assigns `f.x`, `f.P` and calls `f.predict(u)`, `f.update(z)`, `f.likelihood`
(IMM.py 173-176, 216-220); `MMAEFilterBank` calls `f.predict(u)`, `f.update(z, R, H)`, `f.likelihood`
(mmae.py 153-154, 184-186).  The arguments are positional, so what they mean depends on the class.  Each
definition below is what these calls do to an object of one class.  A call with the wrong number of arguments
raises `TypeError` before the method runs; a missing attribute raises `AttributeError`, here when `likelihood` is
read after the update has been stored.
-/

namespace Filterpy

open Matrix

variable {n m l N : ℕ}

/-! ## In an `IMMEstimator` -/

/-- `UnscentedKalmanFilter`: `predict(dt=None, UT=None, fx=None)` takes the bank's `u` as the time step
(UKF.py 364-411, 413-491, 750-762). -/
noncomputable def immUkf (expf : ℝ → ℝ) (p : SigmaPts n) (m : ℕ) :
    FilterClass (UKF n m p) n (Option (Vec m)) (Option ℝ) where
  x := UKF.x
  P := UKF.P
  setXP s x P := { s with x := x, P := P }
  predict s dt := s.predict dt
  update s z := s.update z
  likelihood s := s.readLik expf

/-- `CubatureKalmanFilter` with column states and column measurements: `predict(dt=None, fx_args=())` takes the
bank's `u` as the time step (CubatureKalmanFilter.py 292-327, 329-390, 401-414). -/
noncomputable def immCkf (expf : ℝ → ℝ) (chol : Mat n n → Except Err (Mat n n)) (m : ℕ) :
    FilterClass (CKF n m) n (Option (Vec m)) (Option ℝ) where
  x := CKF.x
  P := CKF.P
  setXP s x P := { s with x := x, P := P }
  predict s dt := s.predict chol dt
  update s z := s.update (z.map .col)
  likelihood s := s.readLik expf

/-- `FadingKalmanFilter` (fading_memory.py 195-253, 255-274, 414-427). -/
noncomputable def immFading (expf : ℝ → ℝ) (n m l : ℕ) :
    FilterClass (FKF n m l) n (Option (Vec m)) (UArg l) where
  x := FKF.x
  P := FKF.P
  setXP s x P := { s with x := x, P := P }
  predict s u := s.predict u
  update s z := s.update z
  likelihood s := s.readLik expf

/-- `ExtendedKalmanFilter`: `update(z, HJacobian, Hx, …)` called with `z` alone (EKF.py 254-255, 353-371). -/
noncomputable def immEkf (expf : ℝ → ℝ) (n m l : ℕ) :
    FilterClass (EKF n m l) n (Option (Vec m)) (UArg l) where
  x := EKF.x
  P := EKF.P
  setXP s x P := { s with x := x, P := P }
  predict s u := s.predict u
  update s _ := .error (.typeError, s)
  likelihood s := s.readLik expf

/-- `InformationFilter`: `P` is a property without a setter (information_filter.py 376-379), so `f.P = …` raises
`AttributeError` after `f.x` has been assigned; the exception is attached to the `predict` that follows.  An
information matrix without an inverse is outside this definition (its `P` is read as `0`). -/
noncomputable def immInfo (expf : ℝ → ℝ) (n m l : ℕ) :
    FilterClass (IF n m l) n (Option (Vec m)) (UArg l) where
  x := IF.x
  P s := (s.inv s.Pinv).getD 0
  setXP s x _ := { s with x := x }
  predict s _ := .error (.attributeError, s)
  update s z := s.update expf z
  likelihood s := (s.lik, s)

/-- `SquareRootKalmanFilter`, which has no `likelihood` (square_root.py 172-224, 226-248, 290-314).  Assigning a
`P` without a Cholesky factor is outside this definition (it leaves `P` alone). -/
noncomputable def immSqrt (L : SqrtLib n m) (l : ℕ) : FilterClass (SRKF n m l) n (Option (Vec m)) (UArg l) where
  x := SRKF.x
  P := SRKF.getP
  setXP s x P := { s with x := x, P12 := (L.cholX P).getD s.P12 }
  predict s u := s.predict L u
  update s z := .error (.attributeError, s.update L z)
  likelihood s := (0, s)

/-- `EnsembleKalmanFilter`: `predict()` takes no argument and there is no `likelihood`
(ensemble_kalman_filter.py 218-273, 275-294); `e` are the errors drawn by `update`. -/
noncomputable def immEnKF (e : Mat N m) (n l : ℕ) : FilterClass (EnKF n m N) n (Option (Vec m)) (UArg l) where
  x := EnKF.x
  P := EnKF.P
  setXP s x P := { s with x := x, P := P }
  predict s _ := .error (.typeError, s)
  update s z := match s.update z .none e with
    | .error a => .error a
    | .ok s' => .error (.attributeError, s')
  likelihood s := (0, s)

/-- `HInfinityFilter`, which has no `likelihood` (hinfinity_filter.py 93-143, 145-157). -/
noncomputable def immHInf (n m l : ℕ) : FilterClass (HInf n m l) n (Option (Vec m)) (UArg l) where
  x := HInf.x
  P := HInf.P
  setXP s x P := { s with x := x, P := P }
  predict s u := s.predict u
  update s z := match s.update z with
    | .error a => .error a
    | .ok s' => .error (.attributeError, s')
  likelihood s := (0, s)

/-! ## In an `MMAEFilterBank` -/

/-- `UnscentedKalmanFilter.update(z, R, UT)`: the bank's `H` becomes the unscented transform; an array is not
callable, and the measurement points have been stored by then (UKF.py 413, 449-468). -/
noncomputable def mmaeUkfUpdate {p : SigmaPts n} (s : UKF n m p) (z : Option (Vec m)) (R : MatArg m)
    (H : Option (Mat m n)) : Exec (UKF n m p) :=
  match z, H with
  | some _, some _ => .error (.typeError, { s with sigmasH := UKF.pushRows s.hx s.sigmasF })
  | z, _ => s.update z R

/-- `UnscentedKalmanFilter` in an `MMAEFilterBank`; the bank's `u` is the time step. -/
noncomputable def mmaeUkf (expf : ℝ → ℝ) (p : SigmaPts n) (m : ℕ) :
    FilterClass (UKF n m p) n (Option (Vec m) × MatArg m × Option (Mat m n)) (Option ℝ) where
  x := UKF.x
  P := UKF.P
  setXP s x P := { s with x := x, P := P }
  predict s dt := s.predict dt
  update s a := mmaeUkfUpdate s a.1 a.2.1 a.2.2
  likelihood s := s.readLik expf

/-- `CubatureKalmanFilter.update(z, R, hx_args)`: `H`, `None` or not, is passed on to `hx` as a second argument,
which a function of the state alone refuses (CubatureKalmanFilter.py 329, 348-363). -/
noncomputable def mmaeCkf (expf : ℝ → ℝ) (chol : Mat n n → Except Err (Mat n n)) (m : ℕ) :
    FilterClass (CKF n m) n (Option (Vec m) × MatArg m × Option (Mat m n)) (Option ℝ) where
  x := CKF.x
  P := CKF.P
  setXP s x P := { s with x := x, P := P }
  predict s dt := s.predict chol dt
  update s a := match a.1 with
    | some _ => .error (.typeError, s)
    | none => s.update none
  likelihood s := s.readLik expf

/-- `ExtendedKalmanFilter.update(z, HJacobian, Hx)`: `R` and `H` take the places of the two functions; neither
`None`, nor a number, nor an array can be called (EKF.py 254-255, 297-317). -/
noncomputable def mmaeEkf (expf : ℝ → ℝ) (n m l : ℕ) :
    FilterClass (EKF n m l) n (Option (Vec m) × MatArg m × Option (Mat m n)) (UArg l) where
  x := EKF.x
  P := EKF.P
  setXP s x P := { s with x := x, P := P }
  predict s u := s.predict u
  update s a := match a.1 with
    | some _ => .error (.typeError, s)
    | none => s.update none (fun _ => 0) (fun _ => 0)
  likelihood s := s.readLik expf

/-- `FadingKalmanFilter.update(z, R)` called with three arguments (fading_memory.py 195, 255-274). -/
noncomputable def mmaeFading (expf : ℝ → ℝ) (n m l : ℕ) :
    FilterClass (FKF n m l) n (Option (Vec m) × MatArg m × Option (Mat m n)) (UArg l) where
  x := FKF.x
  P := FKF.P
  setXP s x P := { s with x := x, P := P }
  predict s u := s.predict u
  update s _ := .error (.typeError, s)
  likelihood s := s.readLik expf

/-- `InformationFilter.update(z, R_inv)` called with three arguments (information_filter.py 178, 245-289). -/
noncomputable def mmaeInfo (n m l : ℕ) :
    FilterClass (IF n m l) n (Option (Vec m) × MatArg m × Option (Mat m n)) (UArg l) where
  x := IF.x
  P s := (s.inv s.Pinv).getD 0
  setXP s x _ := { s with x := x }
  predict s u := s.predict u
  update s _ := .error (.typeError, s)
  likelihood s := (s.lik, s)

/-- `SquareRootKalmanFilter.update(z, R2)` called with three arguments (square_root.py 172, 226-248). -/
noncomputable def mmaeSqrt (L : SqrtLib n m) (l : ℕ) :
    FilterClass (SRKF n m l) n (Option (Vec m) × MatArg m × Option (Mat m n)) (UArg l) where
  x := SRKF.x
  P := SRKF.getP
  setXP s x P := { s with x := x, P12 := (L.cholX P).getD s.P12 }
  predict s u := s.predict L u
  update s _ := .error (.typeError, s)
  likelihood s := (0, s)

/-- `EnsembleKalmanFilter.predict()` called with an argument and `update(z, R)` with three
(ensemble_kalman_filter.py 218, 275). -/
noncomputable def mmaeEnKF (n m N l : ℕ) :
    FilterClass (EnKF n m N) n (Option (Vec m) × MatArg m × Option (Mat m n)) (UArg l) where
  x := EnKF.x
  P := EnKF.P
  setXP s x P := { s with x := x, P := P }
  predict s _ := .error (.typeError, s)
  update s _ := .error (.typeError, s)
  likelihood s := (0, s)

/-- `HInfinityFilter.update(z)` called with three arguments (hinfinity_filter.py 93, 145-157). -/
noncomputable def mmaeHInf (n m l : ℕ) :
    FilterClass (HInf n m l) n (Option (Vec m) × MatArg m × Option (Mat m n)) (UArg l) where
  x := HInf.x
  P := HInf.P
  setXP s x P := { s with x := x, P := P }
  predict s u := s.predict u
  update s _ := .error (.typeError, s)
  likelihood s := (0, s)

end Filterpy
