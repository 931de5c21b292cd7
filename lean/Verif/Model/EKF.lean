import Verif.Model.FadingKF

/-!
# Model of `filterpy/kalman/EKF.py`, class `ExtendedKalmanFilter`

The user functions `HJacobian`, `Hx`, `residual` are arbitrary total functions; the extra
argument tuples `args`, `hx_args` are part of the closure.
-/

namespace Filterpy

open Matrix

/-- The attributes of an `ExtendedKalmanFilter` (EKF.py 132-170).  `B = none` stands for the
initial `B = 0`.  The initial `K = zeros(x.shape)` is the zero matrix here. -/
structure EKF (n m l : ℕ) where
  x : Vec n
  P : Mat n n
  B : Option (Mat n l)
  F : Mat n n
  R : Mat m m
  Q : Mat n n
  y : Vec m
  z : Fin m → Option ℝ
  K : Mat n m
  S : Mat m m
  SI : Mat m m
  logLik : Option ℝ
  lik : Option ℝ
  mahal : Option ℝ
  xPrior : Vec n
  PPrior : Mat n n
  xPost : Vec n
  PPost : Mat n n

namespace EKF

variable {n m l : ℕ}

/-- The attribute values set by `__init__` (EKF.py 132-170); it does not check its arguments. -/
noncomputable def fresh (n m l : ℕ) : EKF n m l where
  x := 0
  P := 1
  B := none
  F := 1
  R := 1
  Q := 1
  y := 0
  z := fun _ => none
  K := 0
  S := 0
  SI := 0
  logLik := some (Real.log floatMin)
  lik := some floatMin
  mahal := none
  xPrior := 0
  PPrior := 1
  xPost := 0
  PPost := 1

/-- `ExtendedKalmanFilter.predict(u=0)` with `predict_x` (EKF.py 344-371).  `dot(B, u)` is the
expression modelled by `FKF.control`. -/
noncomputable def predict (s : EKF n m l) (u : UArg l := .scalar 0) : Exec (EKF n m l) :=
  match FKF.control s.B u with
  | .error e => .error (e, s)
  | .ok bu =>
    let x := s.F *ᵥ s.x + bu
    let P := s.F * s.P * s.Fᵀ + s.Q
    .ok { s with x := x, P := P, xPrior := x, PPrior := P }

/-- `predict` (EKF.py 353-371) in a subclass that overrides `predict_x` to set `self.x = f(self.x)`, as its
documentation (EKF.py 345-352) proposes for nonlinear systems; the covariance still uses `self.F`. -/
noncomputable def predictBy (s : EKF n m l) (f : Vec n → Vec n) : Exec (EKF n m l) :=
  let x := f s.x
  let P := s.F * s.P * s.Fᵀ + s.Q
  .ok { s with x := x, P := P, xPrior := x, PPrior := P }

/-- `ExtendedKalmanFilter.update(z, HJacobian, Hx, R, args, hx_args, residual)`
(EKF.py 254-342).  A failing inverse leaves the new `S` stored. -/
noncomputable def update (s : EKF n m l) (z : Option (Vec m)) (HJ : Vec n → Mat m n)
    (hx : Vec n → Vec m) (R : MatArg m := .none)
    (residual : Vec m → Vec m → Vec m := fun a b => a - b) : Exec (EKF n m l) :=
  match z with
  | none => .ok { s with z := fun _ => none, xPost := s.x, PPost := s.P }
  | some z =>
    let R := R.resolve s.R
    let H := HJ s.x
    let PHT := s.P * Hᵀ
    let S := H * PHT + R
    match npInv S with
    | none => .error (.linAlgError, { s with S := S })
    | some SI =>
      let K := PHT * SI
      let y := residual z (hx s.x)
      let x := s.x + K *ᵥ y
      let I_KH := 1 - K * H
      let P := I_KH * s.P * I_KHᵀ + K * R * Kᵀ
      .ok { s with
        S := S, SI := SI, K := K, y := y, x := x, P := P
        logLik := none, lik := none, mahal := none
        z := fun i => some (z i), xPost := x, PPost := P }

/-- `ExtendedKalmanFilter.predict_update(z, HJacobian, Hx, args, hx_args, u)`
(EKF.py 172-252).  As in the code: the Jacobian is taken at the state *before* the prediction,
the "prior" saved is the state before the prediction, and `z = None` fails at
`z - Hx(...)` (`TypeError`) after `S`, `SI`, `K` and the priors were stored. -/
noncomputable def predictUpdate (s : EKF n m l) (z : Option (Vec m)) (HJ : Vec n → Mat m n)
    (hx : Vec n → Vec m) (u : UArg l := .scalar 0) : Exec (EKF n m l) :=
  let H := HJ s.x
  match FKF.control s.B u with
  | .error e => .error (e, s)
  | .ok bu =>
    let x := s.F *ᵥ s.x + bu
    let P := s.F * s.P * s.Fᵀ + s.Q
    let s1 := { s with xPrior := s.x, PPrior := s.P }
    let PHT := P * Hᵀ
    let S := H * PHT + s.R
    match npInv S with
    | none => .error (.linAlgError, { s1 with S := S })
    | some SI =>
      let K := PHT * SI
      match z with
      | none => .error (.typeError, { s1 with S := S, SI := SI, K := K })
      | some z =>
        let y := z - hx x
        let x' := x + K *ᵥ y
        let I_KH := 1 - K * H
        let P' := I_KH * P * I_KHᵀ + K * s.R * Kᵀ
        .ok { s1 with
          S := S, SI := SI, K := K, y := y, x := x', P := P'
          z := fun i => some (z i), xPost := x', PPost := P'
          logLik := none, lik := none, mahal := none }

end EKF
end Filterpy
