import Verif.Model.Cubature

/-!
# Model of `filterpy/kalman/ensemble_kalman_filter.py`

`numpy.random.multivariate_normal` is not modelled: the arrays it returns are arguments of the methods
that call it, so every statement holds for all draws.  `fx`, `hx` are total.  Division by `N - 1 = 0` gives
`nan`: the run leaves the model (`nonFinite`).
-/

namespace Filterpy

open Matrix

/-- `np.mean(A, axis=0)`. -/
noncomputable def meanRows {N n : ℕ} (A : Mat N n) : Vec n := fun j => (∑ i, A i j) / N

/-- The attributes of an `EnsembleKalmanFilter` with `N` ensemble members
(ensemble_kalman_filter.py 165-216). -/
structure EnKF (n m N : ℕ) where
  x : Vec n
  P : Mat n n
  Q : Mat n n
  R : Mat m m
  dt : ℝ
  hx : Vec n → Vec m
  fx : Vec n → ℝ → Vec n
  sigmas : Mat N n
  z : Fin m → Option ℝ
  K : Mat n m
  S : Mat m m
  SI : Mat m m
  xPrior : Vec n
  PPrior : Mat n n
  xPost : Vec n
  PPost : Mat n n
  inv : Mat m m → Option (Mat m m)

namespace EnKF

variable {n m N : ℕ}

/-- The attributes after `__init__` with the drawn ensemble `sigmas` (ensemble_kalman_filter.py 158-216). -/
noncomputable def fresh (x : Vec n) (P : Mat n n) (dt : ℝ) (hx : Vec n → Vec m)
    (fx : Vec n → ℝ → Vec n) (sigmas : Mat N n) : EnKF n m N where
  x := x
  P := P
  Q := 1
  R := 1
  dt := dt
  hx := hx
  fx := fx
  sigmas := sigmas
  z := fun _ => none
  K := 0
  S := 0
  SI := 0
  xPrior := x
  PPrior := P
  xPost := x
  PPost := P
  inv := npInv

/-- A filter of some measurement dimension and ensemble size. -/
structure Sized (n : ℕ) where
  m : ℕ
  N : ℕ
  kf : EnKF n m N

/-- `__init__(x, P, dim_z, dt, N, hx, fx)` (ensemble_kalman_filter.py 158-185); `ndim` is the number of
dimensions of the array `x`; `draw` is the generator. -/
noncomputable def init (ndim : ℕ) (x : Vec n) (P : Mat n n) (dimZ : ℤ) (dt : ℝ) (N : ℤ)
    (hx : ∀ m, Vec n → Vec m) (fx : Vec n → ℝ → Vec n)
    (draw : ∀ N, Vec n → Mat n n → Mat N n) : Except Err (Sized n) :=
  if dimZ ≤ 0 then .error .valueError
  else if N ≤ 0 then .error .valueError
  else if ndim ≠ 1 then .error .valueError
  else .ok ⟨dimZ.toNat, N.toNat, fresh x P dt (hx _) fx (draw _ x P)⟩

/-- `initialize(x, P)` (ensemble_kalman_filter.py 187-216); `ndim` is the number of dimensions of `x`. -/
def reinit (s : EnKF n m N) (ndim : ℕ) (x : Vec n) (P : Mat n n) (sigmas : Mat N n) : Exec (EnKF n m N) :=
  if ndim ≠ 1 then .error (.valueError, s)
  else .ok { s with
    sigmas := sigmas, x := x, P := P, xPrior := x, PPrior := P, xPost := x, PPost := P }

/-- `predict()` (ensemble_kalman_filter.py 275-290); `e` are the drawn process errors. -/
noncomputable def predict (s : EnKF n m N) (e : Mat N n) : Exec (EnKF n m N) :=
  let sigmas := rows fun i => s.fx (s.sigmas i) s.dt + e i
  let x := meanRows sigmas
  if N = 1 then .error (.nonFinite, { s with sigmas := sigmas, x := x })
  else
    let d := rows fun i => sigmas i - x
    let P := ((1 : ℝ) / ((N : ℝ) - 1)) • outerSum d d
    .ok { s with sigmas := sigmas, x := x, P := P, xPrior := x, PPrior := P }

/-- `update(z, R)` (ensemble_kalman_filter.py 218-273); `e` are the drawn measurement errors. -/
noncomputable def update (s : EnKF n m N) (z : Option (Vec m)) (R : MatArg m) (e : Mat N m) :
    Exec (EnKF n m N) :=
  match z with
  | none => .ok { s with z := fun _ => none, xPost := s.x, PPost := s.P }
  | some z =>
    let R := R.resolve s.R
    let sigmasH := rows fun i => s.hx (s.sigmas i)
    let zMean := meanRows sigmasH
    if N = 1 then .error (.nonFinite, s)
    else
      let dh := rows fun i => sigmasH i - zMean
      let dx := rows fun i => s.sigmas i - s.x
      let Pzz := ((1 : ℝ) / ((N : ℝ) - 1)) • outerSum dh dh + R
      let Pxz := ((1 : ℝ) / ((N : ℝ) - 1)) • outerSum dx dh
      match s.inv Pzz with
      | none => .error (.linAlgError, { s with S := Pzz })
      | some SI =>
        let K := Pxz * SI
        let sigmas := rows fun i => s.sigmas i + K *ᵥ (z + e i - sigmasH i)
        let x := meanRows sigmas
        let P := s.P - K * Pzz * Kᵀ
        .ok { s with
          S := Pzz, SI := SI, K := K, sigmas := sigmas, x := x, P := P
          z := fun i => some (z i), xPost := x, PPost := P }

end EnKF
end Filterpy
