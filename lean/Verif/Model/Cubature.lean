import Verif.Model.KalmanFilter
import Verif.Model.Helpers

/-!
# Model of `filterpy/kalman/CubatureKalmanFilter.py`

`scipy.linalg.cholesky` (upper factor, `LinAlgError` when the matrix is not positive definite) is the
parameter `chol`.  `fx`, `hx` are total, with their extra arguments already applied; `fx` and `hx` return
1-D arrays.  The attributes `x_mean`, `z_mean` and `residual_x` are never read by the code and left out.
-/

namespace Filterpy

open Matrix

/-- The array with the given rows. -/
def rows {k n : ℕ} (f : Fin k → Vec n) : Mat k n := fun i => f i

/-- `outer_product_sum(A, B)` for arrays with different numbers of columns (helpers.py 386-437). -/
def outerSum {N n m : ℕ} (A : Mat N n) (B : Mat N m) : Mat n m :=
  fun j k => ∑ i, Helpers.einsumOuter A B i j k

/-- `spherical_radial_sigmas(x, P)` (CubatureKalmanFilter.py 32-61). -/
noncomputable def sphericalRadialSigmas {n : ℕ} (chol : Mat n n → Except Err (Mat n n)) (x : Vec n)
    (P : Mat n n) : Except Err (Mat (2 * n) n) :=
  match chol P with
  | .error e => .error e
  | .ok C =>
    let U := Real.sqrt n • C
    .ok (rows fun i => if h : (i : ℕ) < n then x + U ⟨i, h⟩ else x - U ⟨i - n, by omega⟩)

/-- One turn of the loop of `ckf_transform` (CubatureKalmanFilter.py 91-92). -/
def ckfStep {k n : ℕ} (Xs : Mat k n) (xf : Vec n) (P : Mat n n) (i : Fin k) : Mat n n :=
  P + (vecMulVec (Xs i) (Xs i) - vecMulVec xf xf)

/-- `ckf_transform(Xs, Q)` (CubatureKalmanFilter.py 64-98). -/
noncomputable def ckfTransform {k n : ℕ} (Xs : Mat k n) (Q : Mat n n) : Vec n × Mat n n :=
  let x := fun j => (∑ i, Xs i j) / k
  let P := (List.finRange k).foldl (ckfStep Xs x) 0
  (x, ((1 : ℝ) / k) • P + Q)

/-- The attributes of a `CubatureKalmanFilter` (CubatureKalmanFilter.py 240-291).  `K` and `y` start as the
number `0`, here the zero array; `yArray` says whether `y` is an array by now. -/
structure CKF (n m : ℕ) where
  x : Vec n
  P : Mat n n
  Q : Mat n n
  R : Mat m m
  dt : ℝ
  hx : Vec n → Vec m
  fx : Vec n → ℝ → Vec n
  residualZ : Option (Vec m → Vec m → Vec m)
  sigmasF : Mat (2 * n) n
  sigmasH : Mat (2 * n) m
  z : Fin m → Option ℝ
  K : Mat n m
  y : Vec m
  S : Mat m m
  SI : Mat m m
  xPrior : Vec n
  PPrior : Mat n n
  xPost : Vec n
  PPost : Mat n n
  logLik : Option ℝ
  lik : Option ℝ
  mahal : Option ℝ
  yArray : Bool

/-- The measurement argument: a column of shape `(dim_z, 1)` (or a number when `dim_z = 1`), or a 1-D
array of length `dim_z`. -/
inductive ColArg (m : ℕ)
  | col (z : Vec m)
  | flat (z : Vec m)

namespace CKF

variable {n m : ℕ}

/-- `CubatureKalmanFilter.__init__` (CubatureKalmanFilter.py 240-291). -/
noncomputable def fresh (n m : ℕ) (dt : ℝ) (hx : Vec n → Vec m) (fx : Vec n → ℝ → Vec n)
    (residualZ : Option (Vec m → Vec m → Vec m) := none) : CKF n m where
  x := 0
  P := 1
  Q := 1
  R := 1
  dt := dt
  hx := hx
  fx := fx
  residualZ := residualZ
  sigmasF := 0
  sigmasH := 0
  z := fun _ => none
  K := 0
  y := 0
  S := 0
  SI := 0
  xPrior := 0
  PPrior := 1
  xPost := 0
  PPost := 1
  logLik := some (Real.log floatMin)
  lik := some floatMin
  mahal := none
  yArray := false

/-- `predict(dt)` (CubatureKalmanFilter.py 293-327). -/
noncomputable def predict (chol : Mat n n → Except Err (Mat n n)) (s : CKF n m)
    (dt : Option ℝ := none) : Exec (CKF n m) :=
  match sphericalRadialSigmas chol s.x s.P with
  | .error e => .error (e, s)
  | .ok sigmas =>
    let sigmasF := rows fun k => s.fx (sigmas k) (dt.getD s.dt)
    let xP := ckfTransform sigmasF s.Q
    .ok { s with sigmasF := sigmasF, x := xP.1, P := xP.2, xPrior := xP.1, PPrior := xP.2 }

/-- `update(z, R)` for a measurement that has been accepted (CubatureKalmanFilter.py 355-390); the
predicted measurement is a column, so a 1-D `z` of length `dim_z ≥ 2` is broadcast against it to a
`(dim_z, dim_z)` array and `x` becomes an `(n, dim_z)` array: the run leaves the model (`shape`), after `S`,
`SI`, `K` have been stored. -/
noncomputable def update (s : CKF n m) (z : Option (ColArg m)) (R : MatArg m := .none) :
    Exec (CKF n m) :=
  match z with
  | none => .ok { s with z := fun _ => none, xPost := s.x, PPost := s.P }
  | some zarg =>
    let R := R.resolve s.R
    let sigmasH := rows fun k => s.hx (s.sigmasF k)
    let zpS := ckfTransform sigmasH R
    match npInv zpS.2 with
    | none => .error (.linAlgError, { s with sigmasH := sigmasH, S := zpS.2 })
    | some SI =>
      let Pxz := ((1 : ℝ) / (2 * n : ℕ)) • outerSum (rows fun k => s.sigmasF k - s.x)
        (rows fun k => sigmasH k - zpS.1)
      let K := Pxz * SI
      let s' := { s with sigmasH := sigmasH, S := zpS.2, SI := SI, K := K }
      let finish (z : Vec m) : Exec (CKF n m) :=
        let y := (s.residualZ.getD fun a b => a - b) z zpS.1
        let x := s.x + K *ᵥ y
        let P := s.P - K * zpS.2 * Kᵀ
        .ok { s' with
          y := y, x := x, P := P, z := fun i => some (z i), xPost := x, PPost := P
          logLik := none, lik := none, mahal := none, yArray := true }
      match zarg with
      | .col z => finish z
      | .flat z => if m ≤ 1 then finish z else .error (.shape, s')

/-- The property `log_likelihood` (CubatureKalmanFilter.py 392-399). -/
noncomputable def readLogLik (s : CKF n m) : ℝ × CKF n m :=
  match s.logLik with
  | some v => (v, s)
  | none => (logpdf s.y s.S, { s with logLik := some (logpdf s.y s.S) })

end CKF
end Filterpy
