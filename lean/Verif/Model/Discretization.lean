import Verif.Model.KalmanFilter
import Mathlib.Analysis.Normed.Algebra.MatrixExponential
import Mathlib.Data.Matrix.ColumnRowPartitioned

/-!
# Model of `filterpy/common/discretization.py`, `filterpy/common/kinematic.py` and
`runge_kutta4` of `filterpy/common/helpers.py`
-/

namespace Filterpy

open Matrix

namespace Discretization

/-- `scipy.linalg.block_diag(*[Q]*b)`: entry `(i, j)` lies in blocks `i / d`, `j / d`. -/
def blockDiag {d : ℕ} (b : ℕ) (Q : Mat d d) : Mat (b * d) (b * d) :=
  Matrix.of fun i j => if i.divNat = j.divNat then Q i.modNat j.modNat else 0

/-- `D[ix:ix+b, iy:iy+b] = eye(b) * x` on an array given by its entries. -/
def assignBlock (b : ℕ) (D : ℕ → ℕ → ℝ) (ix iy : ℕ) (x : ℝ) : ℕ → ℕ → ℝ := fun r c =>
  if ix ≤ r ∧ r < ix + b ∧ iy ≤ c ∧ c < iy + b then (if r - ix = c - iy then 1 else 0) * x
  else D r c

/-- The first `k` rounds of the loop `for i, x in enumerate(Q.ravel())` of `order_by_derivative`
(discretization.py 60-64) and of `kinematic_kf` (kinematic.py 161-165); `q` lists `Q.ravel()`. -/
def scatter (d b : ℕ) (q : ℕ → ℝ) : ℕ → (ℕ → ℕ → ℝ)
  | 0 => fun _ _ => 0
  | k + 1 => assignBlock b (scatter d b q k) (k / d * b) (k % d * b) (q k)

/-- `Q.ravel()[i]`. -/
def ravel {d : ℕ} (Q : Mat d d) (i : ℕ) : ℝ :=
  if h : i < d * d then Q (Fin.divNat ⟨i, h⟩) (Fin.modNat ⟨i, h⟩) else 0

/-- `order_by_derivative(Q, dim, block_size)` (discretization.py 29-66). -/
def orderByDerivative {d : ℕ} (b : ℕ) (Q : Mat d d) : Mat (d * b) (d * b) :=
  Matrix.of fun r c => scatter d b (ravel Q) (d * d) r c

/-- The matrix literals of `Q_discrete_white_noise` (discretization.py 121-133), with its check
of `dim`. -/
noncomputable def qDiscrete (dim : ℤ) (dt : ℝ) : Except Err (Σ d, Mat d d) :=
  if dim = 2 then .ok ⟨2, !![0.25 * dt ^ 4, 0.5 * dt ^ 3; 0.5 * dt ^ 3, dt ^ 2]⟩
  else if dim = 3 then .ok ⟨3, !![0.25 * dt ^ 4, 0.5 * dt ^ 3, 0.5 * dt ^ 2;
    0.5 * dt ^ 3, dt ^ 2, dt; 0.5 * dt ^ 2, dt, 1]⟩
  else if dim = 4 then .ok ⟨4, !![dt ^ 6 / 36, dt ^ 5 / 12, dt ^ 4 / 6, dt ^ 3 / 6;
    dt ^ 5 / 12, dt ^ 4 / 4, dt ^ 3 / 2, dt ^ 2 / 2;
    dt ^ 4 / 6, dt ^ 3 / 2, dt ^ 2, dt;
    dt ^ 3 / 6, dt ^ 2 / 2, dt, 1]⟩
  else .error .valueError

/-- The matrix literals of `Q_continuous_white_noise` (discretization.py 197-213). -/
noncomputable def qContinuous (dim : ℤ) (dt : ℝ) : Except Err (Σ d, Mat d d) :=
  if dim = 2 then .ok ⟨2, !![dt ^ 3 / 3, dt ^ 2 / 2; dt ^ 2 / 2, dt]⟩
  else if dim = 3 then .ok ⟨3, !![dt ^ 5 / 20, dt ^ 4 / 8, dt ^ 3 / 6;
    dt ^ 4 / 8, dt ^ 3 / 3, dt ^ 2 / 2; dt ^ 3 / 6, dt ^ 2 / 2, dt]⟩
  else if dim = 4 then .ok ⟨4, !![dt ^ 7 / 252, dt ^ 6 / 72, dt ^ 5 / 30, dt ^ 4 / 24;
    dt ^ 6 / 72, dt ^ 5 / 20, dt ^ 4 / 8, dt ^ 3 / 6;
    dt ^ 5 / 30, dt ^ 4 / 8, dt ^ 3 / 3, dt ^ 2 / 2;
    dt ^ 4 / 24, dt ^ 3 / 6, dt ^ 2 / 2, dt]⟩
  else .error .valueError

/-- A square array together with its size. -/
abbrev SqMat := Σ N, Mat N N

/-- The common ending of both functions (discretization.py 143-145, 215-218). -/
def assemble (q : Except Err SqMat) (scale : ℝ) (blockSize : ℕ) (orderByDim : Bool) :
    Except Err SqMat :=
  match q with
  | .error e => .error e
  | .ok ⟨d, Q⟩ =>
    if orderByDim then .ok ⟨blockSize * d, scale • blockDiag blockSize Q⟩
    else .ok ⟨d * blockSize, scale • orderByDerivative blockSize Q⟩

/-- `Q_discrete_white_noise(dim, dt, var, block_size, order_by_dim)`
(discretization.py 70-145). -/
noncomputable def QDiscreteWhiteNoise (dim : ℤ) (dt var : ℝ) (blockSize : ℕ) (orderByDim : Bool) :
    Except Err SqMat := assemble (qDiscrete dim dt) var blockSize orderByDim

/-- `Q_continuous_white_noise(dim, dt, spectral_density, block_size, order_by_dim)`
(discretization.py 148-218). -/
noncomputable def QContinuousWhiteNoise (dim : ℤ) (dt sd : ℝ) (blockSize : ℕ) (orderByDim : Bool) :
    Except Err SqMat := assemble (qContinuous dim dt) sd blockSize orderByDim

/-- The block matrix `A` of `van_loan_discretization` (discretization.py 266-275). -/
def vanLoanA {n l : ℕ} (F : Mat n n) (G : Mat n l) (dt : ℝ) :
    Matrix (Fin n ⊕ Fin n) (Fin n ⊕ Fin n) ℝ :=
  fromBlocks (-(dt • F)) (dt • (G * Gᵀ)) 0 (dt • Fᵀ)

/-- `van_loan_discretization(F, G, dt)` (discretization.py 221-287).  The halves `0:n`, `n:2n` of an
index are the two summands of `Fin n ⊕ Fin n`. -/
noncomputable def vanLoan {n l : ℕ} (F : Mat n n) (G : Mat n l) (dt : ℝ) : Mat n n × Mat n n :=
  let B := NormedSpace.exp (vanLoanA F G dt)
  let sigma := B.toBlocks₂₂ᵀ
  (sigma, sigma * B.toBlocks₁₂)

/-- `linear_ode_discretation(F, L, Q, dt)` (discretization.py 290-319). -/
noncomputable def linearOde {n : ℕ} (F : Mat n n) (L Q : Option (Mat n n)) (dt : ℝ) :
    Except Err (Mat n n × Mat n n) :=
  let L := L.getD 1
  let Q := Q.getD 0
  let A := NormedSpace.exp (dt • F)
  let phi : Matrix (Fin n ⊕ Fin n) (Fin n ⊕ Fin n) ℝ := fromBlocks F (L * Q * Lᵀ) 0 (-Fᵀ)
  let CD := NormedSpace.exp (dt • phi) * fromRows (0 : Mat n n) (1 : Mat n n)
  let C := CD.toRows₁
  let D := CD.toRows₂
  match npInv D with
  | none => .error .linAlgError
  | some Di => .ok (A, C * Di)

end Discretization

namespace Kinematic

/-- The `order` argument: a Python `int` or a `float`. -/
inductive OrderArg
  | int (k : ℤ)
  | float (x : ℝ)

/-- The general loop (kinematic.py 48-58): row 0 holds `dt**n / n!`, row `j` is row 0 shifted. -/
noncomputable def general (N : ℕ) (dt : ℝ) : Mat N N := Matrix.of fun i j =>
  if i = (⟨0, i.pos⟩ : Fin N) then dt ^ (j : ℕ) / (Nat.factorial j : ℝ)
  else if (i : ℕ) ≤ j then dt ^ ((j : ℕ) - i) / (Nat.factorial ((j : ℕ) - i) : ℝ) else 0

/-- The matrix for an accepted integral order (kinematic.py 35-58). -/
noncomputable def transitionNat (order : ℕ) (dt : ℝ) : Mat (order + 1) (order + 1) :=
  match order with
  | 0 => !![1]
  | 1 => !![1, dt; 0, 1]
  | 2 => !![1, dt, 0.5 * dt * dt; 0, 1, dt; 0, 0, 1]
  | k + 3 => general (k + 3 + 1) dt

/-- `kinematic_state_transition(order, dt)` (kinematic.py 26-58).  An integral `float` passes the
check, but `np.zeros` rejects it when no hard-coded case applies. -/
noncomputable def stateTransition (order : OrderArg) (dt : ℝ) :
    Except Err Discretization.SqMat :=
  match order with
  | .int k => if 0 ≤ k then .ok ⟨k.toNat + 1, transitionNat k.toNat dt⟩ else .error .valueError
  | .float x =>
    if 0 ≤ x ∧ (⌊x⌋ : ℝ) = x then
      if x = 0 ∨ x = 1 ∨ x = 2 then .ok ⟨⌊x⌋.toNat + 1, transitionNat ⌊x⌋.toNat dt⟩
      else .error .typeError
    else .error .valueError

/-- The `F` of `kinematic_kf` with `order_by_dim=True` (kinematic.py 155-158). -/
noncomputable def fByDim (dim order : ℕ) (dt : ℝ) :
    Mat (dim * (order + 1)) (dim * (order + 1)) :=
  Discretization.blockDiag dim (transitionNat order dt)

/-- The `F` of `kinematic_kf` with `order_by_dim=False` (kinematic.py 160-165); its size is
`dim * dim_x`. -/
noncomputable def fByDeriv (dim order : ℕ) (dt : ℝ) :
    Mat (dim * (order + 1)) (dim * (order + 1)) :=
  Matrix.of fun r c => Discretization.scatter (order + 1) dim
    (Discretization.ravel (transitionNat order dt)) ((order + 1) * (order + 1)) r c

/-- The `H` of `kinematic_kf` (kinematic.py 167-174). -/
def hMat (dim order dimZ : ℕ) (orderByDim : Bool) : Mat dimZ (dim * (order + 1)) :=
  Matrix.of fun _ c =>
    if orderByDim then (if ∃ j < dim, (c : ℕ) = j * (order + 1) then 1 else 0)
    else (if (c : ℕ) < dim then 1 else 0)

/-- `kinematic_kf(dim, order, dt, dim_z, order_by_dim)` with `kf=None` (kinematic.py 61-176). -/
noncomputable def kinematicKf (dim order : ℤ) (dt : ℝ) (dimZ : ℤ) (orderByDim : Bool) :
    Except Err (Σ n m, KF n m 0) :=
  if dim < 1 then .error .valueError
  else if order < 0 then .error .valueError
  else if dimZ < 1 then .error .valueError
  else
    let d := dim.toNat
    let o := order.toNat
    .ok ⟨d * (o + 1), dimZ.toNat,
      { KF.fresh (d * (o + 1)) dimZ.toNat 0 with
        F := if orderByDim then fByDim d o dt else fByDeriv d o dt
        H := hMat d o dimZ.toNat orderByDim }⟩

end Kinematic

/-- `runge_kutta4(y, x, dx, f)` (helpers.py 222-245), for scalar or vector `y`. -/
noncomputable def rungeKutta4 {E : Type*} [AddCommGroup E] [Module ℝ E] (y : E) (x dx : ℝ)
    (f : E → ℝ → E) : E :=
  let k1 := dx • f y x
  let k2 := dx • f (y + (0.5 : ℝ) • k1) (x + 0.5 * dx)
  let k3 := dx • f (y + (0.5 : ℝ) • k2) (x + 0.5 * dx)
  let k4 := dx • f (y + k3) (x + dx)
  y + (1 / 6 : ℝ) • (k1 + (2 : ℝ) • k2 + (2 : ℝ) • k3 + k4)

end Filterpy
