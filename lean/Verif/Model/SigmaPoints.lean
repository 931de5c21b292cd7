import Verif.Model.Basic
import Mathlib.Analysis.SpecialFunctions.Pow.Real

/-!
# Model of `filterpy/kalman/sigma_points.py` and `filterpy/kalman/unscented_transform.py`

`sigma_points(x, P)` is typed by the dimension `n`; the check `size(x) != n` (`ValueError`), a scalar `P`
and arrays of other shapes are modelled in `Model/SigmaShapes`.  The optional
`subtract` argument is the parameter `sub` (default `np.subtract`).  The matrix square root is a
parameter: `sqrt_method`, by default `scipy.linalg.cholesky`, which returns an *upper* triangular
factor and raises `LinAlgError` for a matrix that is not positive definite.
-/

namespace Filterpy

open Matrix

/-- A sigma point object: what `UnscentedKalmanFilter` uses of it. -/
structure SigmaPts (n : ℕ) where
  num : ℕ
  Wm : Vec num
  Wc : Vec num
  points : Vec n → Mat n n → Except Err (Mat num n)

namespace SigmaPts

variable {n : ℕ}

/-- The array filled by the loops at sigma_points.py 170-175 and 352-356: row 0 is `x`, row `k+1` is
`subtract(x, -U[k])`, row `n+k+1` is `subtract(x, U[k])`. -/
def symmetricSet (sub : Vec n → Vec n → Vec n) (x : Vec n) (U : Mat n n) : Mat (2 * n + 1) n :=
  fun i =>
    if h0 : (i : ℕ) = 0 then x
    else if h : (i : ℕ) ≤ n then sub x (-(U ⟨i - 1, by omega⟩))
    else sub x (U ⟨i - 1 - n, by omega⟩)

/-- `MerweScaledSigmaPoints.__init__` (sigma_points.py 99-116) with `_compute_weights` 180-192;
`sigma_points` 124-177, `num_sigmas` 119-121.  `.5 / (n + lambda_)` raises `ZeroDivisionError`. -/
noncomputable def merwe (n : ℕ) (alpha beta kappa : ℝ)
    (sqrt : Mat n n → Except Err (Mat n n)) (sub : Vec n → Vec n → Vec n := fun a b => a - b) :
    Except Err (SigmaPts n) :=
  let lam := alpha ^ 2 * (n + kappa) - n
  if n + lam = 0 then .error .zeroDivision
  else .ok
    { num := 2 * n + 1
      Wm := fun i => if (i : ℕ) = 0 then lam / (n + lam) else 0.5 / (n + lam)
      Wc := fun i => if (i : ℕ) = 0 then lam / (n + lam) + (1 - alpha ^ 2 + beta)
        else 0.5 / (n + lam)
      points := fun x P => match sqrt ((lam + n) • P) with
        | .error e => .error e
        | .ok U => .ok (symmetricSet sub x U) }

/-- `JulierSigmaPoints.__init__` (sigma_points.py 267-281) with `_compute_weights` 360-370;
`sigma_points` 289-357, `num_sigmas` 284-286. -/
noncomputable def julier (n : ℕ) (kappa : ℝ)
    (sqrt : Mat n n → Except Err (Mat n n)) (sub : Vec n → Vec n → Vec n := fun a b => a - b) :
    Except Err (SigmaPts n) :=
  if n + kappa = 0 then .error .zeroDivision
  else .ok
    { num := 2 * n + 1
      Wm := fun i => if (i : ℕ) = 0 then kappa / (n + kappa) else 0.5 / (n + kappa)
      Wc := fun i => if (i : ℕ) = 0 then kappa / (n + kappa) else 0.5 / (n + kappa)
      points := fun x P => match sqrt ((n + kappa) • P) with
        | .error e => .error e
        | .ok U => .ok (symmetricSet sub x U) }

/-- The list of rows of `Istar` after the loop `for d in range(2, n+1)` has reached `d`
(sigma_points.py 501-507); rows are kept as functions of the column index, a row appended in an
earlier turn being extended by zeros (`np.c_[Istar, zeros]`). -/
noncomputable def istarRows (lam : ℝ) : ℕ → List (ℕ → ℝ)
  | 0 => []
  | 1 => [fun j => if j = 0 then -1 / Real.sqrt (2 * lam) else
      if j = 1 then 1 / Real.sqrt (2 * lam) else 0]
  | d + 1 => istarRows lam d ++ [fun j =>
      if j < d + 1 then 1 / Real.sqrt (lam * (d + 1) * (d + 1 + 1))
      else if j = d + 1 then -(d + 1) / Real.sqrt (lam * (d + 1) * (d + 1 + 1)) else 0]

/-- `I = sqrt(n) * Istar` as an `(n, n+1)` array (sigma_points.py 501-509). -/
noncomputable def simplexI (n : ℕ) : Mat n (n + 1) :=
  fun i j => Real.sqrt n * (istarRows ((n : ℝ) / (n + 1)) n).getD i (fun _ => 0) j

/-- `SimplexSigmaPoints.__init__` (sigma_points.py 433-446), `_compute_weights` 516-522, `num_sigmas` 449-451,
`sigma_points` 454-513.  The code calls `subtract` once, on the column `x` and the
whole array; here it is called on each column.  (For `n = 0` the code builds a `(1, 2)` array; we only use `n ≥ 1`.) -/
noncomputable def simplex (n : ℕ)
    (sqrt : Mat n n → Except Err (Mat n n)) (sub : Vec n → Vec n → Vec n := fun a b => a - b) :
    SigmaPts n :=
  { num := n + 1
    Wm := fun _ => 1 / (n + 1)
    Wc := fun _ => 1 / (n + 1)
    points := fun x P => match sqrt P with
      | .error e => .error e
      | .ok U =>
        let scaledUnitary := Uᵀ * simplexI n
        .ok fun i => sub x (-(fun a => scaledUnitary a i)) }

end SigmaPts

/-- One turn of the slow loop of `unscented_transform` (unscented_transform.py 118-120). -/
def utStep {k n : ℕ} (sigmas : Mat k n) (Wc : Vec k) (res : Vec n → Vec n → Vec n) (x : Vec n)
    (P : Mat n n) (i : Fin k) : Mat n n :=
  P + Wc i • vecMulVec (res (sigmas i) x) (res (sigmas i) x)

/-- `unscented_transform` (unscented_transform.py 22-128).  `residual = none` stands for `None` and
for `np.subtract`, which select the fast path. -/
noncomputable def unscentedTransform {k n : ℕ} (sigmas : Mat k n) (Wm Wc : Vec k)
    (noise : Option (Mat n n)) (meanFn : Option (Mat k n → Vec k → Vec n))
    (residual : Option (Vec n → Vec n → Vec n)) : Vec n × Mat n n :=
  let x := match meanFn with
    | none => Wm ᵥ* sigmas
    | some f => f sigmas Wm
  let P := match residual with
    | none =>
      let y : Mat k n := fun i => sigmas i - x
      yᵀ * (diagonal Wc * y)
    | some res => (List.finRange k).foldl (utStep sigmas Wc res x) 0
  (x, match noise with
    | none => P
    | some N => P + N)

end Filterpy
