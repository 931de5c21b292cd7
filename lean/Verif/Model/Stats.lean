import Verif.Model.KalmanFilter
import Mathlib.Analysis.SpecialFunctions.Pow.Real
import Mathlib.Analysis.SpecialFunctions.Complex.Arg
import Mathlib.LinearAlgebra.Matrix.PosDef

/-!
# Model of `filterpy/stats/stats.py`

The plotting functions are not modelled.
-/

namespace Filterpy.Stats

open Matrix

/-- `mahalanobis` (stats.py 64-109) on vectors of the same length (a length mismatch is a
`ValueError`).  A singular covariance makes `inv` raise `LinAlgError`; `math.sqrt` of a negative
number raises `ValueError`. -/
noncomputable def mahalanobis {n : ℕ} (x mean : Vec n) (cov : Mat n n) : Except Err ℝ :=
  match npInv cov with
  | none => .error .linAlgError
  | some ci =>
    let dist := ((x - mean) ᵥ* ci) ⬝ᵥ (x - mean)
    if dist < 0 then .error .valueError else .ok (Real.sqrt dist)

/-- `log_likelihood` (stats.py 112-119). -/
noncomputable def logLikelihood {n m : ℕ} (z : Vec m) (x : Vec n) (P : Mat n n) (H : Mat m n)
    (R : Mat m m) : ℝ :=
  logpdfMean z (H *ᵥ x) (H * (P * Hᵀ) + R)

/-- `likelihood` (stats.py 122-128). -/
noncomputable def likelihood {n m : ℕ} (z : Vec m) (x : Vec n) (P : Mat n n) (H : Mat m n)
    (R : Mat m m) : ℝ :=
  Real.exp (logLikelihood z x P H R)

/-- `gaussian` of a scalar (stats.py 197).  `0.0 ** -.5` raises `ZeroDivisionError`; a negative
variance gives a complex number (outside the model). -/
noncomputable def gaussian (x mean var : ℝ) : Except Err ℝ :=
  if var = 0 then .error .zeroDivision
  else if var < 0 then .error .nonFinite
  else .ok ((2 * Real.pi * var) ^ (-(1/2) : ℝ) * Real.exp ((-(1/2) * (x - mean) ^ 2) / var))

/-- `gaussian` of an array, `normed=True` by default (stats.py 197-201). -/
noncomputable def gaussianArr {k : ℕ} (xs : Vec k) (mean var : ℝ) (normed : Bool) :
    Except Err (Vec k) :=
  if var = 0 then .error .zeroDivision
  else if var < 0 then .error .nonFinite
  else
    let pdf : Vec k := fun i =>
      (2 * Real.pi * var) ^ (-(1/2) : ℝ) * Real.exp ((-(1/2) * (xs i - mean) ^ 2) / var)
    .ok (if normed then fun i => pdf i / ∑ j, pdf j else pdf)

/-- `mul` (stats.py 205-251) on Python floats. -/
noncomputable def mul (mean1 var1 mean2 var2 : ℝ) : Except Err (ℝ × ℝ) :=
  if var1 + var2 = 0 then .error .zeroDivision
  else if var1 = 0 ∨ var2 = 0 then .error .zeroDivision
  else if 1 / var1 + 1 / var2 = 0 then .error .zeroDivision
  else .ok ((var1 * mean2 + var2 * mean1) / (var1 + var2), 1 / (1 / var1 + 1 / var2))

/-- `mul_pdf` (stats.py 254-307); `math.sqrt` of a negative number raises `ValueError`. -/
noncomputable def mulPdf (mean1 var1 mean2 var2 : ℝ) : Except Err (ℝ × ℝ × ℝ) :=
  match mul mean1 var1 mean2 var2 with
  | .error e => .error e
  | .ok (mean, var) =>
    if var1 + var2 < 0 then .error .valueError
    else .ok (mean, var, Real.exp (-(mean1 - mean2) ^ 2 / (2 * (var1 + var2))) /
      Real.sqrt (2 * Real.pi * (var1 + var2)))

/-- `add` (stats.py 310-318). -/
def add (mean1 var1 mean2 var2 : ℝ) : ℝ × ℝ := (mean1 + mean2, var1 + var2)

/-- The matrix `np.linalg.cholesky` factors: it reads only the lower triangle. -/
def lowerSym {n : ℕ} (A : Mat n n) : Mat n n := of fun i j => if j ≤ i then A i j else A j i

open Classical in
/-- `_to_cov` (stats.py 1103-1124).  `np.linalg.cholesky` succeeds exactly when the matrix given by
the lower triangle is positive definite. -/
noncomputable def toCov {n : ℕ} (c : MatArg n) : Except Err (Mat n n) :=
  match c with
  | .none => .error .valueError
  | .scalar x => if x < 0 then .error .valueError else .ok (x • (1 : Mat n n))
  | .mat A => if (lowerSym A).PosDef then .ok A else .error .valueError

/-- `multivariate_gaussian` (stats.py 321-397), dense covariance.  `slogdet(cov)[1]` is
`log |det cov|`; `solve` raises `LinAlgError` for a singular matrix. -/
noncomputable def multivariateGaussian {n : ℕ} (x mu : Vec n) (c : MatArg n) : Except Err ℝ :=
  match toCov c with
  | .error e => .error e
  | .ok cov => match npInv cov with
    | none => .error .linAlgError
    | some ci =>
      let normCoeff := n * Real.log (2 * Real.pi) + Real.log |cov.det|
      let err := x - mu
      .ok (Real.exp (-(1/2) * (normCoeff + (ci *ᵥ err) ⬝ᵥ err)))

/-- `multivariate_multiply` (stats.py 400-455). -/
noncomputable def multivariateMultiply {n : ℕ} (m1 : Vec n) (c1 : Mat n n) (m2 : Vec n)
    (c2 : Mat n n) : Except Err (Vec n × Mat n n) :=
  match npInv (c1 + c2) with
  | none => .error .linAlgError
  | some si => .ok ((c2 * si) *ᵥ m1 + (c1 * si) *ᵥ m2, c1 * si * c2)

/-- `norm_cdf` (stats.py 1070-1100).  `cdf loc scale x` is `scipy.stats.norm.cdf`, a library
routine; a scale that is not positive gives `nan`. -/
noncomputable def normCdf (cdf : ℝ → ℝ → ℝ → ℝ) (a b mu var : ℝ) (std : Option ℝ) :
    Except Err ℝ :=
  if std = none ∧ var < 0 then .error .valueError
  else
    let s := std.getD (Real.sqrt var)
    if s ≤ 0 then .error .nonFinite else .ok |cdf mu s a - cdf mu s b|

/-- `rand_student_t` (stats.py 1127-1135) as a function of the two draws
`g = random.gauss(0, std)` and `c = random.gammavariate(0.5*df, 2.0)`. -/
noncomputable def randStudentT (df mu g c : ℝ) : ℝ := g / Real.sqrt (2 * c / df) + mu

/-- The loop of `NEES` (stats.py 1176-1179). -/
noncomputable def neesLoop {n : ℕ} : List (Vec n × Mat n n) → Except Err (List ℝ)
  | [] => .ok []
  | (x, p) :: t => match npInv p with
    | none => .error .linAlgError
    | some pi => match neesLoop t with
      | .error e => .error e
      | .ok es => .ok ((x ᵥ* pi) ⬝ᵥ x :: es)

/-- `NEES(xs, est_xs, ps)` (stats.py 1138-1179); `zip` stops at the shorter sequence, and
`xs - est_xs` needs equally many truths and estimates. -/
noncomputable def nees {n : ℕ} (xs est : List (Vec n)) (ps : List (Mat n n)) :
    Except Err (List ℝ) :=
  if xs.length ≠ est.length then .error .valueError
  else neesLoop ((List.zipWith (· - ·) xs est).zip ps)

/-- `math.atan2(y, x)`. -/
noncomputable def atan2 (y x : ℝ) : ℝ := Complex.arg ⟨x, y⟩

/-- `covariance_ellipse` (stats.py 672-697): `(orientation, width, height)`.  `U`, `s` are the left
singular vectors and the singular values returned by `linalg.svd(P)`. -/
noncomputable def covarianceEllipse (U : Mat 2 2) (s : Vec 2) (deviations : ℝ) :
    Except Err (ℝ × ℝ × ℝ) :=
  let orientation := atan2 (U 1 0) (U 0 0)
  let width := deviations * Real.sqrt (s 0)
  let height := deviations * Real.sqrt (s 1)
  if height > width then .error .valueError else .ok (orientation, width, height)

end Filterpy.Stats
