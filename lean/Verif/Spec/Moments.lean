import Verif.Model.Basic
import Mathlib.LinearAlgebra.Matrix.PosDef

/-!
# Specification: weighted point sets

`WMean w s` and `WCov w s c` are the weighted mean of the rows of `s` and the weighted second moment
of the rows about `c`.  `IsCholUpper sqrt` is the contract of `scipy.linalg.cholesky` (upper factor) on
positive definite matrices.
-/

namespace Filterpy.Spec

open Matrix

/-- `∑ wᵢ sᵢ`. -/
def WMean {k n : ℕ} (w : Vec k) (s : Mat k n) : Vec n := ∑ i, w i • s i

/-- `∑ wᵢ (sᵢ - c)(sᵢ - c)ᵀ`. -/
def WCov {k n : ℕ} (w : Vec k) (s : Mat k n) (c : Vec n) : Mat n n :=
  fun a b => ∑ i, w i * ((s i a - c a) * (s i b - c b))

/-- The mean of the rows. -/
noncomputable def SampleMean {N n : ℕ} (s : Mat N n) : Vec n := fun j => (1 / (N : ℝ)) * ∑ i, s i j

/-- The sample covariance of the rows, with the `N - 1` normalisation. -/
noncomputable def SampleCov {N n : ℕ} (s : Mat N n) : Mat n n :=
  fun a b => (∑ i, (s i a - SampleMean s a) * (s i b - SampleMean s b)) / ((N : ℝ) - 1)

/-- Apply `f` to every point. -/
def mapRows {k n m : ℕ} (f : Vec n → Vec m) (s : Mat k n) : Mat k m := fun i => f (s i)

/-- The square root routine returns some `U` with `Uᵀ U = A` for positive definite `A`. -/
def IsCholUpper {n : ℕ} (sqrt : Mat n n → Except Err (Mat n n)) : Prop :=
  ∀ A : Mat n n, Matrix.PosDef A → ∃ U : Mat n n, sqrt A = .ok U ∧ Uᵀ * U = A

end Filterpy.Spec
