import Verif.Model.Basic
import Mathlib.LinearAlgebra.Matrix.PosDef

/-!
# Specification of `scipy.linalg.cholesky`

`scipy.linalg.cholesky(A)` reads the upper triangle of `A` (LAPACK `potrf` with `lower=False`), returns the upper
triangular factor with a positive diagonal when the symmetric matrix it read is positive definite, and raises
`LinAlgError` when it is not.
-/

namespace Filterpy.Spec

open Matrix

variable {n : ℕ}

/-- The symmetric matrix with the upper triangle of `A`. -/
def symUpper (A : Mat n n) : Mat n n := fun i j => if i ≤ j then A i j else A j i

/-- `U` is the upper triangular factor of `A` with a positive diagonal. -/
structure CholFactor (A U : Mat n n) : Prop where
  upper : ∀ i j, j < i → U i j = 0
  pos : ∀ i, 0 < U i i
  eq : Uᵀ * U = A

/-- The routine computes the Cholesky factor, and refuses what has none. -/
def IsCholesky (chol : Mat n n → Except Err (Mat n n)) : Prop :=
  ∀ A : Mat n n,
    ((symUpper A).PosDef → ∃ U, chol A = .ok U ∧ CholFactor (symUpper A) U) ∧
    (¬ (symUpper A).PosDef → chol A = .error .linAlgError)

end Filterpy.Spec
