import Verif.Model.SquareRoot
import Mathlib.LinearAlgebra.Matrix.PosDef

/-! # What the linear algebra library promises -/

namespace Filterpy.Spec

open Matrix

/-- `R` is an `R` factor of `M`: `M = Q R` for some orthogonal `Q`. -/
def IsQR {p q : Type*} [Fintype p] [DecidableEq p] (M R : Matrix p q ℝ) : Prop :=
  ∃ Q : Matrix p p ℝ, Qᵀ * Q = 1 ∧ M = Q * R

/-- The contract of the routines `SquareRootKalmanFilter` uses, as weak as possible: `qr` returns
the factor of *some* QR decomposition, zero below the leading block (nothing is said about signs),
`pinv` inverts a nonsingular matrix, `cholesky` returns *some* square root of a positive definite
matrix and raises `LinAlgError` for a symmetric matrix that is not positive definite. -/
structure SqrtLib.Valid {n m : ℕ} (L : SqrtLib n m) : Prop where
  qrU : ∀ M, IsQR M (L.qrU M)
  qrU_tri : ∀ M, (L.qrU M).toBlocks₂₁ = 0
  qrP : ∀ M, IsQR M (L.qrP M)
  qrP_tri : ∀ M, (L.qrP M).toRows₂ = 0
  pinv : ∀ A : Mat m m, A.det ≠ 0 → A * L.pinv A = 1
  cholX : ∀ A : Mat n n, A.PosDef → ∃ p, L.cholX A = some p ∧ p * pᵀ = A
  cholX_err : ∀ A : Mat n n, Aᵀ = A → ¬ A.PosDef → L.cholX A = none
  cholZ : ∀ A : Mat m m, A.PosDef → ∃ p, L.cholZ A = some p ∧ p * pᵀ = A
  cholZ_err : ∀ A : Mat m m, Aᵀ = A → ¬ A.PosDef → L.cholZ A = none

end Filterpy.Spec
