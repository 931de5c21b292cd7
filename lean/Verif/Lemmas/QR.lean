import Verif.Lemmas.Mat
import Verif.Spec.LinAlg
import Mathlib.Analysis.InnerProductSpace.GramSchmidtOrtho
import Mathlib.Analysis.InnerProductSpace.PiL2

/-! # QR and Cholesky factors exist (so the library contracts can be met) -/

namespace Filterpy

open Matrix Spec

/-- Every square matrix has a QR decomposition with an upper triangular factor. -/
theorem qr_exists {k : ℕ} (M : Mat k k) :
    ∃ R : Mat k k, IsQR M R ∧ ∀ i j, j < i → R i j = 0 := by
  have hf : Module.finrank ℝ (EuclideanSpace ℝ (Fin k)) = Fintype.card (Fin k) := by simp
  let f : Fin k → EuclideanSpace ℝ (Fin k) := fun i => WithLp.toLp 2 fun r => M r i
  let b := InnerProductSpace.gramSchmidtOrthonormalBasis (𝕜 := ℝ) hf f
  let Q : Mat k k := fun r j => b j r
  have hin : ∀ (j : Fin k) (v : EuclideanSpace ℝ (Fin k)), inner ℝ (b j) v = ∑ r, Q r j * v r := by
    intro j v
    rw [PiLp.inner_apply]
    refine Finset.sum_congr rfl fun r _ => ?_
    simp [Q, mul_comm]
  have hQ : Qᵀ * Q = 1 := by
    ext i j
    rw [Matrix.mul_apply, Matrix.one_apply]
    have := hin i (b j)
    rw [orthonormal_iff_ite.1 b.orthonormal i j] at this
    rw [this]
    rfl
  refine ⟨Qᵀ * M, ⟨Q, hQ, ?_⟩, ?_⟩
  · rw [← Matrix.mul_assoc, mul_eq_one_comm.1 hQ, Matrix.one_mul]
  · intro i j hij
    rw [Matrix.mul_apply]
    have h1 := InnerProductSpace.gramSchmidtOrthonormalBasis_inv_triangular (𝕜 := ℝ) hf f hij
    have h2 := hin i (f j)
    rw [h1] at h2
    exact h2.symm

/-- A positive semidefinite matrix has a lower triangular Cholesky factor. -/
theorem chol_exists {k : ℕ} {A : Mat k k} (hA : A.PosSemidef) :
    ∃ L : Mat k k, L * Lᵀ = A ∧ ∀ i j, i < j → L i j = 0 := by
  obtain ⟨B, rfl⟩ : ∃ B : Mat k k, A = Bᵀ * B := by
    open scoped MatrixOrder in
    obtain ⟨B, hB⟩ := CStarAlgebra.nonneg_iff_eq_star_mul_self.mp hA.nonneg
    exact ⟨B, by rw [hB, star_eq_conjTranspose, conjTranspose_eq_transpose_of_trivial]⟩
  obtain ⟨R, ⟨Q, hQ, hM⟩, hR⟩ := qr_exists B
  refine ⟨Rᵀ, ?_, fun i j h => hR j i h⟩
  rw [transpose_transpose, hM, transpose_mul, Matrix.mul_assoc, ← Matrix.mul_assoc Qᵀ, hQ,
    Matrix.one_mul]

end Filterpy
