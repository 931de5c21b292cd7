import Verif.Model.Basic
import Mathlib.LinearAlgebra.Matrix.PosDef
import Mathlib.Tactic.NoncommRing
import Mathlib.Tactic.Abel
import Mathlib.Tactic.LinearCombination
import Mathlib.Analysis.Matrix.Order
import Mathlib.Algebra.Order.Star.Real

/-! # Helper lemmas about real matrices (not property statements) -/

set_option linter.unusedSectionVars false

namespace Filterpy

open Matrix

variable {ι κ : Type*} [Fintype ι] [Fintype κ] [DecidableEq ι] [DecidableEq κ]

theorem npInv_eq_some {m : ℕ} {A B : Mat m m} : npInv A = some B ↔ A.det ≠ 0 ∧ B = A⁻¹ := by
  unfold npInv; split <;> simp_all [eq_comm]

theorem npInv_eq_none {m : ℕ} {A : Mat m m} : npInv A = none ↔ A.det = 0 := by
  unfold npInv; split <;> simp_all

theorem npInv_of_det_ne {m : ℕ} {A : Mat m m} (h : A.det ≠ 0) : npInv A = some A⁻¹ :=
  npInv_eq_some.2 ⟨h, rfl⟩

theorem PSD.symm {A : Matrix ι ι ℝ} (h : A.PosSemidef) : Aᵀ = A := by
  have := h.1
  rwa [IsHermitian, conjTranspose_eq_transpose_of_trivial] at this

theorem PD.symm {A : Matrix ι ι ℝ} (h : A.PosDef) : Aᵀ = A := PSD.symm h.posSemidef

theorem PSD.congr {A : Matrix κ κ ℝ} (h : A.PosSemidef) (B : Matrix ι κ ℝ) :
    (B * A * Bᵀ).PosSemidef := by
  have := h.mul_mul_conjTranspose_same B
  rwa [conjTranspose_eq_transpose_of_trivial] at this

theorem PSD.congr' {A : Matrix κ κ ℝ} (h : A.PosSemidef) (B : Matrix κ ι ℝ) :
    (Bᵀ * A * B).PosSemidef := by
  have := PSD.congr h Bᵀ
  rwa [transpose_transpose] at this

theorem PSD.smul {A : Matrix ι ι ℝ} (h : A.PosSemidef) {c : ℝ} (hc : 0 ≤ c) :
    (c • A).PosSemidef := h.smul hc

theorem PD.det_ne {A : Matrix ι ι ℝ} (h : A.PosDef) : A.det ≠ 0 := h.det_pos.ne'

theorem PD.isUnit_det {A : Matrix ι ι ℝ} (h : A.PosDef) : IsUnit A.det :=
  isUnit_iff_ne_zero.2 (PD.det_ne h)

theorem isUnit_det_of_ne {A : Matrix ι ι ℝ} (h : A.det ≠ 0) : IsUnit A.det :=
  isUnit_iff_ne_zero.2 h

theorem inv_symm {A : Matrix ι ι ℝ} (h : Aᵀ = A) : (A⁻¹)ᵀ = A⁻¹ := by
  rw [transpose_nonsing_inv, h]

theorem PSD.quad {A : Matrix ι ι ℝ} (h : A.PosSemidef) (v : ι → ℝ) : 0 ≤ v ⬝ᵥ (A *ᵥ v) := by
  have := h.dotProduct_mulVec_nonneg v
  simpa using this

theorem PSD.of_quad {A : Matrix ι ι ℝ} (hs : Aᵀ = A) (h : ∀ v : ι → ℝ, 0 ≤ v ⬝ᵥ (A *ᵥ v)) :
    A.PosSemidef := by
  refine PosSemidef.of_dotProduct_mulVec_nonneg ?_ ?_
  · rw [IsHermitian, conjTranspose_eq_transpose_of_trivial, hs]
  · intro v; simpa using h v

theorem PD.quad {A : Matrix ι ι ℝ} (h : A.PosDef) {v : ι → ℝ} (hv : v ≠ 0) :
    0 < v ⬝ᵥ (A *ᵥ v) := by
  have := h.dotProduct_mulVec_pos hv
  simpa using this

theorem PD.of_quad {A : Matrix ι ι ℝ} (hs : Aᵀ = A) (h : ∀ v : ι → ℝ, v ≠ 0 → 0 < v ⬝ᵥ (A *ᵥ v)) :
    A.PosDef := by
  refine PosDef.of_dotProduct_mulVec_pos ?_ ?_
  · rw [IsHermitian, conjTranspose_eq_transpose_of_trivial, hs]
  · intro v hv; simpa using h v hv

/-- A positive semidefinite matrix with nonzero determinant is positive definite. -/
theorem PSD.posDef_of_det {A : Matrix ι ι ℝ} (h : A.PosSemidef) (hd : A.det ≠ 0) : A.PosDef := by
  exact h.posDef_iff_det_ne_zero.2 hd

section gain

variable {P : Matrix ι ι ℝ} {R : Matrix κ κ ℝ} {H : Matrix κ ι ℝ}

theorem S_symm (hP : Pᵀ = P) (hR : Rᵀ = R) : (H * (P * Hᵀ) + R)ᵀ = H * (P * Hᵀ) + R := by
  simp [transpose_mul, hP, hR, Matrix.mul_assoc]

theorem S_psd (hP : P.PosSemidef) (hR : R.PosSemidef) : (H * (P * Hᵀ) + R).PosSemidef := by
  rw [← Matrix.mul_assoc]; exact (PSD.congr hP H).add hR

theorem S_pd (hP : P.PosSemidef) (hR : R.PosDef) : (H * (P * Hᵀ) + R).PosDef := by
  rw [← Matrix.mul_assoc]; exact PosDef.posSemidef_add (PSD.congr hP H) hR

/-- `(I-KH) P (I-KH)ᵀ + K R Kᵀ` expanded. -/
theorem joseph_expand (K : Matrix ι κ ℝ) :
    (1 - K * H) * P * (1 - K * H)ᵀ + K * R * Kᵀ
      = P - K * (H * P) - (P * Hᵀ) * Kᵀ + K * (H * (P * Hᵀ) + R) * Kᵀ := by
  simp only [transpose_sub, transpose_one, transpose_mul]
  simp only [Matrix.sub_mul, Matrix.mul_sub, Matrix.one_mul, Matrix.mul_one, Matrix.add_mul,
    Matrix.mul_add, Matrix.mul_assoc]
  abel

/-- With the optimal gain the Joseph form is `P - K S Kᵀ`. -/
theorem joseph_opt (hP : Pᵀ = P) {S SI : Matrix κ κ ℝ} (hS : S = H * (P * Hᵀ) + R)
    (hSI : SI * S = 1) (hSs : SIᵀ = SI) {K : Matrix ι κ ℝ} (hK : K = P * Hᵀ * SI) :
    (1 - K * H) * P * (1 - K * H)ᵀ + K * R * Kᵀ = P - K * S * Kᵀ := by
  rw [joseph_expand, ← hS]
  have h1 : K * S = P * Hᵀ := by rw [hK, Matrix.mul_assoc, hSI, Matrix.mul_one]
  have h2 : K * (H * P) = P * Hᵀ * Kᵀ := by
    rw [hK]; simp [transpose_mul, hP, hSs, Matrix.mul_assoc]
  rw [h2, h1]; abel

/-- With the optimal gain the Joseph form is the textbook `(I-KH)P`. -/
theorem joseph_simple (hP : Pᵀ = P) {S SI : Matrix κ κ ℝ} (hS : S = H * (P * Hᵀ) + R)
    (hSI : SI * S = 1) (hSs : SIᵀ = SI) {K : Matrix ι κ ℝ} (hK : K = P * Hᵀ * SI) :
    (1 - K * H) * P * (1 - K * H)ᵀ + K * R * Kᵀ = (1 - K * H) * P := by
  rw [joseph_opt hP hS hSI hSs hK]
  have h1 : K * S = P * Hᵀ := by rw [hK, Matrix.mul_assoc, hSI, Matrix.mul_one]
  have h2 : K * (H * P) = P * Hᵀ * Kᵀ := by
    rw [hK]; simp [transpose_mul, hP, hSs, Matrix.mul_assoc]
  rw [h1, ← h2, Matrix.sub_mul, Matrix.one_mul, Matrix.mul_assoc]

/-- Any other gain costs `(K'-K) S (K'-K)ᵀ` more. -/
theorem joseph_diff (hP : Pᵀ = P) {S SI : Matrix κ κ ℝ} (hS : S = H * (P * Hᵀ) + R)
    (hSI : SI * S = 1) (hSs : SIᵀ = SI) {K : Matrix ι κ ℝ} (hK : K = P * Hᵀ * SI)
    (K' : Matrix ι κ ℝ) :
    ((1 - K' * H) * P * (1 - K' * H)ᵀ + K' * R * K'ᵀ)
      - ((1 - K * H) * P * (1 - K * H)ᵀ + K * R * Kᵀ) = (K' - K) * S * (K' - K)ᵀ := by
  rw [joseph_opt hP hS hSI hSs hK, joseph_expand, ← hS]
  have h1 : K * S = P * Hᵀ := by rw [hK, Matrix.mul_assoc, hSI, Matrix.mul_one]
  have h3 : S * Kᵀ = H * P := by
    have h4 : S * SI = 1 := mul_eq_one_comm.1 hSI
    rw [hK]; simp only [transpose_mul, hP, hSs, transpose_transpose]
    rw [← Matrix.mul_assoc, h4, Matrix.one_mul]
  simp only [transpose_sub, Matrix.sub_mul, Matrix.mul_sub]
  rw [h1, Matrix.mul_assoc K' S Kᵀ, h3]
  abel

theorem joseph_psd (hP : P.PosSemidef) (hR : R.PosSemidef) (K : Matrix ι κ ℝ) :
    ((1 - K * H) * P * (1 - K * H)ᵀ + K * R * Kᵀ).PosSemidef :=
  (PSD.congr hP _).add (PSD.congr hR _)

/-- Information form of the update. -/
theorem info_form (hP : P.PosDef) (hR : R.PosDef) :
    ((1 - (P * Hᵀ * (H * (P * Hᵀ) + R)⁻¹) * H) * P) * (P⁻¹ + Hᵀ * R⁻¹ * H) = 1 := by
  set S := H * (P * Hᵀ) + R with hS
  have hSpd : S.PosDef := S_pd hP.posSemidef hR
  have hSi : S⁻¹ * S = 1 := nonsing_inv_mul _ (PD.isUnit_det hSpd)
  have hPi : P * P⁻¹ = 1 := mul_nonsing_inv _ (PD.isUnit_det hP)
  have hRi : R * R⁻¹ = 1 := mul_nonsing_inv _ (PD.isUnit_det hR)
  have key : H * (P * (Hᵀ * (R⁻¹ * H))) = S * (R⁻¹ * H) - H := by
    rw [hS, Matrix.add_mul, ← Matrix.mul_assoc R, hRi, Matrix.one_mul]
    simp [Matrix.mul_assoc]
  have key2 : S⁻¹ * (S * (R⁻¹ * H)) = R⁻¹ * H := by
    rw [← Matrix.mul_assoc, hSi, Matrix.one_mul]
  simp only [Matrix.sub_mul, Matrix.one_mul, Matrix.mul_add, Matrix.mul_assoc, hPi, key,
    Matrix.mul_sub, key2, Matrix.mul_one]
  abel

/-- The gain in information form: `K = P' Hᵀ R⁻¹`. -/
theorem gain_info (hP : P.PosDef) (hR : R.PosDef) :
    ((1 - (P * Hᵀ * (H * (P * Hᵀ) + R)⁻¹) * H) * P) * (Hᵀ * R⁻¹)
      = P * Hᵀ * (H * (P * Hᵀ) + R)⁻¹ := by
  set S := H * (P * Hᵀ) + R with hS
  have hSpd : S.PosDef := S_pd hP.posSemidef hR
  have hSi : S⁻¹ * S = 1 := nonsing_inv_mul _ (PD.isUnit_det hSpd)
  have hRi : R * R⁻¹ = 1 := mul_nonsing_inv _ (PD.isUnit_det hR)
  have key : H * (P * (Hᵀ * R⁻¹)) = S * R⁻¹ - 1 := by
    rw [hS, Matrix.add_mul, hRi]; simp [Matrix.mul_assoc]
  have key2 : S⁻¹ * (S * R⁻¹) = R⁻¹ := by rw [← Matrix.mul_assoc, hSi, Matrix.one_mul]
  simp only [Matrix.sub_mul, Matrix.one_mul, Matrix.mul_assoc, key, Matrix.mul_sub, key2,
    Matrix.mul_one]
  abel

end gain

end Filterpy
