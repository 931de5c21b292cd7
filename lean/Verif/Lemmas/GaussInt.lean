import Verif.Lemmas.Gauss
import Mathlib.MeasureTheory.Measure.Lebesgue.Basic
import Mathlib.MeasureTheory.Integral.Pi
import Mathlib.Analysis.SpecialFunctions.Gaussian.GaussianIntegral

/-! # The multivariate normal density integrates to one -/

namespace Filterpy

open Matrix Spec MeasureTheory
open scoped MatrixOrder

theorem exists_sqrt {n : ℕ} {C : Mat n n} (hC : C.PosDef) :
    ∃ A : Mat n n, A * Aᵀ = C ∧ A.det ≠ 0 := by
  obtain ⟨B, hB⟩ := CStarAlgebra.nonneg_iff_eq_star_mul_self.mp hC.posSemidef.nonneg
  refine ⟨Bᵀ, ?_, ?_⟩
  · rw [transpose_transpose, hB, star_eq_conjTranspose, conjTranspose_eq_transpose_of_trivial]
  · intro h
    apply PD.det_ne hC
    rw [hB, Matrix.det_mul, star_eq_conjTranspose, conjTranspose_eq_transpose_of_trivial, h,
      zero_mul]

theorem integral_std (n : ℕ) :
    ∫ y : Vec n, Real.exp (-(1/2) * (y ⬝ᵥ y)) = (Real.sqrt (2 * Real.pi)) ^ n := by
  have h1 : ∀ y : Vec n, Real.exp (-(1/2) * (y ⬝ᵥ y)) = ∏ i, Real.exp (-(1/2) * (y i) ^ 2) := by
    intro y
    rw [← Real.exp_sum, dotProduct, Finset.mul_sum]
    congr 1
    exact Finset.sum_congr rfl fun i _ => by ring
  simp only [h1]
  rw [integral_fintype_prod_volume_eq_pow (fun x : ℝ => Real.exp (-(1/2) * x ^ 2)),
    integral_gaussian, Fintype.card_fin]
  congr 2; ring

theorem integral_comp_mulVec {n : ℕ} {A : Mat n n} (hA : A.det ≠ 0) (f : Vec n → ℝ)
    (hf : Continuous f) : ∫ x, f x = |A.det| * ∫ y, f (A *ᵥ y) := by
  have h := Real.map_matrix_volume_pi_eq_smul_volume_pi hA
  have hc : Continuous (toLin' A) := LinearMap.continuous_of_finiteDimensional _
  have h2 : ∫ x, f x ∂(Measure.map (toLin' A) volume) = ∫ y, f (A *ᵥ y) := by
    rw [integral_map hc.aemeasurable hf.aestronglyMeasurable]
    simp only [toLin'_apply]
  rw [h, integral_smul_measure, ENNReal.toReal_ofReal (abs_nonneg _), smul_eq_mul] at h2
  rw [← h2, ← mul_assoc, abs_inv, mul_inv_cancel₀ (abs_ne_zero.2 hA), one_mul]

theorem gaussDensity_integral {n : ℕ} (mean : Vec n) {C : Mat n n} (hC : C.PosDef) :
    ∫ X, gaussDensity mean C X = 1 := by
  unfold gaussDensity
  rw [integral_const_mul]
  rw [integral_sub_right_eq_self (fun X : Vec n => Real.exp (-(1/2) * (X ⬝ᵥ (C⁻¹ *ᵥ X)))) mean]
  obtain ⟨A, hA, hd⟩ := exists_sqrt hC
  have hcont : Continuous fun X : Vec n => Real.exp (-(1/2) * (X ⬝ᵥ (C⁻¹ *ᵥ X))) := by
    refine Real.continuous_exp.comp (continuous_const.mul ?_)
    exact Continuous.dotProduct continuous_id (Continuous.matrix_mulVec continuous_const continuous_id)
  rw [integral_comp_mulVec hd _ hcont]
  have hq : ∀ y : Vec n, (A *ᵥ y) ⬝ᵥ (C⁻¹ *ᵥ (A *ᵥ y)) = y ⬝ᵥ y := by
    intro y
    have hAu := isUnit_det_of_ne hd
    have : Aᵀ * (C⁻¹ * A) = 1 := by
      rw [← hA, Matrix.mul_inv_rev, Matrix.mul_assoc, nonsing_inv_mul _ hAu, Matrix.mul_one,
        mul_nonsing_inv]
      rwa [det_transpose]
    rw [mulVec_mulVec, dot_mulVec_transpose, mulVec_mulVec, dotProduct_comm]
    have h2 : (C⁻¹ * A)ᵀ * A = 1 := by
      have := congrArg transpose this
      rw [transpose_mul, transpose_transpose, transpose_one] at this
      exact this
    rw [h2, one_mulVec]
  simp only [hq]
  rw [integral_std]
  have hdet : C.det = A.det ^ 2 := by rw [← hA, Matrix.det_mul, det_transpose, sq]
  have h2 : Real.sqrt ((2 * Real.pi) ^ n * C.det) = Real.sqrt (2 * Real.pi) ^ n * |A.det| := by
    rw [hdet, Real.sqrt_mul (by positivity), Real.sqrt_sq_eq_abs]
    congr 1
    rw [Real.sqrt_eq_iff_mul_self_eq (by positivity) (by positivity), ← mul_pow,
      Real.mul_self_sqrt (by positivity)]
  rw [h2, mul_comm |A.det|, inv_mul_cancel₀]
  have : Real.sqrt (2 * Real.pi) ≠ 0 := (Real.sqrt_pos.2 (by positivity)).ne'
  exact mul_ne_zero (pow_ne_zero _ this) (abs_ne_zero.2 hd)

theorem gaussDensity_pos {n : ℕ} (mean X : Vec n) {C : Mat n n} (hC : C.PosDef) :
    0 < gaussDensity mean C X := by
  unfold gaussDensity
  have := hC.det_pos
  have : 0 < Real.sqrt ((2 * Real.pi) ^ n * C.det) := Real.sqrt_pos.2 (by positivity)
  positivity

end Filterpy
