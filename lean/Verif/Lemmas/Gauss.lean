import Verif.Spec.Gauss
import Verif.Lemmas.Mat
import Mathlib.LinearAlgebra.Matrix.SchurComplement

/-! # Helper lemmas for the Gaussian Bayes rule -/

namespace Filterpy

open Matrix Spec

variable {ι κ : Type*} [Fintype ι] [Fintype κ] [DecidableEq ι] [DecidableEq κ]

theorem dot_mulVec_symm {A : Matrix ι ι ℝ} (hA : Aᵀ = A) (a b : ι → ℝ) :
    a ⬝ᵥ (A *ᵥ b) = b ⬝ᵥ (A *ᵥ a) := by
  rw [dotProduct_mulVec, ← mulVec_transpose, hA, dotProduct_comm]

theorem dot_mulVec_transpose (A : Matrix ι κ ℝ) (a : ι → ℝ) (b : κ → ℝ) :
    a ⬝ᵥ (A *ᵥ b) = (Aᵀ *ᵥ a) ⬝ᵥ b := by
  rw [dotProduct_mulVec, ← mulVec_transpose]

/-- Expansion of a quadratic form at a difference. -/
theorem quad_sub {A : Matrix ι ι ℝ} (hA : Aᵀ = A) (a b : ι → ℝ) :
    (a - b) ⬝ᵥ (A *ᵥ (a - b)) = a ⬝ᵥ (A *ᵥ a) - 2 * (a ⬝ᵥ (A *ᵥ b)) + b ⬝ᵥ (A *ᵥ b) := by
  simp only [mulVec_sub, dotProduct_sub, sub_dotProduct]
  rw [dot_mulVec_symm hA b a]; ring

variable {P : Matrix ι ι ℝ} {R : Matrix κ κ ℝ} {H : Matrix κ ι ℝ}

/-- The posterior covariance is the inverse of the sum of the information matrices. -/
theorem post_inv (hP : P.PosDef) (hR : R.PosDef) :
    ((1 - (P * Hᵀ * (H * (P * Hᵀ) + R)⁻¹) * H) * P)⁻¹ = P⁻¹ + Hᵀ * R⁻¹ * H :=
  inv_eq_right_inv (info_form hP hR)

theorem info_pd (hP : P.PosDef) (hR : R.PosDef) : (P⁻¹ + Hᵀ * R⁻¹ * H).PosDef :=
  hP.inv.add_posSemidef (PSD.congr' hR.inv.posSemidef H)

theorem post_pd (hP : P.PosDef) (hR : R.PosDef) :
    ((1 - (P * Hᵀ * (H * (P * Hᵀ) + R)⁻¹) * H) * P).PosDef := by
  have h := info_pd (H := H) hP hR
  rw [← post_inv hP hR] at h
  exact Matrix.posDef_inv_iff.1 h

/-- Completing the square. -/
theorem complete_square (hP : P.PosDef) (hR : R.PosDef) (e : ι → ℝ) (y : κ → ℝ) :
    e ⬝ᵥ (P⁻¹ *ᵥ e) + (y - H *ᵥ e) ⬝ᵥ (R⁻¹ *ᵥ (y - H *ᵥ e)) =
      (e - (P * Hᵀ * (H * (P * Hᵀ) + R)⁻¹) *ᵥ y) ⬝ᵥ
        (((1 - (P * Hᵀ * (H * (P * Hᵀ) + R)⁻¹) * H) * P)⁻¹ *ᵥ
          (e - (P * Hᵀ * (H * (P * Hᵀ) + R)⁻¹) *ᵥ y))
      + y ⬝ᵥ ((H * (P * Hᵀ) + R)⁻¹ *ᵥ y) := by
  have hSpd : (H * (P * Hᵀ) + R).PosDef := S_pd hP.posSemidef hR
  have hg := gain_info (H := H) hP hR
  have hpi := post_inv (H := H) hP hR
  have hppd := post_pd (H := H) hP hR
  set S := H * (P * Hᵀ) + R with hS
  set K := P * Hᵀ * S⁻¹ with hK
  set P' := (1 - K * H) * P with hP'
  have hPs := PD.symm hP
  have hRs : (R⁻¹)ᵀ = R⁻¹ := inv_symm (PD.symm hR)
  have hSs : (S⁻¹)ᵀ = S⁻¹ := inv_symm (PD.symm hSpd)
  have hP's : (P'⁻¹)ᵀ = P'⁻¹ := inv_symm (PD.symm hppd)
  have hPK : P'⁻¹ * K = Hᵀ * R⁻¹ := by
    rw [← hg, ← Matrix.mul_assoc, nonsing_inv_mul _ (PD.isUnit_det hppd), Matrix.one_mul]
  have hKR : Kᵀ * (Hᵀ * R⁻¹) + S⁻¹ = R⁻¹ := by
    have h1 : Kᵀ = S⁻¹ * (H * P) := by
      rw [hK]; simp [transpose_mul, hPs, hSs]
    have h2 : S⁻¹ * S = 1 := nonsing_inv_mul _ (PD.isUnit_det hSpd)
    have h3 : R * R⁻¹ = 1 := mul_nonsing_inv _ (PD.isUnit_det hR)
    calc Kᵀ * (Hᵀ * R⁻¹) + S⁻¹ = S⁻¹ * ((H * (P * Hᵀ)) * R⁻¹ + R * R⁻¹) := by
          rw [h1, h3, Matrix.mul_add, Matrix.mul_one]; simp only [Matrix.mul_assoc]
      _ = S⁻¹ * (S * R⁻¹) := by rw [← Matrix.add_mul]
      _ = R⁻¹ := by rw [← Matrix.mul_assoc, h2, Matrix.one_mul]
  rw [quad_sub hRs, quad_sub hP's]
  have t1 : e ⬝ᵥ (P'⁻¹ *ᵥ (K *ᵥ y)) = y ⬝ᵥ (R⁻¹ *ᵥ (H *ᵥ e)) := by
    rw [mulVec_mulVec, hPK, dot_mulVec_transpose]
    rw [dotProduct_comm]; simp [transpose_mul, hRs]
  have t2 : (K *ᵥ y) ⬝ᵥ (P'⁻¹ *ᵥ (K *ᵥ y)) + y ⬝ᵥ (S⁻¹ *ᵥ y) = y ⬝ᵥ (R⁻¹ *ᵥ y) := by
    rw [mulVec_mulVec, hPK]
    have : (K *ᵥ y) ⬝ᵥ ((Hᵀ * R⁻¹) *ᵥ y) = y ⬝ᵥ ((Kᵀ * (Hᵀ * R⁻¹)) *ᵥ y) := by
      conv_rhs => rw [← mulVec_mulVec, dot_mulVec_transpose, transpose_transpose]
    rw [this, ← dotProduct_add, ← add_mulVec, hKR]
  have t3 : e ⬝ᵥ (P'⁻¹ *ᵥ e) = e ⬝ᵥ (P⁻¹ *ᵥ e) + (H *ᵥ e) ⬝ᵥ (R⁻¹ *ᵥ (H *ᵥ e)) := by
    rw [hpi, add_mulVec, dotProduct_add]
    congr 1
    conv_rhs => rw [dotProduct_comm, dot_mulVec_transpose, mulVec_mulVec, mulVec_mulVec,
      dotProduct_comm]
  linarith

/-- The determinants balance: `det P' · det S = det P · det R`. -/
theorem det_balance (hP : P.PosDef) (hR : R.PosDef) :
    ((1 - (P * Hᵀ * (H * (P * Hᵀ) + R)⁻¹) * H) * P).det * (H * (P * Hᵀ) + R).det
      = P.det * R.det := by
  have hSpd : (H * (P * Hᵀ) + R).PosDef := S_pd hP.posSemidef hR
  set S := H * (P * Hᵀ) + R with hS
  have h1 : (1 - P * Hᵀ * S⁻¹ * H).det = (1 - H * (P * Hᵀ * S⁻¹)).det :=
    Matrix.det_one_sub_mul_comm _ _
  have h2 : 1 - H * (P * Hᵀ * S⁻¹) = R * S⁻¹ := by
    have h3 : S * S⁻¹ = 1 := mul_nonsing_inv _ (PD.isUnit_det hSpd)
    rw [sub_eq_iff_eq_add, ← Matrix.mul_assoc H, ← Matrix.add_mul, add_comm R, ← hS, h3]
  rw [Matrix.det_mul, h1, h2, Matrix.det_mul]
  have h4 : (S⁻¹).det * S.det = 1 := by
    rw [← Matrix.det_mul, nonsing_inv_mul _ (PD.isUnit_det hSpd), Matrix.det_one]
  linear_combination R.det * P.det * h4

end Filterpy
