import Verif.Lemmas.QR
import Verif.Spec.Moments
import Verif.Spec.Cholesky
import Mathlib.LinearAlgebra.Matrix.Block

/-! # The Cholesky factor exists, is unique, and follows a change of scale -/

namespace Filterpy

open Matrix Spec

variable {n : ℕ}

theorem symUpper_of_symm {A : Mat n n} (h : Aᵀ = A) : symUpper A = A := by
  funext i j
  simp only [symUpper]
  split_ifs
  · rfl
  · exact congrFun (congrFun h i) j

theorem symUpper_transpose (A : Mat n n) : (symUpper A)ᵀ = symUpper A := by
  funext i j
  simp only [transpose_apply, symUpper]
  rcases lt_trichotomy i j with h | h | h
  · rw [if_neg (not_le.2 h), if_pos h.le]
  · subst h; rfl
  · rw [if_pos h.le, if_neg (not_le.2 h)]

theorem Spec.IsCholesky.upper {chol : Mat n n → Except Err (Mat n n)} (h : IsCholesky chol) : IsCholUpper chol := by
  intro A hA
  have hs : symUpper A = A := symUpper_of_symm (by
    have := hA.isHermitian; rwa [IsHermitian, conjTranspose_eq_transpose_of_trivial] at this)
  obtain ⟨U, h1, h2⟩ := (h A).1 (by rwa [hs])
  exact ⟨U, h1, by rw [h2.eq, hs]⟩

theorem Spec.CholFactor.det_ne {A U : Mat n n} (h : CholFactor A U) : U.det ≠ 0 := by
  rw [det_of_isUpperTriangular (fun i j hij => h.upper i j hij)]
  exact Finset.prod_ne_zero_iff.2 fun i _ => (h.pos i).ne'

/-- The factor is unique. -/
theorem Spec.CholFactor.unique {A U V : Mat n n} (hU : CholFactor A U) (hV : CholFactor A V) : U = V := by
  have dU := isUnit_iff_ne_zero.2 hU.det_ne
  have dV := isUnit_iff_ne_zero.2 hV.det_ne
  have tU : BlockTriangular U id := fun i j hij => hU.upper i j hij
  have tV : BlockTriangular V id := fun i j hij => hV.upper i j hij
  have iU : BlockTriangular U⁻¹ id := by
    have := U.invertibleOfIsUnitDet dU
    exact blockTriangular_inv_of_blockTriangular tU
  have iV : BlockTriangular V⁻¹ id := by
    have := V.invertibleOfIsUnitDet dV
    exact blockTriangular_inv_of_blockTriangular tV
  have hd : (U * V⁻¹)ᵀ * (U * V⁻¹) = 1 := by
    rw [transpose_mul, Matrix.mul_assoc, ← Matrix.mul_assoc Uᵀ, hU.eq, ← hV.eq, Matrix.mul_assoc Vᵀ, mul_nonsing_inv _ dV,
      Matrix.mul_one, ← transpose_mul, mul_nonsing_inv _ dV, transpose_one]
  have ht : (U * V⁻¹)ᵀ = V * U⁻¹ := by
    have h1 : (U * V⁻¹) * (V * U⁻¹) = 1 := by
      rw [Matrix.mul_assoc, nonsing_inv_mul_cancel_left _ _ dV, mul_nonsing_inv _ dU]
    calc (U * V⁻¹)ᵀ = (U * V⁻¹)ᵀ * ((U * V⁻¹) * (V * U⁻¹)) := by rw [h1, Matrix.mul_one]
      _ = V * U⁻¹ := by rw [← Matrix.mul_assoc, hd, Matrix.one_mul]
  have t1 : BlockTriangular (U * V⁻¹) id := tU.mul iV
  have t2 : BlockTriangular (V * U⁻¹) id := tV.mul iU
  have hz : ∀ i j, i ≠ j → (U * V⁻¹) i j = 0 := by
    intro i j hij
    rcases lt_or_gt_of_ne hij with h | h
    · have := t2 (show (id i : Fin n) < id j from h)
      rwa [← ht] at this
    · exact t1 h
  have hm : U = (U * V⁻¹) * V := by rw [Matrix.mul_assoc, nonsing_inv_mul _ dV, Matrix.mul_one]
  generalize U * V⁻¹ = N at hd hz hm
  have hN : N = 1 := by
    ext i j
    by_cases hij : i = j
    · subst hij
      have h1 : U i i = N i i * V i i := by
        rw [hm, Matrix.mul_apply, Finset.sum_eq_single i]
        · intro k _ hk; rw [hz i k (Ne.symm hk), zero_mul]
        · simp
      have h2 : N i i * N i i = 1 := by
        have := congrFun (congrFun hd i) i
        rw [Matrix.mul_apply, Finset.sum_eq_single i, one_apply_eq] at this
        · exact this
        · intro k _ hk; rw [hz k i hk, mul_zero]
        · simp
      have h3 : 0 < N i i := by
        have := hU.pos i
        rw [h1] at this
        exact pos_of_mul_pos_left this (hV.pos i).le
      rw [one_apply_eq]
      nlinarith
    · rw [hz i j hij, one_apply_ne hij]
  rw [hm, hN, Matrix.one_mul]

/-- Every positive definite matrix has a factor. -/
theorem cholFactor_exists {A : Mat n n} (hA : A.PosDef) : ∃ U, CholFactor A U := by
  obtain ⟨L, hL, hz⟩ := chol_exists hA.posSemidef
  have hd : L.det ≠ 0 := by
    intro h
    have := hA.det_pos
    rw [← hL, det_mul, h, zero_mul] at this
    exact lt_irrefl _ this
  have hp : ∀ i, L i i ≠ 0 := by
    have : Lᵀ.det = ∏ i, Lᵀ i i := det_of_isUpperTriangular fun i j hij => hz j i hij
    rw [det_transpose] at this
    rw [this] at hd
    exact fun i => Finset.prod_ne_zero_iff.1 hd i (Finset.mem_univ i)
  have hs : ∀ i, SignType.sign (L i i) * (SignType.sign (L i i) : ℝ) = 1 := by
    intro i
    rcases lt_or_gt_of_ne (hp i) with h | h <;> simp [h]
  refine ⟨diagonal (fun i => (SignType.sign (L i i) : ℝ)) * Lᵀ, ⟨fun i j h => ?_, fun i => ?_, ?_⟩⟩
  · rw [diagonal_mul, transpose_apply, hz j i h, mul_zero]
  · rw [diagonal_mul, transpose_apply, sign_mul_self]; exact abs_pos.2 (hp i)
  · have hD : diagonal (fun i => (SignType.sign (L i i) : ℝ)) * diagonal (fun i => (SignType.sign (L i i) : ℝ)) = 1 := by
      rw [diagonal_mul_diagonal, ← diagonal_one]
      exact congrArg _ (funext hs)
    rw [transpose_mul, transpose_transpose, diagonal_transpose, Matrix.mul_assoc, ← Matrix.mul_assoc (diagonal _), hD,
      Matrix.one_mul, hL]

/-- There is such a routine. -/
theorem isCholesky_exists : ∃ chol : Mat n n → Except Err (Mat n n), IsCholesky chol := by
  classical
  refine ⟨fun A => if h : (symUpper A).PosDef then .ok (cholFactor_exists h).choose else .error .linAlgError, fun A =>
    ⟨fun h => ⟨_, dif_pos h, (cholFactor_exists h).choose_spec⟩, fun h => dif_neg h⟩⟩

/-- Positive definiteness does not depend on the units. -/
theorem posDef_congr {T : Mat n n} (hT : T.det ≠ 0) (A : Mat n n) : (T * A * Tᵀ).PosDef ↔ A.PosDef := by
  have hu : IsUnit T := (isUnit_iff_isUnit_det T).2 (isUnit_iff_ne_zero.2 hT)
  have := hu.posDef_star_right_conjugate_iff (x := A)
  rwa [star_eq_conjTranspose, conjTranspose_eq_transpose_of_trivial] at this

theorem symUpper_scale (d : Fin n → ℝ) (A : Mat n n) :
    symUpper (diagonal d * A * (diagonal d)ᵀ) = diagonal d * symUpper A * (diagonal d)ᵀ := by
  funext i j
  simp only [symUpper, diagonal_transpose, mul_diagonal, diagonal_mul]
  split_ifs
  · rfl
  · ring

theorem symUpper_smul (c : ℝ) (A : Mat n n) : symUpper (c • A) = c • symUpper A := by
  funext i j
  simp only [symUpper, Matrix.smul_apply]
  split_ifs <;> rfl

/-- The factor of a rescaled matrix is the rescaled factor, and one is refused when the other is. -/
theorem Spec.IsCholesky.scale {chol : Mat n n → Except Err (Mat n n)} (h : IsCholesky chol) {d : Fin n → ℝ}
    (hd : ∀ i, 0 < d i) (A : Mat n n) :
    chol (diagonal d * A * (diagonal d)ᵀ) = (chol A).map (· * (diagonal d)ᵀ) := by
  have hT : (diagonal d).det ≠ 0 := by
    rw [det_diagonal]; exact Finset.prod_ne_zero_iff.2 fun i _ => (hd i).ne'
  by_cases hA : (symUpper A).PosDef
  · obtain ⟨U, h1, h2⟩ := (h A).1 hA
    obtain ⟨V, h3, h4⟩ := (h (diagonal d * A * (diagonal d)ᵀ)).1 (by rwa [symUpper_scale, posDef_congr hT])
    rw [h1, h3]
    have : CholFactor (symUpper (diagonal d * A * (diagonal d)ᵀ)) (U * (diagonal d)ᵀ) := by
      refine ⟨fun i j hij => ?_, fun i => ?_, ?_⟩
      · rw [diagonal_transpose, mul_diagonal, h2.upper i j hij, zero_mul]
      · rw [diagonal_transpose, mul_diagonal]; exact mul_pos (h2.pos i) (hd i)
      · rw [symUpper_scale, ← h2.eq, transpose_mul, transpose_transpose]
        simp only [Matrix.mul_assoc]
    rw [h4.unique this]
    rfl
  · rw [(h A).2 hA, (h _).2 (by rwa [symUpper_scale, posDef_congr hT])]
    rfl

end Filterpy
