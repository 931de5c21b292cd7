import Verif.Props.KalmanForgets
import Mathlib.Algebra.Order.Chebyshev

/-!
# Comparing covariances relatively, and vectors in standard deviations
-/

namespace Filterpy
open Matrix

variable {n m : ℕ}

/-- Each covariance is at most `1 + μ` times the other. -/
def Near (μ : ℝ) (A B : Mat n n) : Prop := CovLE A ((1 + μ) • B) ∧ CovLE B ((1 + μ) • A)

/-- In every direction the vector is at most `a` standard deviations long. -/
def InStd (P : Mat n n) (e : Vec n) (a : ℝ) : Prop := ∀ w, |e ⬝ᵥ w| ≤ a * √(w ⬝ᵥ (P *ᵥ w))

theorem CovLE.quad {A B : Mat n n} (h : CovLE A B) (w : Vec n) : w ⬝ᵥ (A *ᵥ w) ≤ w ⬝ᵥ (B *ᵥ w) := by
  have := PSD.quad h.2 w
  rw [sub_mulVec, dotProduct_sub] at this
  linarith

theorem Near.symm {μ : ℝ} {A B : Mat n n} (h : Near μ A B) : Near μ B A := ⟨h.2, h.1⟩

theorem Near.self {A : Mat n n} (h : A.PosSemidef) : Near 0 A A := by
  have : CovLE A ((1 + 0 : ℝ) • A) := by rw [add_zero, one_smul]; exact .refl h
  exact ⟨this, this⟩

theorem Near.mono {μ μ' : ℝ} {A B : Mat n n} (h : Near μ A B) (h0 : 0 ≤ μ) (hm : μ ≤ μ') : Near μ' A B :=
  ⟨h.1.trans (CovLE.smul_le h.2.1 (by linarith) (by linarith)),
   h.2.trans (CovLE.smul_le h.1.1 (by linarith) (by linarith))⟩

theorem Near.trans {μ η : ℝ} {A B C : Mat n n} (h : Near μ A B) (h' : Near η B C) (h0 : 0 ≤ μ) (h1 : 0 ≤ η) :
    Near ((1 + μ) * (1 + η) - 1) A C := by
  have e : 1 + ((1 + μ) * (1 + η) - 1) = (1 + μ) * (1 + η) := by ring
  constructor
  · rw [e, ← smul_smul]
    exact h.1.trans (h'.1.smul (by linarith))
  · rw [e, mul_comm, ← smul_smul]
    exact h'.2.trans (h.2.smul (by linarith))

/-- The difference of two covariances near each other. -/
theorem Near.diff {μ : ℝ} {A B : Mat n n} (h : Near μ A B) (h0 : 0 ≤ μ) :
    (μ • A - (B - A)).PosSemidef ∧ (μ • A + (B - A)).PosSemidef := by
  have h1 : (0 : ℝ) < 1 + μ := by linarith
  constructor
  · have := h.2.2
    have e : μ • A - (B - A) = (1 + μ) • A - B := by rw [add_smul, one_smul]; abel
    rwa [e]
  · have e : μ • A + (B - A) = (1 + μ)⁻¹ • ((1 + μ) • B - A) + (μ ^ 2 / (1 + μ)) • A := by
      rw [smul_sub, smul_smul, inv_mul_cancel₀ h1.ne', one_smul]
      have : μ • A = A - (1 + μ)⁻¹ • A + (μ ^ 2 / (1 + μ)) • A := by
        nth_rewrite 2 [← one_smul ℝ A]
        rw [← sub_smul, ← add_smul]
        congr 1
        field_simp
        ring
      rw [this]
      abel
    rw [e]
    exact (PSD.smul h.1.2 (by positivity)).add (PSD.smul h.1.1 (by positivity))

theorem Near.entry {μ : ℝ} {A B : Mat n n} (h : Near μ A B) (h0 : 0 ≤ μ) (i j : Fin n) :
    |B i j - A i j| ≤ μ * ((A i i + A j j) / 2) := entry_diff (h.diff h0).1 (h.diff h0).2 i j

theorem Near.posDef {μ : ℝ} {A B : Mat n n} (h : Near μ A B) (h0 : 0 ≤ μ) (hA : A.PosDef) : B.PosDef := by
  have h1 : (0 : ℝ) < 1 + μ := by linarith
  have e : B = (1 + μ)⁻¹ • (((1 + μ) • B - A) + A) := by
    rw [sub_add_cancel, smul_smul, inv_mul_cancel₀ h1.ne', one_smul]
  rw [e]
  exact (hA.posSemidef_add h.1.2).smul (inv_pos.2 h1)

/-- A prediction brings covariances closer. -/
theorem Near.pred {a c μ : ℝ} (ha : 0 ≤ a) (hc : 0 ≤ c) (h0 : 0 ≤ μ) (h1 : μ ≤ 1) {F Q A B : Mat n n}
    (hQ : Q.PosSemidef) (h : Near μ A B) (hA : CovLE (a • (F * A * Fᵀ)) (c • Q)) :
    Near (μ * (2 * c / (1 + 2 * c))) (a • (F * A * Fᵀ) + Q) (a • (F * B * Fᵀ) + Q) := by
  have g1 := (h.1.congr F).smul ha
  have g2 := (h.2.congr F).smul ha
  rw [Matrix.mul_smul, Matrix.smul_mul, smul_comm] at g1 g2
  have hl : 1 ≤ 1 + μ := by linarith
  have es : shrink (2 * c) (1 + μ) = 1 + μ * (2 * c / (1 + 2 * c)) := by unfold shrink; ring
  have hA2 : CovLE (a • (F * A * Fᵀ)) ((2 * c) • Q) := hA.trans (CovLE.smul_le hQ hc (by linarith))
  have hB2 : CovLE (a • (F * B * Fᵀ)) ((2 * c) • Q) := by
    refine g2.trans ((hA.smul (by linarith : (0 : ℝ) ≤ 1 + μ)).trans ?_)
    rw [smul_smul]
    exact CovLE.smul_le hQ (by positivity) (by nlinarith)
  have e1 := pred_scale (by positivity) hl hQ g1 hB2
  have e2 := pred_scale (by positivity) hl hQ g2 hA2
  rw [es] at e1 e2
  exact ⟨e1, e2⟩

/-- A measurement does not move covariances apart. -/
theorem Near.post {μ : ℝ} (h0 : 0 ≤ μ) {A B : Mat n n} {R : Mat m m} (H : Mat m n) (hR : R.PosDef) (h : Near μ A B) :
    Near μ (postCov H R A) (postCov H R B) :=
  ⟨post_scale H (by linarith) h.1 hR.posSemidef (PD.det_ne (S_pd h.1.1 hR)) _,
   post_scale H (by linarith) h.2 hR.posSemidef (PD.det_ne (S_pd h.2.1 hR)) _⟩

theorem InStd.add {P : Mat n n} {e f : Vec n} {a b : ℝ} (he : InStd P e a) (hf : InStd P f b) :
    InStd P (e + f) (a + b) := fun w => by
  rw [add_dotProduct, add_mul]
  exact (abs_add_le _ _).trans (add_le_add (he w) (hf w))

theorem InStd.mono {P : Mat n n} {e : Vec n} {a b : ℝ} (he : InStd P e a) (h : a ≤ b) : InStd P e b := fun w =>
  (he w).trans (mul_le_mul_of_nonneg_right h (Real.sqrt_nonneg _))

theorem InStd.of_le {P P' : Mat n n} {e : Vec n} {a κ : ℝ} (ha : 0 ≤ a) (hκ : 0 ≤ κ) (he : InStd P e a)
    (h : CovLE P (κ • P')) : InStd P' e (a * √κ) := fun w => by
  refine (he w).trans ?_
  rw [mul_assoc, ← Real.sqrt_mul hκ]
  refine mul_le_mul_of_nonneg_left (Real.sqrt_le_sqrt ?_) ha
  have := h.quad w
  rwa [smul_mulVec, dotProduct_smul, smul_eq_mul] at this

theorem InStd.map {k : ℕ} {P : Mat n n} {e : Vec n} {a : ℝ} (he : InStd P e a) (A : Mat k n) :
    InStd (A * P * Aᵀ) (A *ᵥ e) a := fun w => by
  have h := he (Aᵀ *ᵥ w)
  have e1 : e ⬝ᵥ (Aᵀ *ᵥ w) = (A *ᵥ e) ⬝ᵥ w := by rw [dotProduct_mulVec, vecMul_transpose]
  have e2 : (Aᵀ *ᵥ w) ⬝ᵥ (P *ᵥ (Aᵀ *ᵥ w)) = w ⬝ᵥ ((A * P * Aᵀ) *ᵥ w) := by
    rw [mulVec_transpose, ← dotProduct_mulVec, mulVec_mulVec, ← mulVec_transpose, mulVec_mulVec, Matrix.mul_assoc]
  rwa [e1, e2] at h

theorem InStd.of_near {μ a : ℝ} {P P' : Mat n n} {e : Vec n} (h0 : 0 ≤ μ) (ha : 0 ≤ a) (he : InStd P e a)
    (h : Near μ P P') : InStd P' e (a * √(1 + μ)) := he.of_le ha (by linarith) h.1

/-- A prediction brings estimates closer. -/
theorem InStd.pred {α c a : ℝ} (hα : 1 ≤ α) (hc : 0 ≤ c) (ha : 0 ≤ a) {F Q P : Mat n n} {e : Vec n} (he : InStd P e a)
    (hP : P.PosSemidef) (hcar : CovLE (α • (F * P * Fᵀ)) (c • Q)) :
    InStd (α • (F * P * Fᵀ) + Q) (F *ᵥ e) (a * √(2 * c / (1 + 2 * c))) := by
  have hX := PSD.congr hP F
  have hmap := he.map F
  generalize F * P * Fᵀ = X at *
  refine hmap.of_le ha (by positivity) ?_
  have g1 : CovLE X (α • X) := by
    have := CovLE.smul_le hX zero_le_one hα
    rwa [one_smul] at this
  refine g1.trans ⟨hcar.1, ?_⟩
  have h0 : (1 + 2 * c) ≠ 0 := by positivity
  have hQ2 : ((2 * c) • Q - α • X).PosSemidef := by
    have e : (2 * c) • Q - α • X = (c • Q - α • X) + c • Q := by rw [two_mul, add_smul]; abel
    rw [e]
    exact hcar.2.add hcar.right
  have e : (2 * c / (1 + 2 * c)) • (α • X + Q) - α • X = (1 / (1 + 2 * c)) • ((2 * c) • Q - α • X) := by
    have e1 : α • X = (2 * c / (1 + 2 * c)) • (α • X) + (1 / (1 + 2 * c)) • (α • X) := by
      rw [← add_smul, ← add_div, add_comm (2 * c) 1, div_self h0, one_smul]
    nth_rewrite 2 [e1]
    rw [smul_add, smul_sub, smul_smul (1 / (1 + 2 * c)) (2 * c) Q, one_div_mul_eq_div]
    abel
  rw [e]
  exact PSD.smul hQ2 (by positivity)

/-- The gain of a measurement, in terms of the prior. -/
noncomputable def gainOf (H : Mat m n) (R : Mat m m) (P : Mat n n) : Mat n m := P * Hᵀ * (H * (P * Hᵀ) + R)⁻¹

theorem postCov_eq (H : Mat m n) (R : Mat m m) (P : Mat n n) :
    postCov H R P = (1 - gainOf H R P * H) * P * (1 - gainOf H R P * H)ᵀ + gainOf H R P * R * (gainOf H R P)ᵀ := rfl

/-- A measurement does not move estimates apart. -/
theorem InStd.post {a : ℝ} (ha : 0 ≤ a) {P : Mat n n} {R : Mat m m} {e : Vec n} (H : Mat m n) (hR : R.PosSemidef)
    (hP : P.PosSemidef) (he : InStd P e a) : InStd (postCov H R P) ((1 - gainOf H R P * H) *ᵥ e) a := by
  have := (he.map (1 - gainOf H R P * H)).of_le (P' := postCov H R P) ha zero_le_one
    ⟨PSD.congr hP _, by rw [one_smul, postCov_eq, add_sub_cancel_left]; exact PSD.congr hR _⟩
  rwa [Real.sqrt_one, mul_one] at this

theorem postCov_simple {H : Mat m n} {R : Mat m m} {P : Mat n n} (hP : P.PosDef) (hR : R.PosDef) :
    postCov H R P = (1 - gainOf H R P * H) * P := by
  have hS := S_pd (H := H) hP.posSemidef hR
  exact joseph_simple (PD.symm hP) rfl (nonsing_inv_mul _ (PD.isUnit_det hS)) (inv_symm (PD.symm hS)) rfl

theorem gainOf_eq {H : Mat m n} {R : Mat m m} {P : Mat n n} (hP : P.PosDef) (hR : R.PosDef) :
    gainOf H R P = postCov H R P * (Hᵀ * R⁻¹) := by
  rw [postCov_simple hP hR]
  exact (gain_info hP hR).symm

theorem form_le_aux {μ : ℝ} {P D : Mat n n} (h1 : (μ • P - D).PosSemidef) (h2 : (μ • P + D).PosSemidef) (hD : Dᵀ = D)
    (hP : P.PosDef) (u w : Vec n) : (D *ᵥ u) ⬝ᵥ w ≤ μ * √(u ⬝ᵥ (P *ᵥ u)) * √(w ⬝ᵥ (P *ᵥ w)) := by
  by_cases hu : u = 0
  · subst hu; simp
  by_cases hw : w = 0
  · subst hw; simp
  have pu : 0 < u ⬝ᵥ (P *ᵥ u) := by simpa using hP.dotProduct_mulVec_pos hu
  have pw : 0 < w ⬝ᵥ (P *ᵥ w) := by simpa using hP.dotProduct_mulVec_pos hw
  have sa := Real.sqrt_pos.2 pu
  have sb := Real.sqrt_pos.2 pw
  have qa := Real.mul_self_sqrt pu.le
  have qb := Real.mul_self_sqrt pw.le
  generalize √(u ⬝ᵥ (P *ᵥ u)) = a at *
  generalize √(w ⬝ᵥ (P *ᵥ w)) = b at *
  have g1 := PSD.quad h1 (b • u + a • w)
  have g2 := PSD.quad h2 (b • u - a • w)
  have c1 : u ⬝ᵥ (D *ᵥ w) = (D *ᵥ u) ⬝ᵥ w := by
    rw [dotProduct_mulVec, ← mulVec_transpose, hD]
  have c2 : w ⬝ᵥ (D *ᵥ u) = (D *ᵥ u) ⬝ᵥ w := dotProduct_comm _ _
  have c3 : u ⬝ᵥ (P *ᵥ w) = w ⬝ᵥ (P *ᵥ u) := by
    rw [dotProduct_mulVec, ← mulVec_transpose, PD.symm hP, dotProduct_comm]
  simp only [sub_mulVec, add_mulVec, smul_mulVec, mulVec_add, mulVec_sub, mulVec_smul, dotProduct_add, add_dotProduct,
    dotProduct_sub, sub_dotProduct, smul_dotProduct, dotProduct_smul, smul_eq_mul, c1, c2, c3, ← qa, ← qb] at g1 g2
  have h4 : (4 * (a * b)) * ((D *ᵥ u) ⬝ᵥ w) ≤ (4 * (a * b)) * (μ * a * b) := by nlinarith
  exact le_of_mul_le_mul_left h4 (by positivity)

/-- A symmetric form between `±μ P` satisfies the Cauchy-Schwarz inequality. -/
theorem form_le {μ : ℝ} {P D : Mat n n} (h1 : (μ • P - D).PosSemidef) (h2 : (μ • P + D).PosSemidef) (hD : Dᵀ = D)
    (hP : P.PosDef) (u w : Vec n) : |(D *ᵥ u) ⬝ᵥ w| ≤ μ * √(u ⬝ᵥ (P *ᵥ u)) * √(w ⬝ᵥ (P *ᵥ w)) := by
  refine abs_le.2 ⟨?_, form_le_aux h1 h2 hD hP u w⟩
  have := form_le_aux h1 h2 hD hP (-u) w
  simp only [mulVec_neg, neg_dotProduct, dotProduct_neg, neg_neg] at this
  linarith

/-- The part of a measurement that reaches the estimate is not longer than the measurement. -/
theorem weighted_le {H : Mat m n} {R : Mat m m} {P : Mat n n} (hP : P.PosDef) (hR : R.PosDef) (y : Vec m) :
    ((Hᵀ * R⁻¹) *ᵥ y) ⬝ᵥ (postCov H R P *ᵥ ((Hᵀ * R⁻¹) *ᵥ y)) ≤ y ⬝ᵥ (R⁻¹ *ᵥ y) := by
  have hX : postCov H R P = (P⁻¹ + Hᵀ * R⁻¹ * H)⁻¹ := by
    rw [postCov_simple hP hR]; exact (inv_eq_left_inv (info_form hP hR)).symm
  have hinv : (P⁻¹ + Hᵀ * R⁻¹ * H).PosDef :=
    hP.inv.add_posSemidef (by simpa using PSD.congr hR.inv.posSemidef Hᵀ)
  have hq : (P⁻¹ + Hᵀ * R⁻¹ * H) *ᵥ (postCov H R P *ᵥ ((Hᵀ * R⁻¹) *ᵥ y)) = (Hᵀ * R⁻¹) *ᵥ y := by
    rw [mulVec_mulVec, hX, mul_nonsing_inv _ (PD.isUnit_det hinv), one_mulVec]
  generalize postCov H R P *ᵥ ((Hᵀ * R⁻¹) *ᵥ y) = q at *
  have hd := PSD.quad hR.inv.posSemidef (y - H *ᵥ q)
  have hp := PSD.quad hP.inv.posSemidef q
  have e2 : ((Hᵀ * R⁻¹) *ᵥ y) ⬝ᵥ q = (H *ᵥ q) ⬝ᵥ (R⁻¹ *ᵥ y) := by
    rw [← mulVec_mulVec, mulVec_transpose, ← dotProduct_mulVec, dotProduct_comm]
  have e3 : y ⬝ᵥ (R⁻¹ *ᵥ (H *ᵥ q)) = (H *ᵥ q) ⬝ᵥ (R⁻¹ *ᵥ y) := by
    rw [dotProduct_mulVec, ← mulVec_transpose, PD.symm hR.inv, dotProduct_comm]
  have e4 : ((Hᵀ * R⁻¹) *ᵥ y) ⬝ᵥ q = q ⬝ᵥ (P⁻¹ *ᵥ q) + (H *ᵥ q) ⬝ᵥ (R⁻¹ *ᵥ (H *ᵥ q)) := by
    rw [← hq, add_mulVec, add_dotProduct, dotProduct_comm _ q]
    congr 1
    rw [← mulVec_mulVec, ← mulVec_mulVec, mulVec_transpose, ← dotProduct_mulVec, dotProduct_comm]
  simp only [mulVec_sub, dotProduct_sub, sub_dotProduct, e3] at hd
  linarith

/-- Nearby covariances give nearby gains. -/
theorem gain_near {μ Y : ℝ} (h0 : 0 ≤ μ) (hY : 0 ≤ Y) {A B : Mat n n} {R : Mat m m} (H : Mat m n) (hR : R.PosDef)
    (hA : A.PosDef) (h : Near μ A B) {y : Vec m} (hy : y ⬝ᵥ (R⁻¹ *ᵥ y) ≤ Y ^ 2) :
    InStd (postCov H R A) ((gainOf H R B - gainOf H R A) *ᵥ y) (μ * Y) := fun w => by
  have hB := h.posDef h0 hA
  have hpA := postCov_pd (H := H) hA hR
  have hpB := postCov_pd (H := H) hB hR
  obtain ⟨d1, d2⟩ := (h.post h0 H hR).diff h0
  rw [gainOf_eq hB hR, gainOf_eq hA hR, ← Matrix.sub_mul, ← mulVec_mulVec]
  refine (form_le d1 d2 (by rw [transpose_sub, PD.symm hpA, PD.symm hpB]) hpA _ w).trans ?_
  refine mul_le_mul_of_nonneg_right (mul_le_mul_of_nonneg_left ?_ h0) (Real.sqrt_nonneg _)
  rw [Real.sqrt_le_left hY]
  exact (weighted_le hA hR y).trans hy

/-- The sum of the entries of a vector, against its length. -/
theorem abs_sum_sq_le (w : Vec n) : (∑ i, |w i|) ^ 2 ≤ n * (w ⬝ᵥ w) := by
  have := sq_sum_le_card_mul_sum_sq (s := Finset.univ) (f := fun i => |w i|)
  simpa [dotProduct, sq_abs, pow_two] using this

theorem dot_entries {τ : ℝ} {e : Vec n} (he : ∀ i, |e i| ≤ τ) (w : Vec n) : |e ⬝ᵥ w| ≤ τ * ∑ i, |w i| := by
  rw [dotProduct, Finset.mul_sum]
  refine (Finset.abs_sum_le_sum_abs _ _).trans (Finset.sum_le_sum fun i _ => ?_)
  rw [abs_mul]
  exact mul_le_mul_of_nonneg_right (he i) (abs_nonneg _)

theorem quad_entries {τ : ℝ} {D : Mat n n} (h0 : 0 ≤ τ) (he : ∀ i j, |D i j| ≤ τ) (w : Vec n) :
    |w ⬝ᵥ (D *ᵥ w)| ≤ τ * (n * (w ⬝ᵥ w)) := by
  have h1 : ∀ i, |(D *ᵥ w) i| ≤ τ * ∑ i, |w i| := fun i => dot_entries (he i) w
  rw [dotProduct_comm]
  refine (dot_entries h1 w).trans ?_
  rw [mul_assoc, ← pow_two]
  exact mul_le_mul_of_nonneg_left (abs_sum_sq_le w) h0

/-- A small error in every entry of a covariance that is not small is relatively small. -/
theorem near_of_entries {p τ : ℝ} (hp : 0 < p) {A B : Mat n n} (hA : A.PosSemidef) (hB : Bᵀ = B)
    (hlow : ∀ w, p * (w ⬝ᵥ w) ≤ w ⬝ᵥ (A *ᵥ w)) (he : ∀ i j, |B i j - A i j| ≤ τ) (hsmall : 2 * n * τ ≤ p) (h0 : 0 ≤ τ) :
    Near (2 * n * τ / p) A B := by
  have hn : (0 : ℝ) ≤ n := Nat.cast_nonneg n
  have hsA := PSD.symm hA
  have hq : ∀ w, |w ⬝ᵥ (B *ᵥ w) - w ⬝ᵥ (A *ᵥ w)| ≤ n * τ / p * (w ⬝ᵥ (A *ᵥ w)) := fun w => by
    have := quad_entries h0 (D := B - A) (fun i j => he i j) w
    rw [sub_mulVec, dotProduct_sub] at this
    refine this.trans ?_
    calc τ * (n * (w ⬝ᵥ w)) = n * τ / p * (p * (w ⬝ᵥ w)) := by field_simp
      _ ≤ _ := mul_le_mul_of_nonneg_left (hlow w) (by positivity)
  have hk : n * τ / p ≤ 1 / 2 := by rw [div_le_div_iff₀ hp two_pos]; linarith
  have hk0 : 0 ≤ n * τ / p := by positivity
  have ek : 2 * n * τ / p = 2 * (n * τ / p) := by ring
  rw [ek]
  generalize n * τ / p = k at *
  have hApos : ∀ w, 0 ≤ w ⬝ᵥ (A *ᵥ w) := PSD.quad hA
  have hBp : B.PosSemidef := PSD.of_quad hB fun w => by
    have := (abs_le.1 (hq w)).1
    nlinarith [hApos w]
  refine ⟨⟨hA, PSD.of_quad ?_ fun w => ?_⟩, ⟨hBp, PSD.of_quad ?_ fun w => ?_⟩⟩
  · rw [transpose_sub, transpose_smul, hsA, hB]
  · rw [sub_mulVec, smul_mulVec, dotProduct_sub, dotProduct_smul, smul_eq_mul]
    have h1 := (abs_le.1 (hq w)).1
    have h3 : (1 + 2 * k) * ((1 - k) * (w ⬝ᵥ (A *ᵥ w))) ≤ (1 + 2 * k) * (w ⬝ᵥ (B *ᵥ w)) :=
      mul_le_mul_of_nonneg_left (by linarith) (by linarith)
    have h4 : 0 ≤ (k * (1 - 2 * k)) * (w ⬝ᵥ (A *ᵥ w)) :=
      mul_nonneg (mul_nonneg hk0 (by linarith)) (hApos w)
    nlinarith
  · rw [transpose_sub, transpose_smul, hsA, hB]
  · rw [sub_mulVec, smul_mulVec, dotProduct_sub, dotProduct_smul, smul_eq_mul]
    have h1 := (abs_le.1 (hq w)).2
    nlinarith [mul_nonneg hk0 (hApos w)]

/-- A small error in every entry of an estimate is a small number of standard deviations. -/
theorem inStd_of_entries {p τ : ℝ} (hp : 0 < p) {A : Mat n n} {e : Vec n}
    (hlow : ∀ w, p * (w ⬝ᵥ w) ≤ w ⬝ᵥ (A *ᵥ w)) (he : ∀ i, |e i| ≤ τ) (h0 : 0 ≤ τ) : InStd A e (τ * √(n / p)) := fun w => by
  refine (dot_entries he w).trans ?_
  rw [mul_assoc, ← Real.sqrt_mul (by positivity)]
  refine mul_le_mul_of_nonneg_left (Real.le_sqrt_of_sq_le ?_) h0
  refine (abs_sum_sq_le w).trans ?_
  calc (n : ℝ) * (w ⬝ᵥ w) = n / p * (p * (w ⬝ᵥ w)) := by field_simp
    _ ≤ _ := mul_le_mul_of_nonneg_left (hlow w) (by positivity)

/-- A positive definite matrix is bounded below. -/
theorem PD.lower {A : Mat n n} (hA : A.PosDef) : ∃ p, 0 < p ∧ ∀ w, p * (w ⬝ᵥ w) ≤ w ⬝ᵥ (A *ᵥ w) := by
  obtain ⟨p, hp, h⟩ := PD.dominates (P := (1 : Mat n n)) hA
  exact ⟨p, hp, fun w => by simpa using h w⟩

end Filterpy
