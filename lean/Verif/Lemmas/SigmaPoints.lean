import Verif.Model.SigmaPoints
import Verif.Lemmas.Mat
import Mathlib.Algebra.BigOperators.Intervals

/-! # Lemmas about sigma points -/

namespace Filterpy

open Matrix SigmaPts

variable {n : ℕ}

theorem sum_outer_rows {k n : ℕ} (A : Mat k n) : ∑ i, vecMulVec (A i) (A i) = Aᵀ * A := by
  ext i j
  simp [Matrix.sum_apply, vecMulVec_apply, mul_apply]

theorem fast_cov {k n : ℕ} (y : Mat k n) (W : Vec k) :
    yᵀ * (diagonal W * y) = ∑ i, W i • vecMulVec (y i) (y i) := by
  ext a b
  rw [mul_apply]
  simp only [Matrix.sum_apply, Matrix.smul_apply, vecMulVec_apply, transpose_apply,
    diagonal_mul, smul_eq_mul]
  exact Finset.sum_congr rfl fun i _ => by ring

theorem weighted_mean {k n : ℕ} (s : Mat k n) (W : Vec k) : W ᵥ* s = ∑ i, W i • s i := by
  funext a
  simp [vecMul, dotProduct, Finset.sum_apply]

theorem ut_default {k n : ℕ} (s : Mat k n) (Wm Wc : Vec k) (N : Option (Mat n n)) :
    unscentedTransform s Wm Wc N none none
      = (∑ i, Wm i • s i,
        (∑ i, Wc i • vecMulVec (s i - ∑ j, Wm j • s j) (s i - ∑ j, Wm j • s j)) + N.getD 0) := by
  unfold unscentedTransform
  simp only [weighted_mean]
  have h := fast_cov (fun i => s i - ∑ j, Wm j • s j) Wc
  cases N
  · simpa using h
  · simpa using h

/-- Splitting a sum over the `2n+1` symmetric points. -/
theorem sum_sym {M : Type*} [AddCommMonoid M] (g : ℕ → M) (n : ℕ) :
    ∑ i : Fin (2 * n + 1), g i = g 0 + ∑ k : Fin n, (g (k + 1) + g (n + k + 1)) := by
  rw [Fin.sum_univ_eq_sum_range (fun i => g i) (2 * n + 1), Finset.sum_range_succ', two_mul,
    Finset.sum_range_add, add_comm, Finset.sum_add_distrib,
    Fin.sum_univ_eq_sum_range (fun i => g (i + 1)) n,
    Fin.sum_univ_eq_sum_range (fun i => g (n + i + 1)) n]

/-- Row `k` of `U`, zero beyond. -/
def rowOf (U : Mat n n) (k : ℕ) : Vec n := if h : k < n then U ⟨k, h⟩ else 0

theorem rowOf_fin (U : Mat n n) (k : Fin n) : rowOf U k = U k := by
  simp [rowOf]

def symRow (x : Vec n) (U : Mat n n) (i : ℕ) : Vec n :=
  if i = 0 then x else if i ≤ n then x + rowOf U (i - 1) else x - rowOf U (i - 1 - n)

theorem symmetricSet_row (x : Vec n) (U : Mat n n) (i : Fin (2 * n + 1)) :
    symmetricSet (fun a b => a - b) x U i = symRow x U i := by
  unfold symmetricSet symRow
  by_cases h0 : (i : ℕ) = 0
  · simp only [h0, dif_pos, if_true]
  · by_cases h : (i : ℕ) ≤ n
    · simp only [h0, h, dif_neg, not_false_iff, dif_pos, if_false, if_true]
      rw [rowOf, dif_pos (show (i : ℕ) - 1 < n by omega)]
      abel
    · simp only [h0, h, dif_neg, not_false_iff, if_false]
      rw [rowOf, dif_pos (show (i : ℕ) - 1 - n < n by omega)]

theorem symRow_zero (x : Vec n) (U : Mat n n) : symRow x U 0 = x := rfl

theorem symRow_up (x : Vec n) (U : Mat n n) (k : Fin n) : symRow x U (k + 1) = x + U k := by
  unfold symRow
  rw [if_neg (by omega), if_pos (by omega), Nat.add_sub_cancel, rowOf_fin]

theorem symRow_down (x : Vec n) (U : Mat n n) (k : Fin n) : symRow x U (n + k + 1) = x - U k := by
  unfold symRow
  rw [if_neg (by omega), if_neg (by omega), Nat.add_sub_cancel, Nat.add_sub_cancel_left, rowOf_fin]

/-- Moments of the symmetric point set with weights `w0` (mean), `w0'` (covariance) at the centre and
`c` elsewhere. -/
theorem sym_moments (x : Vec n) (U : Mat n n) (w0 w0' c : ℝ) (hw : w0 + 2 * n * c = 1) :
    (∑ i : Fin (2 * n + 1), if (i : ℕ) = 0 then w0 else c) = 1 ∧
    (∑ i : Fin (2 * n + 1), (if (i : ℕ) = 0 then w0 else c) • symRow x U i) = x ∧
    (∑ i : Fin (2 * n + 1), (if (i : ℕ) = 0 then w0' else c) •
      vecMulVec (symRow x U i - x) (symRow x U i - x)) = (2 * c) • (Uᵀ * U) := by
  refine ⟨?_, ?_, ?_⟩
  · rw [sum_sym (fun i => if i = 0 then w0 else c)]
    simp
    linarith
  · rw [sum_sym (fun i => (if i = 0 then w0 else c) • symRow x U i)]
    simp only [if_true, symRow_zero, symRow_up, symRow_down, Nat.add_eq_zero_iff, one_ne_zero,
      and_false, if_false, ← smul_add]
    have : ∀ k : Fin n, c • (x + U k + (x - U k)) = (2 * c) • x := by
      intro k
      rw [add_add_sub_cancel, ← two_smul ℝ x, smul_smul, mul_comm]
    simp only [this, Finset.sum_const, Finset.card_univ, Fintype.card_fin]
    rw [← Nat.cast_smul_eq_nsmul ℝ, smul_smul, ← add_smul]
    have e : w0 + n * (2 * c) = 1 := by linarith
    rw [e, one_smul]
  · rw [sum_sym (fun i => (if i = 0 then w0' else c) •
      vecMulVec (symRow x U i - x) (symRow x U i - x))]
    simp only [if_true, symRow_zero, symRow_up, symRow_down, Nat.add_eq_zero_iff, one_ne_zero,
      and_false, if_false, sub_self, zero_vecMulVec, smul_zero, zero_add, add_sub_cancel_left,
      sub_sub_cancel_left]
    have : ∀ k : Fin n, c • vecMulVec (U k) (U k) + c • vecMulVec (-U k) (-U k)
        = (2 * c) • vecMulVec (U k) (U k) := by
      intro k
      rw [neg_vecMulVec, vecMulVec_neg, neg_neg, ← two_smul ℝ, smul_smul]
    simp only [this, ← Finset.smul_sum, sum_outer_rows]

/-! ### The simplex -/

/-- The unscaled `D`-th row of the simplex: `D` ones, then `-D`, then zeros. -/
def bvec (D j : ℕ) : ℝ := if j < D then 1 else if j = D then -D else 0

theorem sum_upto {D n : ℕ} (h : D ≤ n) (f : ℕ → ℝ) (hf : ∀ j, D < j → f j = 0) :
    ∑ j ∈ Finset.range (n + 1), f j = ∑ j ∈ Finset.range D, f j + f D := by
  rw [← Finset.sum_range_succ]
  symm
  apply Finset.sum_subset
  · intro j hj
    simp only [Finset.mem_range] at hj ⊢
    omega
  · intro j _ hj
    simp only [Finset.mem_range] at hj
    exact hf j (by omega)

theorem bvec_zero {D j : ℕ} (h : D < j) : bvec D j = 0 := by
  unfold bvec; rw [if_neg (by omega), if_neg (by omega)]

theorem bvec_one {D j : ℕ} (h : j < D) : bvec D j = 1 := by unfold bvec; rw [if_pos h]

theorem bvec_self (D : ℕ) : bvec D D = -D := by unfold bvec; rw [if_neg (by omega), if_pos rfl]

theorem sum_bvec {D n : ℕ} (h : D ≤ n) : ∑ j ∈ Finset.range (n + 1), bvec D j = 0 := by
  rw [sum_upto h _ fun j hj => bvec_zero hj, bvec_self,
    Finset.sum_congr rfl fun j hj => bvec_one (Finset.mem_range.1 hj)]
  simp

theorem sum_bvec_sq {D n : ℕ} (h : D ≤ n) :
    ∑ j ∈ Finset.range (n + 1), bvec D j * bvec D j = D * (D + 1) := by
  rw [sum_upto h _ fun j hj => by rw [bvec_zero hj, zero_mul], bvec_self,
    Finset.sum_congr rfl fun j hj => by rw [bvec_one (Finset.mem_range.1 hj)]]
  simp
  ring

theorem sum_bvec_mul {D E n : ℕ} (h : D < E) (hE : E ≤ n) :
    ∑ j ∈ Finset.range (n + 1), bvec D j * bvec E j = 0 := by
  rw [← sum_bvec (h.le.trans hE)]
  refine Finset.sum_congr rfl fun j _ => ?_
  rcases lt_or_ge D j with hj | hj
  · rw [bvec_zero hj, zero_mul]
  · rw [bvec_one (lt_of_le_of_lt hj h), mul_one]

/-- Sign and scale of row `i` (`D = i + 1`). -/
noncomputable def rowScale (lam : ℝ) (i : ℕ) : ℝ :=
  (if i = 0 then -1 else 1) / Real.sqrt (lam * ((i + 1 : ℕ) * ((i + 1 : ℕ) + 1)))

theorem istarRows_length (lam : ℝ) (n : ℕ) : (istarRows lam n).length = n := by
  induction n with
  | zero => rfl
  | succ d ih =>
    cases d with
    | zero => rfl
    | succ d => simp only [istarRows, List.length_append, ih, List.length_singleton]

theorem istarRows_get (lam : ℝ) (n i : ℕ) (h : i < n) (j : ℕ) :
    (istarRows lam n).getD i (fun _ => 0) j = rowScale lam i * bvec (i + 1) j := by
  induction n with
  | zero => omega
  | succ d ih =>
    cases d with
    | zero =>
      obtain rfl : i = 0 := by omega
      simp only [istarRows, rowScale, bvec, List.getD_cons_zero, if_true]
      have e : lam * (((0 + 1 : ℕ) : ℝ) * (((0 + 1 : ℕ) : ℝ) + 1)) = 2 * lam := by
        push_cast; ring
      rw [e]
      rcases j with _ | _ | j
      · simp [istarRows]
      · simp [istarRows]
        ring
      · simp [istarRows]
    | succ d =>
      simp only [istarRows]
      rcases Nat.lt_or_ge i (d + 1) with hi | hi
      · rw [List.getD_eq_getElem?_getD, List.getElem?_append_left (by rw [istarRows_length]; exact hi),
          ← List.getD_eq_getElem?_getD]
        exact ih hi
      · obtain rfl : i = d + 1 := by omega
        rw [List.getD_eq_getElem?_getD, List.getElem?_append_right (by rw [istarRows_length]),
          istarRows_length, Nat.sub_self, ← List.getD_eq_getElem?_getD, List.getD_cons_zero]
        have e : lam * (((d + 1 + 1 : ℕ) : ℝ) * (((d + 1 + 1 : ℕ) : ℝ) + 1))
            = lam * ((d + 1 : ℕ) + 1) * ((d + 1 : ℕ) + 1 + 1) := by push_cast; ring
        unfold rowScale bvec
        rw [e, if_neg (show ¬ d + 1 = 0 by omega)]
        split_ifs
        · rw [mul_one]
        · push_cast; ring
        · rw [mul_zero]

theorem rowScale_sq {lam : ℝ} (hl : 0 < lam) (i : ℕ) :
    rowScale lam i * rowScale lam i * (((i + 1 : ℕ) : ℝ) * ((i + 1 : ℕ) + 1)) = 1 / lam := by
  have hp : 0 < lam * (((i + 1 : ℕ) : ℝ) * (((i + 1 : ℕ) : ℝ) + 1)) := by positivity
  have hq : (0 : ℝ) < ((i + 1 : ℕ) : ℝ) * (((i + 1 : ℕ) : ℝ) + 1) := by positivity
  unfold rowScale
  rw [div_mul_div_comm, Real.mul_self_sqrt hp.le]
  have : (if i = 0 then (-1 : ℝ) else 1) * (if i = 0 then -1 else 1) = 1 := by
    split_ifs <;> norm_num
  rw [this]
  have := hq.ne'
  have := hl.ne'
  rw [one_div, one_div, mul_inv, mul_assoc, inv_mul_cancel₀ hq.ne', mul_one]

theorem simplexI_entry (i : Fin n) (j : Fin (n + 1)) :
    simplexI n i j = Real.sqrt n * (rowScale ((n : ℝ) / (n + 1)) i * bvec (i + 1) j) := by
  unfold simplexI
  rw [istarRows_get _ _ _ i.2]

/-- The simplex directions sum to zero and are orthogonal with squared length `n + 1`. -/
theorem simplexI_moments (hn : 0 < n) :
    (∀ i, ∑ j, simplexI n i j = 0) ∧ simplexI n * (simplexI n)ᵀ = ((n : ℝ) + 1) • (1 : Mat n n) := by
  have hl : (0 : ℝ) < (n : ℝ) / (n + 1) := by positivity
  constructor
  · intro i
    simp only [simplexI_entry, ← Finset.mul_sum]
    rw [Fin.sum_univ_eq_sum_range (fun j => bvec (i + 1) j) (n + 1), sum_bvec (by omega)]
    simp
  · ext i k
    rw [mul_apply]
    simp only [transpose_apply, simplexI_entry, Matrix.smul_apply, smul_eq_mul]
    have e : ∀ j : Fin (n + 1),
        Real.sqrt n * (rowScale ((n : ℝ) / (n + 1)) i * bvec (i + 1) j) *
          (Real.sqrt n * (rowScale ((n : ℝ) / (n + 1)) k * bvec (k + 1) j))
        = (Real.sqrt n * Real.sqrt n) * (rowScale ((n : ℝ) / (n + 1)) i *
          rowScale ((n : ℝ) / (n + 1)) k) * (bvec (i + 1) j * bvec (k + 1) j) := by
      intro j; ring
    simp only [e, ← Finset.mul_sum]
    rw [Fin.sum_univ_eq_sum_range (fun j => bvec (i + 1) j * bvec (k + 1) j) (n + 1),
      Real.mul_self_sqrt (by positivity)]
    rcases lt_trichotomy i k with h | h | h
    · have hik : (i : ℕ) < k := h
      rw [sum_bvec_mul (by omega) (by omega), one_apply_ne h.ne]
      ring
    · subst h
      rw [sum_bvec_sq (by omega), one_apply_eq, mul_assoc, rowScale_sq hl]
      have : (n : ℝ) ≠ 0 := by positivity
      field_simp
    · have hik : (k : ℕ) < i := h
      rw [Finset.sum_congr rfl fun j _ => mul_comm (bvec (i + 1) j) (bvec (k + 1) j),
        sum_bvec_mul (by omega) (by omega), one_apply_ne h.ne']
      ring

end Filterpy
