import Verif.Model.DiscreteBayes
import Mathlib.Probability.ConditionalProbability
import Mathlib.MeasureTheory.Measure.Real
import Mathlib.Tactic.Linarith
import Mathlib.Tactic.FieldSimp
import Mathlib.Tactic.Ring
import Mathlib.Tactic.NormNum
import Mathlib.Tactic.FinCases
import Mathlib.Tactic.Positivity

/-!
# The discrete Bayes filter: C48, C49
-/

namespace Filterpy

open DiscreteBayes MeasureTheory ProbabilityTheory

variable {n m : ℕ}

/-- **C48.** `normalize` returns the vector proportional to its input that sums to one, whenever
the input does not sum to zero. -/
theorem C48_normalize (p : Fin n → ℝ) (hp : ∑ i, p i ≠ 0) :
    ∃ q, DiscreteBayes.normalize p = .ok q ∧ ∑ i, q i = 1 ∧ ∃ c : ℝ, c ≠ 0 ∧ ∀ i, q i = c * p i := by
  refine ⟨_, by unfold DiscreteBayes.normalize; rw [if_neg hp], ?_, (∑ i, p i)⁻¹, inv_ne_zero hp, ?_⟩
  · simp only [div_eq_mul_inv]; rw [← Finset.sum_mul, mul_inv_cancel₀ hp]
  · intro i; ring

/-- **C48.** `normalize` is idempotent and unaffected by the scale of its argument. -/
theorem C48_normalize_scale (p : Fin n → ℝ) (c : ℝ) (hc : c ≠ 0) :
    DiscreteBayes.normalize (fun i => c * p i) = DiscreteBayes.normalize p := by
  unfold DiscreteBayes.normalize
  rw [← Finset.mul_sum]
  by_cases h : ∑ i, p i = 0
  · rw [if_pos h, if_pos (by rw [h, mul_zero])]
  · rw [if_neg h, if_neg (mul_ne_zero hc h)]
    congr 1
    funext i
    rw [mul_div_mul_left _ _ hc]

theorem cond_real {Ω : Type*} [MeasurableSpace Ω] (μ : Measure Ω) {s : Set Ω}
    (hs : MeasurableSet s) (t : Set Ω) :
    (cond μ s).real t = (μ.real s)⁻¹ * μ.real (s ∩ t) := by
  rw [Measure.real, cond_apply hs, ENNReal.toReal_mul, ENNReal.toReal_inv]; rfl

/-- **C48.** `update(likelihood, prior)` is Bayes' theorem: if `prior[i]` is the probability of
`X = i` and `likelihood[i]` is proportional to the conditional probability of the observed event
`Z` given `X = i`, the result is the conditional probability of `X = i` given `Z`. -/
theorem C48_bayes {Ω : Type*} [MeasurableSpace Ω] (μ : Measure Ω) [IsProbabilityMeasure μ]
    (X : Ω → Fin n) (hX : Measurable X) (Z : Set Ω) (hZ : MeasurableSet Z) (hpos : μ Z ≠ 0)
    (c : ℝ) (hc : c ≠ 0) (lik prior : Fin n → ℝ) (hprior : ∀ i, prior i = μ.real (X ⁻¹' {i}))
    (hlik : ∀ i, lik i = c * (cond μ (X ⁻¹' {i})).real Z) :
    DiscreteBayes.update lik prior = .ok fun i => (cond μ Z).real (X ⁻¹' {i}) := by
  have hXi : ∀ i, MeasurableSet (X ⁻¹' {i}) := fun i => hX (measurableSet_singleton i)
  have key : ∀ i, prior i * lik i = c * μ.real (X ⁻¹' {i} ∩ Z) := by
    intro i
    rw [hprior, hlik, cond_real μ (hXi i)]
    by_cases h0 : μ.real (X ⁻¹' {i}) = 0
    · have : μ.real (X ⁻¹' {i} ∩ Z) = 0 :=
        le_antisymm (h0 ▸ measureReal_mono Set.inter_subset_left) measureReal_nonneg
      rw [h0, this]; ring
    · field_simp
  have hsum : ∑ i, μ.real (X ⁻¹' {i} ∩ Z) = μ.real Z := by
    rw [← measureReal_biUnion_finset]
    · congr 1
      ext ω
      simp
    · intro i _ j _ hij
      rw [Function.onFun, Set.disjoint_left]
      rintro ω ⟨h1, -⟩ ⟨h2, -⟩
      exact hij (h1.symm.trans h2)
    · intro i _; exact (hXi i).inter hZ
  have hZ0 : μ.real Z ≠ 0 := by
    rw [Measure.real, ENNReal.toReal_ne_zero]
    exact ⟨hpos, measure_ne_top _ _⟩
  unfold DiscreteBayes.update
  simp only [key]
  rw [C48_normalize_scale _ c hc]
  unfold DiscreteBayes.normalize
  rw [hsum, if_neg hZ0]
  congr 1
  funext i
  rw [cond_real μ hZ, Set.inter_comm, div_eq_inv_mul]

/-- **C48.** The posterior sums to one, and stays nonnegative for nonnegative inputs. -/
theorem C48_update_sum (lik prior post : Fin n → ℝ) (h : DiscreteBayes.update lik prior = .ok post) :
    ∑ i, post i = 1 ∧ ((∀ i, 0 ≤ lik i) → (∀ i, 0 ≤ prior i) → ∀ i, 0 ≤ post i) := by
  unfold DiscreteBayes.update DiscreteBayes.normalize at h
  split_ifs at h with h0
  obtain rfl := Except.ok.inj h
  refine ⟨by simp only [div_eq_mul_inv]; rw [← Finset.sum_mul, mul_inv_cancel₀ h0], fun h1 h2 i => ?_⟩
  exact div_nonneg (mul_nonneg (h2 i) (h1 i))
    (Finset.sum_nonneg fun j _ => mul_nonneg (h2 j) (h1 j))

/-- **C48.** Rescaling the likelihood changes nothing. -/
theorem C48_update_scale (lik prior : Fin n → ℝ) (c : ℝ) (hc : c ≠ 0) :
    DiscreteBayes.update (fun i => c * lik i) prior = DiscreteBayes.update lik prior := by
  unfold DiscreteBayes.update
  rw [← C48_normalize_scale (fun i => prior i * lik i) c hc]
  congr 1
  funext i
  ring

theorem update_twice (l1 l2 prior : Fin n → ℝ) (h1 : ∀ i, 0 ≤ l1 i) (h2 : ∀ i, 0 ≤ l2 i)
    (hp : ∀ i, 0 ≤ prior i) :
    (DiscreteBayes.update l1 prior >>= fun q => DiscreteBayes.update l2 q) =
      DiscreteBayes.update (fun i => l1 i * l2 i) prior := by
  unfold DiscreteBayes.update
  by_cases h : ∑ i, prior i * l1 i = 0
  · have hz : ∀ i, prior i * l1 i = 0 := by
      intro i
      exact (Finset.sum_eq_zero_iff_of_nonneg (fun j _ => mul_nonneg (hp j) (h1 j))).1 h i
        (Finset.mem_univ i)
    have e : (fun i => prior i * (l1 i * l2 i)) = fun _ => 0 := by
      funext i; rw [← mul_assoc, hz, zero_mul]
    rw [e]
    unfold DiscreteBayes.normalize
    rw [if_pos h, if_pos (by simp)]
    rfl
  · have e : DiscreteBayes.normalize (fun i => prior i * l1 i) =
        .ok fun i => prior i * l1 i / ∑ j, prior j * l1 j := by
      unfold DiscreteBayes.normalize; rw [if_neg h]
    rw [e]
    show DiscreteBayes.normalize _ = _
    rw [← C48_normalize_scale (fun i => prior i * (l1 i * l2 i)) (∑ j, prior j * l1 j)⁻¹
      (inv_ne_zero h)]
    congr 1
    funext i
    ring

/-- **C48.** Incorporating two measurements gives the same result in either order, including
whether it fails, and the same as incorporating their joint likelihood at once. -/
theorem C48_update_commute (l1 l2 prior : Fin n → ℝ) (h1 : ∀ i, 0 ≤ l1 i) (h2 : ∀ i, 0 ≤ l2 i)
    (hp : ∀ i, 0 ≤ prior i) :
    (DiscreteBayes.update l1 prior >>= fun q => DiscreteBayes.update l2 q) =
      (DiscreteBayes.update l2 prior >>= fun q => DiscreteBayes.update l1 q) ∧
    (DiscreteBayes.update l1 prior >>= fun q => DiscreteBayes.update l2 q) =
      DiscreteBayes.update (fun i => l1 i * l2 i) prior := by
  refine ⟨?_, update_twice l1 l2 prior h1 h2 hp⟩
  rw [update_twice l1 l2 prior h1 h2 hp, update_twice l2 l1 prior h2 h1 hp]
  congr 1
  funext i
  ring

example : DiscreteBayes.update ![3, 1, 1] ![(1 / 5 : ℝ), 2 / 5, 2 / 5] =
    .ok ![3 / 7, 2 / 7, 2 / 7] := by
  unfold DiscreteBayes.update DiscreteBayes.normalize
  rw [Fin.sum_univ_three, if_neg (by
    show ¬ ((1 / 5 : ℝ) * 3 + 2 / 5 * 1 + 2 / 5 * 1 = 0); norm_num)]
  congr 1
  funext i
  fin_cases i
  · show (1 / 5 : ℝ) * 3 / (1 / 5 * 3 + 2 / 5 * 1 + 2 / 5 * 1) = 3 / 7; norm_num
  · show (2 / 5 : ℝ) * 1 / (1 / 5 * 3 + 2 / 5 * 1 + 2 / 5 * 1) = 2 / 7; norm_num
  · show (2 / 5 : ℝ) * 1 / (1 / 5 * 3 + 2 / 5 * 1 + 2 / 5 * 1) = 2 / 7; norm_num

/-! ## C49: prediction -/

theorem wrapIdx_eq_iff [NeZero n] (k : ℤ) (x : Fin n) :
    wrapIdx n k = x ↔ (x : ℤ) ≡ k [ZMOD n] := by
  have h : (0 : ℤ) < n := by exact_mod_cast Nat.pos_of_ne_zero (NeZero.ne n)
  have h1 := Int.emod_nonneg k h.ne'
  have hx : (x : ℤ) % n = x := Int.emod_eq_of_lt (by omega) (by have := x.2; omega)
  rw [Fin.ext_iff]
  unfold wrapIdx Int.ModEq
  rw [hx]
  simp only
  constructor
  · intro h2; rw [← h2]; omega
  · intro h2; rw [← h2]; simp

theorem wrapIdx_congr [NeZero n] {a b : ℤ} (h : a ≡ b [ZMOD n]) : wrapIdx n a = wrapIdx n b := by
  unfold wrapIdx
  rw [Fin.ext_iff]
  simp only
  rw [h]

theorem wrapIdx_modEq (n : ℕ) [NeZero n] (k : ℤ) : ((wrapIdx n k : Fin n) : ℤ) ≡ k [ZMOD n] :=
  (wrapIdx_eq_iff k _).1 rfl

theorem predict_wrap_eq [NeZero n] (p : Fin n → ℝ) (offset : ℤ) (kernel : Fin m → ℝ) (cval : ℝ)
    (i : Fin n) : predict p offset kernel true cval i =
      ∑ j : Fin m, kernel j * p (wrapIdx n (i + (m / 2 : ℕ) - j - offset)) := by
  unfold predict convolveWrap roll
  simp only [if_true]
  apply Finset.sum_congr rfl
  intro j _
  congr 2
  exact wrapIdx_congr ((wrapIdx_modEq n _).sub_right _)

/-- **C49.** Wrap mode is the law of motion the documentation describes: the mass arriving in cell
`i` is that of all pairs (cell `x`, kernel tap `j`) with `x + offset + (j - centre) ≡ i` modulo the
size of the grid. -/
theorem C49_wrap [NeZero n] (p : Fin n → ℝ) (offset : ℤ) (kernel : Fin m → ℝ) (cval : ℝ)
    (i : Fin n) : predict p offset kernel true cval i =
      ∑ x : Fin n, ∑ j : Fin m,
        if (x : ℤ) + offset + ((j : ℤ) - (m / 2 : ℕ)) ≡ i [ZMOD n] then p x * kernel j else 0 := by
  rw [predict_wrap_eq, Finset.sum_comm]
  apply Finset.sum_congr rfl
  intro j _
  have e : ∀ x : Fin n, ((x : ℤ) + offset + ((j : ℤ) - (m / 2 : ℕ)) ≡ i [ZMOD n]) ↔
      wrapIdx n (i + (m / 2 : ℕ) - j - offset) = x := by
    intro x
    rw [wrapIdx_eq_iff]
    constructor
    · intro h
      have := h.sub_right (offset + ((j : ℤ) - (m / 2 : ℕ)))
      ring_nf at this ⊢
      exact this
    · intro h
      have := h.add_right (offset + ((j : ℤ) - (m / 2 : ℕ)))
      ring_nf at this ⊢
      exact this
  simp only [e]
  rw [Finset.sum_ite_eq]
  simp [mul_comm]

theorem wrapIdx_bij [NeZero n] (d : ℤ) :
    Function.Bijective fun i : Fin n => wrapIdx n (i + d) := by
  rw [Fintype.bijective_iff_injective_and_card]
  refine ⟨fun a b h => ?_, rfl⟩
  simp only at h
  have h1 := (wrapIdx_modEq n ((a : ℤ) + d)).symm
  rw [h] at h1
  have h2 := h1.trans (wrapIdx_modEq n ((b : ℤ) + d))
  have h3 := h2.add_right_cancel' d
  have := (wrapIdx_eq_iff (n := n) (b : ℤ) a).2 h3
  rw [← this]
  exact (wrapIdx_eq_iff (n := n) (b : ℤ) b).2 rfl

/-- **C49.** Wrap mode preserves total probability for a kernel that sums to one. -/
theorem C49_wrap_total [NeZero n] (p : Fin n → ℝ) (offset : ℤ) (kernel : Fin m → ℝ) (cval : ℝ) :
    ∑ i, predict p offset kernel true cval i = (∑ j, kernel j) * ∑ x, p x := by
  simp only [predict_wrap_eq]
  rw [Finset.sum_comm, Finset.sum_mul]
  apply Finset.sum_congr rfl
  intro j _
  rw [← Finset.mul_sum]
  congr 1
  have := (wrapIdx_bij (n := n) ((m / 2 : ℕ) - j - offset)).sum_comp p
  rw [← this]
  apply Finset.sum_congr rfl
  intro i _
  congr 2
  ring

/-- **C49.** Wrap mode preserves nonnegativity. -/
theorem C49_wrap_nonneg [NeZero n] (p : Fin n → ℝ) (offset : ℤ) (kernel : Fin m → ℝ) (cval : ℝ)
    (hp : ∀ i, 0 ≤ p i) (hk : ∀ j, 0 ≤ kernel j) (i : Fin n) :
    0 ≤ predict p offset kernel true cval i := by
  rw [predict_wrap_eq]
  exact Finset.sum_nonneg fun j _ => mul_nonneg (hk j) (hp _)

/-- **C49.** Wrap mode commutes with rotating the grid, and an extra rotation is the same as a
larger offset. -/
theorem C49_wrap_rotate [NeZero n] (p : Fin n → ℝ) (offset s : ℤ) (kernel : Fin m → ℝ) (cval : ℝ) :
    predict (roll p s) offset kernel true cval = roll (predict p offset kernel true cval) s ∧
    predict (roll p s) offset kernel true cval = predict p (offset + s) kernel true cval := by
  constructor
  · funext i
    unfold roll
    rw [predict_wrap_eq, predict_wrap_eq]
    apply Finset.sum_congr rfl
    intro j _
    congr 2
    apply wrapIdx_congr
    refine ((wrapIdx_modEq n _).sub_right _).trans ?_
    have := (((wrapIdx_modEq n ((i : ℤ) - s)).symm.add_right (m / 2 : ℕ)).sub_right (j : ℤ)).sub_right
      offset
    refine Int.ModEq.trans ?_ this
    rw [show (i : ℤ) + ((m / 2 : ℕ) : ℤ) - j - offset - s = i - s + ((m / 2 : ℕ) : ℤ) - j - offset by ring]
  · funext i
    unfold roll
    rw [predict_wrap_eq, predict_wrap_eq]
    apply Finset.sum_congr rfl
    intro j _
    congr 2
    apply wrapIdx_congr
    refine ((wrapIdx_modEq n _).sub_right _).trans ?_
    rw [show (i : ℤ) + ((m / 2 : ℕ) : ℤ) - j - offset - s = i + ((m / 2 : ℕ) : ℤ) - j - (offset + s) by ring]

/-- **C49.** Constant mode, any `cval`: cell `i` receives `kernel[j]` times the content of the cell
`i - (j - centre)` of the shifted grid, where a cell that is off the grid, or whose content came
from off the grid, counts as `cval`. -/
theorem C49_constant [NeZero n] (p : Fin n → ℝ) (offset : ℤ) (kernel : Fin m → ℝ) (cval : ℝ)
    (i : Fin n) : predict p offset kernel false cval i =
      ∑ j : Fin m, kernel j *
        (∑ x : Fin n, (if (x : ℤ) + offset + ((j : ℤ) - (m / 2 : ℕ)) = i ∧
            0 ≤ (x : ℤ) + offset ∧ (x : ℤ) + offset < n then p x else 0) +
          if ∃ x : Fin n, (x : ℤ) + offset + ((j : ℤ) - (m / 2 : ℕ)) = i ∧
            0 ≤ (x : ℤ) + offset ∧ (x : ℤ) + offset < n then 0 else cval) := by
  unfold predict convolveConst
  simp only [Bool.false_eq_true, if_false]
  apply Finset.sum_congr rfl
  intro j _
  congr 1
  by_cases h : ∃ x : Fin n, (x : ℤ) + offset + ((j : ℤ) - (m / 2 : ℕ)) = i ∧
            0 ≤ (x : ℤ) + offset ∧ (x : ℤ) + offset < n
  · rw [if_pos h, add_zero]
    obtain ⟨x, h1, h2, h3⟩ := h
    have e : ∀ y : Fin n, ((y : ℤ) + offset + ((j : ℤ) - (m / 2 : ℕ)) = i ∧
            0 ≤ (y : ℤ) + offset ∧ (y : ℤ) + offset < n) ↔ x = y := by
      intro y
      constructor
      · rintro ⟨g, -, -⟩; exact Fin.ext (by omega)
      · rintro rfl; exact ⟨h1, h2, h3⟩
    simp only [e, Finset.sum_ite_eq, Finset.mem_univ, if_true]
    have hk : (i : ℤ) + (m / 2 : ℕ) - j = x + offset := by omega
    unfold DiscreteBayes.extend
    rw [hk, dif_pos ⟨h2, h3⟩]
    unfold shift DiscreteBayes.extend
    have hx : ((⟨((x : ℤ) + offset).toNat, by omega⟩ : Fin n) : ℤ) - offset = x := by
      simp only; omega
    rw [dif_pos (by rw [hx]; exact ⟨by omega, by have := x.2; omega⟩)]
    congr 1
    apply Fin.ext
    simp only
    omega
  · rw [if_neg h]
    have e : ∀ y : Fin n, ¬ ((y : ℤ) + offset + ((j : ℤ) - (m / 2 : ℕ)) = i ∧
            0 ≤ (y : ℤ) + offset ∧ (y : ℤ) + offset < n) := fun y hy => h ⟨y, hy⟩
    simp only [e, if_false, Finset.sum_const_zero, zero_add]
    unfold DiscreteBayes.extend
    split_ifs with h1
    · unfold shift DiscreteBayes.extend
      split_ifs with h2
      · exfalso
        simp only at h2
        apply h
        refine ⟨⟨((((i : ℤ) + (m / 2 : ℕ) - j).toNat : ℤ) - offset).toNat, by omega⟩, ?_⟩
        simp only
        omega
      · rfl
    · rfl

/-- **C49.** Constant mode with the default `cval = 0` never creates probability. -/
theorem C49_constant_total [NeZero n] (p : Fin n → ℝ) (offset : ℤ) (kernel : Fin m → ℝ)
    (hp : ∀ i, 0 ≤ p i) (hk : ∀ j, 0 ≤ kernel j) :
    (∀ i, 0 ≤ predict p offset kernel false 0 i) ∧
    ∑ i, predict p offset kernel false 0 i ≤ (∑ j, kernel j) * ∑ x, p x := by
  constructor
  · intro i
    rw [C49_constant]
    refine Finset.sum_nonneg fun j _ => mul_nonneg (hk j) (add_nonneg (Finset.sum_nonneg fun x _ => ?_) ?_)
    · split_ifs
      · exact hp x
      · exact le_rfl
    · split_ifs <;> exact le_rfl
  · simp only [C49_constant, ite_self, add_zero]
    rw [Finset.sum_comm, Finset.sum_mul]
    apply Finset.sum_le_sum
    intro j _
    rw [← Finset.mul_sum]
    apply mul_le_mul_of_nonneg_left _ (hk j)
    rw [Finset.sum_comm]
    apply Finset.sum_le_sum
    intro x _
    by_cases h : ∃ i : Fin n, (x : ℤ) + offset + ((j : ℤ) - (m / 2 : ℕ)) = i
    · obtain ⟨i, hi⟩ := h
      rw [Finset.sum_eq_single i]
      · split_ifs
        · exact le_rfl
        · exact hp x
      · intro b _ hb
        rw [if_neg]
        rintro ⟨g, -⟩
        exact hb (Fin.ext (by omega))
      · simp
    · apply le_trans (le_of_eq (Finset.sum_eq_zero fun i _ => if_neg fun g => h ⟨i, g.1⟩)) (hp x)

example : predict ![(0 : ℝ), 1, 0, 0] 2 ![1 / 10, 8 / 10, 1 / 10] true 0 =
    ![1 / 10, 0, 1 / 10, 8 / 10] := by
  funext i
  rw [predict_wrap_eq, Fin.sum_univ_three]
  fin_cases i <;> simp [wrapIdx] <;> rfl

end Filterpy
