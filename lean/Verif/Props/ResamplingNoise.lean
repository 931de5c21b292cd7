import Verif.Props.ResamplingUnbiased
import Mathlib.Probability.Moments.Variance
import Mathlib.Probability.Independence.InfinitePi
import Mathlib.MeasureTheory.Constructions.BorelSpace.Order
import Mathlib.Algebra.Order.Chebyshev

/-!
# How much noise resampling adds: C104
-/

namespace Filterpy

open Spec Resampling MeasureTheory ProbabilityTheory

variable {N : ℕ} {Ω : Type*} [MeasurableSpace Ω]

namespace Spec

/-- What the weighted particles say the mean of `f` is: `Σ w_i f_i`. -/
def weightedMean (w : Fin N → ℝ) (f : ℕ → ℝ) : ℝ := ∑ i, w i * f i

/-- What the weighted particles say the variance of `f` is: `Σ w_i (f_i - mean)²`. -/
def weightedVar (w : Fin N → ℝ) (f : ℕ → ℝ) : ℝ := ∑ i, w i * (f i - weightedMean w f) ^ 2

/-- The plain average of `f` over the resampled particles `particles[indexes]`. -/
noncomputable def resampledMean (f : ℕ → ℝ) (indexes : List ℕ) : ℝ :=
  (indexes.map f).sum / indexes.length

end Spec

theorem weightedVar_eq {w : Fin N → ℝ} (hw : IsWeights w) (f : ℕ → ℝ) :
    weightedVar w f = weightedMean w (fun i => f i ^ 2) - weightedMean w f ^ 2 := by
  unfold weightedVar
  have e : ∀ i : Fin N, w i * (f i - weightedMean w f) ^ 2 =
      w i * f i ^ 2 - 2 * weightedMean w f * (w i * f i) + weightedMean w f ^ 2 * w i := by
    intro i; ring
  simp only [e, Finset.sum_add_distrib, Finset.sum_sub_distrib, ← Finset.mul_sum, hw.total]
  unfold weightedMean
  ring

/-- A resampler whose `k`-th pick depends only on its `k`-th draw. -/
structure Picks (μ : Measure Ω) (w : Fin N → ℝ) (U : ℕ → Ω → ℝ) (g : ℕ → ℝ → ℕ)
    (r : Ω → List ℕ) : Prop where
  meas : ∀ k, Measurable (g k)
  lt : ∀ k ω, k < N → g k (U k ω) < N
  eq : ∀ ω, r ω = (List.range N).map fun k => g k (U k ω)
  unbiased : ∀ i : Fin N, ∫ ω, ((r ω).count (i : ℕ) : ℝ) ∂μ = N * w i

theorem sum_map_range (h : ℕ → ℝ) (n : ℕ) :
    ((List.range n).map h).sum = ∑ k ∈ Finset.range n, h k := by
  induction n with
  | zero => simp
  | succ n ih => rw [List.range_succ, List.map_append, List.sum_append, ih,
      Finset.sum_range_succ]; simp

theorem count_map_range (h : ℕ → ℕ) (i n : ℕ) :
    (((List.range n).map h).count i : ℝ) = ∑ k ∈ Finset.range n, if h k = i then (1 : ℝ) else 0 := by
  induction n with
  | zero => simp
  | succ n ih =>
    rw [List.range_succ, List.map_append, List.count_append, Nat.cast_add, ih,
      Finset.sum_range_succ]
    simp [List.count_singleton]

section
variable {μ : Measure Ω} [IsProbabilityMeasure μ] {w : Fin N → ℝ} {U : ℕ → Ω → ℝ}
  {g : ℕ → ℝ → ℕ} {r : Ω → List ℕ}

theorem Picks.memLp (h : Picks μ w U g r) (hU : ∀ k, Measurable (U k)) (f : ℕ → ℝ) {k : ℕ}
    (hk : k < N) : MemLp (fun ω => f (g k (U k ω))) 2 μ := by
  have hm : Measurable (fun ω => f (g k (U k ω))) :=
    (measurable_from_nat (f := f)).comp ((h.meas k).comp (hU k))
  refine MemLp.of_bound hm.aestronglyMeasurable (∑ i ∈ Finset.range N, |f i|)
    (Filter.Eventually.of_forall fun ω => ?_)
  rw [Real.norm_eq_abs]
  exact Finset.single_le_sum (f := fun i => |f i|) (fun i _ => abs_nonneg _)
    (Finset.mem_range.2 (h.lt k ω hk))

theorem Picks.int (h : Picks μ w U g r) (hU : ∀ k, Measurable (U k)) (f : ℕ → ℝ) {k : ℕ}
    (hk : k < N) : Integrable (fun ω => f (g k (U k ω))) μ :=
  (h.memLp hU f hk).integrable (by norm_num)

theorem Picks.sum_mean (h : Picks μ w U g r) (hU : ∀ k, Measurable (U k)) (f : ℕ → ℝ) :
    ∑ k ∈ Finset.range N, ∫ ω, f (g k (U k ω)) ∂μ = N * weightedMean w f := by
  have e1 : ∀ k ∈ Finset.range N, ∫ ω, f (g k (U k ω)) ∂μ =
      ∑ i : Fin N, f i * ∫ ω, (if g k (U k ω) = i then (1 : ℝ) else 0) ∂μ := by
    intro k hk
    have hk' := Finset.mem_range.1 hk
    simp only [← integral_const_mul]
    rw [← integral_finsetSum]
    · congr 1
      funext ω
      rw [Finset.sum_eq_single ⟨g k (U k ω), h.lt k ω hk'⟩]
      · simp
      · intro b _ hb
        rw [if_neg, mul_zero]
        intro h1
        exact hb (Fin.ext h1.symm)
      · simp
    · intro i _
      exact (h.int hU (fun a => if a = i then (1 : ℝ) else 0) hk').const_mul _
  rw [Finset.sum_congr rfl e1, Finset.sum_comm]
  simp only [← Finset.mul_sum]
  unfold weightedMean
  rw [Finset.mul_sum]
  refine Finset.sum_congr rfl fun i _ => ?_
  rw [← mul_assoc, ← h.unbiased i, mul_comm]
  congr 1
  simp only [h.eq, count_map_range]
  rw [integral_finsetSum]
  intro k hk
  exact h.int hU (fun a => if a = i then (1 : ℝ) else 0) (Finset.mem_range.1 hk)

omit [IsProbabilityMeasure μ] in
theorem Picks.resampled (h : Picks μ w U g r) (f : ℕ → ℝ) :
    (fun ω => resampledMean f (r ω)) =
      fun ω => (N : ℝ)⁻¹ * ∑ k ∈ Finset.range N, f (g k (U k ω)) := by
  funext ω
  unfold resampledMean
  rw [h.eq ω, List.map_map, List.length_map, List.length_range, div_eq_inv_mul,
    ← sum_map_range]
  rfl

theorem Picks.mean (h : Picks μ w U g r) (hU : ∀ k, Measurable (U k)) (f : ℕ → ℝ) (hN : 0 < N) :
    ∫ ω, resampledMean f (r ω) ∂μ = weightedMean w f := by
  have hN' : (N : ℝ) ≠ 0 := by exact_mod_cast hN.ne'
  rw [h.resampled f, integral_const_mul, integral_finsetSum _
    (fun k hk => h.int hU f (Finset.mem_range.1 hk)), h.sum_mean hU f, ← mul_assoc,
    inv_mul_cancel₀ hN', one_mul]

theorem Picks.variance (h : Picks μ w U g r) (hU : ∀ k, Measurable (U k)) (hi : iIndepFun U μ)
    (f : ℕ → ℝ) :
    Var[fun ω => resampledMean f (r ω); μ] = (N : ℝ)⁻¹ ^ 2 *
      (N * weightedMean w (fun i => f i ^ 2) -
        ∑ k ∈ Finset.range N, (∫ ω, f (g k (U k ω)) ∂μ) ^ 2) := by
  rw [h.resampled f, variance_const_mul]
  congr 1
  have e : (fun ω => ∑ k ∈ Finset.range N, f (g k (U k ω))) =
      ∑ k ∈ Finset.range N, fun ω => f (g k (U k ω)) := by
    funext ω; simp
  rw [e, IndepFun.variance_sum (fun k hk => h.memLp hU f (Finset.mem_range.1 hk))]
  · rw [← h.sum_mean hU (fun i => f i ^ 2), ← Finset.sum_sub_distrib]
    refine Finset.sum_congr rfl fun k hk => ?_
    rw [variance_eq_sub (h.memLp hU f (Finset.mem_range.1 hk))]
    rfl
  · intro a _ b _ hab
    exact (hi.indepFun hab).comp ((measurable_from_nat (f := f)).comp (h.meas a))
      ((measurable_from_nat (f := f)).comp (h.meas b))

end

/-! ## The three resamplers -/

/-- The index a position `p` falls on: how many cumulative weights it has reached. -/
noncomputable def fallsOn (w : Fin N → ℝ) (p : ℝ) : ℕ :=
  open Classical in Nat.count (fun j => cum w j ≤ p) N

theorem fallsOn_mono (w : Fin N → ℝ) : Monotone (fallsOn w) := by
  intro a b hab
  unfold fallsOn
  exact count_le_of_imp fun k _ h => h.trans hab

theorem fallsOn_eq {w : Fin N → ℝ} (hw : ∀ i, 0 ≤ w i) {p : ℝ} {j : ℕ} (hj : j < N)
    (h1 : p < cum w j) (h2 : ∀ j' < j, cum w j' ≤ p) : fallsOn w p = j := by
  classical
  unfold fallsOn
  rw [count_congr_lt (q := fun k => k < j), count_lt, min_eq_left hj.le]
  intro k _
  constructor
  · intro h
    by_contra h3
    have := cum_mono hw (show j ≤ k by omega)
    linarith
  · exact h2 k

theorem stratified_picks {μ : Measure Ω} [IsProbabilityMeasure μ] {w : Fin N → ℝ}
    (hw : IsWeights w) {U : ℕ → Ω → ℝ} (hU : ∀ k, IsUniform μ (U k)) {r : Ω → List ℕ}
    (hr : ∀ ω, stratified w (fun k => U k ω) = .ok (r ω)) :
    Picks μ w U (fun k u => fallsOn w ((u + k) / N)) r := by
  have key : ∀ ω, ∃ hl : (r ω).length = N, ∀ k (hk : k < N),
      fallsOn w ((U k ω + k) / N) = (r ω)[k]'(by omega) ∧ (r ω)[k]'(by omega) < N := by
    intro ω
    obtain ⟨r', h1, h2⟩ := stratified_selects hw (u := fun k => U k ω) (fun k => (hU k).draw ω)
    rw [hr ω] at h1
    obtain rfl := Except.ok.inj h1
    refine ⟨h2.length, fun k hk => ?_⟩
    obtain ⟨h3, h4, h5⟩ := h2.spec k (by rw [h2.length]; exact hk)
    exact ⟨fallsOn_eq hw.nonneg h3 h4 h5, h3⟩
  refine ⟨fun k => (fallsOn_mono w).measurable.comp (by fun_prop), fun k ω hk => ?_, fun ω => ?_,
    C66_stratified_unbiased hw hU hr⟩
  · obtain ⟨_, h⟩ := key ω
    rw [(h k hk).1]; exact (h k hk).2
  · obtain ⟨hl, h⟩ := key ω
    apply List.ext_getElem
    · simp [hl]
    · intro k h1 h2
      have hk : k < N := by omega
      simp [(h k hk).1]

theorem multinomial_picks {μ : Measure Ω} [IsProbabilityMeasure μ]
    {ss : (ℕ → ℝ) → ℝ → ℕ} (hss : IsSearchSorted N ss) {w : Fin N → ℝ}
    (hw : IsWeights w) {U : ℕ → Ω → ℝ} (hU : ∀ k, IsUniform μ (U k)) {r : Ω → List ℕ}
    (hr : ∀ ω, multinomial ss w (fun k => U k ω) = .ok (r ω)) :
    Picks μ w U (fun _ u => ss (forceLast N (cum w)) u) r := by
  have hN : 0 < N := by
    rcases Nat.eq_zero_or_pos N with h | h
    · subst h; have := hw.total; simp at this
    · exact h
  have hcum : ∀ j < N, forceLast N (cum w) j = cum w j := by
    intro j hj
    unfold forceLast
    split_ifs with h
    · rw [cum_last (by omega), hw.total]
    · rfl
  have hle : ∀ v j, j < N → (ss (forceLast N (cum w)) v ≤ j ↔ v ≤ cum w j) := by
    intro v j hj
    rw [search_le_iff hss _ _ hj, hcum j hj]
    intro a b hab hb
    rw [hcum a (by omega), hcum b hb]
    exact cum_mono hw.nonneg hab
  have hmono : Monotone (fun u => ss (forceLast N (cum w)) u) := by
    intro a b hab
    by_cases hb : ss (forceLast N (cum w)) b < N
    · exact (hle a _ hb).2 (hab.trans ((hle b _ hb).1 le_rfl))
    · have := (hss (forceLast N (cum w)) a).1
      change ss _ a ≤ ss _ b
      omega
  refine ⟨fun _ => hmono.measurable, fun k ω _ => ?_, fun ω => ?_,
    C66_multinomial_unbiased hss hw hU hr⟩
  · have := (hle (U k ω) (N - 1) (by omega)).2 (by
      rw [cum_last (by omega), hw.total]; exact ((hU k).draw ω).2.le)
    omega
  · have h1 := hr ω
    unfold multinomial at h1
    rw [if_neg (by omega)] at h1
    exact (Except.ok.inj h1).symm

theorem weights_pos {w : Fin N → ℝ} (hw : IsWeights w) : 0 < N := by
  rcases Nat.eq_zero_or_pos N with h | h
  · subst h; have := hw.total; simp at this
  · exact h

/-- **C104.** Multinomial resampling: the average of anything over the resampled particles is
right on average, and its variance is the population variance divided by the number of
particles. -/
theorem C104_multinomial {μ : Measure Ω} [IsProbabilityMeasure μ]
    {ss : (ℕ → ℝ) → ℝ → ℕ} (hss : IsSearchSorted N ss) {w : Fin N → ℝ}
    (hw : IsWeights w) {U : ℕ → Ω → ℝ} (hU : ∀ k, IsUniform μ (U k)) (hi : iIndepFun U μ)
    {r : Ω → List ℕ} (hr : ∀ ω, multinomial ss w (fun k => U k ω) = .ok (r ω)) (f : ℕ → ℝ) :
    ∫ ω, resampledMean f (r ω) ∂μ = weightedMean w f ∧
      Var[fun ω => resampledMean f (r ω); μ] = weightedVar w f / N := by
  have hN := weights_pos hw
  have hN' : (N : ℝ) ≠ 0 := by exact_mod_cast hN.ne'
  have h := multinomial_picks hss hw hU hr
  have hm := fun k => (hU k).meas
  refine ⟨h.mean hm f hN, ?_⟩
  rw [h.variance hm hi f, weightedVar_eq hw]
  have same : ∀ k, ∫ ω, f (ss (forceLast N (cum w)) (U k ω)) ∂μ =
      ∫ u, f (ss (forceLast N (cum w)) u) ∂(volume.restrict (Set.Ico (0 : ℝ) 1)) := by
    intro k
    rw [← (hU k).law, integral_map (hm k).aemeasurable]
    exact ((measurable_from_nat (f := f)).comp (h.meas k)).aestronglyMeasurable
  have e := h.sum_mean hm f
  simp only [same, Finset.sum_const, Finset.card_range, nsmul_eq_mul] at e ⊢
  rw [mul_left_cancel₀ hN' e]
  field_simp

/-- **C104.** Stratified resampling is as unbiased and never noisier than multinomial resampling,
whatever the weights and whatever is averaged. -/
theorem C104_stratified {μ : Measure Ω} [IsProbabilityMeasure μ] {w : Fin N → ℝ}
    (hw : IsWeights w) {U : ℕ → Ω → ℝ} (hU : ∀ k, IsUniform μ (U k)) (hi : iIndepFun U μ)
    {r : Ω → List ℕ} (hr : ∀ ω, stratified w (fun k => U k ω) = .ok (r ω)) (f : ℕ → ℝ) :
    ∫ ω, resampledMean f (r ω) ∂μ = weightedMean w f ∧
      Var[fun ω => resampledMean f (r ω); μ] ≤ weightedVar w f / N := by
  have hN := weights_pos hw
  have hN' : (0 : ℝ) < N := by exact_mod_cast hN
  have h := stratified_picks hw hU hr
  have hm := fun k => (hU k).meas
  refine ⟨h.mean hm f hN, ?_⟩
  rw [h.variance hm hi f, weightedVar_eq hw]
  have e := h.sum_mean hm f
  have cs := sq_sum_le_card_mul_sum_sq (s := Finset.range N)
    (f := fun k => ∫ ω, f (fallsOn w ((U k ω + k) / N)) ∂μ)
  rw [e, Finset.card_range] at cs
  set S := ∑ k ∈ Finset.range N, (∫ ω, f (fallsOn w ((U k ω + k) / N)) ∂μ) ^ 2
  have : (N : ℝ) * weightedMean w f ^ 2 ≤ S := by
    have : (N : ℝ) * (N * weightedMean w f ^ 2) ≤ N * S := by nlinarith
    exact le_of_mul_le_mul_left this hN'
  rw [le_div_iff₀ hN', inv_pow, inv_mul_eq_div, div_mul_eq_mul_div, div_le_iff₀ (by positivity)]
  nlinarith

/-- **C104.** Systematic resampling is unbiased for averages too. -/
theorem C104_systematic_mean {μ : Measure Ω} [IsProbabilityMeasure μ] {w : Fin N → ℝ}
    (hw : IsWeights w) {U : Ω → ℝ} (hU : IsUniform μ U)
    {r : Ω → List ℕ} (hr : ∀ ω, systematic w (U ω) = .ok (r ω)) (f : ℕ → ℝ) :
    ∫ ω, resampledMean f (r ω) ∂μ = weightedMean w f :=
  (stratified_picks hw (U := fun _ => U) (fun _ => hU) hr).mean (fun _ => hU.meas) f
    (weights_pos hw)

theorem count_variance {μ : Measure Ω} [IsProbabilityMeasure μ] {c : Ω → ℕ} {a : ℝ}
    (hc : MemLp (fun ω => (c ω : ℝ)) 2 μ) (ha : ∫ ω, (c ω : ℝ) ∂μ = a) :
    Var[fun ω => (c ω : ℝ); μ] = Int.fract a * (1 - Int.fract a) +
      ∫ ω, ((c ω : ℝ) - ⌊a⌋) * (c ω - ⌊a⌋ - 1) ∂μ := by
  set m : ℝ := (⌊a⌋ : ℝ) with hm
  have hf : Int.fract a = a - m := rfl
  have h1 : Integrable (fun ω => (c ω : ℝ)) μ := hc.integrable (by norm_num)
  have h2 : Integrable (fun ω => (c ω : ℝ) ^ 2) μ := hc.integrable_sq
  have h3 : Integrable (fun ω => (2 * m + 1) * (c ω : ℝ)) μ := h1.const_mul _
  have h4 : Integrable (fun ω => (c ω : ℝ) ^ 2 - (2 * m + 1) * (c ω : ℝ)) μ := h2.sub h3
  have e : (fun ω => ((c ω : ℝ) - m) * (c ω - m - 1)) =
      fun ω => ((c ω : ℝ) ^ 2 - (2 * m + 1) * c ω) + m * (m + 1) := by funext ω; ring
  rw [e, integral_add h4 (integrable_const _), integral_sub h2 h3, integral_const_mul, ha,
    variance_eq_sub hc]
  simp only [Pi.pow_apply, integral_const, probReal_univ, one_smul]
  rw [ha, hf]
  ring

/-- **C104.** Whatever the resampler, a number of copies that is right on average has at least
this variance. -/
theorem C104_count_bound {μ : Measure Ω} [IsProbabilityMeasure μ] {c : Ω → ℕ} {a : ℝ}
    (hc : MemLp (fun ω => (c ω : ℝ)) 2 μ) (ha : ∫ ω, (c ω : ℝ) ∂μ = a) :
    Int.fract a * (1 - Int.fract a) ≤ Var[fun ω => (c ω : ℝ); μ] := by
  rw [count_variance hc ha, le_add_iff_nonneg_right]
  apply integral_nonneg
  intro ω
  have e2 : ((c ω : ℝ) - ⌊a⌋) * (c ω - ⌊a⌋ - 1) =
      ((((c ω : ℤ) - ⌊a⌋) * ((c ω : ℤ) - ⌊a⌋ - 1) : ℤ) : ℝ) := by push_cast; ring
  change 0 ≤ ((c ω : ℝ) - ⌊a⌋) * (c ω - ⌊a⌋ - 1)
  rw [e2]
  norm_cast
  rcases le_or_gt ((c ω : ℤ) - ⌊a⌋) 0 with h | h
  · nlinarith
  · exact mul_nonneg h.le (by omega)

/-- **C104.** Systematic resampling attains that bound for every particle: no unbiased resampler
makes the number of copies of a particle less variable. -/
theorem C104_systematic_count {μ : Measure Ω} [IsProbabilityMeasure μ] {w : Fin N → ℝ}
    (hw : IsWeights w) {U : Ω → ℝ} (hU : IsUniform μ U)
    {r : Ω → List ℕ} (hr : ∀ ω, systematic w (U ω) = .ok (r ω)) (i : Fin N) :
    Var[fun ω => ((r ω).count (i : ℕ) : ℝ); μ] =
      Int.fract (N * w i) * (1 - Int.fract (N * w i)) := by
  have h := stratified_picks hw (U := fun _ => U) (fun _ => hU) hr
  have h0 : 0 ≤ (N : ℝ) * w i := mul_nonneg (Nat.cast_nonneg _) (hw.nonneg i)
  have hc : MemLp (fun ω => ((r ω).count (i : ℕ) : ℝ)) 2 μ := by
    simp only [h.eq, count_map_range]
    exact memLp_finsetSum _ fun k hk =>
      h.memLp (fun _ => hU.meas) (fun a => if a = i then (1 : ℝ) else 0) (Finset.mem_range.1 hk)
  rw [count_variance hc (C66_systematic_unbiased hw hU hr i)]
  have e : (fun ω => (((r ω).count (i : ℕ) : ℝ) - ⌊(N : ℝ) * w i⌋) *
      ((r ω).count (i : ℕ) - ⌊(N : ℝ) * w i⌋ - 1)) = fun _ => 0 := by
    funext ω
    obtain ⟨r', h1, h2⟩ := C45_systematic_counts hw (hU.draw ω)
    rw [hr ω] at h1
    obtain rfl := Except.ok.inj h1
    have hfl : ((⌊(N : ℝ) * w i⌋₊ : ℕ) : ℝ) = ⌊(N : ℝ) * w i⌋ := by
      rw [← Int.natCast_floor_eq_floor h0]; rfl
    rcases h2 i with h3 | h3
    · rw [h3, hfl, sub_self, zero_mul]
    · rw [h3]
      have := Nat.ceil_le_floor_add_one ((N : ℝ) * w i)
      have := Nat.floor_le_ceil ((N : ℝ) * w i)
      rcases (show ⌈(N : ℝ) * w i⌉₊ = ⌊(N : ℝ) * w i⌋₊ ∨
        ⌈(N : ℝ) * w i⌉₊ = ⌊(N : ℝ) * w i⌋₊ + 1 by omega) with h4 | h4
      · rw [h4, hfl, sub_self, zero_mul]
      · rw [h4, Nat.cast_add, hfl]; simp
  rw [e, integral_zero, add_zero]

/-- **C104.** But for averages over several particles systematic resampling gives no such
guarantee: here it is noisier than multinomial resampling. -/
theorem C104_systematic_refuted {μ : Measure Ω} [IsProbabilityMeasure μ] {U : Ω → ℝ}
    (hU : IsUniform μ U) {r : Ω → List ℕ}
    (hr : ∀ ω, systematic ![(1 / 8 : ℝ), 1 / 8, 1 / 8, 5 / 8] (U ω) = .ok (r ω)) :
    IsWeights ![(1 / 8 : ℝ), 1 / 8, 1 / 8, 5 / 8] ∧
    weightedVar ![(1 / 8 : ℝ), 1 / 8, 1 / 8, 5 / 8] (fun i => if i = 0 ∨ i = 2 then 1 else 0) / (4 : ℕ) <
      Var[fun ω => resampledMean (fun i => if i = 0 ∨ i = 2 then 1 else 0) (r ω); μ] := by
  have hw : IsWeights ![(1 / 8 : ℝ), 1 / 8, 1 / 8, 5 / 8] := by
    constructor
    · intro i; fin_cases i <;> norm_num
    · rw [Fin.sum_univ_four]; norm_num [Matrix.cons_val_two, Matrix.cons_val_three]
  refine ⟨hw, ?_⟩
  have h := stratified_picks hw (U := fun _ => U) (fun _ => hU) hr
  obtain ⟨φ, hφ⟩ : ∃ φ : ℕ → ℝ, φ = fun i => if i = 0 ∨ i = 2 then 1 else 0 := ⟨_, rfl⟩
  rw [← hφ]
  have p0 : φ 0 = 1 := by simp [hφ]
  have p1 : φ 1 = 0 := by simp [hφ]
  have p2 : φ 2 = 1 := by simp [hφ]
  have p3 : φ 3 = 0 := by simp [hφ]
  have c0 : cum ![(1 / 8 : ℝ), 1 / 8, 1 / 8, 5 / 8] 0 = 1 / 8 := by simp [cum_zero]
  have c1 : cum ![(1 / 8 : ℝ), 1 / 8, 1 / 8, 5 / 8] 1 = 1 / 4 := by
    rw [cum_succ (by norm_num), c0]; norm_num
  have c2 : cum ![(1 / 8 : ℝ), 1 / 8, 1 / 8, 5 / 8] 2 = 3 / 8 := by
    rw [cum_succ (by norm_num), c1]; simp; norm_num
  have c3 : cum ![(1 / 8 : ℝ), 1 / 8, 1 / 8, 5 / 8] 3 = 1 := by
    rw [cum_succ (by norm_num), c2]; simp; norm_num
  have e : (fun ω => resampledMean φ (r ω)) =
      fun ω => (1 / 2 : ℝ) * Set.indicator {ω | U ω < 1 / 2} (fun _ => (1 : ℝ)) ω := by
    rw [h.resampled]
    funext ω
    obtain ⟨u0, u1⟩ := hU.draw ω
    have fo := @fallsOn_eq 4 ![(1 / 8 : ℝ), 1 / 8, 1 / 8, 5 / 8] hw.nonneg
    simp only [Finset.sum_range_succ, Finset.sum_range_zero]
    push_cast
    have f2 : fallsOn ![(1 / 8 : ℝ), 1 / 8, 1 / 8, 5 / 8] ((U ω + 2) / 4) = 3 := by
      apply fo (by norm_num)
      · rw [c3]; linarith
      · intro j hj; interval_cases j <;> simp only [c0, c1, c2] <;> linarith
    have f3 : fallsOn ![(1 / 8 : ℝ), 1 / 8, 1 / 8, 5 / 8] ((U ω + 3) / 4) = 3 := by
      apply fo (by norm_num)
      · rw [c3]; linarith
      · intro j hj; interval_cases j <;> simp only [c0, c1, c2] <;> linarith
    rw [f2, f3, p3]
    by_cases hu : U ω < 1 / 2
    · have f0 : fallsOn ![(1 / 8 : ℝ), 1 / 8, 1 / 8, 5 / 8] ((U ω + 0) / 4) = 0 := by
        apply fo (by norm_num)
        · rw [c0]; linarith
        · intro j hj; omega
      have f1 : fallsOn ![(1 / 8 : ℝ), 1 / 8, 1 / 8, 5 / 8] ((U ω + 1) / 4) = 2 := by
        apply fo (by norm_num)
        · rw [c2]; linarith
        · intro j hj; interval_cases j <;> simp only [c0, c1] <;> linarith
      rw [f0, f1, Set.indicator_of_mem (by exact hu), p0, p2]
      norm_num
    · have f0 : fallsOn ![(1 / 8 : ℝ), 1 / 8, 1 / 8, 5 / 8] ((U ω + 0) / 4) = 1 := by
        apply fo (by norm_num)
        · rw [c1]; linarith
        · intro j hj; interval_cases j; rw [c0]; linarith
      have f1 : fallsOn ![(1 / 8 : ℝ), 1 / 8, 1 / 8, 5 / 8] ((U ω + 1) / 4) = 3 := by
        apply fo (by norm_num)
        · rw [c3]; linarith
        · intro j hj; interval_cases j <;> simp only [c0, c1, c2] <;> linarith
      rw [f0, f1, Set.indicator_of_notMem (by exact hu), p1, p3]
      norm_num
  have hs : MeasurableSet {ω | U ω < 1 / 2} := measurableSet_lt hU.meas measurable_const
  have hp : μ.real {ω | U ω < 1 / 2} = 1 / 2 := by rw [uniform_lt hU]; norm_num
  have hl : MemLp (Set.indicator {ω | U ω < 1 / 2} (fun _ => (1 : ℝ))) 2 μ :=
    (memLp_const 1).indicator hs
  rw [e, variance_const_mul, variance_eq_sub hl]
  have sq : (Set.indicator {ω | U ω < 1 / 2} (fun _ => (1 : ℝ))) ^ 2 =
      Set.indicator {ω | U ω < 1 / 2} (fun _ => (1 : ℝ)) := by
    funext ω
    by_cases hu : ω ∈ {ω | U ω < 1 / 2}
    · simp only [Pi.pow_apply, Set.indicator_of_mem hu]; norm_num
    · simp only [Pi.pow_apply, Set.indicator_of_notMem hu]; norm_num
  have hint : ∫ ω, Set.indicator {ω | U ω < 1 / 2} (fun _ => (1 : ℝ)) ω ∂μ = 1 / 2 := by
    rw [integral_indicator_const _ hs, hp]; norm_num
  rw [sq, hint]
  simp only [weightedVar, weightedMean, Fin.sum_univ_four]
  norm_num [p0, p1, p2, p3, Matrix.cons_val_two, Matrix.cons_val_three]

/-- Independent uniform draws exist, and with them every resampler returns an answer for every
outcome: the hypotheses of the theorems above are met for any weights. -/
example {w : Fin N → ℝ} (hw : IsWeights w) {ss : (ℕ → ℝ) → ℝ → ℕ} :
    ∃ (Ω : Type) (_ : MeasurableSpace Ω) (μ : Measure Ω) (U : ℕ → Ω → ℝ) (r1 r2 r3 : Ω → List ℕ),
      IsProbabilityMeasure μ ∧ (∀ k, IsUniform μ (U k)) ∧ iIndepFun U μ ∧
      (∀ ω, stratified w (fun k => U k ω) = .ok (r1 ω)) ∧
      (∀ ω, systematic w (U 0 ω) = .ok (r2 ω)) ∧
      (∀ ω, multinomial ss w (fun k => U k ω) = .ok (r3 ω)) := by
  let ν : Measure (Set.Ico (0 : ℝ) 1) := Measure.comap Subtype.val volume
  have hν : IsProbabilityMeasure ν := by
    constructor
    rw [Measure.comap_apply _ Subtype.val_injective
      (fun s hs => MeasurableSet.subtype_image measurableSet_Ico hs) _ MeasurableSet.univ, Set.image_univ,
      Subtype.range_coe, Real.volume_Ico]
    simp
  have hU : ∀ k, IsUniform (Measure.infinitePi fun _ : ℕ => ν)
      (fun ω : ℕ → Set.Ico (0 : ℝ) 1 => (ω k : ℝ)) := by
    intro k
    refine ⟨measurable_subtype_coe.comp (measurable_pi_apply k), fun ω => ⟨(ω k).2.1, (ω k).2.2⟩, ?_⟩
    have := (measurePreserving_eval_infinitePi (fun _ : ℕ => ν) k).map_eq
    rw [show (fun ω : ℕ → Set.Ico (0 : ℝ) 1 => (ω k : ℝ)) = Subtype.val ∘ (fun ω => ω k) from rfl,
      ← Measure.map_map measurable_subtype_coe (measurable_pi_apply k)]
    erw [this]
    exact map_comap_subtype_coe measurableSet_Ico _
  have h1 := fun ω => C44_stratified hw (u := fun k => ((ω : ℕ → Set.Ico (0 : ℝ) 1) k : ℝ))
    (fun k => (hU k).draw ω)
  have h2 := fun ω => C44_systematic hw ((hU 0).draw ω)
  choose r1 h1 _ using h1
  choose r2 h2 _ using h2
  have h3 : ∀ ω : ℕ → Set.Ico (0 : ℝ) 1, ∃ r, multinomial ss w (fun k => (ω k : ℝ)) = .ok r := by
    intro ω
    unfold multinomial
    rw [if_neg (weights_pos hw).ne']
    exact ⟨_, rfl⟩
  choose r3 h3 using h3
  refine ⟨_, inferInstance, _, _, r1, r2, r3, inferInstance, hU, ?_, h1, h2, h3⟩
  exact iIndepFun_infinitePi (X := fun _ (ω : Set.Ico (0 : ℝ) 1) => (ω : ℝ)) (by fun_prop)

end Filterpy
