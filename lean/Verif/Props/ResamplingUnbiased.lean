import Verif.Props.Resampling
import Mathlib.MeasureTheory.Integral.Bochner.Set
import Mathlib.MeasureTheory.Measure.Lebesgue.Basic

/-!
# Resampling is unbiased: C66
-/

namespace Filterpy

open Spec Resampling MeasureTheory

variable {N : ℕ} {Ω : Type*} [MeasurableSpace Ω]

/-- `U` is a draw of `random()`: it takes values in `[0, 1)` and is uniformly distributed there. -/
structure Spec.IsUniform (μ : Measure Ω) (U : Ω → ℝ) : Prop where
  meas : Measurable U
  draw : ∀ ω, IsDraw (U ω)
  law : μ.map U = volume.restrict (Set.Ico 0 1)

theorem uniform_lt {μ : Measure Ω} {U : Ω → ℝ} (h : IsUniform μ U) (t : ℝ) :
    μ.real {ω | U ω < t} = min 1 (max 0 t) := by
  have e : {ω | U ω < t} = U ⁻¹' (Set.Iio t) := rfl
  rw [e, ← map_measureReal_apply h.meas measurableSet_Iio, h.law, measureReal_restrict_apply measurableSet_Iio]
  have : Set.Iio t ∩ Set.Ico 0 1 = Set.Ico 0 (min 1 t) := by
    ext x; simp only [Set.mem_inter_iff, Set.mem_Iio, Set.mem_Ico, lt_min_iff]; tauto
  rw [this, Real.volume_real_Ico]
  rcases le_total t 0 with h1 | h1 <;> rcases le_total t 1 with h2 | h2 <;>
    simp [h1, h2] <;> linarith

theorem uniform_le {μ : Measure Ω} {U : Ω → ℝ} (h : IsUniform μ U) {t : ℝ} (h0 : 0 ≤ t)
    (h1 : t ≤ 1) : μ.real {ω | U ω ≤ t} = t := by
  have e : {ω | U ω ≤ t} = U ⁻¹' (Set.Iic t) := rfl
  rw [e, ← map_measureReal_apply h.meas measurableSet_Iic, h.law, measureReal_restrict_apply measurableSet_Iic]
  rcases h1.lt_or_eq with h2 | h2
  · have : Set.Iic t ∩ Set.Ico 0 1 = Set.Icc 0 t := by
      ext x; simp only [Set.mem_inter_iff, Set.mem_Iic, Set.mem_Ico, Set.mem_Icc]
      constructor
      · tauto
      · rintro ⟨a, b⟩; exact ⟨b, a, by linarith⟩
    rw [this, Real.volume_real_Icc]; simp [h0]
  · have : Set.Iic t ∩ Set.Ico 0 1 = Set.Ico 0 1 := by
      ext x; simp only [Set.mem_inter_iff, Set.mem_Iic, Set.mem_Ico]
      constructor
      · tauto
      · rintro ⟨a, b⟩; exact ⟨by linarith, a, b⟩
    rw [this, Real.volume_real_Ico]; simp [h2]

theorem sum_clamp {x : ℝ} (hx : 0 ≤ x) (n : ℕ) :
    ∑ k ∈ Finset.range n, min 1 (max 0 (x - k)) = min x n := by
  induction n with
  | zero => simp [hx]
  | succ n ih =>
    rw [Finset.sum_range_succ, ih]
    push_cast
    rcases le_total x n with h1 | h1
    · rw [min_eq_left h1, max_eq_left (by linarith), min_eq_left (by linarith : x ≤ n + 1)]
      simp
    · rw [min_eq_right h1, max_eq_right (by linarith)]
      rcases le_total x (n + 1) with h2 | h2
      · rw [min_eq_left h2, min_eq_right (by linarith)]; ring
      · rw [min_eq_right h2, min_eq_left (by linarith)]

open Classical in
theorem integral_count {μ : Measure Ω} [IsProbabilityMeasure μ] {p : Ω → ℕ → Prop}
    (hp : ∀ k, MeasurableSet {ω | p ω k}) (n : ℕ) :
    Integrable (fun ω => (Nat.count (p ω) n : ℝ)) μ ∧
    ∫ ω, (Nat.count (p ω) n : ℝ) ∂μ = ∑ k ∈ Finset.range n, μ.real {ω | p ω k} := by
  have e : (fun ω => (Nat.count (p ω) n : ℝ)) =
      fun ω => ∑ k ∈ Finset.range n, Set.indicator {ω | p ω k} (fun _ => (1 : ℝ)) ω := by
    funext ω
    induction n with
    | zero => simp
    | succ n ih =>
      rw [Nat.count_succ, Finset.sum_range_succ, ← ih]
      push_cast
      congr 1
  have hi : ∀ k, Integrable (Set.indicator {ω | p ω k} (fun _ => (1 : ℝ))) μ := fun k =>
    (integrable_const 1).indicator (hp k)
  rw [e]
  refine ⟨integrable_finset_sum _ fun k _ => hi k, ?_⟩
  rw [integral_finset_sum _ fun k _ => hi k]
  apply Finset.sum_congr rfl
  intro k _
  rw [integral_indicator_const _ (hp k)]
  simp

/-- From the expected number of picks up to each index to the expected number of picks of each. -/
theorem expected_count {μ : Measure Ω} {w : Fin N → ℝ} {r : Ω → List ℕ}
    (h : ∀ j < N, Integrable (fun ω => ((r ω).countP (fun i => decide (i ≤ j)) : ℝ)) μ ∧
      ∫ ω, ((r ω).countP (fun i => decide (i ≤ j)) : ℝ) ∂μ = N * cum w j) (i : Fin N) :
    ∫ ω, ((r ω).count (i : ℕ) : ℝ) ∂μ = N * w i := by
  obtain ⟨i, hi⟩ := i
  cases i with
  | zero =>
    have := (h 0 hi).2
    simp only [countP_zero'] at this
    rw [cum_zero hi] at this
    exact this
  | succ a =>
    have e : (fun ω => ((r ω).count (a + 1) : ℝ)) = fun ω =>
        ((r ω).countP (fun i => decide (i ≤ a + 1)) : ℝ) -
          ((r ω).countP (fun i => decide (i ≤ a)) : ℝ) := by
      funext ω
      rw [countP_succ]
      push_cast
      ring
    simp only [e]
    rw [integral_sub (h _ hi).1 (h a (by omega)).1, (h _ hi).2, (h a (by omega)).2, cum_succ hi]
    ring

theorem cum_le_one {w : Fin N → ℝ} (hw : IsWeights w) (j : ℕ) : cum w j ≤ 1 := by
  rw [← hw.total, ← cum_last (w := w) (a := max j N) (by omega)]
  exact cum_mono hw.nonneg (le_max_left _ _)

/-- **C66.** `stratified_resample` is unbiased: if each of its draws is uniform on `[0, 1)`
(whatever their joint law), the expected number of copies of particle `i` is `N w_i`. -/
theorem C66_stratified_unbiased {μ : Measure Ω} [IsProbabilityMeasure μ] {w : Fin N → ℝ}
    (hw : IsWeights w) {U : ℕ → Ω → ℝ} (hU : ∀ k, IsUniform μ (U k)) {r : Ω → List ℕ}
    (hr : ∀ ω, stratified w (fun k => U k ω) = .ok (r ω)) (i : Fin N) :
    ∫ ω, ((r ω).count (i : ℕ) : ℝ) ∂μ = N * w i := by
  classical
  have hN : 0 < N := i.pos
  have hN' : (0 : ℝ) < N := by exact_mod_cast hN
  apply expected_count
  intro j _
  have e : (fun ω => ((r ω).countP (fun i => decide (i ≤ j)) : ℝ)) =
      fun ω => (Nat.count (fun k => U k ω < N * cum w j - k) N : ℝ) := by
    funext ω
    obtain ⟨r', h1, h2⟩ := stratified_selects hw (u := fun k => U k ω) (fun k => (hU k).draw ω)
    rw [hr ω] at h1
    obtain rfl := Except.ok.inj h1
    rw [selects_countP hw.nonneg h2]
    congr 1
    apply count_congr_lt
    intro k _
    rw [div_lt_iff₀ hN']
    constructor <;> intro h <;> linarith
  obtain ⟨h1, h2⟩ := integral_count (μ := μ) (p := fun ω k => U k ω < N * cum w j - k)
    (fun k => measurableSet_lt (hU k).meas measurable_const) N
  have e2 : (fun ω => (Nat.count (fun k => U k ω < N * cum w j - k) N : ℝ)) =
    (fun ω => ((@Nat.count (fun k => U k ω < N * cum w j - k)
      (fun _ => Classical.propDecidable _) N : ℕ) : ℝ)) := by
    funext ω; congr 1
  rw [e, e2]
  refine ⟨h1, ?_⟩
  rw [h2]
  simp only [uniform_lt (hU _)]
  have h0 := cum_nonneg hw.nonneg j
  rw [sum_clamp (by positivity), min_eq_left]
  nlinarith [cum_le_one hw j]

/-- **C66.** `systematic_resample` is unbiased. -/
theorem C66_systematic_unbiased {μ : Measure Ω} [IsProbabilityMeasure μ] {w : Fin N → ℝ}
    (hw : IsWeights w) {U : Ω → ℝ} (hU : IsUniform μ U) {r : Ω → List ℕ}
    (hr : ∀ ω, systematic w (U ω) = .ok (r ω)) (i : Fin N) :
    ∫ ω, ((r ω).count (i : ℕ) : ℝ) ∂μ = N * w i :=
  C66_stratified_unbiased hw (U := fun _ => U) (fun _ => hU) hr i

theorem search_le_iff {ss : (ℕ → ℝ) → ℝ → ℕ} (hss : IsSearchSorted N ss) {c : ℕ → ℝ}
    (hc : ∀ a b, a ≤ b → b < N → c a ≤ c b) (v : ℝ) {j : ℕ} (hj : j < N) :
    ss c v ≤ j ↔ v ≤ c j := by
  obtain ⟨h1, h2, h3⟩ := hss c v
  constructor
  · intro h; exact (h3 (by omega)).trans (hc _ _ h hj)
  · intro h
    by_contra h4
    have := h2 (by omega)
    have := hc j (ss c v - 1) (by omega) (by omega)
    linarith

/-- **C66.** `multinomial_resample` is unbiased. -/
theorem C66_multinomial_unbiased {μ : Measure Ω} [IsProbabilityMeasure μ]
    {ss : (ℕ → ℝ) → ℝ → ℕ} (hss : IsSearchSorted N ss) {w : Fin N → ℝ}
    (hw : IsWeights w) {U : ℕ → Ω → ℝ} (hU : ∀ k, IsUniform μ (U k)) {r : Ω → List ℕ}
    (hr : ∀ ω, multinomial ss w (fun k => U k ω) = .ok (r ω)) (i : Fin N) :
    ∫ ω, ((r ω).count (i : ℕ) : ℝ) ∂μ = N * w i := by
  classical
  have hN : 0 < N := i.pos
  apply expected_count
  intro j hj
  have hcum : ∀ j < N, forceLast N (cum w) j = cum w j := by
    intro j hj
    unfold forceLast
    split_ifs with h
    · rw [cum_last (by omega), hw.total]
    · rfl
  have e : (fun ω => ((r ω).countP (fun i => decide (i ≤ j)) : ℝ)) =
      fun ω => (Nat.count (fun k => U k ω ≤ cum w j) N : ℝ) := by
    funext ω
    have h1 := hr ω
    unfold multinomial at h1
    rw [if_neg (by omega)] at h1
    rw [← Except.ok.inj h1, countP_map_range]
    congr 1
    apply count_congr_lt
    intro k _
    rw [search_le_iff hss _ _ hj, hcum j hj]
    intro a b hab hb
    rw [hcum a (by omega), hcum b hb]
    exact cum_mono hw.nonneg hab
  obtain ⟨h1, h2⟩ := integral_count (μ := μ) (p := fun ω k => U k ω ≤ cum w j)
    (fun k => measurableSet_le (hU k).meas measurable_const) N
  have e2 : (fun ω => (Nat.count (fun k => U k ω ≤ cum w j) N : ℝ)) =
    (fun ω => ((@Nat.count (fun k => U k ω ≤ cum w j)
      (fun _ => Classical.propDecidable _) N : ℕ) : ℝ)) := by
    funext ω; congr 1
  rw [e, e2]
  refine ⟨h1, ?_⟩
  rw [h2]
  simp only [uniform_le (hU _) (cum_nonneg hw.nonneg j) (cum_le_one hw j)]
  simp

/-- Uniform draws exist: the sample space `[0, 1)` itself. -/
example : ∃ (Ω : Type) (_ : MeasurableSpace Ω) (μ : Measure Ω) (U : Ω → ℝ),
    IsProbabilityMeasure μ ∧ IsUniform μ U := by
  refine ⟨Set.Ico (0 : ℝ) 1, inferInstance, Measure.comap Subtype.val volume, Subtype.val, ?_,
    measurable_subtype_coe, fun ω => ⟨ω.2.1, ω.2.2⟩, ?_⟩
  · constructor
    rw [comap_subtype_coe_apply measurableSet_Ico, Set.image_univ, Subtype.range_coe,
      Real.volume_Ico]
    simp
  · exact map_comap_subtype_coe measurableSet_Ico _

end Filterpy
