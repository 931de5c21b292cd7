import Verif.Spec.Resampling
import Mathlib.Algebra.Order.Floor.Ring
import Mathlib.Tactic.Linarith
import Mathlib.Tactic.FieldSimp
import Mathlib.Tactic.Ring
import Mathlib.Tactic.NormNum
import Mathlib.Tactic.FinCases
import Mathlib.Data.Finset.Card
import Mathlib.Data.Nat.Count
import Mathlib.Tactic.IntervalCases
import Mathlib.Tactic.Positivity
import Mathlib.Order.Interval.Finset.Fin

/-!
# Resampling: C44, C45, C46, C47
-/

namespace Filterpy

open Spec Resampling

variable {N : ℕ}

/-! ## Cumulative sums -/

theorem cum_mono {w : Fin N → ℝ} (h : ∀ i, 0 ≤ w i) {a b : ℕ} (hab : a ≤ b) :
    cum w a ≤ cum w b := by
  unfold cum
  apply Finset.sum_le_sum
  intro i _
  split_ifs with h1 h2
  · exact le_rfl
  · omega
  · exact h i
  · exact le_rfl

theorem cum_nonneg {w : Fin N → ℝ} (h : ∀ i, 0 ≤ w i) (a : ℕ) : 0 ≤ cum w a := by
  unfold cum
  apply Finset.sum_nonneg
  intro i _
  split_ifs
  · exact h i
  · exact le_rfl

theorem cum_last {w : Fin N → ℝ} {a : ℕ} (ha : N ≤ a + 1) : cum w a = ∑ i, w i := by
  unfold cum
  apply Finset.sum_congr rfl
  intro i _
  rw [if_pos (by omega)]

theorem cum_zero {w : Fin N → ℝ} (h : 0 < N) : cum w 0 = w ⟨0, h⟩ := by
  unfold cum
  rw [Finset.sum_eq_single ⟨0, h⟩]
  · simp
  · intro b _ hb
    rw [if_neg]
    intro h0
    exact hb (Fin.ext (by simpa using h0))
  · simp

theorem cum_succ {w : Fin N → ℝ} {a : ℕ} (h : a + 1 < N) :
    cum w (a + 1) = cum w a + w ⟨a + 1, h⟩ := by
  unfold cum
  have : w ⟨a + 1, h⟩ = ∑ i : Fin N, if i = ⟨a + 1, h⟩ then w i else 0 := by simp
  rw [this, ← Finset.sum_add_distrib]
  apply Finset.sum_congr rfl
  intro i _
  by_cases h1 : (i : ℕ) ≤ a
  · have : i ≠ ⟨a + 1, h⟩ := by intro h2; rw [h2] at h1; simp at h1
    rw [if_pos (by omega), if_pos h1, if_neg this, add_zero]
  · by_cases h2 : i = ⟨a + 1, h⟩
    · rw [if_pos (by rw [h2]), if_neg h1, if_pos h2, zero_add]
    · rw [if_neg, if_neg h1, if_neg h2, add_zero]
      intro h3
      exact h2 (Fin.ext (by simp; omega))

/-! ## The merge loop -/

/-- The loop of the systematic and stratified resamplers: for nondecreasing positions and a table
whose last entry exceeds them all it ends normally, and entry `k` of the result is the first
table index whose cumulative weight exceeds position `k`. -/
theorem merge_spec {pos cs : ℕ → ℝ} (hp : ∀ i j, i ≤ j → j < N → pos i ≤ pos j)
    (hl : ∀ i < N, pos i < cs (N - 1)) (i j : ℕ) (hi : i ≤ N)
    (hj : i < N → j < N ∧ ∀ j' < j, cs j' ≤ pos i) :
    ∃ r, merge N pos cs i j = .ok r ∧ r.length = N - i ∧
      ∀ k (hk : k < r.length), r[k] < N ∧ pos (i + k) < cs r[k] ∧
        ∀ j' < r[k], cs j' ≤ pos (i + k) := by
  generalize hm : (N - i) + (N - j) = t
  induction t using Nat.strong_induction_on generalizing i j with
  | _ t ih =>
    rw [merge]
    by_cases h1 : i < N
    · obtain ⟨hjN, hinv⟩ := hj h1
      rw [if_pos h1, if_pos hjN]
      by_cases h2 : pos i < cs j
      · rw [if_pos h2]
        obtain ⟨r, e1, e2, e3⟩ := ih _ (by omega) (i + 1) j (by omega)
          (fun h => ⟨hjN, fun j' hj' => (hinv j' hj').trans (hp i (i + 1) (by omega) h)⟩) rfl
        rw [e1]
        refine ⟨j :: r, rfl, by simp [e2]; omega, ?_⟩
        intro k hk
        cases k with
        | zero => exact ⟨hjN, h2, hinv⟩
        | succ k =>
          have := e3 k (by simpa using hk)
          simpa [Nat.add_assoc, Nat.add_comm 1 k] using this
      · rw [if_neg h2]
        have hj1 : j + 1 < N := by
          by_contra h3
          have : j = N - 1 := by omega
          rw [this] at h2
          exact h2 (hl i h1)
        apply ih _ (by omega) i (j + 1) hi _ rfl
        intro _
        refine ⟨hj1, fun j' hj' => ?_⟩
        rcases Nat.lt_succ_iff_lt_or_eq.1 hj' with h3 | h3
        · exact hinv j' h3
        · rw [h3]; exact not_lt.1 h2
    · rw [if_neg h1]
      exact ⟨[], rfl, by simp; omega, fun k hk => absurd hk (by simp)⟩

/-- What both loop-based resamplers return, in terms of their positions. -/
structure Selects (w : Fin N → ℝ) (pos : ℕ → ℝ) (r : List ℕ) : Prop where
  length : r.length = N
  spec : ∀ k (hk : k < r.length), r[k] < N ∧ pos k < cum w r[k] ∧
    ∀ j' < r[k], cum w j' ≤ pos k

theorem strat_pos_mono {u : ℕ → ℝ} (hu : ∀ i, IsDraw (u i)) (hN : 0 < N) (i j : ℕ) (h : i ≤ j) :
    (u i + i) / N ≤ (u j + j) / N := by
  have hN' : (0 : ℝ) < N := by exact_mod_cast hN
  rw [div_le_div_iff_of_pos_right hN']
  rcases Nat.lt_or_ge i j with h1 | h1
  · have : (i : ℝ) + 1 ≤ j := by exact_mod_cast h1
    have := (hu i).2; have := (hu j).1
    linarith
  · rw [show i = j by omega]

theorem stratified_selects {w : Fin N → ℝ} (hw : IsWeights w) {u : ℕ → ℝ}
    (hu : ∀ i, IsDraw (u i)) :
    ∃ r, stratified w u = .ok r ∧ Selects w (fun i => (u i + i) / N) r := by
  have hN : 0 < N := by
    rcases Nat.eq_zero_or_pos N with h | h
    · subst h; have := hw.total; simp at this
    · exact h
  have hN' : (0 : ℝ) < N := by exact_mod_cast hN
  obtain ⟨r, h1, h2, h3⟩ := merge_spec (N := N) (pos := fun i => (u i + i) / N) (cs := cum w)
    (fun i j h _ => strat_pos_mono hu hN i j h)
    (fun i hi => by
      rw [cum_last (by omega), hw.total, div_lt_one hN']
      have : (i : ℝ) + 1 ≤ N := by exact_mod_cast hi
      have := (hu i).2
      linarith) 0 0 (by omega) (fun h => ⟨h, fun j' hj' => absurd hj' (by omega)⟩)
  exact ⟨r, h1, by simpa using h2, fun k hk => by simpa using h3 k hk⟩

theorem systematic_eq (w : Fin N → ℝ) (u : ℝ) : systematic w u = stratified w (fun _ => u) := rfl

theorem systematic_selects {w : Fin N → ℝ} (hw : IsWeights w) {u : ℝ} (hu : IsDraw u) :
    ∃ r, systematic w u = .ok r ∧ Selects w (fun i => (u + i) / N) r :=
  stratified_selects hw (u := fun _ => u) (fun _ => hu)

theorem selects_facts {w : Fin N → ℝ} {pos : ℕ → ℝ} {r : List ℕ}
    (hp : ∀ i j, i ≤ j → pos i ≤ pos j) (hp0 : ∀ i, 0 ≤ pos i) (h : Selects w pos r) :
    r.length = N ∧ (∀ j ∈ r, ∃ hj : j < N, 0 < w ⟨j, hj⟩) ∧ r.Pairwise (· ≤ ·) := by
  refine ⟨h.length, ?_, ?_⟩
  · intro j hj
    obtain ⟨k, hk, rfl⟩ := List.getElem_of_mem hj
    obtain ⟨h1, h2, h3⟩ := h.spec k hk
    refine ⟨h1, ?_⟩
    rcases Nat.eq_zero_or_pos r[k] with h0 | h0
    · have hN : 0 < N := by omega
      rw [h0, cum_zero hN] at h2
      have : w ⟨r[k], h1⟩ = w ⟨0, hN⟩ := by congr 1; exact Fin.ext h0
      rw [this]; exact lt_of_le_of_lt (hp0 k) h2
    · have h4 := h3 (r[k] - 1) (by omega)
      have h5 : cum w r[k] = cum w (r[k] - 1) + w ⟨r[k], h1⟩ := by
        have key : ∀ a (ha : a < N), 0 < a → cum w a = cum w (a - 1) + w ⟨a, ha⟩ := by
          intro a ha ha0
          obtain ⟨b, rfl⟩ : ∃ b, a = b + 1 := ⟨a - 1, by omega⟩
          exact cum_succ ha
        exact key _ h1 h0
      linarith
  · rw [List.pairwise_iff_getElem]
    intro i j hi hj hij
    by_contra hlt
    push Not at hlt
    have h1 := (h.spec i hi).2.2 _ hlt
    have h2 := (h.spec j hj).2.1
    have h3 := hp i j (by omega)
    linarith

/-- **C44.** `systematic_resample`: for normalised weights and every draw it ends without an
exception and returns `N` indices in nondecreasing order, each in range and with a positive
weight. -/
theorem C44_systematic {w : Fin N → ℝ} (hw : IsWeights w) {u : ℝ} (hu : IsDraw u) :
    ∃ r, systematic w u = .ok r ∧ r.length = N ∧ (∀ j ∈ r, ∃ hj : j < N, 0 < w ⟨j, hj⟩) ∧
      r.Pairwise (· ≤ ·) := by
  obtain ⟨r, h1, h2⟩ := systematic_selects hw hu
  refine ⟨r, h1, selects_facts ?_ ?_ h2⟩
  · intro i j hij
    rcases Nat.eq_zero_or_pos N with h | h
    · simp [h]
    · exact strat_pos_mono (u := fun _ => u) (fun _ => hu) h i j hij
  · intro i; have := hu.1; positivity

/-- **C44.** `stratified_resample`: the same, for every vector of draws. -/
theorem C44_stratified {w : Fin N → ℝ} (hw : IsWeights w) {u : ℕ → ℝ} (hu : ∀ i, IsDraw (u i)) :
    ∃ r, stratified w u = .ok r ∧ r.length = N ∧ (∀ j ∈ r, ∃ hj : j < N, 0 < w ⟨j, hj⟩) ∧
      r.Pairwise (· ≤ ·) := by
  obtain ⟨r, h1, h2⟩ := stratified_selects hw hu
  refine ⟨r, h1, selects_facts ?_ ?_ h2⟩
  · intro i j hij
    rcases Nat.eq_zero_or_pos N with h | h
    · simp [h]
    · exact strat_pos_mono hu h i j hij
  · intro i; have := (hu i).1; positivity

/-- **C44.** `multinomial_resample`, for every correct binary search: `N` indices in range; an
index of weight zero is picked only by the draw `0.0`, and then it is index `0`. -/
theorem C44_multinomial_partial {ss : (ℕ → ℝ) → ℝ → ℕ} (hss : IsSearchSorted N ss) {w : Fin N → ℝ}
    (hw : IsWeights w) {u : ℕ → ℝ} (hu : ∀ i, IsDraw (u i)) :
    ∃ r, multinomial ss w u = .ok r ∧ ∃ hr : r.length = N,
      ∀ k (hk : k < N), ∃ hj : r[k] < N, 0 < w ⟨r[k], hj⟩ ∨ (r[k] = 0 ∧ u k = 0) := by
  have hN : 0 < N := by
    rcases Nat.eq_zero_or_pos N with h | h
    · subst h; have := hw.total; simp at this
    · exact h
  have hfl : forceLast N (cum w) = fun j => if j + 1 = N then 1 else cum w j := rfl
  have hcum : ∀ j < N, forceLast N (cum w) j = cum w j := by
    intro j hj
    unfold forceLast
    split_ifs with h
    · rw [cum_last (by omega), hw.total]
    · rfl
  have main : ∀ k, ∃ hj : ss (forceLast N (cum w)) (u k) < N,
      0 < w ⟨ss (forceLast N (cum w)) (u k), hj⟩ ∨
        (ss (forceLast N (cum w)) (u k) = 0 ∧ u k = 0) := by
    intro k
    obtain ⟨h1, h2, h3⟩ := hss (forceLast N (cum w)) (u k)
    generalize ss (forceLast N (cum w)) (u k) = j at h1 h2 h3 ⊢
    have hj : j < N := by
      by_contra h4
      have h5 : j = N := by omega
      have := h2 (by omega)
      rw [hcum _ (by omega), cum_last (by omega), hw.total] at this
      have := (hu k).2
      linarith
    refine ⟨hj, ?_⟩
    have h3 := h3 hj
    rw [hcum j hj] at h3
    rcases Nat.eq_zero_or_pos j with h0 | h0
    · subst h0
      rw [cum_zero hN] at h3
      rcases (hw.nonneg ⟨0, hN⟩).lt_or_eq with h6 | h6
      · exact Or.inl h6
      · exact Or.inr ⟨rfl, le_antisymm (by rw [h6]; exact h3) (hu k).1⟩
    · left
      have h2 := h2 h0
      rw [hcum _ (by omega)] at h2
      obtain ⟨a, rfl⟩ : ∃ a, j = a + 1 := ⟨j - 1, by omega⟩
      rw [cum_succ hj] at h3
      simp only [Nat.add_sub_cancel] at h2
      linarith
  refine ⟨(List.range N).map fun k => ss (forceLast N (cum w)) (u k),
    by simp only [multinomial]; rw [if_neg (by omega)], by simp, ?_⟩
  intro k hk
  simpa using main k

/-- **C44 refuted** for `multinomial_resample`: the draw `0.0` (which `random` can return) selects
particle `0` even when its weight is zero. -/
theorem C44_multinomial_refuted {ss : (ℕ → ℝ) → ℝ → ℕ} (hss : IsSearchSorted 2 ss) :
    IsWeights ![(0 : ℝ), 1] ∧ IsDraw 0 ∧
      multinomial ss ![(0 : ℝ), 1] (fun _ => 0) = .ok [0, 0] := by
  refine ⟨⟨?_, by simp⟩, ⟨le_rfl, one_pos⟩, ?_⟩
  · intro i; fin_cases i <;> simp
  · have h0 : forceLast 2 (cum ![(0 : ℝ), 1]) 0 = 0 := by simp [forceLast, cum_zero]
    have h1 : forceLast 2 (cum ![(0 : ℝ), 1]) 1 = 1 := by simp [forceLast]
    have : ss (forceLast 2 (cum ![(0 : ℝ), 1])) 0 = 0 := by
      obtain ⟨g1, g2, g3⟩ := hss (forceLast 2 (cum ![(0 : ℝ), 1])) 0
      generalize ss (forceLast 2 (cum ![(0 : ℝ), 1])) 0 = j at g1 g2 g3 ⊢
      by_contra hj
      have h := g2 (by omega)
      interval_cases j
      · exact hj rfl
      · rw [h0] at h; exact lt_irrefl _ h
      · rw [h1] at h; linarith
    simp [multinomial, this, List.range_succ]

/-! ## C45, C46: how often each particle is selected -/

theorem countP_map_range (f : ℕ → ℕ) (p : ℕ → Prop) [DecidablePred p] (n : ℕ) :
    ((List.range n).map f).countP (fun j => decide (p j)) = Nat.count (fun k => p (f k)) n := by
  induction n with
  | zero => simp
  | succ n ih =>
    rw [List.range_succ, List.map_append, List.countP_append, ih, Nat.count_succ]
    simp [List.countP_cons]

theorem count_lt (m n : ℕ) : Nat.count (fun k => k < m) n = min m n := by
  induction n with
  | zero => simp
  | succ n ih =>
    rw [Nat.count_succ, ih]
    split_ifs <;> omega

theorem count_congr_lt {p q : ℕ → Prop} [DecidablePred p] [DecidablePred q] {n : ℕ}
    (h : ∀ k < n, (p k ↔ q k)) : Nat.count p n = Nat.count q n := by
  induction n with
  | zero => simp
  | succ n ih =>
    rw [Nat.count_succ, Nat.count_succ, ih (fun k hk => h k (by omega))]
    simp [h n (by omega)]

theorem count_le_of_imp {p q : ℕ → Prop} [DecidablePred p] [DecidablePred q] {n : ℕ}
    (h : ∀ k < n, (p k → q k)) : Nat.count p n ≤ Nat.count q n := by
  induction n with
  | zero => simp
  | succ n ih =>
    rw [Nat.count_succ, Nat.count_succ]
    have := ih (fun k hk => h k (by omega))
    have := h n (by omega)
    split_ifs <;> first | omega | (exfalso; tauto)

theorem selects_countP {w : Fin N → ℝ} (hw : ∀ i, 0 ≤ w i) {pos : ℕ → ℝ} {r : List ℕ}
    (h : Selects w pos r) (j : ℕ) :
    r.countP (fun i => decide (i ≤ j)) = Nat.count (fun k => pos k < cum w j) N := by
  classical
  have e : r = (List.range N).map (fun k => r.getD k 0) := by
    apply List.ext_getElem
    · simp [h.length]
    · intro k h1 h2; simp [h1]
  conv_lhs => rw [e]
  rw [countP_map_range]
  apply count_congr_lt
  intro k hk
  have hk' : k < r.length := by rw [h.length]; exact hk
  obtain ⟨h1, h2, h3⟩ := h.spec k hk'
  rw [List.getD_eq_getElem?_getD, List.getElem?_eq_getElem hk', Option.getD_some]
  constructor
  · intro h4; exact h2.trans_le (cum_mono hw h4)
  · intro h4
    by_contra h5
    exact absurd (h3 j (by omega)) (not_le.2 h4)

theorem countP_succ (r : List ℕ) (j : ℕ) :
    r.countP (fun i => decide (i ≤ j + 1)) = r.countP (fun i => decide (i ≤ j)) +
      r.count (j + 1) := by
  induction r with
  | nil => simp
  | cons a r ih =>
    rw [List.countP_cons, List.countP_cons, List.count_cons, ih]
    have : (a == j + 1) = decide (a = j + 1) := rfl
    rw [this]
    simp only [decide_eq_true_eq]
    split_ifs <;> omega

theorem countP_zero' (r : List ℕ) : r.countP (fun i => decide (i ≤ 0)) = r.count 0 := by
  induction r with
  | nil => simp
  | cons a r ih => rw [List.countP_cons, List.count_cons, ih]; simp

/-- If the number of selections up to `j` lies within `[N·C_j - a, N·C_j - a + b)` for every `j`
(`C_j` the cumulative weight) then the selections of one particle number within `b` of `N·w`. -/
theorem count_bound {w : Fin N → ℝ} {r : List ℕ} (lo hi : ℝ) (h0 : lo ≤ 0) (h0' : 0 ≤ hi)
    (h : ∀ j, lo < (r.countP (fun i => decide (i ≤ j)) : ℝ) - N * cum w j ∧
      (r.countP (fun i => decide (i ≤ j)) : ℝ) - N * cum w j < hi) (i : Fin N) :
    lo - hi < (r.count (i : ℕ) : ℝ) - N * w i ∧ (r.count (i : ℕ) : ℝ) - N * w i < hi - lo := by
  obtain ⟨i, hi'⟩ := i
  cases i with
  | zero =>
    have := h 0
    rw [countP_zero', cum_zero hi'] at this
    constructor <;> simp only <;> linarith
  | succ a =>
    have h1 := h (a + 1)
    have h2 := h a
    rw [countP_succ, cum_succ hi'] at h1
    push_cast at h1
    constructor <;> simp only <;> nlinarith

/-- **C46.** `stratified_resample`: for every draw, the number of copies of particles `0..j` is
within less than one of `N` times their total weight, and the number of copies of each particle
within less than two of `N` times its weight. -/
theorem C46_stratified_counts {w : Fin N → ℝ} (hw : IsWeights w) {u : ℕ → ℝ}
    (hu : ∀ i, IsDraw (u i)) :
    ∃ r, stratified w u = .ok r ∧
      (∀ j : Fin N, |(r.countP (fun i => decide (i ≤ (j : ℕ))) : ℝ) - N * ∑ i ≤ j, w i| < 1) ∧
      ∀ j : Fin N, |(r.count (j : ℕ) : ℝ) - N * w j| < 2 := by
  obtain ⟨r, h1, h2⟩ := stratified_selects hw hu
  have hN : 0 < N := by
    rcases Nat.eq_zero_or_pos N with h | h
    · subst h; have := hw.total; simp at this
    · exact h
  have hN' : (0 : ℝ) < N := by exact_mod_cast hN
  have hle : ∀ j, cum w j ≤ 1 := by
    intro j
    rw [← hw.total, ← cum_last (w := w) (a := max j N) (by omega)]
    exact cum_mono hw.nonneg (le_max_left _ _)
  have key : ∀ j, -1 < (r.countP (fun i => decide (i ≤ j)) : ℝ) - N * cum w j ∧
      (r.countP (fun i => decide (i ≤ j)) : ℝ) - N * cum w j < 1 := by
    intro j
    rw [selects_countP hw.nonneg h2]
    have hc := cum_nonneg hw.nonneg j
    have hNc : (N : ℝ) * cum w j ≤ N := by nlinarith [hle j]
    constructor
    · have h3 : Nat.count (fun k => k < ⌊(N : ℝ) * cum w j⌋₊) N ≤
          Nat.count (fun k => (u k + k) / N < cum w j) N := by
        apply count_le_of_imp
        intro k _ hk
        rw [div_lt_iff₀ hN']
        have h4 : ((k + 1 : ℕ) : ℝ) ≤ N * cum w j := by
          exact (Nat.le_floor_iff (by positivity)).1 hk
        push_cast at h4
        have := (hu k).2
        linarith
      rw [count_lt, min_eq_left (by
        have := Nat.floor_le_floor hNc
        rwa [Nat.floor_natCast] at this)] at h3
      have h4 := Nat.lt_floor_add_one ((N : ℝ) * cum w j)
      have h5 : ((⌊(N : ℝ) * cum w j⌋₊ : ℕ) : ℝ) ≤
        (Nat.count (fun k => (u k + k) / N < cum w j) N : ℕ) := by exact_mod_cast h3
      linarith
    · have h3 : Nat.count (fun k => (u k + k) / N < cum w j) N ≤
          Nat.count (fun k => k < ⌈(N : ℝ) * cum w j⌉₊) N := by
        apply count_le_of_imp
        intro k _ hk
        rw [div_lt_iff₀ hN'] at hk
        rw [Nat.lt_ceil]
        have := (hu k).1
        linarith
      rw [count_lt] at h3
      have h4 := Nat.ceil_lt_add_one (show 0 ≤ (N : ℝ) * cum w j by positivity)
      have h5 : (Nat.count (fun k => (u k + k) / N < cum w j) N : ℝ) ≤
        (⌈(N : ℝ) * cum w j⌉₊ : ℕ) := by exact_mod_cast h3.trans (min_le_left _ _)
      linarith
  refine ⟨r, h1, fun j => ?_, fun j => ?_⟩
  · have e : ∑ i ≤ j, w i = cum w j := by
      unfold cum
      rw [← Finset.sum_filter]
      apply Finset.sum_congr _ (fun _ _ => rfl)
      ext i
      simp only [Finset.mem_filter, Finset.mem_univ, true_and, Finset.mem_Iic, Fin.le_def]
    rw [e, abs_lt]
    exact key j
  · have := count_bound (-1) 1 (by norm_num) (by norm_num) key j
    rw [abs_lt]
    constructor <;> linarith [this.1, this.2]

/-- **C45.** `systematic_resample`: for every draw, particle `i` is selected `⌊N w_i⌋` or
`⌈N w_i⌉` times. -/
theorem C45_systematic_counts {w : Fin N → ℝ} (hw : IsWeights w) {u : ℝ} (hu : IsDraw u) :
    ∃ r, systematic w u = .ok r ∧
      ∀ i : Fin N, r.count (i : ℕ) = ⌊(N : ℝ) * w i⌋₊ ∨ r.count (i : ℕ) = ⌈(N : ℝ) * w i⌉₊ := by
  obtain ⟨r, h1, h2⟩ := systematic_selects hw hu
  have hN : 0 < N := by
    rcases Nat.eq_zero_or_pos N with h | h
    · subst h; have := hw.total; simp at this
    · exact h
  have hN' : (0 : ℝ) < N := by exact_mod_cast hN
  have hle : ∀ j, cum w j ≤ 1 := by
    intro j
    rw [← hw.total, ← cum_last (w := w) (a := max j N) (by omega)]
    exact cum_mono hw.nonneg (le_max_left _ _)
  have key : ∀ j, (N : ℝ) * cum w j - u ≤ (r.countP (fun i => decide (i ≤ j)) : ℝ) ∧
      (r.countP (fun i => decide (i ≤ j)) : ℝ) < N * cum w j - u + 1 := by
    intro j
    rw [selects_countP hw.nonneg h2]
    have hc := cum_nonneg hw.nonneg j
    have hNc : (N : ℝ) * cum w j ≤ N := by nlinarith [hle j]
    have h3 : Nat.count (fun k => (u + k) / N < cum w j) N =
        Nat.count (fun k => k < ⌈(N : ℝ) * cum w j - u⌉₊) N := by
      apply count_congr_lt
      intro k _
      rw [div_lt_iff₀ hN', Nat.lt_ceil]
      constructor <;> intro h <;> linarith
    have h4 : ⌈(N : ℝ) * cum w j - u⌉₊ ≤ N := by
      rw [Nat.ceil_le]; linarith [hu.1]
    rw [h3, count_lt, min_eq_left h4]
    refine ⟨Nat.le_ceil _, ?_⟩
    rcases lt_or_ge ((N : ℝ) * cum w j - u) 0 with h5 | h5
    · rw [Nat.ceil_eq_zero.2 h5.le]
      have := hu.2
      have : 0 ≤ (N : ℝ) * cum w j := by positivity
      push_cast; linarith
    · exact Nat.ceil_lt_add_one h5
  refine ⟨r, h1, fun i => ?_⟩
  have hb : (N : ℝ) * w i - 1 < (r.count (i : ℕ) : ℝ) ∧ (r.count (i : ℕ) : ℝ) < N * w i + 1 := by
    obtain ⟨i, hi⟩ := i
    cases i with
    | zero =>
      have := key 0
      rw [countP_zero', cum_zero hi] at this
      have h3 := hu.1; have h4 := hu.2
      simp only
      constructor <;> linarith [this.1, this.2]
    | succ a =>
      have h3 := key (a + 1)
      have h4 := key a
      rw [countP_succ, cum_succ hi] at h3
      push_cast at h3
      simp only
      constructor <;> nlinarith [h3.1, h3.2, h4.1, h4.2]
  have hw0 : 0 ≤ (N : ℝ) * w i := by have := hw.nonneg i; positivity
  by_cases h5 : (r.count (i : ℕ) : ℝ) ≤ N * w i
  · left
    symm
    rw [Nat.floor_eq_iff hw0]
    exact ⟨h5, by linarith [hb.1]⟩
  · right
    symm
    push Not at h5
    rw [Nat.ceil_eq_iff]
    · have h6 : 1 ≤ r.count (i : ℕ) := by
        by_contra h7
        have : r.count (i : ℕ) = 0 := by omega
        rw [this] at h5
        push_cast at h5
        linarith
      rw [Nat.cast_sub h6]
      push_cast
      exact ⟨by linarith [hb.2], h5.le⟩
    · intro h7
      rw [h7] at h5
      push_cast at h5
      linarith


/-! ## C47: residual resampling -/

theorem copies_count (w : Fin N → ℝ) (i : Fin N) : (copies w).count (i : ℕ) = numCopies w i := by
  unfold copies
  rw [List.count_flatMap]
  have : ∀ l : List (Fin N), l.Nodup → (l.map (List.count (i : ℕ) ∘ fun j =>
      List.replicate (numCopies w j) (j : ℕ))).sum = if i ∈ l then numCopies w i else 0 := by
    intro l
    induction l with
    | nil => simp
    | cons a l ih =>
      intro hl
      rw [List.nodup_cons] at hl
      rw [List.map_cons, List.sum_cons, ih hl.2]
      simp only [Function.comp, List.count_replicate, List.mem_cons]
      by_cases h : i = a
      · subst h; simp [hl.1]
      · have : ¬ (a : ℕ) = i := fun h' => h (Fin.ext h'.symm)
        simp [h, this]
  rw [this _ (List.nodup_finRange N)]
  simp

theorem copies_length (w : Fin N → ℝ) : (copies w).length = ∑ i, numCopies w i := by
  unfold copies
  rw [List.length_flatMap]
  simp only [List.length_replicate]
  rw [← List.ofFn_eq_map, List.sum_ofFn]

theorem copies_mem (w : Fin N → ℝ) {j : ℕ} (hj : j ∈ copies w) : j < N := by
  unfold copies at hj
  rw [List.mem_flatMap] at hj
  obtain ⟨a, _, ha⟩ := hj
  rw [List.mem_replicate] at ha
  rw [ha.2]; exact a.2

theorem numCopies_sum_le {w : Fin N → ℝ} (hw : IsWeights w) : ∑ i, numCopies w i ≤ N := by
  have : ((∑ i, numCopies w i : ℕ) : ℝ) ≤ N := by
    push_cast
    calc ∑ i, ((numCopies w i : ℕ) : ℝ) ≤ ∑ i, (N : ℝ) * w i :=
          Finset.sum_le_sum fun i _ => Nat.floor_le (by have := hw.nonneg i; positivity)
      _ = N := by rw [← Finset.mul_sum, hw.total, mul_one]
  exact_mod_cast this

/-- **C47, the part that holds.** Unless exactly one copy was made in the first phase (of several
particles), `residual_resample` returns `N` indices, all in range, with at least `⌊N w_i⌋` copies
of each particle `i`.  Missing: the distribution of the remaining picks, and the excluded case; see
`C47_division_refuted`, `C47_distribution_refuted`. -/
theorem C47_residual_partial {ss : (ℕ → ℝ) → ℝ → ℕ} (hss : IsSearchSorted N ss) {w : Fin N → ℝ}
    (hw : IsWeights w) (h1 : ∑ i, ⌊(N : ℝ) * w i⌋₊ ≠ 1 ∨ N = 1) {u : ℕ → ℝ}
    (hu : ∀ i, IsDraw (u i)) :
    ∃ r, residualResample ss w u = .ok r ∧ r.length = N ∧ (∀ j ∈ r, j < N) ∧
      ∀ i : Fin N, ⌊(N : ℝ) * w i⌋₊ ≤ r.count (i : ℕ) := by
  have hN : N ≠ 0 := by
    intro h
    subst h; have := hw.total; simp at this
  have hle := numCopies_sum_le hw
  unfold residualResample
  simp only
  rw [copies_length, if_neg (by omega), if_neg hN]
  by_cases hk : ∑ i, numCopies w i = N
  · rw [if_pos hk]
    refine ⟨_, rfl, by rw [copies_length, hk], fun j => copies_mem w, fun i => ?_⟩
    rw [copies_count]; exact le_rfl
  · rw [if_neg hk]
    have hs : ∑ j, (w j - (numCopies w j : ℝ)) = 1 - ((∑ i, numCopies w i : ℕ) : ℝ) := by
      rw [Finset.sum_sub_distrib, hw.total]; push_cast; rfl
    have hs0 : ∑ j, (w j - (numCopies w j : ℝ)) ≠ 0 := by
      rw [hs]
      intro h0
      have h2 : ((∑ i, numCopies w i : ℕ) : ℝ) = 1 := by linarith
      have h3 : ∑ i, numCopies w i = 1 := by exact_mod_cast h2
      rcases h1 with h1 | h1
      · exact h1 h3
      · exact hk (by rw [h3, h1])
    rw [if_neg hs0]
    refine ⟨_, rfl, ?_, ?_, ?_⟩
    · simp [copies_length]; omega
    · intro j hj
      rcases List.mem_append.1 hj with h | h
      · exact copies_mem w h
      · obtain ⟨t, _, rfl⟩ := List.mem_map.1 h
        obtain ⟨g1, g2, g3⟩ := hss (forceLast N (cum (residual w))) (u t)
        generalize ss (forceLast N (cum (residual w))) (u t) = j at g1 g2 g3 ⊢
        by_contra h4
        have h5 := g2 (by omega)
        unfold forceLast at h5
        rw [if_pos (by omega)] at h5
        have := (hu t).2
        linarith
    · intro i
      rw [List.count_append, copies_count]
      exact Nat.le_add_right _ _

/-- **C47 refuted, 1.** With two particles of weights `3/4` and `1/4` the residual weights sum to
zero, so they are normalised by a division by zero. -/
theorem C47_division_refuted (ss : (ℕ → ℝ) → ℝ → ℕ) (u : ℕ → ℝ) :
    IsWeights ![(3 / 4 : ℝ), 1 / 4] ∧
      residualResample ss ![(3 / 4 : ℝ), 1 / 4] u = .error .nonFinite := by
  have c0 : numCopies ![(3 / 4 : ℝ), 1 / 4] 0 = 1 := by
    unfold numCopies; rw [Nat.floor_eq_iff (by norm_num)]; norm_num
  have c1 : numCopies ![(3 / 4 : ℝ), 1 / 4] 1 = 0 := by
    unfold numCopies; rw [Nat.floor_eq_zero]; norm_num
  refine ⟨⟨?_, by rw [Fin.sum_univ_two]; norm_num⟩, ?_⟩
  · intro i; fin_cases i <;> norm_num
  · unfold residualResample
    simp only [copies_length, Fin.sum_univ_two, c0, c1]
    norm_num

/-- Weights for `C47_distribution_refuted`. -/
noncomputable def w5 : Fin 5 → ℝ := ![1 / 2, 3 / 10, 1 / 10, 1 / 10, 0]

theorem w5_weights : IsWeights w5 := by
  refine ⟨?_, ?_⟩
  · intro i; fin_cases i <;> norm_num [w5]
  · simp [w5, Fin.sum_univ_succ]; norm_num

theorem w5_2 : w5 2 = 1 / 10 := rfl
theorem w5_3 : w5 3 = 1 / 10 := rfl
theorem w5_4 : w5 4 = 0 := rfl

/-- **C47 refuted, 2.** Five particles with `N w = (2.5, 1.5, 0.5, 0.5, 0)`: the fractional parts
of particles `0, 1, 2, 3` are equal, so each of the two remaining picks should fall on particle `2`
with probability `1/4`.  Whatever is drawn, `residual_resample` never picks particle `2` or `3`. -/
theorem C47_distribution_refuted {ss : (ℕ → ℝ) → ℝ → ℕ} (hss : IsSearchSorted 5 ss) {u : ℕ → ℝ}
    (hu : ∀ i, IsDraw (u i)) :
    IsWeights w5 ∧ (∀ i : Fin 4, Int.fract ((5 : ℕ) * w5 i.castSucc) = 1 / 2) ∧
      ∃ r, residualResample ss w5 u = .ok r ∧ 2 ∉ r ∧ 3 ∉ r := by
  have c0 : numCopies w5 0 = 2 := by
    unfold numCopies; rw [Nat.floor_eq_iff (by norm_num [w5])]; norm_num [w5]
  have c1 : numCopies w5 1 = 1 := by
    unfold numCopies; rw [Nat.floor_eq_iff (by norm_num [w5])]; norm_num [w5]
  have c2 : numCopies w5 2 = 0 := by
    unfold numCopies; rw [Nat.floor_eq_zero, w5_2]; norm_num
  have c3 : numCopies w5 3 = 0 := by
    unfold numCopies; rw [Nat.floor_eq_zero, w5_3]; norm_num
  have c4 : numCopies w5 4 = 0 := by
    unfold numCopies; rw [Nat.floor_eq_zero, w5_4]; norm_num
  have hsum : ∑ i, numCopies w5 i = 3 := by
    rw [Fin.sum_univ_five, c0, c1, c2, c3, c4]
  have hs : ∑ j, (w5 j - (numCopies w5 j : ℝ)) = -2 := by
    rw [Finset.sum_sub_distrib, w5_weights.total]
    have : ∑ x, ((numCopies w5 x : ℕ) : ℝ) = 3 := by exact_mod_cast hsum
    rw [this]; norm_num
  have r1 : cum (residual w5) 1 = 11 / 10 := by
    unfold cum residual
    rw [hs, Fin.sum_univ_five, c0, c1, c2, c3, c4]
    norm_num [w5]
  have r2 : cum (residual w5) 2 = 21 / 20 := by
    unfold cum residual
    rw [hs, Fin.sum_univ_five, c0, c1, c2, c3, c4, w5_2]
    norm_num [w5]
  refine ⟨w5_weights, ?_, ?_⟩
  · intro i
    rw [Int.fract_eq_iff]
    refine ⟨by norm_num, by norm_num, ?_⟩
    fin_cases i
    · exact ⟨2, by norm_num [w5]⟩
    · exact ⟨1, by norm_num [w5]⟩
    · exact ⟨0, by norm_num [w5]⟩
    · exact ⟨0, by norm_num [w5]⟩
  · unfold residualResample
    simp only [copies_length, hsum]
    rw [if_neg (by norm_num), if_neg (by norm_num), if_neg (by norm_num), if_neg (by rw [hs]; norm_num)]
    have hpick : ∀ t, ss (forceLast 5 (cum (residual w5))) (u t) ≠ 2 ∧
        ss (forceLast 5 (cum (residual w5))) (u t) ≠ 3 := by
      intro t
      obtain ⟨g1, g2, g3⟩ := hss (forceLast 5 (cum (residual w5))) (u t)
      have := (hu t).2
      constructor
      · intro h
        rw [h] at g2
        have := g2 (by norm_num)
        norm_num [forceLast, r1] at this
        linarith
      · intro h
        rw [h] at g2
        have := g2 (by norm_num)
        norm_num [forceLast, r2] at this
        linarith
    refine ⟨_, rfl, ?_, ?_⟩
    · rw [List.mem_append, not_or]
      refine ⟨?_, ?_⟩
      · rw [← List.count_eq_zero]; exact (copies_count w5 2).trans c2
      · rw [List.mem_map]; rintro ⟨t, _, ht⟩; exact (hpick t).1 ht
    · rw [List.mem_append, not_or]
      refine ⟨?_, ?_⟩
      · rw [← List.count_eq_zero]; exact (copies_count w5 3).trans c3
      · rw [List.mem_map]; rintro ⟨t, _, ht⟩; exact (hpick t).2 ht

/-! ## Non-vacuity -/

/-- A search meeting the contract exists for every table: the first index whose entry is not
smaller. -/
theorem search_exists (N : ℕ) : ∃ ss, IsSearchSorted N ss := by
  classical
  refine ⟨fun c v => Nat.find (⟨N, Or.inr le_rfl⟩ : ∃ i, v ≤ c i ∨ N ≤ i), fun c v => ?_⟩
  set hex : ∃ i, v ≤ c i ∨ N ≤ i := ⟨N, Or.inr le_rfl⟩
  show IsSearch N c v (Nat.find hex)
  refine ⟨Nat.find_min' hex (Or.inr le_rfl), fun h0 => ?_, fun h0 => ?_⟩
  · have := Nat.find_min hex (m := Nat.find hex - 1) (by omega)
    push Not at this
    exact this.1
  · rcases Nat.find_spec hex with h | h
    · exact h
    · exact absurd h0 (by omega)

example : ∃ r, systematic w5 (1 / 2) = .ok r ∧ r.count 0 ∈ ({2, 3} : Set ℕ) ∧ 4 ∉ r := by
  have hd : IsDraw (1 / 2) := by constructor <;> norm_num
  obtain ⟨r, h1, h2⟩ := C45_systematic_counts w5_weights hd
  obtain ⟨r', h1', -, h3, -⟩ := C44_systematic w5_weights hd
  rw [h1] at h1'
  obtain rfl := Except.ok.inj h1'
  refine ⟨r, h1, ?_, ?_⟩
  · have f : ⌊(5 : ℕ) * w5 0⌋₊ = 2 := by rw [Nat.floor_eq_iff (by norm_num [w5])]; norm_num [w5]
    have c : ⌈(5 : ℕ) * w5 0⌉₊ = 3 := by rw [Nat.ceil_eq_iff (by norm_num)]; norm_num [w5]
    have := h2 0
    rw [f, c] at this
    exact this
  · intro h4
    obtain ⟨_, h5⟩ := h3 4 h4
    exact lt_irrefl _ h5

example {ss : (ℕ → ℝ) → ℝ → ℕ} (hss : IsSearchSorted 5 ss) :
    ∃ r, residualResample ss w5 (fun _ => 1 / 3) = .ok r ∧ r.length = 5 := by
  obtain ⟨r, h, h2, -⟩ := C47_residual_partial hss w5_weights (u := fun _ => 1 / 3)
    (Or.inl (by
      have f0 : ⌊(5 : ℕ) * w5 0⌋₊ = 2 := by rw [Nat.floor_eq_iff (by norm_num [w5])]; norm_num [w5]
      rw [Fin.sum_univ_five, f0]; omega))
    (fun _ => by constructor <;> norm_num)
  exact ⟨r, h, h2⟩

end Filterpy
