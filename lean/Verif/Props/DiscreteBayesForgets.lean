import Verif.Props.DiscreteBayesRun

/-!
# The discrete Bayes filter forgets its initial belief: C109
-/

namespace Filterpy

open DiscreteBayes

variable {n m : ℕ}

/-- A probability distribution over the cells. -/
structure Spec.IsBelief (p : Fin n → ℝ) : Prop where
  nonneg : ∀ i, 0 ≤ p i
  total : ∑ i, p i = 1

/-- The odds `p i : p j` of any two cells differ from those under `q` by at most the factor `lam`. -/
def Spec.OddsWithin (lam : ℝ) (p q : Fin n → ℝ) : Prop :=
  ∀ i j, p i * q j ≤ lam * (p j * q i)

/-- Total weight of the histories of `T` steps that lead from cell `i` to cell `j`. -/
def Spec.reach (c : ℕ → BayesStep n) (T : ℕ) (i j : Fin n) : ℝ :=
  endWeight (Pi.single i 1) c T j

/-- The steps from time `T` on. -/
def later (c : ℕ → BayesStep n) (T : ℕ) : ℕ → BayesStep n := fun t => c (T + t)

open Spec

theorem endWeight_reach (p : Fin n → ℝ) (c : ℕ → BayesStep n) (T : ℕ) (j : Fin n) :
    endWeight p c T j = ∑ i, p i * reach c T i j := by
  unfold reach
  induction T generalizing j with
  | zero => simp [endWeight_zero, Pi.single_apply]
  | succ T ih =>
    simp only [endWeight_succ, ih, Finset.sum_mul, Finset.mul_sum]
    rw [Finset.sum_comm]
    refine Finset.sum_congr rfl fun i _ => Finset.sum_congr rfl fun k _ => ?_
    ring

/-- A step of any linear kind whose outcome depends little on where it started brings the odds together. -/
theorem odds_contract {A : Fin n → Fin n → ℝ} (hA : ∀ i j, 0 ≤ A i j) {δ lam : ℝ} (h0 : 0 ≤ δ) (h1 : δ ≤ 1)
    (hl : 1 ≤ lam) (hδ : ∀ i i' j, δ * A i j ≤ A i' j) {p q : Fin n → ℝ} (hp : IsBelief p) (hq : IsBelief q)
    (h : OddsWithin lam p q) :
    OddsWithin (1 + (lam - 1) * (1 - δ)) (fun j => ∑ i, p i * A i j) fun j => ∑ i, q i * A i j := by
  -- the least ratio of the two beliefs
  obtain ⟨k, hk⟩ : ∃ k, 0 < q k := by
    by_contra hc
    push Not at hc
    have : ∑ i, q i ≤ 0 := Finset.sum_nonpos fun i _ => hc i
    rw [hq.total] at this
    linarith
  obtain ⟨s, hs, hmin⟩ := Finset.exists_min_image (Finset.univ.filter fun i => 0 < q i) (fun i => p i / q i)
    ⟨k, by simp [hk]⟩
  simp only [Finset.mem_filter, Finset.mem_univ, true_and] at hs hmin
  set a := p s / q s with ha
  have ha0 : 0 ≤ a := div_nonneg (hp.nonneg s) hs.le
  have hlo : ∀ i, a * q i ≤ p i := by
    intro i
    rcases (hq.nonneg i).eq_or_lt with h0 | h0
    · rw [← h0, mul_zero]; exact hp.nonneg i
    · exact (le_div_iff₀ h0).1 (hmin i h0)
  have hhi : ∀ i, p i ≤ lam * a * q i := by
    intro i
    have := h i s
    rw [ha, mul_assoc, div_mul_eq_mul_div, ← mul_div_assoc, le_div_iff₀ hs]
    linarith
  have ha1 : a ≤ 1 := by
    have := Finset.sum_le_sum fun i (_ : i ∈ Finset.univ) => hlo i
    rwa [← Finset.mul_sum, hp.total, hq.total, mul_one] at this
  have hM1 : 1 ≤ lam * a := by
    have := Finset.sum_le_sum fun i (_ : i ∈ Finset.univ) => hhi i
    rwa [← Finset.mul_sum, hp.total, hq.total, mul_one] at this
  set P := fun j => ∑ i, p i * A i j with hP
  set Q := fun j => ∑ i, q i * A i j with hQ
  have hQ0 : ∀ j, 0 ≤ Q j := fun j => Finset.sum_nonneg fun i _ => mul_nonneg (hq.nonneg i) (hA i j)
  have hQA : ∀ i j, δ * Q j ≤ A i j := by
    intro i j
    have : ∑ l, q l * (δ * A l j) ≤ ∑ l, q l * A i j :=
      Finset.sum_le_sum fun l _ => mul_le_mul_of_nonneg_left (hδ l i j) (hq.nonneg l)
    rw [← Finset.sum_mul, hq.total, one_mul] at this
    refine le_trans (le_of_eq ?_) this
    simp only [hQ, Finset.mul_sum]
    exact Finset.sum_congr rfl fun l _ => by ring
  have hl' : ∀ j, ((1 - δ) * a + δ) * Q j ≤ P j := by
    intro j
    have : ∑ i, (p i - a * q i) * (δ * Q j) ≤ ∑ i, (p i - a * q i) * A i j :=
      Finset.sum_le_sum fun i _ => mul_le_mul_of_nonneg_left (hQA i j) (sub_nonneg.2 (hlo i))
    have e1 : ∑ i, (p i - a * q i) * (δ * Q j) = (1 - a) * (δ * Q j) := by
      rw [← Finset.sum_mul, Finset.sum_sub_distrib, ← Finset.mul_sum, hp.total, hq.total, mul_one]
    have e2 : ∑ i, (p i - a * q i) * A i j = P j - a * Q j := by
      simp only [hP, hQ, Finset.mul_sum, ← Finset.sum_sub_distrib]
      exact Finset.sum_congr rfl fun i _ => by ring
    rw [e1, e2] at this
    linarith
  have hu' : ∀ j, P j ≤ ((1 - δ) * (lam * a) + δ) * Q j := by
    intro j
    have : ∑ i, (lam * a * q i - p i) * (δ * Q j) ≤ ∑ i, (lam * a * q i - p i) * A i j :=
      Finset.sum_le_sum fun i _ => mul_le_mul_of_nonneg_left (hQA i j) (sub_nonneg.2 (hhi i))
    have e1 : ∑ i, (lam * a * q i - p i) * (δ * Q j) = (lam * a - 1) * (δ * Q j) := by
      rw [← Finset.sum_mul, Finset.sum_sub_distrib, ← Finset.mul_sum, hp.total, hq.total, mul_one]
    have e2 : ∑ i, (lam * a * q i - p i) * A i j = lam * a * Q j - P j := by
      simp only [hP, hQ, Finset.mul_sum, ← Finset.sum_sub_distrib]
      exact Finset.sum_congr rfl fun i _ => by ring
    rw [e1, e2] at this
    linarith
  intro i j
  have hc : (1 - δ) * (lam * a) + δ ≤ (1 + (lam - 1) * (1 - δ)) * ((1 - δ) * a + δ) := by
    have : 0 ≤ (1 - δ) * (lam - 1) * (δ * (1 - a)) :=
      mul_nonneg (mul_nonneg (by linarith) (by linarith)) (mul_nonneg h0 (by linarith))
    nlinarith [this]
  have hlam : 0 ≤ 1 + (lam - 1) * (1 - δ) := by
    have := mul_nonneg (sub_nonneg.2 hl) (sub_nonneg.2 h1); linarith
  calc P i * Q j ≤ ((1 - δ) * (lam * a) + δ) * Q i * Q j := mul_le_mul_of_nonneg_right (hu' i) (hQ0 j)
    _ ≤ ((1 + (lam - 1) * (1 - δ)) * ((1 - δ) * a + δ)) * Q i * Q j := by
      have := mul_nonneg (hQ0 i) (hQ0 j)
      have := mul_le_mul_of_nonneg_right hc this
      linarith
    _ = (1 + (lam - 1) * (1 - δ)) * (((1 - δ) * a + δ) * Q j * Q i) := by ring
    _ ≤ _ := mul_le_mul_of_nonneg_left (mul_le_mul_of_nonneg_right (hl' j) (hQ0 i)) hlam

theorem Spec.OddsWithin.div {lam : ℝ} {p q : Fin n → ℝ} (h : OddsWithin lam p q) {a b : ℝ} (ha : 0 ≤ a) (hb : 0 ≤ b) :
    OddsWithin lam (fun i => p i / a) fun i => q i / b := by
  intro i j
  have := mul_le_mul_of_nonneg_left (h i j) (inv_nonneg.2 (mul_nonneg ha hb))
  rw [mul_inv] at this
  calc p i / a * (q j / b) = a⁻¹ * b⁻¹ * (p i * q j) := by rw [div_eq_mul_inv, div_eq_mul_inv]; ring
    _ ≤ _ := this
    _ = lam * (p j / a * (q i / b)) := by rw [div_eq_mul_inv, div_eq_mul_inv]; ring

theorem bayesRun_add [NeZero n] (p : Fin n → ℝ) (c : ℕ → BayesStep n) (T T' : ℕ) :
    bayesRun p c (T + T') = bayesRun p c T >>= fun q => bayesRun q (later c T) T' := by
  induction T' with
  | zero =>
    simp only [bayesRun, Nat.add_zero]
    cases bayesRun p c T <;> rfl
  | succ T' ih =>
    rw [← Nat.add_assoc]
    simp only [bayesRun, ih, later]
    cases bayesRun p c T <;> rfl

/-- Steps with nonnegative kernels and likelihoods. -/
def NonnegSteps (c : ℕ → BayesStep n) : Prop := (∀ t k, 0 ≤ (c t).kernel k) ∧ ∀ t i, 0 ≤ (c t).lik i

theorem NonnegSteps.later {c : ℕ → BayesStep n} (h : NonnegSteps c) (T : ℕ) : NonnegSteps (later c T) :=
  ⟨fun _ => h.1 _, fun _ => h.2 _⟩

theorem bayesRun_belief [NeZero n] {p p' : Fin n → ℝ} {c : ℕ → BayesStep n} (hc : NonnegSteps c) (hp : IsBelief p) {T : ℕ}
    (h : bayesRun p c T = .ok p') :
    IsBelief p' ∧ 0 < ∑ i, endWeight p c T i ∧ p' = fun i => endWeight p c T i / ∑ i, endWeight p c T i := by
  rw [C106_histories p c hp.nonneg hp.total hc.1 hc.2, ← sum_endWeight] at h
  have hn := endWeight_nonneg p c hp.nonneg hc.1 hc.2 T
  have hs := Finset.sum_nonneg fun i (_ : i ∈ Finset.univ) => hn i
  split_ifs at h with h0
  have h0' : 0 < ∑ i, endWeight p c T i := lt_of_le_of_ne hs (Ne.symm h0)
  simp only [Except.ok.injEq] at h
  subst h
  refine ⟨⟨fun i => div_nonneg (hn i) hs, ?_⟩, h0', rfl⟩
  simp only [div_eq_mul_inv]
  rw [← Finset.sum_mul, mul_inv_cancel₀ h0]

theorem reach_nonneg {c : ℕ → BayesStep n} (hc : NonnegSteps c) (T : ℕ) (i j : Fin n) : 0 ≤ reach c T i j :=
  endWeight_nonneg _ c (fun k => by rw [Pi.single_apply]; split_ifs <;> norm_num) hc.1 hc.2 T j

/-- **C109 (blocks).** Two users start the filter with different beliefs and feed it the same steps.  If within
every block of `r` steps the way to a cell depends on the starting cell by at most a factor `1/δ`, then with every
block the excess of the odds under one belief over the odds under the other shrinks by the factor `1 - δ`. -/
theorem C109_blocks [NeZero n] {c : ℕ → BayesStep n} (hc : NonnegSteps c) {δ lam : ℝ} (h0 : 0 ≤ δ) (h1 : δ ≤ 1)
    (hl : 1 ≤ lam) {p q : Fin n → ℝ} (hp : IsBelief p) (hq : IsBelief q) (h : OddsWithin lam p q) (r k : ℕ)
    (hδ : ∀ b < k, ∀ i i' j, δ * reach (later c (b * r)) r i j ≤ reach (later c (b * r)) r i' j)
    {p' q' : Fin n → ℝ} (hp' : bayesRun p c (k * r) = .ok p') (hq' : bayesRun q c (k * r) = .ok q') :
    OddsWithin (1 + (lam - 1) * (1 - δ) ^ k) p' q' := by
  induction k generalizing p' q' with
  | zero =>
    simp only [Nat.zero_mul, bayesRun, Except.ok.injEq] at hp' hq'
    subst hp' hq'
    simpa using h
  | succ k ih =>
    rw [Nat.succ_mul, bayesRun_add] at hp' hq'
    cases h2 : bayesRun p c (k * r) with
    | error e => rw [h2] at hp'; cases hp'
    | ok p1 =>
      cases h3 : bayesRun q c (k * r) with
      | error e => rw [h3] at hq'; cases hq'
      | ok q1 =>
        rw [h2] at hp'; rw [h3] at hq'
        have hb1 := (bayesRun_belief hc hp h2).1
        have hb2 := (bayesRun_belief hc hq h3).1
        have i1 := ih (fun b hb => hδ b (by omega)) h2 h3
        obtain ⟨-, hs1, e1⟩ := bayesRun_belief (hc.later (k * r)) hb1 hp'
        obtain ⟨-, hs2, e2⟩ := bayesRun_belief (hc.later (k * r)) hb2 hq'
        have h4 : 1 ≤ 1 + (lam - 1) * (1 - δ) ^ k := by
          have := mul_nonneg (sub_nonneg.2 hl) (pow_nonneg (sub_nonneg.2 h1) k); linarith
        have i2 := odds_contract (reach_nonneg (hc.later (k * r)) r) h0 h1 h4 (hδ k (by omega)) hb1 hb2 i1
        simp only [← endWeight_reach] at i2
        rw [e1, e2]
        have i3 := i2.div hs1.le hs2.le
        rw [add_sub_cancel_left, mul_assoc, ← pow_succ] at i3
        exact i3

/-- **C109 (never grows).** Whatever the steps, the odds under the two beliefs never move further apart. -/
theorem C109_never_grows [NeZero n] {c : ℕ → BayesStep n} (hc : NonnegSteps c) {lam : ℝ} (hl : 1 ≤ lam)
    {p q : Fin n → ℝ} (hp : IsBelief p) (hq : IsBelief q) (h : OddsWithin lam p q) (T : ℕ)
    {p' q' : Fin n → ℝ} (hp' : bayesRun p c T = .ok p') (hq' : bayesRun q c T = .ok q') : OddsWithin lam p' q' := by
  have := C109_blocks hc le_rfl zero_le_one hl hp hq h 1 T
    (fun b _ i i' j => by rw [zero_mul]; exact reach_nonneg (hc.later _) _ _ _)
    (by rwa [Nat.mul_one]) (by rwa [Nat.mul_one])
  simpa using this

/-- A ring on which the filter is told that the object may take one of two neighbouring moves, each with probability
at least `a`, and that no measurement is less likely than `l` or more likely than `L` anywhere. -/
structure Spec.Mixing (c : ℕ → BayesStep n) (a l L : ℝ) : Prop where
  ring : ∀ t, (c t).wrap = true
  kernel : ∀ t k, 0 ≤ (c t).kernel k
  total : ∀ t, ∑ k, (c t).kernel k = 1
  taps : ∀ t, ∃ (k : ℕ) (h : k + 1 < (c t).len), a ≤ (c t).kernel ⟨k, by omega⟩ ∧ a ≤ (c t).kernel ⟨k + 1, h⟩
  lik : ∀ t i, l ≤ (c t).lik i ∧ (c t).lik i ≤ L
  pos : 0 < a ∧ 0 < l

variable {c : ℕ → BayesStep n} {a l L : ℝ}

theorem Spec.Mixing.later (h : Mixing c a l L) (T : ℕ) : Mixing (later c T) a l L :=
  ⟨fun _ => h.ring _, fun _ => h.kernel _, fun _ => h.total _, fun _ => h.taps _, fun _ => h.lik _, h.pos⟩

theorem Spec.Mixing.nonneg (h : Mixing c a l L) : NonnegSteps c :=
  ⟨h.kernel, fun t i => h.pos.2.le.trans (h.lik t i).1⟩

theorem moveProb_total [NeZero n] (b : BayesStep n) (hw : b.wrap = true) (i : Fin n) :
    ∑ j, moveProb b i j = ∑ k, b.kernel k := by
  have h := C49_wrap_total (Pi.single i 1 : Fin n → ℝ) b.offset b.kernel 0
  rw [Finset.sum_pi_single' , if_pos (Finset.mem_univ i), mul_one] at h
  rw [← h, ← hw]
  refine Finset.sum_congr rfl fun j _ => ?_
  rw [belief_predict_move]
  simp [Pi.single_apply]

/-- One step reaches two neighbouring cells. -/
theorem moveProb_taps (h : Mixing c a l L) (t : ℕ) :
    ∃ s : ℤ, ∀ e : ℕ, e ≤ 1 → ∀ i j : Fin n, (i : ℤ) + s + e ≡ j [ZMOD n] → a ≤ moveProb (c t) i j := by
  obtain ⟨k, hk, h1, h2⟩ := h.taps t
  refine ⟨(c t).offset + (k - ((c t).len / 2 : ℕ)), fun e he i j hij => ?_⟩
  have key : ∀ (q : Fin (c t).len), (i : ℤ) + (c t).offset + ((q : ℤ) - ((c t).len / 2 : ℕ)) ≡ j [ZMOD n] →
      (c t).kernel q ≤ moveProb (c t) i j := by
    intro q hq
    unfold moveProb
    simp only [h.ring t, if_true]
    refine le_trans (le_of_eq ?_) (Finset.single_le_sum (fun k _ => ?_) (Finset.mem_univ q))
    · rw [if_pos hq]
    · split_ifs
      · exact h.kernel t k
      · exact le_rfl
  obtain rfl | rfl : e = 0 ∨ e = 1 := by omega
  · refine h1.trans (key _ ?_)
    refine Eq.trans ?_ hij
    congr 1
    push_cast; ring
  · refine h2.trans (key _ ?_)
    refine Eq.trans ?_ hij
    congr 1
    push_cast; ring

theorem reach_zero (c : ℕ → BayesStep n) (i j : Fin n) : reach c 0 i j = if j = i then 1 else 0 := by
  simp [reach, endWeight_zero, Pi.single_apply]

theorem reach_succ (c : ℕ → BayesStep n) (T : ℕ) (i j : Fin n) :
    reach c (T + 1) i j = (∑ k, reach c T i k * moveProb (c T) k j) * (c T).lik j := endWeight_succ _ _ _ _

theorem reach_ge [NeZero n] (h : Mixing c a l L) (T : ℕ) :
    ∃ s : ℤ, ∀ d : ℕ, d ≤ T → ∀ i j : Fin n, (i : ℤ) + s + d ≡ j [ZMOD n] → (a * l) ^ T ≤ reach c T i j := by
  induction T with
  | zero =>
    refine ⟨0, fun d hd i j hij => ?_⟩
    obtain rfl : d = 0 := by omega
    have : j = i := by
      have e : (i : ℤ) ≡ j [ZMOD n] := by simpa using hij
      have hi := i.2; have hj := j.2
      have := e.eq
      rw [Int.emod_eq_of_lt (by omega) (by omega), Int.emod_eq_of_lt (by omega) (by omega)] at this
      exact Fin.ext (by omega)
    rw [reach_zero, if_pos this, pow_zero]
  | succ T ih =>
    obtain ⟨s, hs⟩ := ih
    obtain ⟨σ, hσ⟩ := moveProb_taps h T
    refine ⟨s + σ, fun d hd i j hij => ?_⟩
    obtain ⟨e, d', he, hd', rfl⟩ : ∃ e d', e ≤ 1 ∧ d' ≤ T ∧ d = d' + e := by
      rcases Nat.eq_zero_or_pos d with rfl | h0
      · exact ⟨0, 0, by omega, by omega, rfl⟩
      · exact ⟨1, d - 1, le_rfl, by omega, by omega⟩
    have hk := (wrapIdx_eq_iff (n := n) ((i : ℤ) + s + d') (wrapIdx n ((i : ℤ) + s + d'))).1 rfl
    have h1 := hs d' hd' i _ hk.symm
    have h2 := hσ e he (wrapIdx n ((i : ℤ) + s + d')) j (by
      refine ((hk.add_right σ).add_right e).trans ?_
      refine Eq.trans ?_ hij
      congr 1
      push_cast; ring)
    have hl := (h.lik T j).1
    have ha := h.pos.1.le
    have hl0 := h.pos.2.le
    rw [reach_succ, pow_succ, ← mul_assoc]
    refine mul_le_mul ?_ hl hl0 (Finset.sum_nonneg fun k _ =>
      mul_nonneg (reach_nonneg h.nonneg T i k) (moveProb_nonneg _ (h.kernel T) _ _))
    refine le_trans (mul_le_mul h1 h2 ha ((pow_nonneg (mul_nonneg ha hl0) T).trans h1)) ?_
    exact Finset.single_le_sum (f := fun k => reach c T i k * moveProb (c T) k j)
      (fun k _ => mul_nonneg (reach_nonneg h.nonneg T i k) (moveProb_nonneg _ (h.kernel T) _ _)) (Finset.mem_univ _)

theorem reach_ge_all [NeZero n] (h : Mixing c a l L) (i j : Fin n) : (a * l) ^ n ≤ reach c n i j := by
  obtain ⟨s, hs⟩ := reach_ge h n
  have hn : (0 : ℤ) < n := by exact_mod_cast Nat.pos_of_ne_zero (NeZero.ne n)
  have h1 := Int.emod_nonneg ((j : ℤ) - i - s) hn.ne'
  have h2 := Int.emod_lt_of_pos ((j : ℤ) - i - s) hn
  refine hs (((j : ℤ) - i - s) % n).toNat (by omega) i j ?_
  rw [Int.toNat_of_nonneg h1]
  have : (i : ℤ) + s + ((j : ℤ) - i - s) % n ≡ i + s + (j - i - s) [ZMOD n] := (Int.mod_modEq _ _).add_left _
  refine this.trans ?_
  rw [show (i : ℤ) + s + (j - i - s) = j by ring]

theorem sum_endWeight_succ [NeZero n] (p : Fin n → ℝ) (T : ℕ) :
    ∑ j, endWeight p c (T + 1) j = ∑ i, endWeight p c T i * ∑ j, moveProb (c T) i j * (c T).lik j := by
  simp only [endWeight_succ, Finset.sum_mul, Finset.mul_sum]
  rw [Finset.sum_comm]
  exact Finset.sum_congr rfl fun i _ => Finset.sum_congr rfl fun j _ => by ring

theorem endWeight_bounds [NeZero n] (h : Mixing c a l L) {p : Fin n → ℝ} (hp : IsBelief p) (T : ℕ) :
    l ^ T ≤ ∑ j, endWeight p c T j ∧ ∑ j, endWeight p c T j ≤ L ^ T := by
  have hn := endWeight_nonneg p c hp.nonneg h.nonneg.1 h.nonneg.2
  have hm : ∀ t i, l ≤ ∑ j, moveProb (c t) i j * (c t).lik j ∧ ∑ j, moveProb (c t) i j * (c t).lik j ≤ L := by
    intro t i
    have e : ∑ j, moveProb (c t) i j = 1 := by rw [moveProb_total _ (h.ring t), h.total]
    constructor
    · calc l = ∑ j, moveProb (c t) i j * l := by rw [← Finset.sum_mul, e, one_mul]
        _ ≤ _ := Finset.sum_le_sum fun j _ => mul_le_mul_of_nonneg_left (h.lik t j).1 (moveProb_nonneg _ (h.kernel t) _ _)
    · calc _ ≤ ∑ j, moveProb (c t) i j * L :=
            Finset.sum_le_sum fun j _ => mul_le_mul_of_nonneg_left (h.lik t j).2 (moveProb_nonneg _ (h.kernel t) _ _)
        _ = L := by rw [← Finset.sum_mul, e, one_mul]
  induction T with
  | zero => simp [endWeight_zero, hp.total]
  | succ T ih =>
    rw [sum_endWeight_succ, pow_succ, pow_succ]
    have hL : 0 ≤ L := by
      have := hm T 0
      linarith [h.pos.2]
    constructor
    · calc l ^ T * l ≤ (∑ j, endWeight p c T j) * l := mul_le_mul_of_nonneg_right ih.1 h.pos.2.le
        _ = ∑ j, endWeight p c T j * l := Finset.sum_mul _ _ _
        _ ≤ _ := Finset.sum_le_sum fun i _ => mul_le_mul_of_nonneg_left (hm T i).1 (hn T i)
    · calc _ ≤ ∑ j, endWeight p c T j * L := Finset.sum_le_sum fun i _ => mul_le_mul_of_nonneg_left (hm T i).2 (hn T i)
        _ = (∑ j, endWeight p c T j) * L := (Finset.sum_mul _ _ _).symm
        _ ≤ _ := mul_le_mul_of_nonneg_right ih.2 hL

theorem Spec.Mixing.run [NeZero n] (h : Mixing c a l L) {p : Fin n → ℝ} (hp : IsBelief p) (T : ℕ) :
    ∃ p', bayesRun p c T = .ok p' ∧ IsBelief p' := by
  have h0 : ∑ j, endWeight p c T j ≠ 0 :=
    ((pow_pos h.pos.2 T).trans_le (endWeight_bounds h hp T).1).ne'
  have e := C106_histories p c hp.nonneg hp.total h.nonneg.1 h.nonneg.2 T
  rw [← sum_endWeight, if_neg h0] at e
  exact ⟨_, e, (bayesRun_belief h.nonneg hp e).1⟩

theorem Spec.OddsWithin.close {lam : ℝ} (hl : 1 ≤ lam) {p q : Fin n → ℝ} (hp : IsBelief p) (hq : IsBelief q)
    (h : OddsWithin lam p q) (S : Finset (Fin n)) : |∑ i ∈ S, p i - ∑ i ∈ S, q i| ≤ lam - 1 := by
  have h1 : ∀ i, p i ≤ lam * q i := by
    intro i
    have := Finset.sum_le_sum fun j (_ : j ∈ Finset.univ) => h i j
    simp only [← Finset.mul_sum, ← Finset.sum_mul] at this
    rwa [hq.total, hp.total, mul_one, one_mul] at this
  have h2 : ∀ j, q j ≤ lam * p j := by
    intro j
    have := Finset.sum_le_sum fun i (_ : i ∈ Finset.univ) => h i j
    simp only [← Finset.mul_sum, ← Finset.sum_mul] at this
    rwa [hq.total, hp.total, mul_one, one_mul] at this
  have h3 : ∀ r : Fin n → ℝ, IsBelief r → ∑ i ∈ S, r i ≤ 1 := fun r hr => by
    rw [← hr.total]
    exact Finset.sum_le_sum_of_subset_of_nonneg (Finset.subset_univ S) fun i _ _ => hr.nonneg i
  have h4 := Finset.sum_le_sum fun i (_ : i ∈ S) => h1 i
  have h5 := Finset.sum_le_sum fun i (_ : i ∈ S) => h2 i
  rw [← Finset.mul_sum] at h4 h5
  rw [abs_le]
  have h6 := h3 p hp
  have h7 := h3 q hq
  constructor <;> nlinarith

/-- The most that the starting cell can matter over `n` steps. -/
noncomputable def mixRate (n : ℕ) (a l L : ℝ) : ℝ := (a * l / L) ^ n

theorem Spec.Mixing.bounds [NeZero n] (h : Mixing c a l L) : 0 < L ∧ a ≤ 1 ∧ l ≤ L := by
  obtain ⟨k, hk, h1, -⟩ := h.taps 0
  have h2 : (c 0).kernel ⟨k, by omega⟩ ≤ 1 := by
    rw [← h.total 0]
    exact Finset.single_le_sum (fun k _ => h.kernel 0 k) (Finset.mem_univ _)
  have h3 := h.lik 0 0
  exact ⟨by linarith [h.pos.2], h1.trans h2, h3.1.trans h3.2⟩

theorem mixRate_mem [NeZero n] (h : Mixing c a l L) : 0 < mixRate n a l L ∧ mixRate n a l L ≤ 1 := by
  obtain ⟨hL, ha, hl⟩ := h.bounds
  have h0 : 0 < a * l / L := div_pos (mul_pos h.pos.1 h.pos.2) hL
  refine ⟨pow_pos h0 n, pow_le_one₀ h0.le ((div_le_one hL).2 ?_)⟩
  nlinarith [h.pos.2]

theorem reach_le [NeZero n] (h : Mixing c a l L) (T : ℕ) (i j : Fin n) : reach c T i j ≤ L ^ T := by
  have hb : IsBelief (Pi.single i 1 : Fin n → ℝ) :=
    ⟨fun k => by rw [Pi.single_apply]; split_ifs <;> norm_num, by simp⟩
  refine le_trans ?_ (endWeight_bounds h hb T).2
  exact Finset.single_le_sum (fun j _ => endWeight_nonneg _ c hb.nonneg h.nonneg.1 h.nonneg.2 T j) (Finset.mem_univ j)

theorem reach_comparable [NeZero n] (h : Mixing c a l L) (i i' j : Fin n) :
    mixRate n a l L * reach c n i j ≤ reach c n i' j := by
  obtain ⟨hL, -, -⟩ := h.bounds
  calc _ ≤ mixRate n a l L * L ^ n := mul_le_mul_of_nonneg_left (reach_le h n i j) (mixRate_mem h).1.le
    _ = (a * l) ^ n := by rw [mixRate, ← mul_pow, div_mul_cancel₀ _ hL.ne']
    _ ≤ _ := reach_ge_all h i' j

/-- After one turn of the ring the odds are comparable whatever the beliefs were before. -/
theorem odds_after [NeZero n] (h : Mixing c a l L) {p q p' q' : Fin n → ℝ} (hp : IsBelief p) (hq : IsBelief q)
    (hp' : bayesRun p c n = .ok p') (hq' : bayesRun q c n = .ok q') :
    OddsWithin ((mixRate n a l L)⁻¹ ^ 2) p' q' := by
  obtain ⟨-, s1, rfl⟩ := bayesRun_belief h.nonneg hp hp'
  obtain ⟨-, s2, rfl⟩ := bayesRun_belief h.nonneg hq hq'
  refine Spec.OddsWithin.div ?_ s1.le s2.le
  obtain ⟨hd, -⟩ := mixRate_mem h
  obtain ⟨hL, -, -⟩ := h.bounds
  have lo : ∀ r : Fin n → ℝ, IsBelief r → ∀ j, mixRate n a l L * L ^ n ≤ endWeight r c n j := by
    intro r hr j
    rw [endWeight_reach]
    calc mixRate n a l L * L ^ n = ∑ i, r i * (mixRate n a l L * L ^ n) := by rw [← Finset.sum_mul, hr.total, one_mul]
      _ ≤ _ := Finset.sum_le_sum fun i _ => mul_le_mul_of_nonneg_left
        (by rw [mixRate, ← mul_pow, div_mul_cancel₀ _ hL.ne']; exact reach_ge_all h i j) (hr.nonneg i)
  have hi : ∀ r : Fin n → ℝ, IsBelief r → ∀ j, endWeight r c n j ≤ L ^ n := fun r hr j =>
    (Finset.single_le_sum (fun j _ => endWeight_nonneg _ c hr.nonneg h.nonneg.1 h.nonneg.2 n j) (Finset.mem_univ j)).trans
      (endWeight_bounds h hr n).2
  intro i j
  have hL' : 0 < L ^ n := pow_pos hL n
  have hx : 0 ≤ mixRate n a l L * L ^ n := by positivity
  calc endWeight p c n i * endWeight q c n j ≤ L ^ n * L ^ n :=
        mul_le_mul (hi p hp i) (hi q hq j) (hx.trans (lo q hq j)) hL'.le
    _ = (mixRate n a l L)⁻¹ ^ 2 * ((mixRate n a l L * L ^ n) * (mixRate n a l L * L ^ n)) := by
      field_simp
    _ ≤ _ := mul_le_mul_of_nonneg_left (mul_le_mul (lo p hp j) (lo q hq i) hx (hx.trans (lo p hp j))) (by positivity)

/-- **C109.** The filter forgets where it was started: on a ring, with a kernel that leaves two neighbouring moves
possible and a sensor that never rules a cell out, two runs on the same data from any two initial beliefs (even
contradictory ones) succeed, and the probabilities they give to any set of cells differ by an amount that shrinks
exponentially with the number of times the ring could have been walked around. -/
theorem C109_forgets [NeZero n] (h : Mixing c a l L) {p q : Fin n → ℝ} (hp : IsBelief p) (hq : IsBelief q) (T : ℕ) :
    ∃ p' q', bayesRun p c T = .ok p' ∧ bayesRun q c T = .ok q' ∧ ∀ S : Finset (Fin n),
      |∑ i ∈ S, p' i - ∑ i ∈ S, q' i| ≤ (mixRate n a l L)⁻¹ ^ 2 * (1 - mixRate n a l L) ^ (T / n - 1) := by
  obtain ⟨d0, d1⟩ := mixRate_mem h
  set δ := mixRate n a l L
  obtain ⟨p', hp', bp'⟩ := h.run hp T
  obtain ⟨q', hq', bq'⟩ := h.run hq T
  refine ⟨p', q', hp', hq', fun S => ?_⟩
  have hinv : 1 ≤ δ⁻¹ ^ 2 := one_le_pow₀ ((one_le_inv₀ d0).2 d1)
  rcases Nat.lt_or_ge T n with hT | hT
  · rw [Nat.div_eq_of_lt hT]
    simp only [Nat.zero_sub, pow_zero, mul_one]
    refine le_trans ?_ hinv
    have h3 : ∀ r : Fin n → ℝ, IsBelief r → 0 ≤ ∑ i ∈ S, r i ∧ ∑ i ∈ S, r i ≤ 1 := fun r hr => by
      refine ⟨Finset.sum_nonneg fun i _ => hr.nonneg i, ?_⟩
      rw [← hr.total]
      exact Finset.sum_le_sum_of_subset_of_nonneg (Finset.subset_univ S) fun i _ _ => hr.nonneg i
    have h6 := h3 p' bp'
    have h7 := h3 q' bq'
    rw [abs_le]
    constructor <;> linarith
  · have hn : 0 < n := Nat.pos_of_ne_zero (NeZero.ne n)
    have hd : 1 ≤ T / n := (Nat.one_le_div_iff hn).2 hT
    obtain ⟨p1, e1, b1⟩ := h.run hp n
    obtain ⟨q1, f1, g1⟩ := h.run hq n
    have o1 := odds_after h hp hq e1 f1
    have hc' := h.later n
    obtain ⟨p2, e2, b2⟩ := hc'.run b1 ((T / n - 1) * n)
    obtain ⟨q2, f2, g2⟩ := hc'.run g1 ((T / n - 1) * n)
    have o2 := C109_blocks hc'.nonneg d0.le d1 hinv b1 g1 o1 n (T / n - 1)
      (fun b _ i i' j => reach_comparable (hc'.later _) i i' j) e2 f2
    have eT : T = n + ((T / n - 1) * n + T % n) := by
      have := Nat.div_add_mod T n
      have e3 : (T / n - 1) * n = T / n * n - n := Nat.sub_one_mul _ _
      have e4 : n ≤ T / n * n := Nat.le_mul_of_pos_left n hd
      have e5 := Nat.mul_comm n (T / n)
      omega
    have h3 : ∀ r r1 r2 r', bayesRun r c n = .ok r1 → bayesRun r1 (later c n) ((T / n - 1) * n) = .ok r2 →
        bayesRun r c T = .ok r' → bayesRun r2 (later (later c n) ((T / n - 1) * n)) (T % n) = .ok r' := by
      intro r r1 r2 r' a1 a2 a3
      rw [eT, bayesRun_add, a1] at a3
      have a4 : bayesRun r1 (later c n) ((T / n - 1) * n + T % n) = .ok r' := a3
      rw [bayesRun_add, a2] at a4
      exact a4
    have hb : 1 ≤ 1 + (δ⁻¹ ^ 2 - 1) * (1 - δ) ^ (T / n - 1) := by
      have := mul_nonneg (sub_nonneg.2 hinv) (pow_nonneg (sub_nonneg.2 d1) (T / n - 1)); linarith
    have o3 := C109_never_grows (hc'.later _).nonneg hb b2 g2 o2 _ (h3 _ _ _ _ e1 e2 hp') (h3 _ _ _ _ f1 f2 hq')
    refine (o3.close hb bp' bq' S).trans ?_
    have := pow_nonneg (sub_nonneg.2 d1) (T / n - 1)
    nlinarith

/-- A corridor of ten cells with the kernel of the documentation and a door sensor that errs with probability 1/4
meets the hypotheses, whatever the sensor reports. -/
example (door : Fin 10 → Bool) (report : ℕ → Bool) :
    Mixing (fun t => (⟨3, 1, ![1/10, 4/5, 1/10], true, fun i => if door i = report t then 3/4 else 1/4⟩ : BayesStep 10))
      (1/10) (1/4) (3/4) where
  ring _ := rfl
  kernel _ k := by fin_cases k <;> norm_num
  total _ := by simp [Fin.sum_univ_succ]; norm_num
  taps _ := ⟨0, by norm_num, by norm_num, by norm_num⟩
  lik t i := by
    show (1/4 : ℝ) ≤ (if _ then _ else _) ∧ (if _ then _ else _) ≤ (3/4 : ℝ)
    split_ifs <;> norm_num
  pos := by norm_num

end Filterpy
