import Verif.Props.IMM
import Verif.Props.MMAE
import Mathlib.Tactic.Positivity

/-!
# How fast a bank of filters changes its mind (C128)

An `IMMEstimator` mixes with its transition matrix at every step, so no mode ever falls below the smallest transition
probability into it: when the data begin to speak for another mode, one measurement is enough.  An `MMAEFilterBank` weighs
all the evidence it ever saw: it changes over only when the new evidence outweighs the old, and never to a model with
probability zero.
-/

namespace Filterpy

open Matrix Spec

variable {σ ζ υ ρ η : Type} {n N : ℕ}

theorem imm_reached {c : FilterClass σ n ζ υ} (hL : PosLik c) {shape : Fin N → List ℕ} {filters : Fin N → σ} {mu : Vec N}
    {M : Mat N N} {s₀ s : IMM σ n N} {ops : List (ImmOp ζ υ)} (hmu : ∀ i, 0 ≤ mu i) (hM : IsStochastic M)
    (hpos : ∀ i j, 0 < M i j) (h₀ : IMM.init c shape filters mu M = .ok s₀)
    (h : runList (ImmOp.run c) s₀ ops = .ok s) : ModeInv s ∧ s.M = M ∧ Regular s.M s.mu := by
  have hN : 2 ≤ N := by
    by_contra hc
    rw [C31_init_errors c shape filters mu M (Or.inl (by omega))] at h₀
    cases h₀
  have hs : ∀ i j, shape i = shape j := by
    by_contra hc
    push Not at hc
    rw [C31_init_errors c shape filters mu M (Or.inr hc)] at h₀
    cases h₀
  have hsum : 0 < ∑ i, mu i := by
    rcases (Finset.sum_nonneg fun i (_ : i ∈ Finset.univ) => hmu i).lt_or_eq with h1 | h1
    · exact h1
    · have hsh : ¬ ∃ i j, shape i ≠ shape j := by push Not; exact hs
      simp only [IMM.init, if_neg (show ¬ N < 2 by omega), if_neg hsh, if_pos h1.symm] at h₀
      cases h₀
  obtain ⟨t, e, hi, -, hM', -, hr⟩ := C31_init c shape filters mu M hN hs hmu hsum hM (Or.inl hpos)
  cases h₀.symm.trans e
  obtain ⟨a, b, d⟩ := C31_history c hL s₀ s (hM' ▸ hM) hi hr ops h
  exact ⟨a, b.trans hM', d⟩

/-- **C128 (`IMMEstimator`).** However long and however strongly the data have spoken against mode `j`, the probability
with which it goes into the next measurement is at least the smallest transition probability into it. -/
theorem C128_imm_floor (c : FilterClass σ n ζ υ) (hL : PosLik c) (shape : Fin N → List ℕ) (filters : Fin N → σ) (mu : Vec N)
    (M : Mat N N) (s₀ s : IMM σ n N) (ops : List (ImmOp ζ υ)) (hmu : ∀ i, 0 ≤ mu i) (hM : IsStochastic M)
    (hpos : ∀ i j, 0 < M i j) (h₀ : IMM.init c shape filters mu M = .ok s₀)
    (h : runList (ImmOp.run c) s₀ ops = .ok s) (j : Fin N) (ε : ℝ) (hε : ∀ i, ε ≤ M i j) : ε ≤ s.cbar j := by
  obtain ⟨hi, hM', -⟩ := imm_reached hL hmu hM hpos h₀ h
  rw [hi.cbar_eq, hM']
  calc ε = ∑ i, s.mu i * ε := by rw [← Finset.sum_mul, hi.mu.2, one_mul]
    _ ≤ ∑ i, s.mu i * M i j := Finset.sum_le_sum fun i _ => mul_le_mul_of_nonneg_left (hε i) (hi.mu.1 i)

theorem bayes_switch {w L : Vec N} (hw : IsDist w) (hL : ∀ i, 0 < L i) {j : Fin N} {ε r : ℝ} (hε : 0 < ε) (hj : ε ≤ w j)
    (hr : 0 ≤ r) (hlr : ∀ i, i ≠ j → r * L i ≤ L j) : ε * r / (ε * r + (1 - ε)) ≤ BayesRule w L j := by
  have hw1 : w j ≤ 1 := hw.2 ▸ Finset.single_le_sum (fun i _ => hw.1 i) (Finset.mem_univ j)
  have hsplit : ∑ i, w i * L i = w j * L j + ∑ i ∈ Finset.univ.erase j, w i * L i :=
    (Finset.add_sum_erase _ _ (Finset.mem_univ j)).symm
  have hone : w j + ∑ i ∈ Finset.univ.erase j, w i = 1 := by
    rw [Finset.add_sum_erase _ _ (Finset.mem_univ j)]; exact hw.2
  have hrest : r * ∑ i ∈ Finset.univ.erase j, w i * L i ≤ (1 - w j) * L j := by
    rw [← hone, add_sub_cancel_left, Finset.mul_sum, Finset.sum_mul]
    refine Finset.sum_le_sum fun i hi => ?_
    have := mul_le_mul_of_nonneg_left (hlr i (Finset.ne_of_mem_erase hi)) (hw.1 i)
    linarith
  have hrest0 : 0 ≤ ∑ i ∈ Finset.univ.erase j, w i * L i :=
    Finset.sum_nonneg fun i _ => mul_nonneg (hw.1 i) (hL i).le
  have hwj : 0 < w j * L j := mul_pos (hε.trans_le hj) (hL j)
  have hden : 0 < ∑ i, w i * L i := by rw [hsplit]; linarith
  unfold BayesRule
  rcases (show 0 ≤ ε * r + (1 - ε) by nlinarith [mul_nonneg hε.le hr]).lt_or_eq with hd | hd
  · rw [div_le_div_iff₀ hd hden, hsplit]
    nlinarith [mul_le_mul_of_nonneg_left hrest hε.le, mul_nonneg (sub_nonneg.2 hj) (hL j).le]
  · rw [← hd, div_zero]
    exact (div_pos hwj hden).le

/-- **C128 (`IMMEstimator`).** One measurement is enough to change over: whatever happened before, a measurement that is
`r` times as likely under mode `j` as under every other mode gives mode `j` at least the probability
`ε r / (ε r + 1 - ε)`, with `ε` the smallest transition probability into it. -/
theorem C128_imm_switches (c : FilterClass σ n ζ υ) (hL : PosLik c) (shape : Fin N → List ℕ) (filters : Fin N → σ) (mu : Vec N)
    (M : Mat N N) (s₀ s s' : IMM σ n N) (ops : List (ImmOp ζ υ)) (hmu : ∀ i, 0 ≤ mu i) (hM : IsStochastic M)
    (hpos : ∀ i j, 0 < M i j) (h₀ : IMM.init c shape filters mu M = .ok s₀)
    (h : runList (ImmOp.run c) s₀ ops = .ok s) (z : ζ) (h' : s.update c z = .ok s')
    (j : Fin N) (ε r : ℝ) (hε0 : 0 < ε) (hε : ∀ i, ε ≤ M i j) (hr : 0 ≤ r)
    (hlr : ∀ i, i ≠ j → r * s'.likelihood i ≤ s'.likelihood j) : ε * r / (ε * r + (1 - ε)) ≤ s'.mu j := by
  obtain ⟨hi, hM', hreg⟩ := imm_reached hL hmu hM hpos h₀ h
  obtain ⟨f', hf⟩ := imm_update_filters c h'
  obtain ⟨t, e, -, -, -, hb, hl, -⟩ := C31_update c hL s (hM' ▸ hM) hi hreg z f' hf
  cases h'.symm.trans e
  rw [hb]
  refine bayes_switch hi.cbar (fun i => hL _ _ _ (hf i)) hε0
    (C128_imm_floor c hL shape filters mu M s₀ s ops hmu hM hpos h₀ h j ε hε) hr fun i hij => ?_
  simp only [← hl]
  exact hlr i hij

/-- **C128 (`IMMEstimator`).** The reported state follows at once: every entry of `x` is within the fraction
`(1 - ε) / (ε r + 1 - ε)` of the largest disagreement between the filters from the state of filter `j`. -/
theorem C128_imm_follows (c : FilterClass σ n ζ υ) (hL : PosLik c) (shape : Fin N → List ℕ) (filters : Fin N → σ) (mu : Vec N)
    (M : Mat N N) (s₀ s s' : IMM σ n N) (ops : List (ImmOp ζ υ)) (hmu : ∀ i, 0 ≤ mu i) (hM : IsStochastic M)
    (hpos : ∀ i j, 0 < M i j) (h₀ : IMM.init c shape filters mu M = .ok s₀)
    (h : runList (ImmOp.run c) s₀ ops = .ok s) (z : ζ) (h' : s.update c z = .ok s')
    (j : Fin N) (ε r : ℝ) (hε0 : 0 < ε) (hε : ∀ i, ε ≤ M i j) (hr : 0 < r)
    (hlr : ∀ i, i ≠ j → r * s'.likelihood i ≤ s'.likelihood j) (a : Fin n) (D : ℝ)
    (hD : ∀ i, |c.x (s'.filters i) a - c.x (s'.filters j) a| ≤ D) :
    |s'.x a - c.x (s'.filters j) a| ≤ (1 - ε) / (ε * r + (1 - ε)) * D := by
  have hsw := C128_imm_switches c hL shape filters mu M s₀ s s' ops hmu hM hpos h₀ h z h' j ε r hε0 hε hr.le hlr
  obtain ⟨hi, hM', hreg⟩ := imm_reached hL hmu hM hpos h₀ h
  obtain ⟨f', hf⟩ := imm_update_filters c h'
  obtain ⟨t, e, hi', -, -, hb, hl, -, hx, -⟩ := C31_update c hL s (hM' ▸ hM) hi hreg z f' hf
  cases h'.symm.trans e
  have hD0 : 0 ≤ D := (abs_nonneg _).trans (hD j)
  have hε1 : ε ≤ 1 := (hε j).trans ((hM j).2 ▸ Finset.single_le_sum (fun i _ => (hM j).1 i) (Finset.mem_univ j))
  have hd : 0 < ε * r + (1 - ε) := by nlinarith [mul_pos hε0 hr]
  have e1 : s'.x a - c.x (s'.filters j) a = ∑ i ∈ Finset.univ.erase j, s'.mu i * (c.x (s'.filters i) a - c.x (s'.filters j) a) := by
    have e2 : s'.x a - c.x (s'.filters j) a = ∑ i, s'.mu i * (c.x (s'.filters i) a - c.x (s'.filters j) a) := by
      simp only [mul_sub, Finset.sum_sub_distrib, ← Finset.sum_mul, hi'.mu.2, one_mul]
      rw [hx, MixMean, Finset.sum_apply]
      simp only [Pi.smul_apply, smul_eq_mul]
    rw [e2, ← Finset.add_sum_erase _ _ (Finset.mem_univ j), sub_self, mul_zero, zero_add]
  have hone : ∑ i ∈ Finset.univ.erase j, s'.mu i = 1 - s'.mu j := by
    rw [← hi'.mu.2, ← Finset.add_sum_erase _ _ (Finset.mem_univ j), add_sub_cancel_left]
  rw [e1]
  calc |∑ i ∈ Finset.univ.erase j, s'.mu i * (c.x (s'.filters i) a - c.x (s'.filters j) a)|
      ≤ ∑ i ∈ Finset.univ.erase j, s'.mu i * D := by
        refine (Finset.abs_sum_le_sum_abs _ _).trans (Finset.sum_le_sum fun i _ => ?_)
        rw [abs_mul, abs_of_nonneg (hi'.mu.1 i)]
        exact mul_le_mul_of_nonneg_left (hD i) (hi'.mu.1 i)
    _ = (1 - s'.mu j) * D := by rw [← Finset.sum_mul, hone]
    _ ≤ (1 - ε) / (ε * r + (1 - ε)) * D := by
        refine mul_le_mul_of_nonneg_right ?_ hD0
        have : (1 - ε) / (ε * r + (1 - ε)) = 1 - ε * r / (ε * r + (1 - ε)) := by
          rw [eq_sub_iff_add_eq, ← add_div, add_comm (1 - ε), div_self hd.ne']
        rw [this]
        linarith

theorem solo_pos {c : FilterClass σ n (ζ × ρ × Option η) υ} (hL : PosLik c) (H0 : Option η) (ops : List (MmaeOp ζ ρ η υ))
    (f f' : σ) (v L : ℝ) (hv : 0 < v) (h : runList (soloStep c H0) (f, v) ops = .ok (f', L)) : 0 < L := by
  induction ops generalizing f v with
  | nil =>
    obtain ⟨-, rfl⟩ := Prod.mk.inj (Except.ok.inj h)
    exact hv
  | cons op ops ih =>
    simp only [runList] at h
    cases op with
    | predict u =>
      simp only [soloStep] at h
      cases hc : c.predict f u with
      | error e => simp [hc] at h
      | ok g => simp only [hc] at h; exact ih g v hv h
    | update z R H =>
      simp only [soloStep] at h
      cases hc : c.update f (z, R, H.or H0) with
      | error e => simp [hc] at h
      | ok g => simp only [hc] at h; exact ih _ _ (mul_pos hv (hL _ _ _ hc)) h

theorem mmae_weight {c : FilterClass σ n (ζ × ρ × Option η) υ} (hL : PosLik c) {s s' : MMAE σ n N ζ η} (hp : IsDist s.p)
    {ops : List (MmaeOp ζ ρ η υ)} (h : runList (MmaeOp.run c) s ops = .ok s') :
    ∃ L : Vec N, (∀ i, runList (soloStep c s.H) (s.filters i, 1) ops = .ok (s'.filters i, L i)) ∧
      s'.H = s.H ∧ ∃ k : ℝ, 0 < k ∧ ∀ i, s'.p i = k * (s.p i * L i) := by
  obtain ⟨L, h1, h2, h3⟩ := C33_bayes c s s' ops h
  refine ⟨L, h1, h3, ?_⟩
  split at h2
  · have hD := (BayesRule.isDist hp fun i => solo_pos hL _ _ _ _ _ _ one_pos (h1 i)).1
    refine ⟨(∑ i, s.p i * L i)⁻¹, inv_pos.2 hD, fun i => ?_⟩
    rw [h2, BayesRule, div_eq_inv_mul]
  · refine ⟨1, one_pos, fun i => ?_⟩
    rw [h2.1, h2.2, one_mul, mul_one]

/-- **C128 (`MMAEFilterBank`).** A bank changes over from model `i` to model `j` only when the later evidence outweighs all
of the earlier: `L₁`, `L₂` are the products of the likelihoods of each filter, run on its own, over the first and the second
part of the history. -/
theorem C128_mmae_weighs_everything (c : FilterClass σ n (ζ × ρ × Option η) υ) (hL : PosLik c) (s s₁ s₂ : MMAE σ n N ζ η)
    (hp : IsDist s.p) (first second : List (MmaeOp ζ ρ η υ))
    (h₁ : runList (MmaeOp.run c) s first = .ok s₁) (h₂ : runList (MmaeOp.run c) s₁ second = .ok s₂) :
    ∃ L₁ L₂ : Vec N, (∀ i, runList (soloStep c s.H) (s.filters i, 1) first = .ok (s₁.filters i, L₁ i)) ∧
      (∀ i, runList (soloStep c s.H) (s₁.filters i, 1) second = .ok (s₂.filters i, L₂ i)) ∧
      ∀ i j, s₂.p i < s₂.p j ↔ s.p i * L₁ i * L₂ i < s.p j * L₁ j * L₂ j := by
  obtain ⟨L₁, a1, a2, k₁, hk₁, a3⟩ := mmae_weight hL hp h₁
  obtain ⟨L₂, b1, -, k₂, hk₂, b3⟩ := mmae_weight hL (C33_distribution c hL s s₁ hp first h₁) h₂
  refine ⟨L₁, L₂, a1, fun i => a2 ▸ b1 i, fun i j => ?_⟩
  have e : ∀ i, s₂.p i = k₂ * k₁ * (s.p i * L₁ i * L₂ i) := fun i => by rw [b3, a3]; ring
  rw [e i, e j]
  exact mul_lt_mul_iff_right₀ (mul_pos hk₂ hk₁)

/-- **C128 (`MMAEFilterBank`).** A model with probability zero stays out for ever. -/
theorem C128_mmae_dead (c : FilterClass σ n (ζ × ρ × Option η) υ) (s s' : MMAE σ n N ζ η) (ops : List (MmaeOp ζ ρ η υ))
    (h : runList (MmaeOp.run c) s ops = .ok s') (j : Fin N) (hj : s.p j = 0) : s'.p j = 0 := by
  obtain ⟨L, -, hp, -⟩ := C33_bayes c s s' ops h
  split at hp
  · rw [hp, BayesRule, hj, zero_mul, zero_div]
  · rw [hp.1, hj]

/-- Two modes that are left with probability 1/10. -/
noncomputable def lively : Mat 2 2 := !![0.9, 0.1; 0.1, 0.9]

theorem lively_pos (i j : Fin 2) : 0.1 ≤ lively i j := by
  fin_cases i <;> fin_cases j <;> simp [lively] <;> norm_num

theorem lively_stoch : IsStochastic lively := by
  intro i
  refine ⟨fun j => le_trans (by norm_num) (lively_pos i j), ?_⟩
  fin_cases i <;> simp [lively, Fin.sum_univ_two] <;> norm_num

/-- The hypotheses can be met: two Kalman filters, the second of which is given no chance at first; then a likelihood ratio
of 99 in one measurement makes it eleven times as probable as the other. -/
example : ∃ s₀ : IMM (KF 1 1 0) 1 2, IMM.init (kfClassZ Real.exp 1 1 0) (fun _ => [1, 1]) immPair ![1, 0] lively = .ok s₀ ∧
    PosLik (kfClassZ Real.exp 1 1 0) ∧ (∀ i j, 0 < lively i j) ∧ 0.1 ≤ s₀.cbar 1 := by
  have hp : ∀ i j, 0 < lively i j := fun i j => lt_of_lt_of_le (by norm_num) (lively_pos i j)
  have hm : ∀ i, 0 ≤ (![1, 0] : Vec 2) i := fun i => by fin_cases i <;> simp
  obtain ⟨s, h, -⟩ := C31_init (kfClassZ Real.exp 1 1 0) (fun _ => [1, 1]) immPair ![1, 0] lively (le_refl 2)
    (fun _ _ => rfl) hm (by simp [Fin.sum_univ_two]) lively_stoch (Or.inl hp)
  have hL := kf_posLik (n := 1) (m := 1) (l := 0) Real.exp fun t => (Real.exp_pos t).le
  exact ⟨s, h, hL, hp, C128_imm_floor _ hL _ _ _ _ s s [] hm lively_stoch hp h rfl 1 0.1 fun i => lively_pos i 1⟩

example : (0.1 * 99 / (0.1 * 99 + (1 - 0.1)) : ℝ) = 11 / 12 := by norm_num

end Filterpy
