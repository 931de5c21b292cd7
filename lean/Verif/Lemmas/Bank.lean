import Verif.Model.Bank
import Verif.Spec.Mixture
import Verif.Lemmas.Mat

/-! # Filter banks: loops over the filters and mixture moments -/

namespace Filterpy

open Matrix Spec

theorem bankLoop_ok {σ : Type} {N : ℕ} (g : Fin N → σ → Exec σ) (l : List (Fin N)) (hl : l.Nodup)
    (fs fs' : Fin N → σ) :
    runList (bankStep g) fs l = .ok fs' ↔
    (∀ i ∈ l, g i (fs i) = .ok (fs' i)) ∧ ∀ i, i ∉ l → fs' i = fs i := by
  induction l generalizing fs with
  | nil =>
    simp only [runList, List.not_mem_nil, false_imp_iff, implies_true, not_false_eq_true, true_imp_iff, true_and]
    constructor
    · intro h; obtain rfl := Except.ok.inj h; exact fun _ => rfl
    · intro h; rw [funext h]
  | cons a l ih =>
    obtain ⟨ha, hl⟩ := List.nodup_cons.1 hl
    simp only [runList, bankStep]
    cases hg : g a (fs a) with
    | error e =>
      simp only [reduceCtorEq, false_iff, not_and]
      intro h
      have := h a (by simp)
      rw [hg] at this
      simp at this
    | ok f =>
      simp only []
      rw [ih hl]
      constructor
      · rintro ⟨h1, h2⟩
        have hfa : fs' a = f := by rw [h2 a ha]; simp
        refine ⟨fun i hi => ?_, fun i hi => ?_⟩
        · rcases List.mem_cons.1 hi with rfl | hi
          · rw [hg, hfa]
          · have hne : i ≠ a := fun e => ha (e ▸ hi)
            have := h1 i hi
            rwa [Function.update_of_ne hne] at this
        · rw [List.mem_cons, not_or] at hi
          rw [h2 i hi.2, Function.update_of_ne hi.1]
      · rintro ⟨h1, h2⟩
        have hfa : f = fs' a := by
          have := h1 a (by simp)
          rw [hg] at this
          exact Except.ok.inj this
        refine ⟨fun i hi => ?_, fun i hi => ?_⟩
        · have hne : i ≠ a := fun e => ha (e ▸ hi)
          rw [Function.update_of_ne hne]
          exact h1 i (by simp [hi])
        · by_cases hia : i = a
          · subst hia; simp [hfa]
          · rw [Function.update_of_ne hia]
            exact h2 i (by simp [hia, hi])

/-- Calling a method on every filter succeeds with `fs'` iff each call succeeds with its entry. -/
theorem bankMap_ok {σ : Type} {N : ℕ} {g : Fin N → σ → Exec σ} {fs fs' : Fin N → σ} :
    bankMap g fs = .ok fs' ↔ ∀ i, g i (fs i) = .ok (fs' i) := by
  unfold bankMap
  rw [bankLoop_ok g _ (List.nodup_finRange N)]
  simp

theorem updLik_ok {σ : Type} {n : ℕ} {ζ υ : Type} {c : FilterClass σ n ζ υ} {comb : ℝ → ℝ → ℝ} {a : ζ}
    {fv fv' : σ × ℝ} : c.updLik comb a fv = .ok fv' ↔
      ∃ f, c.update fv.1 a = .ok f ∧ fv' = ((c.likelihood f).2, comb fv.2 (c.likelihood f).1) := by
  unfold FilterClass.updLik
  cases h : c.update fv.1 a with
  | error e => simp
  | ok f =>
    simp only [Except.ok.injEq, exists_eq_left']
    exact eq_comm

variable {N n : ℕ}

theorem mixCov_apply (w : Vec N) (x : Fin N → Vec n) (P : Fin N → Mat n n) (a b : Fin n) :
    MixCov w x P a b = ∑ i, w i * (P i a b + (x i a - MixMean w x a) * (x i b - MixMean w x b)) := by
  simp only [MixCov, Matrix.sum_apply, Matrix.smul_apply, Matrix.add_apply, vecMulVec_apply, Pi.sub_apply,
    smul_eq_mul]

theorem mixMean_apply (w : Vec N) (x : Fin N → Vec n) (a : Fin n) : MixMean w x a = ∑ i, w i * x i a := by
  simp [MixMean, Finset.sum_apply]

/-- The covariance of a mixture in terms of raw second moments. -/
theorem mixCov_raw {w : Vec N} (hw : ∑ i, w i = 1) (x : Fin N → Vec n) (P : Fin N → Mat n n) (a b : Fin n) :
    MixCov w x P a b = ∑ i, w i * (P i a b + x i a * x i b) - MixMean w x a * MixMean w x b := by
  rw [mixCov_apply]
  set m := MixMean w x with hm
  have ha : ∑ i, w i * x i a = m a := (mixMean_apply w x a).symm
  have hb : ∑ i, w i * x i b = m b := (mixMean_apply w x b).symm
  have e : ∀ i, w i * (P i a b + (x i a - m a) * (x i b - m b))
      = w i * (P i a b + x i a * x i b) - (w i * x i a) * m b - m a * (w i * x i b) + w i * (m a * m b) :=
    fun i => by ring
  simp only [e, Finset.sum_add_distrib, Finset.sum_sub_distrib, ← Finset.sum_mul, ← Finset.mul_sum, ha, hb, hw]
  ring

theorem mixCov_psd {w : Vec N} (hw : ∀ i, 0 ≤ w i) (x : Fin N → Vec n) {P : Fin N → Mat n n}
    (hP : ∀ i, (P i).PosSemidef) : (MixCov w x P).PosSemidef := by
  unfold MixCov
  refine Matrix.posSemidef_sum _ fun i _ => ?_
  refine PosSemidef.smul (PosSemidef.add (hP i) ?_) (hw i)
  have := posSemidef_vecMulVec_self_star (x i - MixMean w x)
  simpa using this

/-- Regrouping: if the modes move according to `w' j · om i j = w i · M i j` (and the `om · j`, `M i ·` are
distributions), mixing keeps the mean and the covariance. -/
theorem mixing_moments {w w' : Vec N} {M om : Mat N N} (hw : ∑ i, w i = 1) (hw' : ∑ i, w' i = 1)
    (hM : ∀ i, ∑ j, M i j = 1) (hom : ∀ j, ∑ i, om i j = 1)
    (h : ∀ i j, om i j * w' j = M i j * w i) (x : Fin N → Vec n) (P : Fin N → Mat n n) :
    MixMean w' (fun j => MixMean (fun i => om i j) x) = MixMean w x ∧
    MixCov w' (fun j => MixMean (fun i => om i j) x) (fun j => MixCov (fun i => om i j) x P) = MixCov w x P := by
  have key : ∀ y : Fin N → ℝ, ∑ j, w' j * ∑ i, om i j * y i = ∑ i, w i * y i := by
    intro y
    simp only [Finset.mul_sum]
    rw [Finset.sum_comm]
    refine Finset.sum_congr rfl fun i _ => ?_
    have : ∀ j, w' j * (om i j * y i) = M i j * (w i * y i) := fun j => by
      rw [← mul_assoc, mul_comm (w' j), h]; ring
    simp only [this, ← Finset.sum_mul, hM, one_mul]
  have hmean : MixMean w' (fun j => MixMean (fun i => om i j) x) = MixMean w x := by
    funext a
    simp only [mixMean_apply]
    exact key fun i => x i a
  refine ⟨hmean, ?_⟩
  ext a b
  rw [mixCov_raw hw', mixCov_raw hw, hmean]
  congr 1
  have e : ∀ j, MixCov (fun i => om i j) x P a b + MixMean (fun i => om i j) x a * MixMean (fun i => om i j) x b
      = ∑ i, om i j * (P i a b + x i a * x i b) := fun j => by
    rw [mixCov_raw (hom j)]; ring
  simp only [e]
  exact key fun i => P i a b + x i a * x i b

theorem BayesRule.isDist {w L : Vec N} (hw : IsDist w) (hL : ∀ i, 0 < L i) :
    0 < ∑ i, w i * L i ∧ IsDist (BayesRule w L) := by
  have hpos : 0 < ∑ i, w i * L i := by
    refine Finset.sum_pos' (fun i _ => mul_nonneg (hw.1 i) (hL i).le) ?_
    by_contra hne
    push Not at hne
    have : ∑ i, w i = 0 := Finset.sum_eq_zero fun i hi => by
      have h1 := hne i hi
      have h2 : 0 ≤ w i * L i := mul_nonneg (hw.1 i) (hL i).le
      have h3 : w i * L i = 0 := le_antisymm h1 h2
      exact (mul_eq_zero.1 h3).resolve_right (hL i).ne'
    rw [hw.2] at this
    exact one_ne_zero this
  refine ⟨hpos, fun i => div_nonneg (mul_nonneg (hw.1 i) (hL i).le) hpos.le, ?_⟩
  simp only [BayesRule, ← Finset.sum_div]
  exact div_self hpos.ne'

end Filterpy
