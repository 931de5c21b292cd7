import Verif.Model.IMM
import Verif.Lemmas.Bank
import Verif.Lemmas.Kalman

/-!
# C31, C32, C34: the interacting multiple model estimator
-/

namespace Filterpy

open Matrix Spec

variable {σ : Type} {n m l N : ℕ} {ζ υ : Type}

/-- What C31 says of the mode probabilities.  `omega i j` is the probability that the mode was `i` given that
it is now `j`. -/
structure ModeInv (s : IMM σ n N) : Prop where
  mu : IsDist s.mu
  cbar_eq : ∀ j, s.cbar j = ∑ i, s.mu i * s.M i j
  cbar : IsDist s.cbar
  cbar_pos : ∀ j, 0 < s.cbar j
  omega : ∀ j, IsDist fun i => s.omega i j
  omega_eq : ∀ i j, s.omega i j * s.cbar j = s.M i j * s.mu i

/-- No predicted mode probability vanishes: either every transition is possible, or every mode is possible
and every mode can be entered. -/
def Regular (M : Mat N N) (mu : Vec N) : Prop :=
  (∀ i j, 0 < M i j) ∨ ((∀ i, 0 < mu i) ∧ ∀ j, ∃ i, 0 < M i j)

theorem IsDist.exists_pos {w : Vec N} (h : IsDist w) : ∃ i, 0 < w i := by
  by_contra hne
  push Not at hne
  have : ∑ i, w i = 0 := Finset.sum_eq_zero fun i _ => le_antisymm (hne i) (h.1 i)
  rw [h.2] at this
  exact one_ne_zero this

theorem imm_mixing {s : IMM σ n N} (hM : IsStochastic s.M) (hmu : IsDist s.mu) (hr : Regular s.M s.mu) :
    ∃ cb om, s.mixing = .ok { s with cbar := cb, omega := om } ∧
      ModeInv { s with cbar := cb, omega := om } := by
  have hc : ∀ j, (s.mu ᵥ* s.M) j = ∑ i, s.mu i * s.M i j := fun j => rfl
  have hnn : ∀ i j, 0 ≤ s.mu i * s.M i j := fun i j => mul_nonneg (hmu.1 i) ((hM i).1 j)
  have hpos : ∀ j, 0 < (s.mu ᵥ* s.M) j := by
    intro j
    rw [hc]
    refine Finset.sum_pos' (fun i _ => hnn i j) ?_
    rcases hr with h | ⟨h1, h2⟩
    · obtain ⟨i, hi⟩ := IsDist.exists_pos hmu
      exact ⟨i, Finset.mem_univ i, mul_pos hi (h i j)⟩
    · obtain ⟨i, hi⟩ := h2 j
      exact ⟨i, Finset.mem_univ i, mul_pos (h1 i) hi⟩
  refine ⟨s.mu ᵥ* s.M, fun i j => s.M i j * s.mu i / (s.mu ᵥ* s.M) j, ?_, ?_⟩
  · simp only [IMM.mixing]
    rw [if_neg]
    rintro ⟨j, hj⟩
    exact (hpos j).ne' hj
  · refine ⟨hmu, fun j => rfl, ⟨fun j => (hpos j).le, ?_⟩, hpos, fun j => ⟨fun i => ?_, ?_⟩, fun i j => ?_⟩
    · show ∑ j, (s.mu ᵥ* s.M) j = 1
      simp only [hc]
      rw [Finset.sum_comm]
      simp only [← Finset.mul_sum, (hM _).2, mul_one, hmu.2]
    · exact div_nonneg (mul_nonneg ((hM i).1 j) (hmu.1 i)) (hpos j).le
    · show ∑ i, s.M i j * s.mu i / (s.mu ᵥ* s.M) j = 1
      rw [← Finset.sum_div, hc]
      simp only [mul_comm (s.M _ j)]
      exact div_self (by rw [← hc]; exact (hpos j).ne')
    · exact div_mul_cancel₀ _ (hpos j).ne'

/-- **C31 (construction).**  Nonnegative weights, not all zero, are normalised, and the mode probabilities form
distributions. -/
theorem C31_init (c : FilterClass σ n ζ υ) (shape : Fin N → List ℕ) (filters : Fin N → σ) (mu : Vec N)
    (M : Mat N N) (hN : 2 ≤ N) (hs : ∀ i j, shape i = shape j) (hmu : ∀ i, 0 ≤ mu i) (hsum : 0 < ∑ i, mu i)
    (hM : IsStochastic M) (hr : Regular M mu) :
    ∃ s, IMM.init c shape filters mu M = .ok s ∧ ModeInv s ∧ s.filters = filters ∧ s.M = M ∧
      (∀ i, s.mu i = mu i / ∑ j, mu j) ∧ Regular s.M s.mu := by
  have hmu' : IsDist fun i => mu i / ∑ j, mu j :=
    ⟨fun i => div_nonneg (hmu i) hsum.le, by rw [← Finset.sum_div]; exact div_self hsum.ne'⟩
  have hr' : Regular M fun i => mu i / ∑ j, mu j := by
    rcases hr with h | ⟨h1, h2⟩
    · exact Or.inl h
    · exact Or.inr ⟨fun i => div_pos (h1 i) hsum, h2⟩
  obtain ⟨cb, om, h1, h2⟩ := imm_mixing (n := n) (s :=
      { filters := filters, mu := fun i => mu i / ∑ i, mu i, M := M, x := 0, P := 0, likelihood := 0
        cbar := 0, omega := 0, xPrior := 0, PPrior := 0, xPost := 0, PPost := 0 }) hM hmu' hr'
  have hsh : ¬ ∃ i j, shape i ≠ shape j := by push Not; exact hs
  refine ⟨_, by
    simp only [IMM.init, if_neg (show ¬ N < 2 by omega), if_neg hsh, if_neg hsum.ne', h1]
    rfl, ?_, rfl, rfl, fun i => rfl, hr'⟩
  exact ⟨h2.mu, h2.cbar_eq, h2.cbar, h2.cbar_pos, h2.omega, h2.omega_eq⟩

/-- **C31 (rejections).**  Fewer than two filters, or states of different shapes, are refused. -/
theorem C31_init_errors (c : FilterClass σ n ζ υ) (shape : Fin N → List ℕ) (filters : Fin N → σ) (mu : Vec N)
    (M : Mat N N) (h : N < 2 ∨ ∃ i j, shape i ≠ shape j) :
    IMM.init c shape filters mu M = .error .valueError := by
  unfold IMM.init
  by_cases h1 : N < 2
  · rw [if_pos h1]
  · rw [if_neg h1, if_pos (h.resolve_left h1)]

/-- A class whose likelihood is positive after every update, as filterpy documents. -/
def PosLik (c : FilterClass σ n ζ υ) : Prop := ∀ f a f', c.update f a = .ok f' → 0 < (c.likelihood f').1

/-- One measurement, when the likelihoods of this call are positive. -/
theorem imm_update_of_pos (c : FilterClass σ n ζ υ) (s : IMM σ n N) (hM : IsStochastic s.M)
    (hi : ModeInv s) (hr : Regular s.M s.mu) (z : ζ) (f' : Fin N → σ)
    (hf : ∀ i, c.update (s.filters i) z = .ok (f' i)) (hL : ∀ i, 0 < (c.likelihood (f' i)).1) :
    ∃ s', s.update c z = .ok s' ∧ ModeInv s' ∧ s'.M = s.M ∧ Regular s'.M s'.mu ∧
      s'.mu = BayesRule s.cbar (fun i => (c.likelihood (f' i)).1) ∧
      (∀ i, s'.likelihood i = (c.likelihood (f' i)).1) ∧ (∀ i, s'.filters i = (c.likelihood (f' i)).2) ∧
      s'.x = MixMean s'.mu (fun i => c.x (s'.filters i)) ∧
      s'.P = MixCov s'.mu (fun i => c.x (s'.filters i)) (fun i => c.P (s'.filters i)) ∧
      s'.xPost = s'.x ∧ s'.PPost = s'.P ∧ s'.xPrior = s.xPrior ∧ s'.PPrior = s.PPrior := by
  set L : Vec N := fun i => (c.likelihood (f' i)).1 with hLd
  have hLpos : ∀ i, 0 < L i := hL
  obtain ⟨hpos, hdist⟩ := BayesRule.isDist hi.cbar hLpos
  have hbank : bankMap (fun _ => c.updLik (fun _ L => L) z) (fun i => (s.filters i, s.likelihood i))
      = .ok fun i => ((c.likelihood (f' i)).2, L i) := by
    rw [bankMap_ok]
    intro i
    rw [updLik_ok]
    exact ⟨f' i, hf i, rfl⟩
  have hr' : Regular s.M (BayesRule s.cbar L) := by
    rcases hr with h | ⟨h1, h2⟩
    · exact Or.inl h
    · exact Or.inr ⟨fun i => div_pos (mul_pos (hi.cbar_pos i) (hLpos i)) hpos, h2⟩
  obtain ⟨cb, om, h1, h2⟩ := imm_mixing (s :=
      { s with
        filters := fun i => (c.likelihood (f' i)).2, likelihood := L
        mu := fun i => s.cbar i * L i / ∑ i, s.cbar i * L i }) hM hdist hr'
  set s2 : IMM σ n N := IMM.estimate c { s with
    filters := fun i => (c.likelihood (f' i)).2, likelihood := L
    mu := fun i => s.cbar i * L i / ∑ i, s.cbar i * L i, cbar := cb, omega := om } with hs2
  have hu : s.update c z = .ok { s2 with xPost := s2.x, PPost := s2.P } := by
    simp only [IMM.update, hbank, if_neg hpos.ne', h1]
    rfl
  refine ⟨{ s2 with xPost := s2.x, PPost := s2.P }, hu, ?_, rfl, hr', rfl, fun i => rfl,
    fun i => rfl, rfl, ?_, rfl, rfl, rfl, rfl⟩
  · exact ⟨h2.mu, h2.cbar_eq, h2.cbar, h2.cbar_pos, h2.omega, h2.omega_eq⟩
  · simp only [hs2, IMM.estimate, MixCov, MixMean]
    exact Finset.sum_congr rfl fun i _ => by rw [add_comm]

/-- **C31 (one measurement).**  If every filter accepts the measurement, so does the estimator; the new mode
probabilities are Bayes' rule applied to the predicted ones with the filters' likelihoods, and the invariant is
restored. -/
theorem C31_update (c : FilterClass σ n ζ υ) (hL : PosLik c) (s : IMM σ n N) (hM : IsStochastic s.M)
    (hi : ModeInv s) (hr : Regular s.M s.mu) (z : ζ) (f' : Fin N → σ)
    (hf : ∀ i, c.update (s.filters i) z = .ok (f' i)) :
    ∃ s', s.update c z = .ok s' ∧ ModeInv s' ∧ s'.M = s.M ∧ Regular s'.M s'.mu ∧
      s'.mu = BayesRule s.cbar (fun i => (c.likelihood (f' i)).1) ∧
      (∀ i, s'.likelihood i = (c.likelihood (f' i)).1) ∧ (∀ i, s'.filters i = (c.likelihood (f' i)).2) ∧
      s'.x = MixMean s'.mu (fun i => c.x (s'.filters i)) ∧
      s'.P = MixCov s'.mu (fun i => c.x (s'.filters i)) (fun i => c.P (s'.filters i)) ∧
      s'.xPost = s'.x ∧ s'.PPost = s'.P ∧ s'.xPrior = s.xPrior ∧ s'.PPrior = s.PPrior :=
  imm_update_of_pos c s hM hi hr z f' hf fun i => hL _ _ _ (hf i)

/-- `predict` succeeds iff every filter's `predict` from its mixed initial condition does. -/
theorem imm_predict (c : FilterClass σ n ζ υ) (s : IMM σ n N) (u : υ) (f' : Fin N → σ)
    (hf : ∀ i, c.predict (c.setXP (s.filters i) (IMM.mixX c s i) (IMM.mixP c s i)) u = .ok (f' i)) :
    ∃ x P, s.predict c u = .ok { s with filters := f', x := x, P := P, xPrior := x, PPrior := P } ∧
      x = MixMean s.mu (fun i => c.x (f' i)) ∧ P = MixCov s.mu (fun i => c.x (f' i)) (fun i => c.P (f' i)) := by
  have hb : bankMap (fun i f => c.predict (c.setXP f (IMM.mixX c s i) (IMM.mixP c s i)) u) s.filters = .ok f' :=
    bankMap_ok.2 hf
  refine ⟨MixMean s.mu (fun i => c.x (f' i)),
    MixCov s.mu (fun i => c.x (f' i)) (fun i => c.P (f' i)), ?_, rfl, rfl⟩
  have e : (∑ i, s.mu i • (vecMulVec (c.x (f' i) - ∑ i, s.mu i • c.x (f' i)) (c.x (f' i) - ∑ i, s.mu i • c.x (f' i))
      + c.P (f' i))) = MixCov s.mu (fun i => c.x (f' i)) (fun i => c.P (f' i)) := by
    simp only [MixCov, MixMean]
    exact Finset.sum_congr rfl fun i _ => by rw [add_comm]
  simp only [IMM.predict, hb, IMM.estimate, e]
  rfl

/-- **C32 (prediction).**  Every filter restarts from the mixture moments of the whole bank, conditioned on its
mode, and the estimator reports the moments of the bank's mixture. -/
theorem C32_predict (c : FilterClass σ n ζ υ) (s s' : IMM σ n N) (u : υ) (h : s.predict c u = .ok s') :
    (∀ i, c.predict (c.setXP (s.filters i)
        (MixMean (fun j => s.omega j i) fun j => c.x (s.filters j))
        (MixCov (fun j => s.omega j i) (fun j => c.x (s.filters j)) fun j => c.P (s.filters j))) u
      = .ok (s'.filters i)) ∧
    s'.x = MixMean s'.mu (fun i => c.x (s'.filters i)) ∧
    s'.P = MixCov s'.mu (fun i => c.x (s'.filters i)) (fun i => c.P (s'.filters i)) ∧
    s'.xPrior = s'.x ∧ s'.PPrior = s'.P ∧ s'.mu = s.mu ∧ s'.M = s.M ∧ s'.cbar = s.cbar ∧ s'.omega = s.omega ∧
    s'.xPost = s.xPost ∧ s'.PPost = s.PPost := by
  have hX : ∀ i, IMM.mixX c s i = MixMean (fun j => s.omega j i) fun j => c.x (s.filters j) := fun i => rfl
  have hP : ∀ i, IMM.mixP c s i
      = MixCov (fun j => s.omega j i) (fun j => c.x (s.filters j)) fun j => c.P (s.filters j) := by
    intro i
    simp only [IMM.mixP, MixCov, hX]
    exact Finset.sum_congr rfl fun i _ => by rw [add_comm]
  cases hb : bankMap (fun i f => c.predict (c.setXP f (IMM.mixX c s i) (IMM.mixP c s i)) u) s.filters with
  | error e => simp [IMM.predict, hb] at h
  | ok f' =>
    have hf := bankMap_ok.1 hb
    obtain ⟨x, P, h1, hx, hP'⟩ := imm_predict c s u f' hf
    obtain rfl := Except.ok.inj (h1.symm.trans h)
    refine ⟨fun i => ?_, hx, hP', rfl, rfl, rfl, rfl, rfl, rfl, rfl, rfl⟩
    rw [← hX, ← hP]
    exact hf i

/-- **C32 (mixing).**  The mixed initial conditions, weighted by the predicted mode probabilities `cbar`, have the
mean and the covariance of the bank weighted by `mu`. -/
theorem C32_mixing (c : FilterClass σ n ζ υ) (s : IMM σ n N) (hM : IsStochastic s.M) (hi : ModeInv s) :
    let x := fun i => c.x (s.filters i)
    let P := fun i => c.P (s.filters i)
    let x' := fun j => MixMean (fun i => s.omega i j) x
    let P' := fun j => MixCov (fun i => s.omega i j) x P
    MixMean s.cbar x' = MixMean s.mu x ∧ MixCov s.cbar x' P' = MixCov s.mu x P := by
  intro x P x' P'
  exact mixing_moments hi.mu.2 hi.cbar.2 (fun i => (hM i).2) (fun j => (hi.omega j).2) hi.omega_eq x P

/-! ### Histories -/

inductive ImmOp (ζ υ : Type)
  | predict (u : υ)
  | update (z : ζ)

noncomputable def ImmOp.run (c : FilterClass σ n ζ υ) (s : IMM σ n N) : ImmOp ζ υ → Exec (IMM σ n N)
  | .predict u => s.predict c u
  | .update z => s.update c z

theorem imm_update_filters (c : FilterClass σ n ζ υ) {s s' : IMM σ n N} {z : ζ} (h : s.update c z = .ok s') :
    ∃ f' : Fin N → σ, ∀ i, c.update (s.filters i) z = .ok (f' i) := by
  cases hb : bankMap (fun _ => c.updLik (fun _ L => L) z) (fun i => (s.filters i, s.likelihood i)) with
  | error e => simp [IMM.update, hb] at h
  | ok fl =>
    have := bankMap_ok.1 hb
    choose f' hf' _ using fun i => updLik_ok.1 (this i)
    exact ⟨f', hf'⟩

/-- **C31.**  The mode probabilities, the predicted mode probabilities and the mixing weights stay probability
distributions through every history. -/
theorem C31_history (c : FilterClass σ n ζ υ) (hL : PosLik c) (s s' : IMM σ n N) (hM : IsStochastic s.M)
    (hi : ModeInv s) (hr : Regular s.M s.mu) (ops : List (ImmOp ζ υ))
    (h : runList (ImmOp.run c) s ops = .ok s') : ModeInv s' ∧ s'.M = s.M ∧ Regular s'.M s'.mu := by
  induction ops generalizing s with
  | nil => obtain rfl := Except.ok.inj h; exact ⟨hi, rfl, hr⟩
  | cons op ops ih =>
    simp only [runList] at h
    split at h
    · rename_i s1 h1
      match op, h1 with
      | .predict u, h1 =>
        obtain ⟨-, -, -, -, -, e1, e2, e3, e4, -⟩ := C32_predict c s s1 u h1
        have hi1 : ModeInv s1 := by
          refine ⟨by rw [e1]; exact hi.mu, by rw [e1, e2, e3]; exact hi.cbar_eq, by rw [e3]; exact hi.cbar,
            by rw [e3]; exact hi.cbar_pos, by rw [e4]; exact hi.omega, by rw [e1, e2, e3, e4]; exact hi.omega_eq⟩
        obtain ⟨a, b, d⟩ := ih s1 (by rw [e2]; exact hM) hi1 (by rw [e1, e2]; exact hr) h
        exact ⟨a, b.trans e2, d⟩
      | .update z, h1 =>
        obtain ⟨f', hf⟩ := imm_update_filters c h1
        obtain ⟨s2, h2, hi2, e2, hr2, -⟩ := C31_update c hL s hM hi hr z f' hf
        obtain rfl : s1 = s2 := Except.ok.inj (h1.symm.trans h2)
        obtain ⟨a, b, d⟩ := ih s1 (by rw [e2]; exact hM) hi2 hr2 h
        exact ⟨a, b.trans e2, d⟩
    · simp at h

/-- A property of filters that implies a positive semidefinite covariance and survives every call. -/
structure PsdClass (c : FilterClass σ n ζ υ) (I : σ → Prop) : Prop where
  psd : ∀ f, I f → (c.P f).PosSemidef
  setXP : ∀ f x P, I f → P.PosSemidef → I (c.setXP f x P)
  predict : ∀ f u f', I f → c.predict f u = .ok f' → I f'
  update : ∀ f a f', I f → c.update f a = .ok f' → I f'
  lik : ∀ f, I f → I (c.likelihood f).2

/-- The estimator reports the moments of its mixture. -/
def ReportsMixture (c : FilterClass σ n ζ υ) (s : IMM σ n N) : Prop :=
  s.x = MixMean s.mu (fun i => c.x (s.filters i)) ∧
  s.P = MixCov s.mu (fun i => c.x (s.filters i)) (fun i => c.P (s.filters i))

/-- **C32 (construction).** -/
theorem C32_init (c : FilterClass σ n ζ υ) (shape : Fin N → List ℕ) (filters : Fin N → σ) (mu : Vec N)
    (M : Mat N N) (s : IMM σ n N) (h : IMM.init c shape filters mu M = .ok s) :
    ReportsMixture c s ∧ s.xPrior = s.x ∧ s.PPrior = s.P ∧ s.xPost = s.x ∧ s.PPost = s.P := by
  unfold IMM.init at h
  by_cases h1 : N < 2
  · rw [if_pos h1] at h; simp at h
  rw [if_neg h1] at h
  by_cases h2 : ∃ i j, shape i ≠ shape j
  · rw [if_pos h2] at h; simp at h
  rw [if_neg h2] at h
  by_cases h3 : ∑ i, mu i = 0
  · rw [if_pos h3] at h; simp at h
  rw [if_neg h3] at h
  simp only [] at h
  split at h
  · simp at h
  · obtain rfl := Except.ok.inj h
    refine ⟨⟨rfl, ?_⟩, rfl, rfl, rfl, rfl⟩
    simp only [IMM.estimate, MixCov, MixMean]
    exact Finset.sum_congr rfl fun i _ => by rw [add_comm]

/-- **C32.**  Through every history the estimator reports the mean and the covariance of the mixture of its
filters, and the covariance is positive semidefinite. -/
theorem C32_history (c : FilterClass σ n ζ υ) (hL : PosLik c) (I : σ → Prop) (hI : PsdClass c I)
    (s s' : IMM σ n N) (hM : IsStochastic s.M) (hi : ModeInv s) (hr : Regular s.M s.mu)
    (h0 : ReportsMixture c s) (hf : ∀ i, I (s.filters i)) (ops : List (ImmOp ζ υ))
    (h : runList (ImmOp.run c) s ops = .ok s') :
    ReportsMixture c s' ∧ s'.P.PosSemidef ∧ ∀ i, I (s'.filters i) := by
  induction ops generalizing s with
  | nil =>
    obtain rfl := Except.ok.inj h
    exact ⟨h0, by rw [h0.2]; exact mixCov_psd hi.mu.1 _ fun i => hI.psd _ (hf i), hf⟩
  | cons op ops ih =>
    simp only [runList] at h
    split at h
    · rename_i s1 h1
      match op, h1 with
      | .predict u, h1 =>
        obtain ⟨g1, g2, g3, -, -, e1, e2, e3, e4, -⟩ := C32_predict c s s1 u h1
        have hi1 : ModeInv s1 := by
          refine ⟨by rw [e1]; exact hi.mu, by rw [e1, e2, e3]; exact hi.cbar_eq, by rw [e3]; exact hi.cbar,
            by rw [e3]; exact hi.cbar_pos, by rw [e4]; exact hi.omega, by rw [e1, e2, e3, e4]; exact hi.omega_eq⟩
        refine ih s1 (by rw [e2]; exact hM) hi1 (by rw [e1, e2]; exact hr) ⟨g2, g3⟩ (fun i => ?_) h
        exact hI.predict _ _ _ (hI.setXP _ _ _ (hf i)
          (mixCov_psd (hi.omega i).1 _ fun j => hI.psd _ (hf j))) (g1 i)
      | .update z, h1 =>
        obtain ⟨f', hf'⟩ := imm_update_filters c h1
        obtain ⟨s2, h2, hi2, e2, hr2, -, -, e4, g2, g3, -⟩ := C31_update c hL s hM hi hr z f' hf'
        obtain rfl : s1 = s2 := Except.ok.inj (h1.symm.trans h2)
        refine ih s1 (by rw [e2]; exact hM) hi2 hr2 ⟨g2, g3⟩ (fun i => ?_) h
        rw [e4 i]
        exact hI.lik _ (hI.update _ _ _ (hf i) (hf' i))
    · simp at h

/-! ### Banks of `KalmanFilter`s -/

/-- After an update the likelihood of a `KalmanFilter` is positive, whether or not the exponential
underflows. -/
theorem kf_posLik (expf : ℝ → ℝ) (he : ∀ t, 0 ≤ expf t) : PosLik (kfClassZ expf n m l) := by
  intro f z f' h
  have hlik : f'.lik = none := by
    cases z with
    | none => obtain rfl := Except.ok.inj h; rfl
    | some z =>
      obtain ⟨SI, -, rfl⟩ := KF.update_ok h
      rfl
  show 0 < (f'.readLik expf).1
  simp only [KF.readLik, hlik]
  have hfm : 0 < floatMin := by unfold floatMin; positivity
  by_cases h0 : expf f'.readLogLik.1 = 0
  · rw [if_pos h0]; exact hfm
  · rw [if_neg h0]; exact lt_of_le_of_ne (he _) (Ne.symm h0)

/-- Well-formed Kalman filters. -/
structure KfGood (s : KF n m l) : Prop where
  P : s.P.PosSemidef
  Q : s.Q.PosSemidef
  R : s.R.PosDef
  alpha : 0 ≤ s.alphaSq
  inv : s.inv = npInv

theorem kfGood_class (expf : ℝ → ℝ) : PsdClass (kfClassZ expf n m l) KfGood where
  psd f h := h.P
  setXP f x P h hP := ⟨hP, h.Q, h.R, h.alpha, h.inv⟩
  predict f u f' h hf := by
    have hf' : f.predict u = .ok f' := hf
    unfold KF.predict at hf'
    simp only [] at hf'
    split at hf'
    · simp at hf'
    · obtain rfl := Except.ok.inj hf'
      refine ⟨?_, h.Q, h.R, h.alpha, h.inv⟩
      exact PosSemidef.add (PosSemidef.smul (by simpa using h.P.mul_mul_conjTranspose_same f.F) h.alpha) h.Q
  update f z f' h hf := by
    cases z with
    | none => obtain rfl := Except.ok.inj hf; exact ⟨h.P, h.Q, h.R, h.alpha, h.inv⟩
    | some z =>
      obtain ⟨SI, -, rfl⟩ := KF.update_ok hf
      exact ⟨joseph_psd h.P h.R.posSemidef _, h.Q, h.R, h.alpha, h.inv⟩
  lik f h := by
    show KfGood (f.readLik expf).2
    unfold KF.readLik KF.readLogLik
    cases h1 : f.lik <;> cases h2 : f.logLik <;> exact ⟨h.P, h.Q, h.R, h.alpha, h.inv⟩

/-- **C31, C32 for banks of `KalmanFilter`s.**  Well-formed filters without control input: every history runs,
the probabilities stay distributions, and the reported moments are the mixture's, with a positive semidefinite
covariance. -/
theorem C32_kalman_bank (expf : ℝ → ℝ) (he : ∀ t, 0 ≤ expf t) (s : IMM (KF n m l) n N)
    (hM : IsStochastic s.M) (hi : ModeInv s) (hr : Regular s.M s.mu)
    (h0 : ReportsMixture (kfClassZ expf n m l) s) (hf : ∀ i, KfGood (s.filters i))
    (ops : List (ImmOp (Option (Vec m)) (UArg l))) (hu : ∀ u, .predict u ∈ ops → ∀ c, u ≠ .scalar c) :
    ∃ s', runList (ImmOp.run (kfClassZ expf n m l)) s ops = .ok s' ∧ ModeInv s' ∧
      ReportsMixture (kfClassZ expf n m l) s' ∧ s'.P.PosSemidef := by
  have hL : PosLik (kfClassZ expf n m l) := kf_posLik expf he
  suffices hrun : ∃ s', runList (ImmOp.run (kfClassZ expf n m l)) s ops = .ok s' by
    obtain ⟨s', h⟩ := hrun
    obtain ⟨a, b, -⟩ := C32_history _ hL KfGood (kfGood_class expf) s s' hM hi hr h0 hf ops h
    exact ⟨s', h, (C31_history _ hL s s' hM hi hr ops h).1, a, b⟩
  induction ops generalizing s with
  | nil => exact ⟨s, rfl⟩
  | cons op ops ih =>
    have hop : ∃ s1, ImmOp.run (kfClassZ expf n m l) s op = .ok s1 := by
      match op, hu with
      | .predict u, hu =>
        have hp : ∀ f : KF n m l, ∃ f', (kfClassZ expf n m l).predict f u = .ok f' := by
          intro f
          show ∃ f', f.predict u = .ok f'
          match u, hu with
          | .none, _ => cases hB : f.B <;> exact ⟨_, by simp only [KF.predict, KF.control, Option.or, hB]; rfl⟩
          | .vec v, _ => cases hB : f.B <;> exact ⟨_, by simp only [KF.predict, KF.control, Option.or, hB]; rfl⟩
          | .scalar c, hu => exact absurd rfl (hu _ (by simp) c)
        choose f' hf' using fun i => hp ((kfClassZ expf n m l).setXP (s.filters i)
          (IMM.mixX (kfClassZ expf n m l) s i) (IMM.mixP (kfClassZ expf n m l) s i))
        obtain ⟨x, P, h1, -⟩ := imm_predict _ s u f' hf'
        exact ⟨_, h1⟩
      | .update z, hu =>
        have hp : ∀ i, ∃ f', (kfClassZ expf n m l).update (s.filters i) z = .ok f' := by
          intro i
          show ∃ f', (s.filters i).update z = .ok f'
          cases z with
          | none => exact ⟨_, rfl⟩
          | some z =>
            have hS := S_pd (H := (s.filters i).H) (hf i).P (hf i).R
            exact ⟨_, by
              simp only [KF.update, MatArg.resolve, Option.getD_none, (hf i).inv, npInv_of_det_ne (PD.det_ne hS)]
              rfl⟩
        choose f' hf' using hp
        obtain ⟨s2, h2, -⟩ := C31_update _ hL s hM hi hr z f' hf'
        exact ⟨s2, h2⟩
    obtain ⟨s1, h1⟩ := hop
    have h1' : runList (ImmOp.run (kfClassZ expf n m l)) s [op] = .ok s1 := by simp only [runList, h1]
    obtain ⟨a, -, b⟩ := C32_history _ hL KfGood (kfGood_class expf) s s1 hM hi hr h0 hf [op] h1'
    obtain ⟨d, e, g⟩ := C31_history _ hL s s1 hM hi hr [op] h1'
    obtain ⟨s', h'⟩ := ih s1 (by rw [e]; exact hM) d g a b fun u hm => hu u (List.mem_cons_of_mem _ hm)
    exact ⟨s', by simp only [runList, h1]; exact h'⟩

/-- Two scalar random constants observed directly, one believed to be at 0 and one at 1. -/
noncomputable def immPair (i : Fin 2) : KF 1 1 0 :=
  { KF.fresh 1 1 0 with x := fun _ => (i : ℝ), Q := 0, H := 0 }

/-- Mode 1 is never left. -/
noncomputable def absorbing : Mat 2 2 := !![1/2, 1/2; 0, 1]

theorem absorbing_stoch : IsStochastic absorbing := by
  intro i
  refine ⟨fun j => ?_, ?_⟩ <;> fin_cases i <;> try fin_cases j
  all_goals simp [absorbing, Fin.sum_univ_two]
  all_goals norm_num

theorem absorbing_regular : Regular absorbing (fun _ : Fin 2 => (1 : ℝ)) := by
  refine Or.inr ⟨fun _ => one_pos, fun j => ⟨0, ?_⟩⟩
  fin_cases j <;> simp [absorbing]

/-- The bank `immPair` with equal mode probabilities. -/
theorem immPair_init (expf : ℝ → ℝ) : ∃ s : IMM (KF 1 1 0) 1 2,
    IMM.init (kfClassZ expf 1 1 0) (fun _ => [1, 1]) immPair (fun _ => 1) absorbing = .ok s ∧
    ModeInv s ∧ s.filters = immPair ∧ s.M = absorbing ∧ Regular s.M s.mu ∧
    s.mu = ![1/2, 1/2] ∧ s.cbar = ![1/4, 3/4] ∧ s.omega = !![1, 1/3; 0, 2/3] ∧ s.x 0 = 1/2 := by
  obtain ⟨s, h, hi, hf, hM, hmu, hr⟩ := C31_init (kfClassZ expf 1 1 0) (fun _ => [1, 1]) immPair (fun _ => 1)
    absorbing (le_refl 2) (fun _ _ => rfl) (fun _ => zero_le_one) (by simp) absorbing_stoch absorbing_regular
  have hmu' : s.mu = ![1/2, 1/2] := by
    funext i
    rw [hmu i]
    fin_cases i <;> norm_num
  have hcb : s.cbar = ![1/4, 3/4] := by
    funext j
    rw [hi.cbar_eq, hmu', hM]
    fin_cases j <;> simp [Fin.sum_univ_two, absorbing] <;> norm_num
  have hom : s.omega = !![1, 1/3; 0, 2/3] := by
    ext i j
    have := hi.omega_eq i j
    rw [hcb, hM, hmu'] at this
    fin_cases i <;> fin_cases j <;> simp [absorbing] at this ⊢ <;> linarith
  refine ⟨s, h, hi, hf, hM, hr, hmu', hcb, hom, ?_⟩
  rw [(C32_init _ _ _ _ _ s h).1.1, hmu', hf, mixMean_apply]
  simp [Fin.sum_univ_two, immPair, kfClassZ]

/-- **C32 (refuted for the prior estimate).**  After `predict` the mode probabilities are `cbar`, but the estimate is
still weighted with `mu`: with two models in which nothing moves, the estimate moves from 1/2 to 1/3. -/
theorem C32_prior_weights_refuted (expf : ℝ → ℝ) : ∃ s s' : IMM (KF 1 1 0) 1 2,
    IMM.init (kfClassZ expf 1 1 0) (fun _ => [1, 1]) immPair (fun _ => 1) absorbing = .ok s ∧
    (∀ i, (s.filters i).F = 1 ∧ (s.filters i).Q = 0) ∧
    s.predict (kfClassZ expf 1 1 0) .none = .ok s' ∧ s.x 0 = 1/2 ∧ s'.x 0 = 1/3 ∧
    MixMean s'.cbar (fun i => (s'.filters i).x) 0 = 1/2 := by
  obtain ⟨s, h, hi, hf, hM, -, hmu, hcb, hom, hx⟩ := immPair_init expf
  have hp : ∀ i, (kfClassZ expf 1 1 0).predict ((kfClassZ expf 1 1 0).setXP (s.filters i)
      (IMM.mixX (kfClassZ expf 1 1 0) s i) (IMM.mixP (kfClassZ expf 1 1 0) s i)) .none
      = .ok { immPair i with
          x := (1 : Mat 1 1) *ᵥ IMM.mixX (kfClassZ expf 1 1 0) s i
          P := (1 : ℝ) • ((1 : Mat 1 1) * IMM.mixP (kfClassZ expf 1 1 0) s i * (1 : Mat 1 1)ᵀ) + 0
          xPrior := (1 : Mat 1 1) *ᵥ IMM.mixX (kfClassZ expf 1 1 0) s i
          PPrior := (1 : ℝ) • ((1 : Mat 1 1) * IMM.mixP (kfClassZ expf 1 1 0) s i * (1 : Mat 1 1)ᵀ) + 0 } := by
    intro i
    rw [hf]
    rfl
  obtain ⟨x, P, h1, hx1, -⟩ := imm_predict _ s UArg.none _ hp
  have hmx : ∀ i, IMM.mixX (kfClassZ expf 1 1 0) s i 0 = s.omega 1 i := by
    intro i
    show (∑ j, s.omega j i • (s.filters j).x) 0 = _
    rw [hf]
    simp [Fin.sum_univ_two, immPair]
  refine ⟨s, _, h, fun i => by rw [hf]; exact ⟨rfl, rfl⟩, h1, hx, ?_, ?_⟩
  · show x 0 = _
    rw [hx1, mixMean_apply]
    show ∑ i, s.mu i * ((1 : Mat 1 1) *ᵥ IMM.mixX (kfClassZ expf 1 1 0) s i) 0 = _
    simp only [one_mulVec, hmx, hom, hmu, Fin.sum_univ_two]
    norm_num
  · rw [mixMean_apply]
    show ∑ i, s.cbar i * ((1 : Mat 1 1) *ᵥ IMM.mixX (kfClassZ expf 1 1 0) s i) 0 = _
    simp only [one_mulVec, hmx, hom, hcb, Fin.sum_univ_two]
    norm_num

/-- **C31 (refuted without regularity).**  Starting in a known mode that is never left (identity transition matrix),
the constructor divides zero by zero. -/
theorem C31_absorbing_start_refuted (c : FilterClass σ n ζ υ) (shape : Fin 2 → List ℕ)
    (hs : ∀ i j, shape i = shape j) (filters : Fin 2 → σ) :
    IsDist ![(1 : ℝ), 0] ∧ IsStochastic (1 : Mat 2 2) ∧
    IMM.init c shape filters ![1, 0] 1 = .error .nonFinite := by
  refine ⟨⟨fun i => by fin_cases i <;> simp, by simp [Fin.sum_univ_two]⟩, fun i => ⟨fun j => ?_, ?_⟩, ?_⟩
  · by_cases h : i = j <;> simp [h, Matrix.one_apply]
  · simp [Matrix.one_apply]
  · have hsh : ¬ ∃ i j, shape i ≠ shape j := by push Not; exact hs
    have : ∃ j : Fin 2, ((fun i => (![(1 : ℝ), 0] : Vec 2) i / ∑ i, (![(1 : ℝ), 0] : Vec 2) i) ᵥ* (1 : Mat 2 2)) j = 0 :=
      ⟨1, by rw [vecMul_one]; simp⟩
    simp only [IMM.init, if_neg (show ¬ 2 < 2 by omega), if_neg hsh,
      if_neg (show ¬ ∑ i, (![(1 : ℝ), 0] : Vec 2) i = 0 by simp [Fin.sum_univ_two]), IMM.mixing, if_pos this]

/-! ### C34: `update(None)` -/

/-- The likelihood a `KalmanFilter` reports for a zero residual. -/
noncomputable def zeroLik (expf : ℝ → ℝ) (S : Mat m m) : ℝ :=
  if expf (logpdf 0 S) = 0 then floatMin else expf (logpdf 0 S)

theorem readLik_bank (expf : ℝ → ℝ) (f : KF n m l) (h1 : f.lik = none) (h2 : f.logLik = none) :
    (f.readLik expf).1 = if expf (logpdf f.y f.S) = 0 then floatMin else expf (logpdf f.y f.S) := by
  simp only [KF.readLik, KF.readLogLik, h1, h2]

theorem readLik_keeps (expf : ℝ → ℝ) (f : KF n m l) :
    (f.readLik expf).2.x = f.x ∧ (f.readLik expf).2.P = f.P ∧ (f.readLik expf).2.S = f.S ∧
      (f.readLik expf).2.y = f.y := by
  unfold KF.readLik KF.readLogLik
  cases f.lik <;> cases f.logLik <;> exact ⟨rfl, rfl, rfl, rfl⟩

/-- **C34 (partial, IMM).**  `update(None)` on a bank of `KalmanFilter`s leaves every filter's state and covariance
alone.  It does change the mode probabilities: they become the predicted ones, reweighted by the likelihood of
a zero residual under each filter's last innovation covariance.  Missing: that nothing changes, which is false
(`C34_imm_refuted`). -/
theorem C34_imm_partial (expf : ℝ → ℝ) (he : ∀ t, 0 ≤ expf t) (s : IMM (KF n m l) n N) (hM : IsStochastic s.M)
    (hi : ModeInv s) (hr : Regular s.M s.mu) :
    ∃ s', s.update (kfClassZ expf n m l) none = .ok s' ∧
      (∀ i, (s'.filters i).x = (s.filters i).x ∧ (s'.filters i).P = (s.filters i).P ∧
        (s'.filters i).S = (s.filters i).S) ∧
      s'.mu = BayesRule s.cbar (fun i => zeroLik expf (s.filters i).S) ∧ ModeInv s' ∧ s'.M = s.M := by
  obtain ⟨s', h1, h2, h3, -, h4, -, h5, -⟩ := C31_update (kfClassZ expf n m l) (kf_posLik expf he) s hM hi hr none
    (fun i => (s.filters i).updateNone) (fun i => rfl)
  refine ⟨s', h1, fun i => ?_, ?_, h2, h3⟩
  · rw [h5 i]
    obtain ⟨a, b, d, -⟩ := readLik_keeps expf (s.filters i).updateNone
    exact ⟨a, b, d⟩
  · rw [h4]
    congr 1

theorem BayesRule.const {w : Vec N} (hw : IsDist w) {v : ℝ} (hv : 0 < v) : BayesRule w (fun _ => v) = w := by
  funext i
  simp only [BayesRule, ← Finset.sum_mul, hw.2, one_mul]
  exact mul_div_cancel_right₀ _ hv.ne'

/-- **C34 (refuted, IMM).**  A bank after one measurement: `update(None)` moves the mode probabilities from
(1/4, 3/4) to (1/8, 7/8), although the documentation says that nothing is changed. -/
theorem C34_imm_refuted (expf : ℝ → ℝ) (he : ∀ t, 0 ≤ expf t) : ∃ s s1 s2 : IMM (KF 1 1 0) 1 2,
    IMM.init (kfClassZ expf 1 1 0) (fun _ => [1, 1]) immPair (fun _ => 1) absorbing = .ok s ∧
    s.update (kfClassZ expf 1 1 0) (some 0) = .ok s1 ∧ s1.update (kfClassZ expf 1 1 0) none = .ok s2 ∧
    s1.mu = ![1/4, 3/4] ∧ s2.mu = ![1/8, 7/8] := by
  obtain ⟨s, h, hi, hf, hM, hr, hmu, hcb, -⟩ := immPair_init expf
  have hup : ∀ i, ∃ f', (kfClassZ expf 1 1 0).update (s.filters i) (some 0) = .ok f' ∧ f'.lik = none ∧
      f'.logLik = none ∧ f'.y = 0 ∧ f'.S = 1 := by
    intro i
    rw [hf]
    have hS : (0 : Mat 1 1) * ((immPair i).P * (0 : Mat 1 1)ᵀ) + 1 = 1 := by simp
    have hn : npInv ((0 : Mat 1 1) * ((immPair i).P * (0 : Mat 1 1)ᵀ) + 1) = some 1 := by
      rw [hS]; exact npInv_eq_some.2 ⟨by simp, by simp⟩
    refine ⟨_, by
      show (immPair i).update (some 0) = _
      simp only [KF.update, MatArg.resolve, Option.getD_none]
      rw [show (immPair i).inv = npInv from rfl, show (immPair i).H = 0 from rfl, show (immPair i).R = 1 from rfl, hn],
      rfl, rfl, ?_, hS⟩
    show (0 : Vec 1) - (0 : Mat 1 1) *ᵥ _ = 0
    simp
  choose f' hf' hl hll hy hS using hup
  have hv : 0 < zeroLik expf (1 : Mat 1 1) := by
    have := kf_posLik (n := 1) (l := 0) expf he _ _ _ (hf' 0)
    have e : ((kfClassZ expf 1 1 0).likelihood (f' 0)).1 = zeroLik expf (1 : Mat 1 1) := by
      refine (readLik_bank expf (f' 0) (hl 0) (hll 0)).trans ?_
      rw [hy, hS]; rfl
    rwa [e] at this
  obtain ⟨s1, h1, hi1, hM1, hr1, hmu1, -, hf1, -⟩ := C31_update (kfClassZ expf 1 1 0) (kf_posLik expf he) s
    (by rw [hM]; exact absorbing_stoch) hi hr (some 0) f' hf'
  have hmu1' : s1.mu = ![1/4, 3/4] := by
    rw [hmu1, ← hcb]
    have e : (fun i => ((kfClassZ expf 1 1 0).likelihood (f' i)).1) = fun _ => zeroLik expf (1 : Mat 1 1) := by
      funext i
      refine (readLik_bank expf (f' i) (hl i) (hll i)).trans ?_
      rw [hy, hS]; rfl
    rw [e, BayesRule.const hi.cbar hv]
  obtain ⟨s2, h2, -, hmu2, -⟩ := C34_imm_partial expf he s1 (by rw [hM1, hM]; exact absorbing_stoch) hi1 hr1
  refine ⟨s, s1, s2, h, h1, h2, hmu1', ?_⟩
  have e : (fun i => zeroLik expf (s1.filters i).S) = fun _ => zeroLik expf (1 : Mat 1 1) := by
    funext i
    rw [hf1 i]
    have : ((kfClassZ expf 1 1 0).likelihood (f' i)).2.S = (f' i).S := (readLik_keeps expf (f' i)).2.2.1
    rw [this, hS]
  rw [hmu2, e, BayesRule.const hi1.cbar hv]
  funext j
  rw [hi1.cbar_eq, hmu1', hM1, hM]
  fin_cases j <;> simp [Fin.sum_univ_two, absorbing] <;> norm_num

/-- Non-vacuity of the bank theorems: the same bank satisfies all their hypotheses. -/
example (expf : ℝ → ℝ) (he : ∀ t, 0 ≤ expf t) (z : Vec 1) : ∃ s s' : IMM (KF 1 1 0) 1 2,
    IMM.init (kfClassZ expf 1 1 0) (fun _ => [1, 1]) immPair (fun _ => 1) absorbing = .ok s ∧
    runList (ImmOp.run (kfClassZ expf 1 1 0)) s
      [.predict .none, .update (some z), .update none, .predict .none] = .ok s' ∧ s'.P.PosSemidef := by
  obtain ⟨s, h, hi, hf, hM, hr, -⟩ := immPair_init expf
  obtain ⟨s', h', -, -, hP⟩ := C32_kalman_bank expf he s (by rw [hM]; exact absorbing_stoch) hi hr
    (C32_init _ _ _ _ _ s h).1
    (fun i => by rw [hf]; exact ⟨PosSemidef.one, PosSemidef.zero, PosDef.one, zero_le_one, rfl⟩)
    [.predict .none, .update (some z), .update none, .predict .none] (by simp)
  exact ⟨s, s', h, h', hP⟩

end Filterpy
