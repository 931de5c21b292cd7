import Verif.Props.BankIdentical

/-!
# The order of the filters in a bank, and a bank whose mode never changes: C101, C102
-/

namespace Filterpy
open Matrix Spec

variable {σ : Type} {n m l N : ℕ} {ζ ρ η υ : Type}

/-! ## C101: the order in which the filters are listed -/

/-- The estimator with its filters listed in another order: position `i` holds what `π i` held. -/
def Spec.reordered (π : Equiv.Perm (Fin N)) (s : IMM σ n N) : IMM σ n N :=
  { s with
    filters := s.filters ∘ π, mu := s.mu ∘ π, M := s.M.submatrix π π, likelihood := s.likelihood ∘ π
    cbar := s.cbar ∘ π, omega := s.omega.submatrix π π }

theorem estimate_reordered (c : FilterClass σ n ζ υ) (π : Equiv.Perm (Fin N)) (s : IMM σ n N) :
    (reordered π s).estimate c = reordered π (s.estimate c) := by
  have e1 : ∑ i, s.mu (π i) • c.x (s.filters (π i)) = ∑ i, s.mu i • c.x (s.filters i) :=
    Equiv.sum_comp π fun i => s.mu i • c.x (s.filters i)
  have e2 : ∀ x : Vec n, ∑ i, s.mu (π i) • (vecMulVec (c.x (s.filters (π i)) - x) (c.x (s.filters (π i)) - x)
      + c.P (s.filters (π i))) =
      ∑ i, s.mu i • (vecMulVec (c.x (s.filters i) - x) (c.x (s.filters i) - x) + c.P (s.filters i)) := fun x =>
    Equiv.sum_comp π fun i => s.mu i • (vecMulVec (c.x (s.filters i) - x) (c.x (s.filters i) - x) + c.P (s.filters i))
  simp only [IMM.estimate, reordered, Function.comp_apply, e1, e2]

theorem mixing_reordered (π : Equiv.Perm (Fin N)) (s s' : IMM σ n N) (h : s.mixing = .ok s') :
    (reordered π s).mixing = .ok (reordered π s') := by
  simp only [IMM.mixing] at h ⊢
  have e : (reordered π s).mu ᵥ* (reordered π s).M = (s.mu ᵥ* s.M) ∘ π := by
    funext j
    exact Equiv.sum_comp π fun i => s.mu i * s.M i (π j)
  rw [e]
  split_ifs at h with h0
  obtain rfl := Except.ok.inj h
  rw [if_neg]
  · rfl
  · rintro ⟨j, hj⟩
    exact h0 ⟨π j, hj⟩

theorem init_reordered (c : FilterClass σ n ζ υ) (π : Equiv.Perm (Fin N)) (shape : Fin N → List ℕ)
    (filters : Fin N → σ) (mu : Vec N) (M : Mat N N) (s : IMM σ n N) (h : IMM.init c shape filters mu M = .ok s) :
    IMM.init c (shape ∘ π) (filters ∘ π) (mu ∘ π) (M.submatrix π π) = .ok (reordered π s) := by
  unfold IMM.init at h ⊢
  have e : ∑ i, (mu ∘ π) i = ∑ i, mu i := Equiv.sum_comp π mu
  rw [e]
  split_ifs at h with h1 h2 h3
  rw [if_neg h1, if_neg (fun ⟨i, j, hij⟩ => h2 ⟨π i, π j, hij⟩), if_neg h3]
  simp only [] at h ⊢
  cases hm : ({ filters := filters, mu := fun i => mu i / ∑ i, mu i, M := M, x := 0, P := 0, likelihood := 0
                cbar := 0, omega := 0, xPrior := 0, PPrior := 0, xPost := 0, PPost := 0 } : IMM σ n N).mixing with
  | error e => simp [hm] at h
  | ok t =>
    rw [hm] at h
    obtain rfl := Except.ok.inj h
    have := mixing_reordered π _ _ hm
    have e2 : (reordered π { filters := filters, mu := fun i => mu i / ∑ i, mu i, M := M, x := 0, P := 0, likelihood := 0
                             cbar := 0, omega := 0, xPrior := 0, PPrior := 0, xPost := 0, PPost := 0 } : IMM σ n N) =
      { filters := filters ∘ π, mu := fun i => (mu ∘ π) i / ∑ i, mu i, M := M.submatrix π π, x := 0, P := 0
        likelihood := 0, cbar := 0, omega := 0, xPrior := 0, PPrior := 0, xPost := 0, PPost := 0 } := rfl
    rw [e2] at this
    simp only [this, estimate_reordered]
    rfl

theorem update_reordered (c : FilterClass σ n ζ υ) (π : Equiv.Perm (Fin N)) (s s' : IMM σ n N) (z : ζ)
    (h : s.update c z = .ok s') : (reordered π s).update c z = .ok (reordered π s') := by
  unfold IMM.update at h ⊢
  cases hb : bankMap (fun _ => c.updLik (fun _ L => L) z) (fun i => (s.filters i, s.likelihood i)) with
  | error e => simp [hb] at h
  | ok fl =>
    have hb' : bankMap (fun _ => c.updLik (fun _ L => L) z)
        (fun i => ((reordered π s).filters i, (reordered π s).likelihood i)) = .ok (fl ∘ π) :=
      bankMap_ok.2 fun i => bankMap_ok.1 hb (π i)
    rw [hb] at h
    rw [hb']
    simp only [] at h ⊢
    have e : ∑ i, (reordered π s).cbar i * ((fl ∘ π) i).2 = ∑ i, s.cbar i * (fl i).2 :=
      Equiv.sum_comp π fun i => s.cbar i * (fl i).2
    rw [e]
    split_ifs at h with h0
    rw [if_neg h0]
    split at h
    · simp at h
    · rename_i t ht
      obtain rfl := Except.ok.inj h
      have := mixing_reordered π _ _ ht
      have e3 : ({ reordered π s with
          filters := fun i => ((fl ∘ π) i).1, likelihood := fun i => ((fl ∘ π) i).2
          mu := fun i => (reordered π s).cbar i * ((fl ∘ π) i).2 / ∑ i, s.cbar i * (fl i).2 } : IMM σ n N).mixing
          = .ok (reordered π t) := this
      simp only [e3, estimate_reordered]
      rfl

theorem predict_reordered (c : FilterClass σ n ζ υ) (π : Equiv.Perm (Fin N)) (s s' : IMM σ n N) (u : υ)
    (h : s.predict c u = .ok s') : (reordered π s).predict c u = .ok (reordered π s') := by
  unfold IMM.predict at h ⊢
  have ex : ∀ i, (reordered π s).mixX c i = s.mixX c (π i) := fun i =>
    Equiv.sum_comp π fun j => s.omega j (π i) • c.x (s.filters j)
  have eP : ∀ i, (reordered π s).mixP c i = s.mixP c (π i) := fun i => by
    unfold IMM.mixP
    rw [ex]
    exact Equiv.sum_comp π fun j => s.omega j (π i) • (vecMulVec (c.x (s.filters j) - s.mixX c (π i))
      (c.x (s.filters j) - s.mixX c (π i)) + c.P (s.filters j))
  cases hb : bankMap (fun i f => c.predict (c.setXP f (s.mixX c i) (s.mixP c i)) u) s.filters with
  | error e => simp [hb] at h
  | ok fs =>
    have hb' : bankMap (fun i f => c.predict (c.setXP f ((reordered π s).mixX c i) ((reordered π s).mixP c i)) u)
        (reordered π s).filters = .ok (fs ∘ π) := by
      refine bankMap_ok.2 fun i => ?_
      rw [ex, eP]
      exact bankMap_ok.1 hb (π i)
    rw [hb] at h
    rw [hb']
    obtain rfl := Except.ok.inj h
    simp only []
    have := estimate_reordered c π { s with filters := fs }
    have e3 : ({ reordered π s with filters := fs ∘ π } : IMM σ n N).estimate c =
        reordered π (({ s with filters := fs } : IMM σ n N).estimate c) := this
    rw [e3]
    rfl

/-- **C101 (IMM).**  List the filters of an `IMMEstimator`, their probabilities and the rows and columns of the transition
matrix in any other order: construction and every history of `predict` and `update` give the same estimates `x` and `P`
and the same priors and posteriors, and the mode probabilities in the new order. -/
theorem C101_imm (c : FilterClass σ n ζ υ) (π : Equiv.Perm (Fin N)) (shape : Fin N → List ℕ)
    (filters : Fin N → σ) (mu : Vec N) (M : Mat N N) (s s' : IMM σ n N) (h0 : IMM.init c shape filters mu M = .ok s)
    (ops : List (ImmOp ζ υ)) (h : runList (ImmOp.run c) s ops = .ok s') :
    ∃ t t', IMM.init c (shape ∘ π) (filters ∘ π) (mu ∘ π) (M.submatrix π π) = .ok t ∧
      runList (ImmOp.run c) t ops = .ok t' ∧ t'.x = s'.x ∧ t'.P = s'.P ∧ t'.xPrior = s'.xPrior ∧ t'.PPrior = s'.PPrior ∧
      t'.xPost = s'.xPost ∧ t'.PPost = s'.PPost ∧ ∀ i, t'.mu i = s'.mu (π i) ∧ t'.filters i = s'.filters (π i) := by
  refine ⟨reordered π s, reordered π s', init_reordered c π shape filters mu M s h0, ?_, rfl, rfl, rfl, rfl, rfl, rfl,
    fun i => ⟨rfl, rfl⟩⟩
  clear h0
  induction ops generalizing s with
  | nil => obtain rfl := Except.ok.inj h; rfl
  | cons op ops ih =>
    simp only [runList] at h ⊢
    split at h
    · rename_i s1 h1
      have : ImmOp.run c (reordered π s) op = .ok (reordered π s1) := by
        cases op with
        | predict u => exact predict_reordered c π s s1 u h1
        | update z => exact update_reordered c π s s1 z h1
      rw [this]
      exact ih s1 h
    · simp at h

/-- The two banks hold the same filters and probabilities in different orders. -/
structure Reordered (π : Equiv.Perm (Fin N)) (s t : MMAE σ n N ζ η) : Prop where
  filters : t.filters = s.filters ∘ π
  p : t.p = s.p ∘ π
  H : t.H = s.H

theorem bayes_reordered (π : Equiv.Perm (Fin N)) (p L : Vec N) : BayesRule (p ∘ π) (L ∘ π) = BayesRule p L ∘ π := by
  funext i
  simp only [BayesRule, Function.comp_apply]
  rw [Equiv.sum_comp π fun i => p i * L i]

theorem mmae_step_reordered (c : FilterClass σ n (ζ × ρ × Option η) υ) (π : Equiv.Perm (Fin N))
    (s s' t : MMAE σ n N ζ η) (hr : Reordered π s t) (op : MmaeOp ζ ρ η υ) (h : op.run c s = .ok s') :
    ∃ t', op.run c t = .ok t' ∧ Reordered π s' t' ∧ (op.isUpdate = true ∨ t.x = s.x → t'.x = s'.x) := by
  cases op with
  | predict u =>
    obtain ⟨h1, h2⟩ := mmae_predict h
    have hb : bankMap (fun _ f => c.predict f u) t.filters = .ok (s'.filters ∘ π) :=
      bankMap_ok.2 fun i => by rw [hr.filters]; exact h1 (π i)
    refine ⟨{ t with filters := s'.filters ∘ π, xPrior := t.x, PPrior := t.P }, ?_, ⟨rfl, ?_, ?_⟩, ?_⟩
    · simp only [MmaeOp.run, MMAE.predict, hb]
    · rw [h2]; exact hr.p
    · rw [h2]; exact hr.H
    · rw [h2]
      rintro (h | h)
      · simp [MmaeOp.isUpdate] at h
      · exact h
  | update z R H =>
    obtain ⟨f, h1, h2, h3⟩ := mmae_update h
    have hf : ∀ i, c.update (t.filters i) (z, R, H.or t.H) = .ok (f (π i)) := fun i => by
      rw [hr.filters, hr.H]; exact h1 (π i)
    have e : ∑ i, t.p i * (c.likelihood (f (π i))).1 = ∑ i, s.p i * (c.likelihood (f i)).1 := by
      rw [hr.p]; exact Equiv.sum_comp π fun i => s.p i * (c.likelihood (f i)).1
    obtain ⟨t', ht⟩ := mmae_update_exists hf (by rw [e]; exact h2)
    obtain ⟨g, g1, -, g3⟩ := mmae_update ht
    obtain rfl : g = f ∘ π := funext fun i => Except.ok.inj ((g1 i).symm.trans (hf i))
    have hp : t'.p = s'.p ∘ π := by
      rw [g3, h3]
      simp only
      rw [hr.p]
      exact bayes_reordered π s.p fun i => (c.likelihood (f i)).1
    refine ⟨t', ht, ⟨by rw [g3, h3]; rfl, hp, by rw [g3, h3]; exact hr.H⟩, fun _ => ?_⟩
    have e1 : t'.x = MixMean t'.p fun i => c.x (t'.filters i) := by rw [g3]
    have e2 : s'.x = MixMean s'.p fun i => c.x (s'.filters i) := by rw [h3]
    have e4 : t'.filters = s'.filters ∘ π := by rw [g3, h3]; rfl
    rw [e1, e2, hp, e4]
    exact Equiv.sum_comp π fun i => s'.p i • c.x (s'.filters i)

/-- **C101 (MMAE).**  List the filters of an `MMAEFilterBank` and their probabilities in any other order: every history of
`predict` and `update` gives the probabilities and the filters in the new order, and the same estimate `x` as soon as there
has been one update (before, `x` is a copy of the first filter's). -/
theorem C101_mmae_partial (c : FilterClass σ n (ζ × ρ × Option η) υ) (π : Equiv.Perm (Fin N)) (filters : Fin N → σ)
    (p : Vec N) (dimX : ℤ) (H : Option η) (s s' : MMAE σ n N ζ η) (h0 : MMAE.init c filters p dimX H = .ok s)
    (ops : List (MmaeOp ζ ρ η υ)) (h : runList (MmaeOp.run c) s ops = .ok s') :
    ∃ t t', MMAE.init c (filters ∘ π) (p ∘ π) dimX H = .ok t ∧ runList (MmaeOp.run c) t ops = .ok t' ∧
      (∀ i, t'.p i = s'.p (π i) ∧ t'.filters i = s'.filters (π i)) ∧ ((∃ op ∈ ops, op.isUpdate = true) → t'.x = s'.x) := by
  have hi : ∃ t, MMAE.init c (filters ∘ π) (p ∘ π) dimX H = .ok t ∧ Reordered π s t := by
    unfold MMAE.init at h0 ⊢
    rw [dif_pos rfl] at h0 ⊢
    split_ifs at h0 with h1 h2
    rw [if_neg h1, dif_neg h2]
    obtain rfl := Except.ok.inj h0
    exact ⟨_, rfl, rfl, rfl, rfl⟩
  obtain ⟨t, ht, hr⟩ := hi
  have key : ∀ (ops : List (MmaeOp ζ ρ η υ)) (s t : MMAE σ n N ζ η), Reordered π s t →
      runList (MmaeOp.run c) s ops = .ok s' → ∃ t', runList (MmaeOp.run c) t ops = .ok t' ∧ Reordered π s' t' ∧
      ((∃ op ∈ ops, op.isUpdate = true) ∨ t.x = s.x → t'.x = s'.x) := by
    intro ops
    induction ops with
    | nil =>
      intro s t hr h
      obtain rfl := Except.ok.inj h
      exact ⟨t, rfl, hr, by rintro (⟨op, hop, -⟩ | h); exacts [by simp at hop, h]⟩
    | cons op ops ih =>
      intro s t hr h
      simp only [runList] at h ⊢
      split at h
      · rename_i s1 h1
        obtain ⟨t1, g1, g2, g3⟩ := mmae_step_reordered c π s s1 t hr op h1
        obtain ⟨t', k1, k2, k3⟩ := ih s1 t1 g2 h
        rw [g1]
        refine ⟨t', k1, k2, ?_⟩
        rintro (⟨o, ho, hu⟩ | hx)
        · rcases List.mem_cons.1 ho with rfl | ho
          · exact k3 (Or.inr (g3 (Or.inl hu)))
          · exact k3 (Or.inl ⟨o, ho, hu⟩)
        · exact k3 (Or.inr (g3 (Or.inr hx)))
      · simp at h
  obtain ⟨t', k1, k2, k3⟩ := key ops s t hr h
  exact ⟨t, t', ht, k1, fun i => ⟨by rw [k2.p]; rfl, by rw [k2.filters]; rfl⟩, fun hu => k3 (Or.inl hu)⟩

/-- **C101 (MMAE), refuted for the covariance.**  The two filters of `mmaePair`, listed in both orders and given the same
measurement: the bank reports the variance 20/27 in one order and 13/27 in the other. -/
theorem C101_mmae_covariance_refuted : ∃ s s1 t t1 : MMAE (KF 1 1 0) 1 2 (Option (Vec 1)) (Mat 1 1),
    MMAE.init (kfClass Real.exp 1 1 0) mmaePair (fun _ : Fin 2 => 1/2) 1 none = .ok s ∧
    s.update (kfClass Real.exp 1 1 0) (some 0) .none none = .ok s1 ∧ s1.P 0 0 = 20/27 ∧
    MMAE.init (kfClass Real.exp 1 1 0) (mmaePair ∘ Equiv.swap 0 1) (fun _ : Fin 2 => 1/2) 1 none = .ok t ∧
    t.update (kfClass Real.exp 1 1 0) (some 0) .none none = .ok t1 ∧ t1.P 0 0 = 13/27 := by
  obtain ⟨s, s1, h0, h1, h2, -⟩ := C33_covariance_refuted
  obtain ⟨s', s1', h0', h1', -, hp, -, hx, hP⟩ := mmaePair_first
  obtain rfl := Except.ok.inj (h0.symm.trans h0')
  obtain rfl := Except.ok.inj (h1.symm.trans h1')
  obtain ⟨t, t1, k0, k1, k2, k3⟩ := C101_mmae_partial (ρ := MatArg 1) (kfClass Real.exp 1 1 0) (Equiv.swap (0 : Fin 2) 1) mmaePair
    (fun _ : Fin 2 => 1/2) 1 none s s1 h0 [.update (some 0) .none none] (by simp only [runList, MmaeOp.run, h1])
  have k1' : t.update (kfClass Real.exp 1 1 0) (some 0) .none none = .ok t1 := by
    simp only [runList, MmaeOp.run] at k1
    split at k1
    · rename_i hh; obtain rfl := Except.ok.inj k1; exact hh
    · simp at k1
  refine ⟨s, s1, t, t1, h0, h1, h2, k0, k1', ?_⟩
  have hx1 : t1.x = s1.x := k3 ⟨_, List.mem_singleton_self _, rfl⟩
  have hxx : s1.x = MixMean s1.p (fun i => (s1.filters i).x) := (C33_state _ s s1 _ _ _ h1).1
  have hx0 : t1.x 0 = 1/3 := by
    rw [hx1, hxx, mixMean_apply, hp]
    simp [Fin.sum_univ_two, hx]
  have hPP : t1.P = MMAE.bankP (kfClass Real.exp 1 1 0) t1.x t1.filters t1.p := by
    obtain ⟨f, -, -, rfl⟩ := mmae_update k1'
    rfl
  have e : t1.P = t1.p 0 • (vecMulVec (fun a => (t1.filters 0).x a - t1.x 0) (fun a => (t1.filters 0).x a - t1.x 0)
      + (t1.filters 0).P) := by
    rw [hPP, MMAE.bankP, Fin.sum_univ_two, dif_pos (by norm_num), dif_neg (by norm_num), add_zero]
    rfl
  rw [e, hx0, (k2 0).1, (k2 0).2, Equiv.swap_apply_left, hx, hP, hp]
  simp [vecMulVec_apply]
  norm_num


/-! ## C102: a mode that never changes -/

/-- The class as `IMMEstimator` uses it: `update(z)` without the optional arguments, whose defaults are `r` and `None`. -/
def FilterClass.plain (c : FilterClass σ n (ζ × ρ × Option η) υ) (r : ρ) : FilterClass σ n ζ υ where
  x := c.x
  P := c.P
  setXP := c.setXP
  predict := c.predict
  update f z := c.update f (z, r, none)
  likelihood := c.likelihood

example (expf : ℝ → ℝ) : (kfClass expf n m l).plain .none = kfClassZ expf n m l := rfl

/-- The call on the `MMAEFilterBank` for a call on the `IMMEstimator`. -/
def ImmOp.toMmae (r : ρ) : ImmOp ζ υ → MmaeOp ζ ρ η υ
  | .predict u => .predict u
  | .update z => .update z r none

/-- The two banks agree and the modes of the first are not mixed. -/
structure Unmixed (s : IMM σ n N) (t : MMAE σ n N ζ η) : Prop where
  filters : t.filters = s.filters
  p : t.p = s.mu
  H : t.H = none
  M : s.M = 1
  cbar : s.cbar = s.mu
  omega : s.omega = 1

theorem mixing_one {s s' : IMM σ n N} (hM : s.M = 1) (h : s.mixing = .ok s') :
    s' = { s with cbar := s.mu, omega := 1 } := by
  simp only [IMM.mixing, hM, vecMul_one] at h
  split_ifs at h with h0
  obtain rfl := Except.ok.inj h
  have : (fun i j => (1 : Mat N N) i j * s.mu i / s.mu j) = (1 : Mat N N) := by
    funext i j
    by_cases hij : i = j
    · subst hij
      rw [one_apply_eq, one_mul, div_self]
      exact fun h => h0 ⟨i, h⟩
    · rw [one_apply_ne hij, zero_mul, zero_div]
  rw [this]
  simp only [hM]

theorem mix_one {s : IMM σ n N} (ho : s.omega = 1) (c : FilterClass σ n ζ υ) (i : Fin N) :
    s.mixX c i = c.x (s.filters i) ∧ s.mixP c i = c.P (s.filters i) := by
  have hx : s.mixX c i = c.x (s.filters i) := by
    unfold IMM.mixX
    rw [ho, Finset.sum_eq_single i]
    · rw [one_apply_eq, one_smul]
    · intro j _ hj; rw [one_apply_ne hj, zero_smul]
    · simp
  refine ⟨hx, ?_⟩
  unfold IMM.mixP
  rw [ho, hx, Finset.sum_eq_single i]
  · rw [one_apply_eq, one_smul, sub_self]
    simp
  · intro j _ hj; rw [one_apply_ne hj, zero_smul]
  · simp

theorem unmixed_step (c : FilterClass σ n (ζ × ρ × Option η) υ) (r : ρ)
    (hset : ∀ f, c.setXP f (c.x f) (c.P f) = f) (s s' : IMM σ n N) (t : MMAE σ n N ζ η) (hu : Unmixed s t)
    (op : ImmOp ζ υ) (h : op.run (c.plain r) s = .ok s') :
    ∃ t', (op.toMmae r).run c t = .ok t' ∧ Unmixed s' t' ∧ ((∃ z, op = .update z) → t'.x = s'.x) := by
  cases op with
  | predict u =>
    simp only [ImmOp.run, IMM.predict] at h
    cases hb : bankMap (fun i f => (c.plain r).predict ((c.plain r).setXP f (s.mixX (c.plain r) i)
        (s.mixP (c.plain r) i)) u) s.filters with
    | error e => simp [hb] at h
    | ok fs =>
      rw [hb] at h
      obtain rfl := Except.ok.inj h
      have hb' : bankMap (fun _ f => c.predict f u) t.filters = .ok fs := by
        refine bankMap_ok.2 fun i => ?_
        have := bankMap_ok.1 hb i
        rw [(mix_one hu.omega _ i).1, (mix_one hu.omega _ i).2] at this
        rw [hu.filters, ← this]
        exact congrArg (c.predict · u) (hset _).symm
      refine ⟨{ t with filters := fs, xPrior := t.x, PPrior := t.P }, ?_, ⟨rfl, hu.p, hu.H, hu.M, hu.cbar, hu.omega⟩, ?_⟩
      · simp only [ImmOp.toMmae, MmaeOp.run, MMAE.predict, hb']
      · rintro ⟨z, hz⟩; cases hz
  | update z =>
    simp only [ImmOp.run, IMM.update] at h
    cases hb : bankMap (fun _ => (c.plain r).updLik (fun _ L => L) z) (fun i => (s.filters i, s.likelihood i)) with
    | error e => simp [hb] at h
    | ok fl =>
      have h1 := bankMap_ok.1 hb
      choose f hf hfl using fun i => updLik_ok.1 (h1 i)
      obtain rfl : fl = fun i => ((c.likelihood (f i)).2, (c.likelihood (f i)).1) := funext hfl
      rw [hb] at h
      simp only [] at h
      split_ifs at h with h0
      split at h
      · simp at h
      · rename_i s1 hs1
        obtain rfl := Except.ok.inj h
        have e := mixing_one (by exact hu.M) hs1
        rw [hu.cbar] at h0
        have hf' : ∀ i, c.update (t.filters i) (z, r, (none : Option η).or t.H) = .ok (f i) := fun i => by
          rw [hu.filters, hu.H]; exact hf i
        obtain ⟨t', ht⟩ := mmae_update_exists hf' (by rw [hu.p]; exact h0)
        obtain ⟨g, g1, -, g3⟩ := mmae_update ht
        obtain rfl : g = f := funext fun i => Except.ok.inj ((g1 i).symm.trans (hf' i))
        refine ⟨t', ht, ⟨?_, ?_, ?_, ?_, ?_, ?_⟩, fun _ => ?_⟩
        · rw [g3, e]; rfl
        · rw [g3, e]
          simp only [IMM.estimate, hu.p, hu.cbar]
          rfl
        · rw [g3]; exact hu.H
        · rw [e]; exact hu.M
        · rw [e]; rfl
        · rw [e]; rfl
        · rw [g3, e]
          simp only [IMM.estimate, hu.p, hu.cbar]
          rfl

/-- **C102.**  An `IMMEstimator` whose transition matrix is the identity is a bank of filters that never exchange anything:
over every history of `predict` and `update` it has the filters and the probabilities of the `MMAEFilterBank` with the same
filters and starting probabilities, and after every update the same estimate `x`. -/
theorem C102_identity (c : FilterClass σ n (ζ × ρ × Option η) υ) (r : ρ) (hset : ∀ f, c.setXP f (c.x f) (c.P f) = f)
    (shape : Fin N → List ℕ) (filters : Fin N → σ) (mu : Vec N) (hmu : ∑ i, mu i = 1) (dimX : ℤ) (hd : 1 ≤ dimX)
    (s s' : IMM σ n N) (h0 : IMM.init (c.plain r) shape filters mu 1 = .ok s) (ops : List (ImmOp ζ υ))
    (h : runList (ImmOp.run (c.plain r)) s ops = .ok s') :
    ∃ t t' : MMAE σ n N ζ η, MMAE.init c filters mu dimX none = .ok t ∧
      runList (MmaeOp.run c) t (ops.map (ImmOp.toMmae r)) = .ok t' ∧
      t'.filters = s'.filters ∧ t'.p = s'.mu ∧ (∀ ops' z, ops = ops' ++ [.update z] → t'.x = s'.x) := by
  have hi : ∃ t : MMAE σ n N ζ η, MMAE.init c filters mu dimX none = .ok t ∧ Unmixed s t := by
    unfold IMM.init at h0
    split_ifs at h0 with h1 h2 h3
    simp only [] at h0
    split at h0
    · simp at h0
    · rename_i s1 hs1
      have e := mixing_one (by rfl) hs1
      obtain rfl := Except.ok.inj h0
      unfold MMAE.init
      rw [dif_pos rfl, if_neg (by omega), dif_neg (by omega)]
      refine ⟨_, rfl, ?_, ?_, rfl, ?_, ?_, ?_⟩
      · rw [e]; rfl
      · rw [e]
        simp only [IMM.estimate, hmu, div_one]
        rfl
      · rw [e]; rfl
      · rw [e]; rfl
      · rw [e]; rfl
  obtain ⟨t, ht, hu⟩ := hi
  have key : ∀ (ops : List (ImmOp ζ υ)) (s : IMM σ n N) (t : MMAE σ n N ζ η), Unmixed s t →
      runList (ImmOp.run (c.plain r)) s ops = .ok s' → ∃ t', runList (MmaeOp.run c) t (ops.map (ImmOp.toMmae r)) = .ok t' ∧
      Unmixed s' t' ∧ (∀ ops' z, ops = ops' ++ [.update z] → t'.x = s'.x) := by
    intro ops
    induction ops with
    | nil =>
      intro s t hu h
      obtain rfl := Except.ok.inj h
      exact ⟨t, rfl, hu, fun ops' z hz => by simp at hz⟩
    | cons op ops ih =>
      intro s t hu h
      simp only [runList, List.map_cons] at h ⊢
      split at h
      · rename_i s1 h1
        obtain ⟨t1, g1, g2, g3⟩ := unmixed_step c r hset s s1 t hu op h1
        obtain ⟨t', k1, k2, k3⟩ := ih s1 t1 g2 h
        rw [g1]
        refine ⟨t', k1, k2, fun ops' z hz => ?_⟩
        cases ops' with
        | nil =>
          obtain ⟨rfl, rfl⟩ : op = .update z ∧ ops = [] := by simpa using hz
          obtain rfl := Except.ok.inj h
          obtain rfl := Except.ok.inj k1
          exact g3 ⟨z, rfl⟩
        | cons o ops' =>
          simp only [List.cons_append, List.cons.injEq] at hz
          exact k3 ops' z hz.2
      · simp at h
  obtain ⟨t', k1, k2, k3⟩ := key ops s t hu h
  exact ⟨t, t', ht, k1, k2.filters, k2.p, k3⟩

theorem one_stochastic : IsStochastic (1 : Mat N N) := fun i => by
  refine ⟨fun j => ?_, ?_⟩
  · by_cases h : i = j
    · subst h; rw [one_apply_eq]; exact zero_le_one
    · rw [one_apply_ne h]
  · rw [Finset.sum_eq_single i]
    · exact one_apply_eq i
    · intro j _ hj; exact one_apply_ne (Ne.symm hj)
    · simp

/-- **C102 (Kalman filters).**  Two or more well-formed `KalmanFilter`s, each possible at the start: both banks survive every
history without a scalar control input and agree. -/
theorem C102_kalman (expf : ℝ → ℝ) (he : ∀ t, 0 ≤ expf t) (shape : Fin N → List ℕ) (filters : Fin N → KF n m l)
    (hg : ∀ i, KfGood (filters i)) (mu : Vec N) (hN : 2 ≤ N) (hs : ∀ i j, shape i = shape j) (hpos : ∀ i, 0 < mu i)
    (hmu : ∑ i, mu i = 1) (dimX : ℤ) (hd : 1 ≤ dimX) (ops : List (ImmOp (Option (Vec m)) (UArg l)))
    (hu : ∀ u, .predict u ∈ ops → ∀ c, u ≠ .scalar c) :
    ∃ (s s' : IMM (KF n m l) n N) (t t' : MMAE (KF n m l) n N (Option (Vec m)) (Mat m n)),
      IMM.init (kfClassZ expf n m l) shape filters mu 1 = .ok s ∧
      runList (ImmOp.run (kfClassZ expf n m l)) s ops = .ok s' ∧
      MMAE.init (kfClass expf n m l) filters mu dimX none = .ok t ∧
      runList (MmaeOp.run (kfClass expf n m l)) t (ops.map (ImmOp.toMmae .none)) = .ok t' ∧
      t'.filters = s'.filters ∧ t'.p = s'.mu ∧ ∀ ops' z, ops = ops' ++ [.update z] → t'.x = s'.x := by
  obtain ⟨s, h0, hi, hf, hM, -, hr⟩ := C31_init (kfClassZ expf n m l) shape filters mu 1 hN hs (fun i => (hpos i).le)
    (by rw [hmu]; exact one_pos) one_stochastic (Or.inr ⟨hpos, fun j => ⟨j, by rw [one_apply_eq]; exact one_pos⟩⟩)
  obtain ⟨s', h, -⟩ := C32_kalman_bank expf he s (by rw [hM]; exact one_stochastic) hi hr
    (C32_init _ shape filters mu 1 s h0).1 (by rw [hf]; exact hg) ops hu
  obtain ⟨t, t', a, b, c⟩ := C102_identity (kfClass expf n m l) .none (fun _ => rfl) shape filters mu hmu dimX hd s s' h0 ops h
  exact ⟨s, s', t, t', h0, h, a, b, c⟩

/-- Non-vacuity: the two filters of `mmaePair`, a prediction, a measurement, a missed measurement and another one. -/
example (expf : ℝ → ℝ) (he : ∀ t, 0 ≤ expf t) (z w : Vec 1) :
    ∃ (s' : IMM (KF 1 1 0) 1 2) (t' : MMAE (KF 1 1 0) 1 2 (Option (Vec 1)) (Mat 1 1)), t'.p = s'.mu ∧ t'.x = s'.x := by
  obtain ⟨s, s', t, t', -, -, -, -, -, h1, h2⟩ := C102_kalman expf he (fun _ : Fin 2 => [1]) mmaePair (fun i =>
    ⟨PosSemidef.one, PosSemidef.zero, PosDef.smul PosDef.one (by positivity), zero_le_one, rfl⟩) ![1/4, 3/4] (le_refl 2)
    (fun _ _ => rfl) (by intro i; fin_cases i <;> norm_num) (by rw [Fin.sum_univ_two]; norm_num) 1 (le_refl 1)
    [.predict .none, .update (some z), .update none, .update (some w)] (by simp)
  exact ⟨s', t', h1, h2 [.predict .none, .update (some z), .update none] (some w) rfl⟩

/-- Non-vacuity of C101: the same bank with the filters and probabilities exchanged reports the same estimates. -/
example (expf : ℝ → ℝ) (he : ∀ t, 0 ≤ expf t) (z : Vec 1) : ∃ s' t' : IMM (KF 1 1 0) 1 2,
    t'.x = s'.x ∧ t'.P = s'.P ∧ t'.mu 0 = s'.mu 1 := by
  obtain ⟨s, s', t, t', a, b, -⟩ := C102_kalman expf he (fun _ : Fin 2 => [1]) mmaePair (fun i =>
    ⟨PosSemidef.one, PosSemidef.zero, PosDef.smul PosDef.one (by positivity), zero_le_one, rfl⟩) ![1/4, 3/4] (le_refl 2)
    (fun _ _ => rfl) (by intro i; fin_cases i <;> norm_num) (by rw [Fin.sum_univ_two]; norm_num) 1 (le_refl 1)
    [.predict .none, .update (some z)] (by simp)
  obtain ⟨t, t', -, -, h1, h2, -, -, -, -, h3⟩ := C101_imm _ (Equiv.swap (0 : Fin 2) 1) _ _ _ _ s s' a _ b
  exact ⟨s', t', h1, h2, by rw [(h3 0).1, Equiv.swap_apply_left]⟩

end Filterpy
