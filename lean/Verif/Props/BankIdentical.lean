import Verif.Props.MMAE

/-!
# Banks of identical filters: C82
-/

namespace Filterpy

open Matrix Spec

variable {σ : Type} {n m l N : ℕ} {ζ ρ η υ : Type}

/-- A filter on its own, driven by the calls made on an IMM estimator (after an update its likelihood
is read, which fills its cache). -/
noncomputable def soloImm (c : FilterClass σ n ζ υ) (f : σ) : ImmOp ζ υ → Exec σ
  | .predict u => c.predict f u
  | .update z => match c.update f z with
    | .ok f' => .ok (c.likelihood f').2
    | .error e => .error e

theorem mixMean_const {w : Vec N} (hw : ∑ i, w i = 1) (x : Vec n) : MixMean w (fun _ => x) = x := by
  simp only [MixMean, ← Finset.sum_smul, hw, one_smul]

theorem mixCov_const {w : Vec N} (hw : ∑ i, w i = 1) (x : Vec n) (P : Mat n n) :
    MixCov w (fun _ => x) (fun _ => P) = P := by
  ext a b
  rw [mixCov_apply, mixMean_const hw]
  simp only [sub_self, mul_zero, add_zero, ← Finset.sum_mul, hw, one_mul]

/-- Number of measurements in a history. -/
def updatesIn (ops : List (ImmOp ζ υ)) : ℕ :=
  (ops.filter fun o => match o with | .update _ => true | .predict _ => false).length

/-- **C82 (IMM).** An `IMMEstimator` made of `N` copies of one filter is that filter: through every
history of `predict` and `update` calls that the single filter survives, the estimator survives, all
its filters and its reported `x` and `P` are those of the single filter, and the mode probabilities
just follow the Markov chain, one step per measurement: the data say nothing about which of the equal
models is right. -/
theorem C82_imm (c : FilterClass σ n ζ υ) (hL : PosLik c)
    (hset : ∀ f, c.setXP f (c.x f) (c.P f) = f) (s : IMM σ n N) (f f' : σ)
    (hM : IsStochastic s.M) (hi : ModeInv s) (hr : Regular s.M s.mu) (hf : ∀ i, s.filters i = f)
    (hx : s.x = c.x f) (hP : s.P = c.P f) (ops : List (ImmOp ζ υ))
    (h : runList (soloImm c) f ops = .ok f') :
    ∃ s', runList (ImmOp.run c) s ops = .ok s' ∧ (∀ i, s'.filters i = f') ∧ s'.x = c.x f' ∧
      s'.P = c.P f' ∧ s'.mu = s.mu ᵥ* s.M ^ updatesIn ops := by
  induction ops generalizing s f with
  | nil =>
    obtain rfl := Except.ok.inj h
    exact ⟨s, rfl, hf, hx, hP, by simp [updatesIn]⟩
  | cons op ops ih =>
    cases op with
    | predict u =>
      simp only [runList, soloImm] at h
      cases hp : c.predict f u with
      | error e => rw [hp] at h; cases h
      | ok f1 =>
        rw [hp] at h
        have hmx : ∀ i, IMM.mixX c s i = c.x f := fun i => by
          have := mixMean_const (hi.omega i).2 (c.x f)
          simp only [IMM.mixX, hf]; exact this
        have hmP : ∀ i, IMM.mixP c s i = c.P f := fun i => by
          simp only [IMM.mixP, hf, hmx, sub_self, vecMulVec_zero, zero_add, ← Finset.sum_smul,
            (hi.omega i).2, one_smul]
        obtain ⟨x, P, h1, h2, h3⟩ := imm_predict c s u (fun _ => f1) fun i => by
          rw [hmx, hmP, hf, hset, hp]
        rw [mixMean_const hi.mu.2] at h2
        rw [mixCov_const hi.mu.2] at h3
        subst h2; subst h3
        obtain ⟨s', e1, e2, e3, e4, e5⟩ := ih { s with
            filters := fun _ => f1, x := c.x f1, P := c.P f1, xPrior := c.x f1, PPrior := c.P f1 } f1
          hM ⟨hi.mu, hi.cbar_eq, hi.cbar, hi.cbar_pos, hi.omega, hi.omega_eq⟩ hr (fun _ => rfl) rfl rfl h
        refine ⟨s', ?_, e2, e3, e4, e5⟩
        simp only [runList, ImmOp.run, h1]; exact e1
    | update z =>
      simp only [runList, soloImm] at h
      cases hu : c.update f z with
      | error e => rw [hu] at h; cases h
      | ok f1 =>
        rw [hu] at h
        obtain ⟨s1, h1, i1, hM1, r1, m1, -, fl1, x1, P1, -⟩ := C31_update c hL s hM hi hr z
          (fun _ => f1) fun i => by rw [hf, hu]
        rw [BayesRule.const hi.cbar (hL _ _ _ hu)] at m1
        have m2 : s1.mu = s.mu ᵥ* s.M := by rw [m1]; funext j; exact hi.cbar_eq j
        have x2 : s1.x = c.x (c.likelihood f1).2 := by
          rw [x1]; simp only [fl1]; exact mixMean_const i1.mu.2 _
        have P2 : s1.P = c.P (c.likelihood f1).2 := by
          rw [P1]; simp only [fl1]; exact mixCov_const i1.mu.2 _ _
        obtain ⟨s', e1, e2, e3, e4, e5⟩ := ih s1 _ (by rw [hM1]; exact hM) i1 r1 fl1 x2 P2 h
        refine ⟨s', ?_, e2, e3, e4, ?_⟩
        · simp only [runList, ImmOp.run, h1]; exact e1
        · rw [e5, m2, hM1, vecMul_vecMul, ← pow_succ']; rfl

/-- Construction: the estimate of a freshly built estimator of equal filters is that of the filter, so the
hypotheses of `C82_imm` hold from the constructor on. -/
theorem C82_imm_init (c : FilterClass σ n ζ υ) (shape : Fin N → List ℕ) (f : σ) (mu : Vec N)
    (M : Mat N N) (hN : 2 ≤ N) (hs : ∀ i j, shape i = shape j) (hmu : ∀ i, 0 ≤ mu i) (hsum : 0 < ∑ i, mu i)
    (hM : IsStochastic M) (hr : Regular M mu) :
    ∃ s, IMM.init c shape (fun _ => f) mu M = .ok s ∧ ModeInv s ∧ s.M = M ∧ Regular s.M s.mu ∧
      (∀ i, s.filters i = f) ∧ s.x = c.x f ∧ s.P = c.P f := by
  obtain ⟨s, h, hi, hf, hsM, -, hsr⟩ := C31_init c shape (fun _ => f) mu M hN hs hmu hsum hM hr
  obtain ⟨⟨hx, hP⟩, -⟩ := C32_init _ _ _ _ _ s h
  refine ⟨s, h, hi, hsM, hsr, fun i => by rw [hf], ?_, ?_⟩
  · rw [hx]; simp only [hf]; exact mixMean_const hi.mu.2 _
  · rw [hP]; simp only [hf]; exact mixCov_const hi.mu.2 _ _

/-- A well-formed `KalmanFilter` survives every history without a scalar control input. -/
theorem soloImm_ok (expf : ℝ → ℝ) (f : KF n m l) (hg : KfGood f)
    (ops : List (ImmOp (Option (Vec m)) (UArg l))) (hu : ∀ u, .predict u ∈ ops → ∀ c, u ≠ .scalar c) :
    ∃ f', runList (soloImm (kfClassZ expf n m l)) f ops = .ok f' := by
  induction ops generalizing f with
  | nil => exact ⟨f, rfl⟩
  | cons op ops ih =>
    have hop : ∃ f1, soloImm (kfClassZ expf n m l) f op = .ok f1 ∧ KfGood f1 := by
      match op, hu with
      | .predict u, hu =>
        have hp : ∃ f', f.predict u = .ok f' := by
          match u, hu with
          | .none, _ => cases hB : f.B <;> exact ⟨_, by simp only [KF.predict, KF.control, Option.or, hB]; rfl⟩
          | .vec v, _ => cases hB : f.B <;> exact ⟨_, by simp only [KF.predict, KF.control, Option.or, hB]; rfl⟩
          | .scalar c, hu => exact absurd rfl (hu _ (by simp) c)
        obtain ⟨f1, h1⟩ := hp
        exact ⟨f1, h1, (kfGood_class expf).predict f u f1 hg h1⟩
      | .update z, hu =>
        have hp : ∃ f', f.update z = .ok f' := by
          cases z with
          | none => exact ⟨_, rfl⟩
          | some z =>
            have hS := S_pd (H := f.H) hg.P hg.R
            exact ⟨_, by
              simp only [KF.update, MatArg.resolve, Option.getD_none, hg.inv, npInv_of_det_ne (PD.det_ne hS)]
              rfl⟩
        obtain ⟨f1, h1⟩ := hp
        have h1' : (kfClassZ expf n m l).update f z = .ok f1 := h1
        exact ⟨((kfClassZ expf n m l).likelihood f1).2, by simp only [soloImm, h1'],
          (kfGood_class expf).lik _ ((kfGood_class expf).update f z f1 hg h1')⟩
    obtain ⟨f1, h1, g1⟩ := hop
    obtain ⟨f', h'⟩ := ih f1 g1 fun u hm => hu u (List.mem_cons_of_mem _ hm)
    exact ⟨f', by simp only [runList, h1]; exact h'⟩

/-- **C82 (IMM of Kalman filters).** An `IMMEstimator` built of `N` equal, well-formed `KalmanFilter`s,
with any mode probabilities and any stochastic matrix that keeps all modes reachable: it and the single
filter both survive every history without a scalar control input, and report the same `x` and `P`. -/
theorem C82_imm_kalman (expf : ℝ → ℝ) (he : ∀ t, 0 ≤ expf t) (shape : Fin N → List ℕ) (f : KF n m l)
    (hg : KfGood f) (mu : Vec N) (M : Mat N N) (hN : 2 ≤ N) (hs : ∀ i j, shape i = shape j)
    (hmu : ∀ i, 0 ≤ mu i) (hsum : 0 < ∑ i, mu i) (hM : IsStochastic M) (hr : Regular M mu)
    (ops : List (ImmOp (Option (Vec m)) (UArg l))) (hu : ∀ u, .predict u ∈ ops → ∀ c, u ≠ .scalar c) :
    ∃ s s' f', IMM.init (kfClassZ expf n m l) shape (fun _ => f) mu M = .ok s ∧
      runList (soloImm (kfClassZ expf n m l)) f ops = .ok f' ∧
      runList (ImmOp.run (kfClassZ expf n m l)) s ops = .ok s' ∧ (∀ i, s'.filters i = f') ∧
      s'.x = f'.x ∧ s'.P = f'.P ∧ s'.mu = s.mu ᵥ* M ^ updatesIn ops := by
  obtain ⟨s, h, hi, hsM, hsr, hf, hx, hP⟩ := C82_imm_init (kfClassZ expf n m l) shape f mu M hN hs hmu hsum hM hr
  obtain ⟨f', hf'⟩ := soloImm_ok expf f hg ops hu
  obtain ⟨s', a, b, d, e, g⟩ := C82_imm (kfClassZ expf n m l) (kf_posLik expf he) (fun _ => rfl) s f f'
    (by rw [hsM]; exact hM) hi hsr hf hx hP ops hf'
  exact ⟨s, s', f', h, hf', a, b, d, e, by rw [g, hsM]⟩

/-- Non-vacuity of `C82_imm_kalman`: two copies of a random-walk filter, driven through predictions, a
measurement and a missing measurement. -/
example (expf : ℝ → ℝ) (he : ∀ t, 0 ≤ expf t) (z : Vec 1) : ∃ (s s' : IMM (KF 1 1 0) 1 2) (f' : KF 1 1 0),
    IMM.init (kfClassZ expf 1 1 0) (fun _ => [1, 1]) (fun _ => KF.fresh 1 1 0) (fun _ => 1) absorbing = .ok s ∧
    runList (ImmOp.run (kfClassZ expf 1 1 0)) s [.predict .none, .update (some z), .update none] = .ok s' ∧
    s'.x = f'.x ∧ s'.P = f'.P := by
  obtain ⟨s, s', f', a, -, b, -, d, e, -⟩ := C82_imm_kalman expf he (fun _ : Fin 2 => [1, 1]) (KF.fresh 1 1 0)
    ⟨PosSemidef.one, PosSemidef.one, PosDef.one, zero_le_one, rfl⟩ (fun _ => 1) absorbing (le_refl 2)
    (fun _ _ => rfl) (fun _ => zero_le_one) (by simp) absorbing_stoch absorbing_regular
    [.predict .none, .update (some z), .update none] (by simp)
  exact ⟨s, s', f', a, b, d, e⟩

/-- **C82 (MMAE), what holds.** In a bank of `N` copies of one filter all filters stay what the single
filter would be, the probabilities do not move, and after a measurement the reported state is that of
the single filter. -/
theorem C82_mmae_partial (c : FilterClass σ n (ζ × ρ × Option η) υ) (hL : PosLik c)
    (s s' : MMAE σ n N ζ η) (hp : IsDist s.p) (f : σ) (hf : ∀ i, s.filters i = f)
    (ops : List (MmaeOp ζ ρ η υ)) (h : runList (MmaeOp.run c) s ops = .ok s') :
    s'.p = s.p ∧ ∃ f' v, runList (soloStep c s.H) (f, 1) ops = .ok (f', v) ∧ (∀ i, s'.filters i = f') ∧
      (∀ z R H ops₀, ops = ops₀ ++ [.update z R H] → s'.x = c.x f') := by
  obtain ⟨L, h1, h2, -⟩ := C33_bayes c s s' ops h
  have hN : Nonempty (Fin N) := by
    by_contra hne
    rw [not_nonempty_iff] at hne
    have := hp.2
    simp at this
  obtain ⟨i0⟩ := hN
  have hall : ∀ i, s'.filters i = s'.filters i0 ∧ L i = L i0 := by
    intro i
    have a := h1 i
    have b := h1 i0
    rw [hf] at a b
    exact Prod.mk.inj (Except.ok.inj (a.symm.trans b))
  have hLc : L = fun _ => L i0 := funext fun i => (hall i).2
  have hLpos : 0 < L i0 := by
    have key : ∀ (ops : List (MmaeOp ζ ρ η υ)) (g : σ) (v : ℝ) (g' : σ) (v' : ℝ), 0 < v →
        runList (soloStep c s.H) (g, v) ops = .ok (g', v') → 0 < v' := by
      intro ops
      induction ops with
      | nil => intro g v g' v' hv h; obtain ⟨-, rfl⟩ := Prod.mk.inj (Except.ok.inj h); exact hv
      | cons op ops ih =>
        intro g v g' v' hv h
        simp only [runList] at h
        cases op with
        | predict u =>
          simp only [soloStep] at h
          cases hc : c.predict g u with
          | error e => simp [hc] at h
          | ok g1 => simp only [hc] at h; exact ih g1 v _ _ hv h
        | update z R H =>
          simp only [soloStep] at h
          cases hc : c.update g (z, R, H.or s.H) with
          | error e => simp [hc] at h
          | ok g1 => simp only [hc] at h; exact ih _ _ _ _ (mul_pos hv (hL _ _ _ hc)) h
    exact key ops _ 1 _ _ one_pos (h1 i0)
  have hp' : s'.p = s.p := by
    split at h2
    · rw [h2, hLc, BayesRule.const hp hLpos]
    · exact h2.1
  refine ⟨hp', s'.filters i0, L i0, by rw [← hf i0]; exact h1 i0, fun i => (hall i).1, ?_⟩
  rintro z R H ops₀ rfl
  have hlast : ∃ s0 : MMAE σ n N ζ η, s0.update c z R H = .ok s' := by
    clear h1 h2 hall hLc hLpos hp' hp hf
    induction ops₀ generalizing s with
    | nil =>
      simp only [List.nil_append, runList, MmaeOp.run] at h
      cases hu : s.update c z R H with
      | error e => rw [hu] at h; cases h
      | ok s1 => rw [hu] at h; obtain rfl := Except.ok.inj h; exact ⟨s, hu⟩
    | cons op ops₀ ih =>
      simp only [List.cons_append, runList] at h
      split at h
      · rename_i s1 _; exact ih s1 h
      · cases h
  obtain ⟨s0, h0⟩ := hlast
  obtain ⟨hx, -⟩ := C33_state c s0 s' z R H h0
  rw [hx]
  simp only [fun i => (hall i).1]
  exact mixMean_const (by rw [hp']; exact hp.2) _

/-- **C82 (MMAE), refuted for the covariance.** Two copies of one filter with a scalar state, equally
likely: after a measurement the single filter's variance is 1 and the bank reports 1/2. -/
theorem C82_mmae_covariance_refuted : ∃ s s1 : MMAE (KF 1 1 0) 1 2 (Option (Vec 1)) (Mat 1 1),
    MMAE.init (kfClass Real.exp 1 1 0) (fun _ : Fin 2 => mmaePair 0) (fun _ : Fin 2 => 1/2) 1 none = .ok s ∧
    s.update (kfClass Real.exp 1 1 0) (some 0) .none none = .ok s1 ∧
    (∀ i, (s1.filters i).P 0 0 = 1) ∧ s1.P 0 0 = 1/2 := by
  obtain ⟨-, -, -, hok⟩ := C33_init (kfClass Real.exp 1 1 0) (fun _ : Fin 2 => mmaePair 0)
    (fun _ : Fin 2 => (1/2 : ℝ)) 1 none
  obtain ⟨s, h0, hf, hp, hH, -⟩ := hok rfl (le_refl 1) (by norm_num)
  have hpd : IsDist s.p := ⟨fun i => by rw [hp]; norm_num, by simp [hp]⟩
  obtain ⟨f', h1, h2, h3, h4, h5, h6, h7⟩ := mmaePair_update 0
  have hup : ∀ i, (kfClass Real.exp 1 1 0).update (s.filters i) (some 0, .none, (none : Option (Mat 1 1)).or s.H)
      = .ok f' := by
    intro i
    rw [hf, hH]
    exact h1
  have hL := kf_posLik3 (n := 1) (m := 1) (l := 0) Real.exp fun t => (Real.exp_pos t).le
  obtain ⟨s1, hs1⟩ := C33_update_ok (kfClass Real.exp 1 1 0) hL s hpd (some 0) .none none (fun _ => f') hup
  have hrun : runList (MmaeOp.run (ρ := MatArg 1) (kfClass Real.exp 1 1 0)) s [.update (some 0) .none none]
      = .ok s1 := by
    simp only [runList, MmaeOp.run, hs1]
  obtain ⟨hp1, -⟩ := C82_mmae_partial (kfClass Real.exp 1 1 0) hL s s1 hpd (mmaePair 0) (fun i => by rw [hf]) _ hrun
  obtain ⟨f, hf2, -, hs'⟩ := mmae_update hs1
  obtain rfl : f = fun _ => f' := funext fun i => Except.ok.inj ((hf2 i).symm.trans (hup i))
  have hfil : ∀ i, s1.filters i = ((kfClass Real.exp 1 1 0).likelihood f').2 := fun i => by rw [hs']
  have hPi : ∀ i, (s1.filters i).P = 1 := fun i => by
    rw [hfil]; exact (readLik_keeps Real.exp f').2.1.trans h7
  have hxi : ∀ i, (s1.filters i).x = fun _ => (0 : ℝ) := fun i => by
    rw [hfil]; refine (readLik_keeps Real.exp f').1.trans (h6.trans ?_); simp
  refine ⟨s, s1, h0, hs1, fun i => by rw [hPi]; rfl, ?_⟩
  have hx1 : s1.x 0 = 0 := by
    rw [(C33_state _ s s1 _ _ _ hs1).1, mixMean_apply]
    refine Finset.sum_eq_zero fun i _ => ?_
    show s1.p i * (s1.filters i).x 0 = 0
    rw [hxi]; simp
  have hPP : s1.P = MMAE.bankP (kfClass Real.exp 1 1 0) s1.x s1.filters s1.p := by rw [hs']
  have e : s1.P = s1.p 0 • (vecMulVec (fun a => (s1.filters 0).x a - s1.x 0) (fun a => (s1.filters 0).x a - s1.x 0)
      + (s1.filters 0).P) := by
    rw [hPP, MMAE.bankP, Fin.sum_univ_two, dif_pos (by norm_num), dif_neg (by norm_num), add_zero]
    rfl
  rw [e, hx1, hxi, hPi, hp1, hp]
  simp [vecMulVec_apply]

end Filterpy
