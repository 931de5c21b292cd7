import Verif.Model.MMAE
import Verif.Props.IMM

/-!
# C33, C34: the multiple model adaptive estimator
-/

namespace Filterpy

open Matrix Spec

variable {σ : Type} {n m l N : ℕ} {ζ ρ η υ : Type}

/-- A call on the bank. -/
inductive MmaeOp (ζ ρ η υ : Type)
  | predict (u : υ)
  | update (z : ζ) (R : ρ) (H : Option η)

noncomputable def MmaeOp.run (c : FilterClass σ n (ζ × ρ × Option η) υ) (s : MMAE σ n N ζ η) :
    MmaeOp ζ ρ η υ → Exec (MMAE σ n N ζ η)
  | .predict u => s.predict c u
  | .update z R H => s.update c z R H

def MmaeOp.isUpdate : MmaeOp ζ ρ η υ → Bool
  | .predict _ => false
  | .update _ _ _ => true

/-- One filter on its own, driven by the same calls; the number collects the product of its likelihoods. -/
noncomputable def soloStep (c : FilterClass σ n (ζ × ρ × Option η) υ) (H0 : Option η) (fv : σ × ℝ) :
    MmaeOp ζ ρ η υ → Exec (σ × ℝ)
  | .predict u => match c.predict fv.1 u with
    | .ok f => .ok (f, fv.2)
    | .error e => .error (e.1, (e.2, fv.2))
  | .update z R H => match c.update fv.1 (z, R, H.or H0) with
    | .ok f => .ok ((c.likelihood f).2, fv.2 * (c.likelihood f).1)
    | .error e => .error (e.1, (e.2, fv.2))

theorem solo_scale (c : FilterClass σ n (ζ × ρ × Option η) υ) (H0 : Option η) (ops : List (MmaeOp ζ ρ η υ))
    (f f' : σ) (v w L : ℝ) (h : runList (soloStep c H0) (f, v) ops = .ok (f', L)) :
    runList (soloStep c H0) (f, w * v) ops = .ok (f', w * L) := by
  induction ops generalizing f v with
  | nil =>
    obtain ⟨rfl, rfl⟩ := Prod.mk.inj (Except.ok.inj h)
    rfl
  | cons op ops ih =>
    simp only [runList] at h ⊢
    cases op with
    | predict u =>
      simp only [soloStep] at h ⊢
      cases hc : c.predict f u with
      | error e => simp [hc] at h
      | ok g =>
        simp only [hc] at h ⊢
        exact ih g v h
    | update z R H =>
      simp only [soloStep] at h ⊢
      cases hc : c.update f (z, R, H.or H0) with
      | error e => simp [hc] at h
      | ok g =>
        simp only [hc] at h ⊢
        rw [mul_assoc]
        exact ih _ _ h

theorem mmae_predict {c : FilterClass σ n (ζ × ρ × Option η) υ} {s s' : MMAE σ n N ζ η} {u : υ}
    (h : s.predict c u = .ok s') :
    (∀ i, c.predict (s.filters i) u = .ok (s'.filters i)) ∧
      s' = { s with filters := s'.filters, xPrior := s.x, PPrior := s.P } := by
  cases hb : bankMap (fun _ f => c.predict f u) s.filters with
  | error e => simp [MMAE.predict, hb] at h
  | ok f' =>
    simp only [MMAE.predict, hb] at h
    obtain rfl := Except.ok.inj h
    exact ⟨bankMap_ok.1 hb, rfl⟩

theorem mmae_update {c : FilterClass σ n (ζ × ρ × Option η) υ} {s s' : MMAE σ n N ζ η} {z : ζ} {R : ρ}
    {H : Option η} (h : s.update c z R H = .ok s') :
    ∃ f : Fin N → σ, (∀ i, c.update (s.filters i) (z, R, H.or s.H) = .ok (f i)) ∧
      (∑ i, s.p i * (c.likelihood (f i)).1 ≠ 0) ∧
      s' = { s with
        filters := fun i => (c.likelihood (f i)).2
        p := BayesRule s.p (fun i => (c.likelihood (f i)).1)
        x := MixMean (BayesRule s.p (fun i => (c.likelihood (f i)).1)) (fun i => c.x (c.likelihood (f i)).2)
        P := MMAE.bankP c
          (MixMean (BayesRule s.p (fun i => (c.likelihood (f i)).1)) (fun i => c.x (c.likelihood (f i)).2))
          (fun i => (c.likelihood (f i)).2) (BayesRule s.p (fun i => (c.likelihood (f i)).1))
        z := some z
        xPost := MixMean (BayesRule s.p (fun i => (c.likelihood (f i)).1)) (fun i => c.x (c.likelihood (f i)).2)
        PPost := MMAE.bankP c
          (MixMean (BayesRule s.p (fun i => (c.likelihood (f i)).1)) (fun i => c.x (c.likelihood (f i)).2))
          (fun i => (c.likelihood (f i)).2) (BayesRule s.p (fun i => (c.likelihood (f i)).1)) } := by
  cases hb : bankMap (fun _ => c.updLik (fun p L => p * L) (z, R, H.or s.H)) (fun i => (s.filters i, s.p i)) with
  | error e => simp [MMAE.update, hb] at h
  | ok fp =>
    have h1 := bankMap_ok.1 hb
    choose f hf hfp using fun i => updLik_ok.1 (h1 i)
    obtain rfl : fp = fun i => ((c.likelihood (f i)).2, s.p i * (c.likelihood (f i)).1) := funext hfp
    simp only [MMAE.update, hb] at h
    by_cases h0 : ∑ i, s.p i * (c.likelihood (f i)).1 = 0
    · rw [if_pos h0] at h; simp at h
    · rw [if_neg h0] at h
      obtain rfl := Except.ok.inj h
      exact ⟨f, hf, h0, rfl⟩

/-- The converse: the bank accepts a call that all its filters accept, unless all probability is lost. -/
theorem mmae_update_exists {c : FilterClass σ n (ζ × ρ × Option η) υ} {s : MMAE σ n N ζ η} {z : ζ} {R : ρ}
    {H : Option η} {f : Fin N → σ} (hf : ∀ i, c.update (s.filters i) (z, R, H.or s.H) = .ok (f i))
    (h0 : ∑ i, s.p i * (c.likelihood (f i)).1 ≠ 0) : ∃ s', s.update c z R H = .ok s' := by
  have hb : bankMap (fun _ => c.updLik (fun p L => p * L) (z, R, H.or s.H)) (fun i => (s.filters i, s.p i))
      = .ok fun i => ((c.likelihood (f i)).2, s.p i * (c.likelihood (f i)).1) :=
    bankMap_ok.2 fun i => updLik_ok.2 ⟨f i, hf i, rfl⟩
  exact ⟨_, by simp only [MMAE.update, hb, if_neg h0]; rfl⟩

theorem BayesRule.comp {p L L' : Vec N} (h : ∑ i, p i * L i ≠ 0) :
    BayesRule (BayesRule p L) L' = BayesRule p (fun i => L i * L' i) := by
  funext i
  have e : ∀ j, BayesRule p L j * L' j = p j * (L j * L' j) / ∑ i, p i * L i := fun j => by
    simp only [BayesRule]; ring
  have e2 : ∀ j, BayesRule p L j * L' j = p j * (L j * L' j) * (∑ i, p i * L i)⁻¹ := fun j => by
    rw [e, div_eq_mul_inv]
  show BayesRule p L i * L' i / ∑ j, BayesRule p L j * L' j = _
  simp only [e2, ← Finset.sum_mul]
  rw [mul_div_mul_right _ _ (inv_ne_zero h)]
  rfl

/-- **C33.**  After every history the filters of the bank are where they would be on their own; if there was an
update, the probability of filter `i` is its initial probability times the product `L i` of its likelihoods,
normalised. -/
theorem C33_bayes (c : FilterClass σ n (ζ × ρ × Option η) υ) (s s' : MMAE σ n N ζ η)
    (ops : List (MmaeOp ζ ρ η υ)) (h : runList (MmaeOp.run c) s ops = .ok s') :
    ∃ L : Vec N, (∀ i, runList (soloStep c s.H) (s.filters i, 1) ops = .ok (s'.filters i, L i)) ∧
      (if ops.any MmaeOp.isUpdate then s'.p = BayesRule s.p L else s'.p = s.p ∧ L = fun _ => 1) ∧
      s'.H = s.H := by
  induction ops generalizing s with
  | nil =>
    obtain rfl := Except.ok.inj h
    exact ⟨fun _ => 1, fun _ => rfl, by simp, rfl⟩
  | cons op ops ih =>
    simp only [runList] at h
    split at h
    swap
    · simp at h
    rename_i s1 h1
    obtain ⟨L, hL, hp, hH⟩ := ih s1 h
    match op, h1 with
    | .predict u, h1 =>
      obtain ⟨g1, g2⟩ := mmae_predict (ρ := ρ) h1
      have gH : s1.H = s.H := by rw [g2]
      have gp : s1.p = s.p := by rw [g2]
      refine ⟨L, fun i => ?_, ?_, hH.trans gH⟩
      · simp only [runList, soloStep, g1 i]
        rw [← gH]; exact hL i
      · rw [gp] at hp
        simpa [MmaeOp.isUpdate] using hp
    | .update z R H, h1 =>
      obtain ⟨f, g1, g0, g2⟩ := mmae_update (ρ := ρ) h1
      have gH : s1.H = s.H := by rw [g2]
      have gp : s1.p = BayesRule s.p (fun i => (c.likelihood (f i)).1) := by rw [g2]
      have gf : ∀ i, s1.filters i = (c.likelihood (f i)).2 := fun i => by rw [g2]
      refine ⟨fun i => (c.likelihood (f i)).1 * L i, fun i => ?_, ?_, hH.trans gH⟩
      · simp only [runList, soloStep, g1 i]
        have := solo_scale c s.H ops (s1.filters i) (s'.filters i) 1 (c.likelihood (f i)).1 (L i)
          (by rw [← gH]; exact hL i)
        rw [mul_one, gf i] at this
        rw [one_mul]
        exact this
      · simp only [List.any_cons, MmaeOp.isUpdate, Bool.true_or, if_true]
        by_cases ha : ops.any MmaeOp.isUpdate = true
        · rw [if_pos ha] at hp
          rw [hp, gp, BayesRule.comp g0]
        · rw [if_neg ha] at hp
          rw [hp.1, gp, hp.2]
          simp

/-- **C33.**  With a proper initial distribution and positive likelihoods, the probabilities stay a
distribution, and after an update the state is the probability-weighted mean of the filters' states. -/
theorem C33_distribution (c : FilterClass σ n (ζ × ρ × Option η) υ) (hL : PosLik c) (s s' : MMAE σ n N ζ η)
    (hp : IsDist s.p) (ops : List (MmaeOp ζ ρ η υ)) (h : runList (MmaeOp.run c) s ops = .ok s') :
    IsDist s'.p := by
  induction ops generalizing s with
  | nil => obtain rfl := Except.ok.inj h; exact hp
  | cons op ops ih =>
    simp only [runList] at h
    split at h
    swap
    · simp at h
    rename_i s1 h1
    refine ih s1 ?_ h
    match op, h1 with
    | .predict u, h1 =>
      obtain ⟨-, g2⟩ := mmae_predict (ρ := ρ) h1
      rw [g2]; exact hp
    | .update z R H, h1 =>
      obtain ⟨f, g1, -, g2⟩ := mmae_update (ρ := ρ) h1
      rw [g2]
      exact (BayesRule.isDist hp fun i => hL _ _ _ (g1 i)).2

/-- **C33 (state).** -/
theorem C33_state (c : FilterClass σ n (ζ × ρ × Option η) υ) (s s' : MMAE σ n N ζ η) (z : ζ) (R : ρ) (H : Option η)
    (h : s.update c z R H = .ok s') :
    s'.x = MixMean s'.p (fun i => c.x (s'.filters i)) ∧ s'.xPost = s'.x ∧ s'.PPost = s'.P ∧ s'.z = some z ∧
      s'.xPrior = s.xPrior ∧ s'.PPrior = s.PPrior := by
  obtain ⟨f, -, -, rfl⟩ := mmae_update (ρ := ρ) h
  exact ⟨rfl, rfl, rfl, rfl, rfl, rfl⟩

/-- **C33 (totality).**  With positive likelihoods an update succeeds whenever all the filters accept it. -/
theorem C33_update_ok (c : FilterClass σ n (ζ × ρ × Option η) υ) (hL : PosLik c) (s : MMAE σ n N ζ η)
    (hp : IsDist s.p) (z : ζ) (R : ρ) (H : Option η) (f : Fin N → σ)
    (hf : ∀ i, c.update (s.filters i) (z, R, H.or s.H) = .ok (f i)) : ∃ s', s.update c z R H = .ok s' :=
  mmae_update_exists hf (BayesRule.isDist hp fun i => hL _ _ _ (hf i)).1.ne'

/-- **C33 (construction).** -/
theorem C33_init (c : FilterClass σ n (ζ × ρ × Option η) υ) (filters : Fin N → σ) {k : ℕ} (p : Vec k)
    (dimX : ℤ) (H : Option η) :
    (N ≠ k → MMAE.init c filters p dimX H = .error .valueError) ∧
    (N = k → dimX < 1 → MMAE.init c filters p dimX H = .error .valueError) ∧
    (N = k → 1 ≤ dimX → N = 0 → MMAE.init c filters p dimX H = .error .indexError) ∧
    (∀ h : N = k, 1 ≤ dimX → ∀ h0 : 0 < N, ∃ s, MMAE.init c filters p dimX H = .ok s ∧ s.filters = filters ∧
      (∀ i, s.p i = p (Fin.cast h i)) ∧ s.H = H ∧ s.x = c.x (filters ⟨0, h0⟩) ∧ s.P = c.P (filters ⟨0, h0⟩) ∧
      s.xPrior = s.x ∧ s.PPrior = s.P ∧ s.xPost = s.x ∧ s.PPost = s.P) := by
  unfold MMAE.init
  refine ⟨fun h => by rw [dif_neg h], fun h h1 => by rw [dif_pos h, if_pos h1],
    fun h h1 h2 => by rw [dif_pos h, if_neg (by omega), dif_pos h2], fun h h1 h0 => ?_⟩
  refine ⟨_, by rw [dif_pos h, if_neg (by omega), dif_neg (by omega)], rfl, fun i => rfl, rfl, rfl, rfl, rfl, rfl,
    rfl, rfl⟩

/-- **C33 (covariance, partial).**  `P` is positive semidefinite when the filters' covariances are; it is the
mixture's covariance when there are at most `dim_x` filters and all entries of the bank's mean agree.  Missing: in
general it is not (`C33_covariance_refuted`). -/
theorem C33_covariance_partial (c : FilterClass σ n (ζ × ρ × Option η) υ) (s s' : MMAE σ n N ζ η) (z : ζ) (R : ρ)
    (H : Option η) (h : s.update c z R H = .ok s') :
    ((∀ i, 0 ≤ s'.p i) → (∀ i, (c.P (s'.filters i)).PosSemidef) → s'.P.PosSemidef) ∧
    (N ≤ n → (∀ a b, s'.x a = s'.x b) →
      s'.P = MixCov s'.p (fun i => c.x (s'.filters i)) (fun i => c.P (s'.filters i))) := by
  obtain ⟨hx, -⟩ := C33_state c s s' z R H h
  have hP : s'.P = MMAE.bankP c s'.x s'.filters s'.p := by
    obtain ⟨f, -, -, rfl⟩ := mmae_update (ρ := ρ) h
    rfl
  constructor
  · intro hp hf
    rw [hP]
    refine Matrix.posSemidef_sum _ fun i _ => ?_
    by_cases hi : (i : ℕ) < n
    · rw [dif_pos hi]
      refine PosSemidef.smul (PosSemidef.add ?_ (hf i)) (hp i)
      simpa using posSemidef_vecMulVec_self_star (fun a => c.x (s'.filters i) a - s'.x ⟨i, hi⟩)
    · rw [dif_neg hi]; exact PosSemidef.zero
  · intro hN hc
    rw [hP, MMAE.bankP, MixCov, ← hx]
    refine Finset.sum_congr rfl fun i _ => ?_
    have hi : (i : ℕ) < n := lt_of_lt_of_le i.2 hN
    rw [dif_pos hi, add_comm]
    have e : (fun a => c.x (s'.filters i) a - s'.x ⟨i, hi⟩) = c.x (s'.filters i) - s'.x := by
      funext a
      rw [Pi.sub_apply, hc a ⟨i, hi⟩]
    rw [e]

/-! ### Banks of `KalmanFilter`s -/

theorem kf_posLik3 (expf : ℝ → ℝ) (he : ∀ t, 0 ≤ expf t) : PosLik (kfClass expf n m l) := by
  intro f a f' h
  obtain ⟨z, R, H⟩ := a
  have hlik : f'.lik = none := by
    cases z with
    | none => obtain rfl := Except.ok.inj h; rfl
    | some z =>
      obtain ⟨SI, -, rfl⟩ := KF.update_ok h
      rfl
  show 0 < (f'.readLik expf).1
  simp only [KF.readLik, hlik]
  have hfm : 0 < floatMin := by unfold floatMin; positivity
  by_cases h0 : expf f'.readLogLik.1 = 0
  · rw [if_pos h0]; exact hfm
  · rw [if_neg h0]; exact lt_of_le_of_ne (he _) (Ne.symm h0)

/-- **C34 (partial, MMAE).**  `update(None)` on a bank of `KalmanFilter`s leaves every filter's state and
covariance alone, but multiplies the probabilities by the likelihood of a zero residual under each filter's last
innovation covariance.  Missing: that nothing changes, which is false (`C34_mmae_refuted`). -/
theorem C34_mmae_partial (expf : ℝ → ℝ) (he : ∀ t, 0 ≤ expf t)
    (s : MMAE (KF n m l) n N (Option (Vec m)) (Mat m n)) (hp : IsDist s.p) (R : MatArg m) (H : Option (Mat m n)) :
    ∃ s', s.update (kfClass expf n m l) none R H = .ok s' ∧
      (∀ i, (s'.filters i).x = (s.filters i).x ∧ (s'.filters i).P = (s.filters i).P ∧
        (s'.filters i).S = (s.filters i).S) ∧
      s'.p = BayesRule s.p (fun i => zeroLik expf (s.filters i).S) := by
  obtain ⟨s', h⟩ := C33_update_ok (kfClass expf n m l) (kf_posLik3 expf he) s hp none R H
    (fun i => (s.filters i).updateNone) (fun i => rfl)
  obtain ⟨f, hf, -, hs'⟩ := mmae_update h
  obtain rfl : f = fun i => (s.filters i).updateNone := funext fun i => (Except.ok.inj (hf i)).symm
  have hfil : s'.filters = fun i => ((kfClass expf n m l).likelihood (s.filters i).updateNone).2 := by rw [hs']
  have hpp : s'.p = BayesRule s.p (fun i => ((kfClass expf n m l).likelihood (s.filters i).updateNone).1) := by
    rw [hs']
  refine ⟨s', h, fun i => ?_, hpp⟩
  rw [hfil]
  obtain ⟨a, b, d, -⟩ := readLik_keeps expf (s.filters i).updateNone
  exact ⟨a, b, d⟩

/-- Two filters that learn nothing from the measurement and expect noise of variance 1 and 4. -/
noncomputable def mmaePair (i : Fin 2) : KF 1 1 0 :=
  { KF.fresh 1 1 0 with x := fun _ => (i : ℝ), Q := 0, H := 0, R := ((i : ℝ) * 3 + 1) • 1 }

theorem zeroLik_exp (v : ℝ) (hv : 0 < v) :
    zeroLik Real.exp (v • (1 : Mat 1 1)) = Real.exp (-(1/2) * Real.log (2 * Real.pi)) * (Real.sqrt v)⁻¹ := by
  unfold zeroLik
  rw [if_neg (Real.exp_ne_zero _)]
  have e : logpdf 0 (v • (1 : Mat 1 1)) = -(1/2) * Real.log (2 * Real.pi) + -(Real.log (Real.sqrt v)) := by
    rw [Real.log_sqrt hv.le]
    simp [logpdf]
    ring
  rw [e, Real.exp_add, Real.exp_neg, Real.exp_log (Real.sqrt_pos.2 hv)]

theorem mmaePair_update (i : Fin 2) : ∃ f', (mmaePair i).update (some 0) .none none = .ok f' ∧ f'.lik = none ∧
    f'.logLik = none ∧ f'.y = 0 ∧ f'.S = ((i : ℝ) * 3 + 1) • 1 ∧ f'.x = (fun _ => (i : ℝ)) ∧ f'.P = 1 := by
  have hv : (0 : ℝ) < (i : ℝ) * 3 + 1 := by positivity
  have hS : (0 : Mat 1 1) * ((1 : Mat 1 1) * (0 : Mat 1 1)ᵀ) + ((i : ℝ) * 3 + 1) • 1 = ((i : ℝ) * 3 + 1) • 1 := by simp
  have hn : npInv ((0 : Mat 1 1) * ((1 : Mat 1 1) * (0 : Mat 1 1)ᵀ) + ((i : ℝ) * 3 + 1) • 1)
      = some (((i : ℝ) * 3 + 1) • (1 : Mat 1 1))⁻¹ := by
    rw [hS]; exact npInv_eq_some.2 ⟨by simp [hv.ne'], rfl⟩
  refine ⟨_, by
    simp only [KF.update, MatArg.resolve, Option.getD_none]
    rw [show (mmaePair i).inv = npInv from rfl, show (mmaePair i).H = 0 from rfl,
      show (mmaePair i).R = ((i : ℝ) * 3 + 1) • 1 from rfl, show (mmaePair i).P = 1 from rfl, hn],
    rfl, rfl, ?_, hS, ?_, ?_⟩
  · show (0 : Vec 1) - (0 : Mat 1 1) *ᵥ _ = 0
    simp
  · show (mmaePair i).x + _ = _
    simp; rfl
  · show _ = (1 : Mat 1 1)
    simp

theorem bayes_ratio {p q : ℝ} {a : ℝ} (ha : 0 < a) {w L : Vec 2} (hw : w = ![p, q]) (hpq : 2 * p + q ≠ 0)
    (hL : ∀ i : Fin 2, L i = a * (Real.sqrt ((i : ℝ) * 3 + 1))⁻¹) :
    BayesRule w L = ![2 * p / (2 * p + q), q / (2 * p + q)] := by
  have s4 : Real.sqrt 4 = 2 := by
    rw [show (4 : ℝ) = 2 ^ 2 by norm_num]; exact Real.sqrt_sq (by norm_num)
  have e0 : L 0 = a := by rw [hL]; simp
  have e1 : L 1 = a / 2 := by
    rw [hL]
    norm_num [s4]
    ring
  have hsum : ∑ j, w j * L j = a / 2 * (2 * p + q) := by
    rw [Fin.sum_univ_two, e0, e1, hw]; simp; ring
  have h2 : a / 2 ≠ 0 := by positivity
  funext i
  simp only [BayesRule, hsum]
  fin_cases i
  · show w 0 * L 0 / _ = _
    rw [e0, hw]
    simp
    field_simp
  · show w 1 * L 1 / _ = _
    rw [e1, hw]
    simp
    field_simp

/-- The bank of `mmaePair` after one measurement. -/
theorem mmaePair_first : ∃ s s1 : MMAE (KF 1 1 0) 1 2 (Option (Vec 1)) (Mat 1 1),
    MMAE.init (kfClass Real.exp 1 1 0) mmaePair (fun _ : Fin 2 => 1/2) 1 none = .ok s ∧
    s.update (kfClass Real.exp 1 1 0) (some 0) .none none = .ok s1 ∧ IsDist s.p ∧
    s1.p = ![2/3, 1/3] ∧ (∀ i : Fin 2, (s1.filters i).S = ((i : ℝ) * 3 + 1) • 1) ∧
    (∀ i : Fin 2, (s1.filters i).x = fun _ => (i : ℝ)) ∧ ∀ i, (s1.filters i).P = 1 := by
  obtain ⟨-, -, -, hok⟩ := C33_init (kfClass Real.exp 1 1 0) mmaePair (fun _ : Fin 2 => (1/2 : ℝ)) 1 none
  obtain ⟨s, h0, hf, hp, hH, -⟩ := hok rfl (le_refl 1) (by norm_num)
  have hpd : IsDist s.p := ⟨fun i => by rw [hp]; norm_num, by simp [hp]⟩
  choose f' h1 h2 h3 h4 h5 h6 h7 using mmaePair_update
  have hup : ∀ i, (kfClass Real.exp 1 1 0).update (s.filters i) (some 0, .none, (none : Option (Mat 1 1)).or s.H)
      = .ok (f' i) := by
    intro i
    rw [hf, hH]
    exact h1 i
  obtain ⟨s1, hs1⟩ := C33_update_ok (kfClass Real.exp 1 1 0) (kf_posLik3 Real.exp fun t => (Real.exp_pos t).le) s hpd
    (some 0) .none none f' hup
  obtain ⟨f, hf2, -, hs'⟩ := mmae_update hs1
  obtain rfl : f = f' := funext fun i => Except.ok.inj ((hf2 i).symm.trans (hup i))
  have hlik : ∀ i : Fin 2, ((kfClass Real.exp 1 1 0).likelihood (f i)).1
      = Real.exp (-(1/2) * Real.log (2 * Real.pi)) * (Real.sqrt ((i : ℝ) * 3 + 1))⁻¹ := by
    intro i
    refine (readLik_bank Real.exp (f i) (h2 i) (h3 i)).trans ?_
    rw [h4, h5]
    exact zeroLik_exp _ (by positivity)
  have hfil : ∀ i, s1.filters i = ((kfClass Real.exp 1 1 0).likelihood (f i)).2 := fun i => by rw [hs']
  have hpp : s1.p = BayesRule s.p (fun i => ((kfClass Real.exp 1 1 0).likelihood (f i)).1) := by rw [hs']
  refine ⟨s, s1, h0, hs1, hpd, ?_, fun i => ?_, fun i => ?_, fun i => ?_⟩
  · rw [hpp]
    rw [bayes_ratio (Real.exp_pos _) (p := 1/2) (q := 1/2) (by funext i; rw [hp]; fin_cases i <;> rfl) (by norm_num) hlik]
    norm_num
  · rw [hfil]; exact (readLik_keeps Real.exp (f i)).2.2.1.trans (h5 i)
  · rw [hfil]; exact (readLik_keeps Real.exp (f i)).1.trans (h6 i)
  · rw [hfil]; exact (readLik_keeps Real.exp (f i)).2.1.trans (h7 i)

/-- **C33 (refuted for the covariance).**  One state variable and two filters: the reported variance 20/27 leaves
out the second filter; the mixture's variance is 11/9. -/
theorem C33_covariance_refuted : ∃ s s1 : MMAE (KF 1 1 0) 1 2 (Option (Vec 1)) (Mat 1 1),
    MMAE.init (kfClass Real.exp 1 1 0) mmaePair (fun _ : Fin 2 => 1/2) 1 none = .ok s ∧
    s.update (kfClass Real.exp 1 1 0) (some 0) .none none = .ok s1 ∧ s1.P 0 0 = 20/27 ∧
    MixCov s1.p (fun i => (s1.filters i).x) (fun i => (s1.filters i).P) 0 0 = 11/9 := by
  obtain ⟨s, s1, h0, h1, -, hp, -, hx, hP⟩ := mmaePair_first
  have hmean : ∀ a, MixMean s1.p (fun i => (s1.filters i).x) a = 1/3 := by
    intro a
    rw [mixMean_apply, hp]
    simp [Fin.sum_univ_two, hx]
  have hxx : s1.x = MixMean s1.p (fun i => (s1.filters i).x) := (C33_state _ s s1 _ _ _ h1).1
  have hPP : s1.P = MMAE.bankP (kfClass Real.exp 1 1 0) s1.x s1.filters s1.p := by
    obtain ⟨f, -, -, rfl⟩ := mmae_update h1
    rfl
  refine ⟨s, s1, h0, h1, ?_, ?_⟩
  · have e : s1.P = s1.p 0 • (vecMulVec (fun a => (s1.filters 0).x a - s1.x 0) (fun a => (s1.filters 0).x a - s1.x 0)
        + (s1.filters 0).P) := by
      rw [hPP, MMAE.bankP, Fin.sum_univ_two, dif_pos (by norm_num), dif_neg (by norm_num), add_zero]
      rfl
    have hx0 : s1.x 0 = 1/3 := by rw [hxx]; exact hmean 0
    rw [e, hx0, hx, hP, hp]
    simp [vecMulVec_apply]
    norm_num
  · rw [mixCov_apply]
    simp only [hmean]
    simp only [hx, hP, hp, Fin.sum_univ_two]
    norm_num

/-- **C34 (refuted, MMAE).**  After one measurement, `update(None)` moves the probabilities from (2/3, 1/3) to
(4/5, 1/5). -/
theorem C34_mmae_refuted : ∃ s s1 s2 : MMAE (KF 1 1 0) 1 2 (Option (Vec 1)) (Mat 1 1),
    MMAE.init (kfClass Real.exp 1 1 0) mmaePair (fun _ : Fin 2 => 1/2) 1 none = .ok s ∧
    s.update (kfClass Real.exp 1 1 0) (some 0) .none none = .ok s1 ∧
    s1.update (kfClass Real.exp 1 1 0) none .none none = .ok s2 ∧ s1.p = ![2/3, 1/3] ∧ s2.p = ![4/5, 1/5] := by
  obtain ⟨s, s1, h0, h1, hd, hp, hS, -⟩ := mmaePair_first
  have hd1 : IsDist s1.p := by
    rw [hp]
    exact ⟨fun i => by fin_cases i <;> norm_num, by simp [Fin.sum_univ_two]; norm_num⟩
  obtain ⟨s2, h2, -, hp2⟩ := C34_mmae_partial Real.exp (fun t => (Real.exp_pos t).le) s1 hd1 .none none
  refine ⟨s, s1, s2, h0, h1, h2, hp, ?_⟩
  rw [hp2, hp]
  have hL : ∀ i : Fin 2, zeroLik Real.exp (s1.filters i).S
      = Real.exp (-(1/2) * Real.log (2 * Real.pi)) * (Real.sqrt ((i : ℝ) * 3 + 1))⁻¹ := fun i => by
    rw [hS i]; exact zeroLik_exp _ (by positivity)
  rw [bayes_ratio (Real.exp_pos _) (p := 2/3) (q := 1/3) rfl (by norm_num) hL]
  norm_num

/-- Non-vacuity of `C33_bayes` and `C33_distribution`: the bank above. -/
example : ∃ s s' : MMAE (KF 1 1 0) 1 2 (Option (Vec 1)) (Mat 1 1),
    MMAE.init (kfClass Real.exp 1 1 0) mmaePair (fun _ : Fin 2 => 1/2) 1 none = .ok s ∧ IsDist s.p ∧
    runList (MmaeOp.run (ρ := MatArg 1) (kfClass Real.exp 1 1 0)) s [.update (some 0) .none none] = .ok s' := by
  obtain ⟨s, s1, h0, h1, hd, -⟩ := mmaePair_first
  exact ⟨s, s1, h0, hd, by simp only [runList, MmaeOp.run, h1]⟩

end Filterpy
