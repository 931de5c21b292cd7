import Verif.Props.KalmanNearby
import Verif.Spec.NearbyBanks
import Verif.Props.IMM
import Verif.Props.MMAE

/-!
# C145 for the filter banks
-/

namespace Filterpy

open Matrix Filter Topology Spec

variable {ι : Type} {f : Filter ι} {n m l N : ℕ}

/-- A call on an `IMMEstimator` approaches another. -/
inductive Spec.ImmOpNear (f : Filter ι) : (ι → ImmOp (Option (Vec m)) (UArg l)) → ImmOp (Option (Vec m)) (UArg l) → Prop
  | predict {u u'} (hu : UNear f u u') : ImmOpNear f (fun i => .predict (u i)) (.predict u')
  | update {z z'} (hz : Tendsto z f (𝓝 z')) : ImmOpNear f (fun i => .update (some (z i))) (.update (some z'))

/-- A call on an `MMAEFilterBank` approaches another. -/
inductive Spec.MmaeOpNear (f : Filter ι) : (ι → MmaeOp (Option (Vec m)) (MatArg m) (Mat m n) (UArg l)) →
    MmaeOp (Option (Vec m)) (MatArg m) (Mat m n) (UArg l) → Prop
  | predict {u u'} (hu : UNear f u u') : MmaeOpNear f (fun i => .predict (u i)) (.predict u')
  | update {z z' R R' H H'} (hz : Tendsto z f (𝓝 z')) (hR : ArgNear f R R') (hH : OptNear f H H') :
      MmaeOpNear f (fun i => .update (some (z i)) (R i) (H i)) (.update (some z') R' H')

/-- A measurement and the likelihood that is read after it. -/
theorem likelihood_near {expf : ℝ → ℝ} (hc : Continuous expf) (he : ∀ r, 0 < expf r) {s : ι → KF n m l} {t t' : KF n m l}
    (hs : KFNear f s t) {z z'} {R R'} {H H'} (hz : Tendsto z f (𝓝 z')) (hR : ArgNear f R R') (hH : OptNear f H H')
    (h : t.update (some z') R' H' = .ok t') :
    ∃ s' : ι → KF n m l, (∀ᶠ i in f, (s i).update (some (z i)) (R i) (H i) = .ok (s' i)) ∧
      KFNear f (fun i => ((s' i).readLik expf).2) (t'.readLik expf).2 ∧
      Tendsto (fun i => ((s' i).readLik expf).1) f (𝓝 (t'.readLik expf).1) := by
  obtain ⟨s1, h1, h2, h3, h4⟩ := update_near hs hz hR hH h
  obtain ⟨s', g1, g2, g3, g4⟩ := C145_residual hs hz hR hH h
  have e : ∀ᶠ i in f, s1 i = s' i := (h1.and g1).mono fun i hi => Except.ok.inj (hi.1.symm.trans hi.2)
  have ht : t'.lik = none ∧ t'.logLik = none := by
    have hup := update_near (f := (⊤ : Filter Unit)) (KFNear.refl t hs.inv') (z := fun _ => z') tendsto_const_nhds
      (R := fun _ => R') (R' := R') (.refl _ R') (H := fun _ => H') (.refl _ H') h
    obtain ⟨q, k1, -, -, k4⟩ := hup
    have := (Filter.eventually_top.1 k1) ()
    rw [h] at this
    rw [Except.ok.inj this]
    exact ⟨(k4 ()).2.1, (k4 ()).1⟩
  have r (u : KF n m l) (hu : u.lik = none) (hl : u.logLik = none) : u.readLik expf =
      (expf u.readLogLik.1, { u with logLik := some u.readLogLik.1, lik := some (expf u.readLogLik.1) }) := by
    simp only [KF.readLik, hu, KF.readLogLik, hl, if_neg (he _).ne']
  refine ⟨s1, h1, ?_, ?_⟩
  · have : (fun i => ((s1 i).readLik expf).2) = fun i => { s1 i with
        logLik := some (s1 i).readLogLik.1, lik := some (expf (s1 i).readLogLik.1) } := by
      funext i
      rw [r _ (h4 i).2.1 (h4 i).1]
    rw [this, r _ ht.1 ht.2]
    exact { h2 with x := h2.x }
  · have : (fun i => ((s1 i).readLik expf).1) = fun i => expf (s1 i).readLogLik.1 := by
      funext i
      rw [r _ (h4 i).2.1 (h4 i).1]
    rw [this, r _ ht.1 ht.2]
    refine (hc.tendsto _).comp (g4.congr' (e.mono fun i hi => ?_))
    simp only [hi]

theorem tendsto_vecMulVec {a b : ℕ} {v : ι → Vec a} {v' : Vec a} {w : ι → Vec b} {w' : Vec b} (hv : Tendsto v f (𝓝 v'))
    (hw : Tendsto w f (𝓝 w')) : Tendsto (fun i => vecMulVec (v i) (w i)) f (𝓝 (vecMulVec v' w')) :=
  tendsto_pi_nhds.2 fun j => tendsto_pi_nhds.2 fun k => ((tendsto_pi_nhds.1 hv) j).mul ((tendsto_pi_nhds.1 hw) k)

/-- A weighted mean, and the covariance of the mixture. -/
theorem mixture_near {w : ι → Vec N} {w' : Vec N} {x : ι → Fin N → Vec n} {x' : Fin N → Vec n}
    {P : ι → Fin N → Mat n n} {P' : Fin N → Mat n n} (hw : Tendsto w f (𝓝 w'))
    (hx : ∀ k, Tendsto (fun i => x i k) f (𝓝 (x' k))) (hP : ∀ k, Tendsto (fun i => P i k) f (𝓝 (P' k))) :
    Tendsto (fun i => ∑ k, w i k • x i k) f (𝓝 (∑ k, w' k • x' k)) ∧
    Tendsto (fun i => ∑ k, w i k • (vecMulVec (x i k - ∑ k, w i k • x i k) (x i k - ∑ k, w i k • x i k) + P i k)) f
      (𝓝 (∑ k, w' k • (vecMulVec (x' k - ∑ k, w' k • x' k) (x' k - ∑ k, w' k • x' k) + P' k))) := by
  have h1 : Tendsto (fun i => ∑ k, w i k • x i k) f (𝓝 (∑ k, w' k • x' k)) :=
    tendsto_finsetSum _ fun k _ => ((tendsto_pi_nhds.1 hw) k).smul (hx k)
  refine ⟨h1, tendsto_finsetSum _ fun k _ => ((tendsto_pi_nhds.1 hw) k).smul ?_⟩
  have := (hx k).sub h1
  exact (tendsto_vecMulVec this this).add (hP k)

theorem normalise_near {w : ι → Vec N} {w' : Vec N} (hw : Tendsto w f (𝓝 w')) (h0 : ∑ k, w' k ≠ 0) :
    (∀ᶠ i in f, ∑ k, w i k ≠ 0) ∧
      Tendsto (fun i => (fun k => w i k / ∑ k, w i k : Vec N)) f (𝓝 fun k => w' k / ∑ k, w' k) := by
  have hs : Tendsto (fun i => ∑ k, w i k) f (𝓝 (∑ k, w' k)) := tendsto_finsetSum _ fun k _ => (tendsto_pi_nhds.1 hw) k
  exact ⟨hs.eventually_ne h0, tendsto_pi_nhds.2 fun k => ((tendsto_pi_nhds.1 hw) k).div hs h0⟩

theorem mixing_near {mu : ι → Vec N} {mu' : Vec N} {M : ι → Mat N N} {M' : Mat N N} (hmu : Tendsto mu f (𝓝 mu'))
    (hM : Tendsto M f (𝓝 M')) (h0 : ¬ ∃ j, (mu' ᵥ* M') j = 0) :
    (∀ᶠ i in f, ¬ ∃ j, (mu i ᵥ* M i) j = 0) ∧ Tendsto (fun i => mu i ᵥ* M i) f (𝓝 (mu' ᵥ* M')) ∧
      Tendsto (fun i => (fun a b => M i a b * mu i a / (mu i ᵥ* M i) b : Mat N N)) f
        (𝓝 fun a b => M' a b * mu' a / (mu' ᵥ* M') b) := by
  have hc : Tendsto (fun i => mu i ᵥ* M i) f (𝓝 (mu' ᵥ* M')) := by
    refine tendsto_pi_nhds.2 fun j => ?_
    simp only [vecMul, dotProduct]
    exact tendsto_finsetSum _ fun k _ => ((tendsto_pi_nhds.1 hmu) k).mul ((tendsto_pi_nhds.1 ((tendsto_pi_nhds.1 hM) k)) j)
  push Not at h0
  refine ⟨?_, hc, tendsto_pi_nhds.2 fun a => tendsto_pi_nhds.2 fun b => ?_⟩
  · push Not
    exact eventually_all.2 fun j => ((tendsto_pi_nhds.1 hc) j).eventually_ne (h0 j)
  · exact ((((tendsto_pi_nhds.1 ((tendsto_pi_nhds.1 hM) a)) b).mul ((tendsto_pi_nhds.1 hmu) a)).div
      ((tendsto_pi_nhds.1 hc) b) (h0 b))

theorem imm_predict_near (expf : ℝ → ℝ) {s : ι → IMM (KF n m l) n N} {t t' : IMM (KF n m l) n N} (hs : IMMNear f s t) {u u'}
    (hu : UNear f u u') (h : t.predict (kfClassZ expf n m l) u' = .ok t') :
    ∃ s', (∀ᶠ i in f, (s i).predict (kfClassZ expf n m l) (u i) = .ok (s' i)) ∧ IMMNear f s' t' := by
  simp only [IMM.predict] at h
  cases hb : bankMap (fun k g => (kfClassZ expf n m l).predict ((kfClassZ expf n m l).setXP g
      (IMM.mixX (kfClassZ expf n m l) t k) (IMM.mixP (kfClassZ expf n m l) t k)) u') t.filters with
  | error e => rw [hb] at h; cases h
  | ok fs =>
    rw [hb] at h
    have hfs := bankMap_ok.1 hb
    have hmix (k : Fin N) := mixture_near (w := fun i => fun j => (s i).omega j k) (w' := fun j => t.omega j k)
      (tendsto_pi_nhds.2 fun j => (tendsto_pi_nhds.1 ((tendsto_pi_nhds.1 hs.omega) j)) k)
      (x := fun i j => ((s i).filters j).x) (fun j => (hs.filters j).x) (fun j => (hs.filters j).P)
    have hset (k : Fin N) : KFNear f (fun i => (kfClassZ expf n m l).setXP ((s i).filters k)
        (IMM.mixX (kfClassZ expf n m l) (s i) k) (IMM.mixP (kfClassZ expf n m l) (s i) k))
        ((kfClassZ expf n m l).setXP (t.filters k) (IMM.mixX (kfClassZ expf n m l) t k)
          (IMM.mixP (kfClassZ expf n m l) t k)) :=
      { hs.filters k with x := (hmix k).1, P := (hmix k).2 }
    have hstep (k : Fin N) := predict_near (hset k) hu .none .none .none (hfs k)
    choose g hg1 hg2 using hstep
    have hest := mixture_near hs.mu (x := fun i k => (g k i).x) (fun k => (hg2 k).x) (fun k => (hg2 k).P)
    obtain rfl := Except.ok.inj h
    refine ⟨fun i => { s i with
      filters := fun k => g k i
      x := ∑ k, (s i).mu k • (g k i).x
      P := ∑ k, (s i).mu k • (vecMulVec ((g k i).x - ∑ k, (s i).mu k • (g k i).x)
        ((g k i).x - ∑ k, (s i).mu k • (g k i).x) + (g k i).P)
      xPrior := ∑ k, (s i).mu k • (g k i).x
      PPrior := ∑ k, (s i).mu k • (vecMulVec ((g k i).x - ∑ k, (s i).mu k • (g k i).x)
        ((g k i).x - ∑ k, (s i).mu k • (g k i).x) + (g k i).P) }, Eventually.of_forall fun i => ?_,
      { hs with filters := hg2, x := hest.1, P := hest.2, xPrior := hest.1, PPrior := hest.2 }⟩
    have hb' : bankMap (fun k q => (kfClassZ expf n m l).predict ((kfClassZ expf n m l).setXP q
        (IMM.mixX (kfClassZ expf n m l) (s i) k) (IMM.mixP (kfClassZ expf n m l) (s i) k)) (u i)) (s i).filters
        = .ok fun k => g k i := bankMap_ok.2 fun k => hg1 k i
    simp only [IMM.predict, hb']
    rfl

theorem imm_update_near {expf : ℝ → ℝ} (hc : Continuous expf) (he : ∀ r, 0 < expf r) {s : ι → IMM (KF n m l) n N}
    {t t' : IMM (KF n m l) n N} (hs : IMMNear f s t) {z z'} (hz : Tendsto z f (𝓝 z'))
    (h : t.update (kfClassZ expf n m l) (some z') = .ok t') :
    ∃ s', (∀ᶠ i in f, (s i).update (kfClassZ expf n m l) (some (z i)) = .ok (s' i)) ∧ IMMNear f s' t' := by
  obtain ⟨q, hq⟩ := imm_update_filters _ h
  have hb : bankMap (fun _ => (kfClassZ expf n m l).updLik (fun _ L => L) (some z'))
      (fun k => (t.filters k, t.likelihood k)) = .ok fun k => (((q k).readLik expf).2, ((q k).readLik expf).1) :=
    bankMap_ok.2 fun k => updLik_ok.2 ⟨q k, hq k, rfl⟩
  have hstep (k : Fin N) := likelihood_near hc he (hs.filters k) hz .none .none (hq k)
  choose g hg1 hg2 hg3 using hstep
  simp only [IMM.update, hb, IMM.mixing] at h
  have hw : Tendsto (fun i => (fun k => (s i).cbar k * ((g k i).readLik expf).1 : Vec N)) f
      (𝓝 fun k => t.cbar k * ((q k).readLik expf).1) :=
    tendsto_pi_nhds.2 fun k => ((tendsto_pi_nhds.1 hs.cbar) k).mul (hg3 k)
  by_cases h0 : ∑ k, t.cbar k * ((q k).readLik expf).1 = 0
  · rw [if_pos h0] at h; cases h
  rw [if_neg h0] at h
  obtain ⟨hn1, hn2⟩ := normalise_near hw h0
  by_cases hj : ∃ j, ((fun k => t.cbar k * ((q k).readLik expf).1 / ∑ k, t.cbar k * ((q k).readLik expf).1) ᵥ* t.M) j = 0
  · simp only [if_pos hj] at h; cases h
  simp only [if_neg hj] at h
  obtain ⟨hm1, hm2, hm3⟩ := mixing_near hn2 hs.M hj
  have hest := mixture_near hn2 (fun k => (hg2 k).x) (fun k => (hg2 k).P)
  obtain rfl := Except.ok.inj h
  let w (i : ι) (k : Fin N) := (s i).cbar k * ((g k i).readLik expf).1
  let mu (i : ι) : Vec N := fun k => w i k / ∑ k, w i k
  let q' (i : ι) (k : Fin N) : KF n m l := ((g k i).readLik expf).2
  let x (i : ι) := ∑ k, mu i k • (q' i k).x
  let P (i : ι) := ∑ k, mu i k • (vecMulVec ((q' i k).x - x i) ((q' i k).x - x i) + (q' i k).P)
  refine ⟨fun i => { s i with
    filters := q' i, likelihood := fun k => ((g k i).readLik expf).1, mu := mu i, cbar := mu i ᵥ* (s i).M
    omega := fun a b => (s i).M a b * mu i a / (mu i ᵥ* (s i).M) b
    x := x i, P := P i, xPost := x i, PPost := P i }, ((eventually_all.2 hg1).and (hn1.and hm1)).mono fun i hi => ?_,
    { hs with
      filters := hg2, mu := hn2, cbar := hm2, omega := hm3, x := hest.1, P := hest.2, xPost := hest.1, PPost := hest.2 }⟩
  have hb' : bankMap (fun _ => (kfClassZ expf n m l).updLik (fun _ L => L) (some (z i)))
      (fun k => ((s i).filters k, (s i).likelihood k))
      = .ok fun k => (((g k i).readLik expf).2, ((g k i).readLik expf).1) :=
    bankMap_ok.2 fun k => updLik_ok.2 ⟨g k i, hi.1 k, rfl⟩
  simp only [IMM.update, hb', IMM.mixing]
  rw [if_neg hi.2.1]
  simp only [if_neg hi.2.2]
  rfl

/-- **C145 (`IMMEstimator`).** The same for an estimator of Kalman filters: as two estimators and the arguments of all calls
approach each other, so do the mode probabilities, the mixing weights, the filters and the estimates. -/
theorem C145_imm {expf : ℝ → ℝ} (hc : Continuous expf) (he : ∀ r, 0 < expf r) {s : ι → IMM (KF n m l) n N}
    {t t' : IMM (KF n m l) n N} (hs : IMMNear f s t) {os : List (ι → ImmOp (Option (Vec m)) (UArg l))}
    {ops : List (ImmOp (Option (Vec m)) (UArg l))} (ho : List.Forall₂ (ImmOpNear f) os ops)
    (h : runList (ImmOp.run (kfClassZ expf n m l)) t ops = .ok t') :
    ∃ s', (∀ᶠ i in f, runList (ImmOp.run (kfClassZ expf n m l)) (s i) (os.map (· i)) = .ok (s' i)) ∧
      IMMNear f s' t' := by
  induction ho generalizing s t with
  | nil => obtain rfl := Except.ok.inj h; exact ⟨s, Eventually.of_forall fun i => rfl, hs⟩
  | @cons o o' os ops h1 _ ih =>
    simp only [runList] at h
    cases hr : ImmOp.run (kfClassZ expf n m l) t o' with
    | error e => rw [hr] at h; cases h
    | ok t1 =>
      rw [hr] at h
      have : ∃ s1, (∀ᶠ i in f, ImmOp.run (kfClassZ expf n m l) (s i) (o i) = .ok (s1 i)) ∧ IMMNear f s1 t1 := by
        cases h1 with
        | predict hu => exact imm_predict_near expf hs hu hr
        | update hz => exact imm_update_near hc he hs hz hr
      obtain ⟨s1, g1, g2⟩ := this
      obtain ⟨s', k1, k2⟩ := ih g2 h
      refine ⟨s', (g1.and k1).mono fun i hi => ?_, k2⟩
      simp only [List.map_cons, runList, hi.1, hi.2]

theorem bankP_near {p : ι → Vec N} {p' : Vec N} {x : ι → Vec n} {x' : Vec n} {g : ι → Fin N → KF n m l}
    {g' : Fin N → KF n m l} (expf : ℝ → ℝ) (hp : Tendsto p f (𝓝 p')) (hx : Tendsto x f (𝓝 x'))
    (hg : ∀ k, KFNear f (fun i => g i k) (g' k)) :
    Tendsto (fun i => MMAE.bankP (kfClass expf n m l) (x i) (g i) (p i)) f
      (𝓝 (MMAE.bankP (kfClass expf n m l) x' g' p')) := by
  simp only [MMAE.bankP]
  refine tendsto_finsetSum _ fun k _ => ?_
  by_cases hk : (k : ℕ) < n
  · simp only [dif_pos hk]
    have hv : Tendsto (fun i => (fun a => (g i k).x a - x i ⟨k, hk⟩ : Vec n)) f (𝓝 fun a => (g' k).x a - x' ⟨k, hk⟩) :=
      tendsto_pi_nhds.2 fun a => ((tendsto_pi_nhds.1 (hg k).x) a).sub ((tendsto_pi_nhds.1 hx) _)
    exact ((tendsto_pi_nhds.1 hp) k).smul ((tendsto_vecMulVec hv hv).add (hg k).P)
  · simp only [dif_neg hk]
    exact tendsto_const_nhds

theorem mmae_predict_near (expf : ℝ → ℝ) {s : ι → MMAE (KF n m l) n N (Option (Vec m)) (Mat m n)}
    {t t' : MMAE (KF n m l) n N (Option (Vec m)) (Mat m n)} (hs : MMAENear f s t) {u u'} (hu : UNear f u u')
    (h : t.predict (kfClass expf n m l) u' = .ok t') :
    ∃ s', (∀ᶠ i in f, (s i).predict (kfClass expf n m l) (u i) = .ok (s' i)) ∧ MMAENear f s' t' := by
  simp only [MMAE.predict] at h
  cases hb : bankMap (fun _ g => (kfClass expf n m l).predict g u') t.filters with
  | error e => rw [hb] at h; cases h
  | ok fs =>
    rw [hb] at h
    have hfs := bankMap_ok.1 hb
    have hstep (k : Fin N) := predict_near (hs.filters k) hu .none .none .none (hfs k)
    choose g hg1 hg2 using hstep
    obtain rfl := Except.ok.inj h
    refine ⟨fun i => { s i with filters := fun k => g k i, xPrior := (s i).x, PPrior := (s i).P },
      Eventually.of_forall fun i => ?_, { hs with filters := hg2, xPrior := hs.x, PPrior := hs.P }⟩
    have hb' : bankMap (fun _ q => (kfClass expf n m l).predict q (u i)) (s i).filters = .ok fun k => g k i :=
      bankMap_ok.2 fun k => hg1 k i
    simp only [MMAE.predict, hb']

theorem mmae_update_near {expf : ℝ → ℝ} (hc : Continuous expf) (he : ∀ r, 0 < expf r)
    {s : ι → MMAE (KF n m l) n N (Option (Vec m)) (Mat m n)} {t t' : MMAE (KF n m l) n N (Option (Vec m)) (Mat m n)}
    (hs : MMAENear f s t) {z z' R R' H H'} (hz : Tendsto z f (𝓝 z')) (hR : ArgNear f R R') (hH : OptNear f H H')
    (h : t.update (kfClass expf n m l) (some z') R' H' = .ok t') :
    ∃ s', (∀ᶠ i in f, (s i).update (kfClass expf n m l) (some (z i)) (R i) (H i) = .ok (s' i)) ∧ MMAENear f s' t' := by
  have hHs := hH.or hs.H
  cases hb : bankMap (fun _ => (kfClass expf n m l).updLik (fun p L => p * L) (some z', R', H'.or t.H))
      (fun k => (t.filters k, t.p k)) with
  | error e => simp only [MMAE.update, hb] at h; cases h
  | ok fp =>
    have hfp (k : Fin N) := updLik_ok.1 (bankMap_ok.1 hb k)
    choose q hq hfq using hfp
    have hfp' : fp = fun k => (((q k).readLik expf).2, t.p k * ((q k).readLik expf).1) := funext fun k => hfq k
    subst hfp'
    have hstep (k : Fin N) := likelihood_near hc he (hs.filters k) hz hR hHs (hq k)
    choose g hg1 hg2 hg3 using hstep
    simp only [MMAE.update, hb] at h
    have hw : Tendsto (fun i => (fun k => (s i).p k * ((g k i).readLik expf).1 : Vec N)) f
        (𝓝 fun k => t.p k * ((q k).readLik expf).1) :=
      tendsto_pi_nhds.2 fun k => ((tendsto_pi_nhds.1 hs.p) k).mul (hg3 k)
    by_cases h0 : ∑ k, t.p k * ((q k).readLik expf).1 = 0
    · rw [if_pos h0] at h; cases h
    rw [if_neg h0] at h
    obtain ⟨hn1, hn2⟩ := normalise_near hw h0
    have hest := mixture_near hn2 (fun k => (hg2 k).x) (fun k => (hg2 k).P)
    have hP := bankP_near expf hn2 hest.1 hg2
    obtain rfl := Except.ok.inj h
    let w (i : ι) (k : Fin N) := (s i).p k * ((g k i).readLik expf).1
    let p (i : ι) : Vec N := fun k => w i k / ∑ k, w i k
    let q' (i : ι) (k : Fin N) : KF n m l := ((g k i).readLik expf).2
    let x (i : ι) := ∑ k, p i k • (q' i k).x
    let P (i : ι) := MMAE.bankP (kfClass expf n m l) (x i) (q' i) (p i)
    refine ⟨fun i => { s i with
      filters := q' i, p := p i, x := x i, P := P i, z := some (some (z i)), xPost := x i, PPost := P i },
      ((eventually_all.2 hg1).and hn1).mono fun i hi => ?_,
      { hs with filters := hg2, p := hn2, x := hest.1, P := hP, xPost := hest.1, PPost := hP }⟩
    have hb' : bankMap (fun _ => (kfClass expf n m l).updLik (fun p L => p * L) (some (z i), R i, (H i).or (s i).H))
        (fun k => ((s i).filters k, (s i).p k))
        = .ok fun k => (((g k i).readLik expf).2, (s i).p k * ((g k i).readLik expf).1) :=
      bankMap_ok.2 fun k => updLik_ok.2 ⟨g k i, hi.1 k, rfl⟩
    simp only [MMAE.update, hb']
    rw [if_neg hi.2]
    rfl

/-- **C145 (`MMAEFilterBank`).** The same for a bank of Kalman filters: as two banks and the arguments of all calls approach
each other, so do the probabilities, the filters and the estimates. -/
theorem C145_mmae {expf : ℝ → ℝ} (hc : Continuous expf) (he : ∀ r, 0 < expf r)
    {s : ι → MMAE (KF n m l) n N (Option (Vec m)) (Mat m n)} {t t' : MMAE (KF n m l) n N (Option (Vec m)) (Mat m n)}
    (hs : MMAENear f s t) {os : List (ι → MmaeOp (Option (Vec m)) (MatArg m) (Mat m n) (UArg l))}
    {ops : List (MmaeOp (Option (Vec m)) (MatArg m) (Mat m n) (UArg l))} (ho : List.Forall₂ (MmaeOpNear f) os ops)
    (h : runList (MmaeOp.run (kfClass expf n m l)) t ops = .ok t') :
    ∃ s', (∀ᶠ i in f, runList (MmaeOp.run (kfClass expf n m l)) (s i) (os.map (· i)) = .ok (s' i)) ∧
      MMAENear f s' t' := by
  induction ho generalizing s t with
  | nil => obtain rfl := Except.ok.inj h; exact ⟨s, Eventually.of_forall fun i => rfl, hs⟩
  | @cons o o' os ops h1 _ ih =>
    simp only [runList] at h
    cases hr : MmaeOp.run (kfClass expf n m l) t o' with
    | error e => rw [hr] at h; cases h
    | ok t1 =>
      rw [hr] at h
      have : ∃ s1, (∀ᶠ i in f, MmaeOp.run (kfClass expf n m l) (s i) (o i) = .ok (s1 i)) ∧ MMAENear f s1 t1 := by
        cases h1 with
        | predict hu => exact mmae_predict_near expf hs hu hr
        | update hz hR hH => exact mmae_update_near hc he hs hz hR hH hr
      obtain ⟨s1, g1, g2⟩ := this
      obtain ⟨s', k1, k2⟩ := ih g2 h
      refine ⟨s', (g1.and k1).mono fun i hi => ?_, k2⟩
      simp only [List.map_cons, runList, hi.1, hi.2]

/-- The hypotheses are met by two scalar filters in a freshly constructed estimator, after a prediction and a measurement
that is disturbed less and less. -/
example (z : Vec 1) : ∃ (s : IMM (KF 1 1 0) 1 2) (s' : ℕ → IMM (KF 1 1 0) 1 2) (t' : IMM (KF 1 1 0) 1 2),
    IMM.init (kfClassZ Real.exp 1 1 0) (fun _ => [1, 1]) immPair (fun _ => 1) absorbing = .ok s ∧
    (∀ᶠ i : ℕ in atTop, runList (ImmOp.run (kfClassZ Real.exp 1 1 0)) s
      [.predict .none, .update (some fun _ => z 0 + 1 / (i + 1 : ℝ))] = .ok (s' i)) ∧ IMMNear atTop s' t' := by
  obtain ⟨s, h, hi, hf, hM, hr, -⟩ := immPair_init Real.exp
  have he : ∀ r, 0 < Real.exp r := Real.exp_pos
  obtain ⟨t', h', -⟩ := C32_kalman_bank Real.exp (fun r => (he r).le) s (by rw [hM]; exact absorbing_stoch) hi hr
    (C32_init _ _ _ _ _ s h).1
    (fun i => by rw [hf]; exact ⟨PosSemidef.one, PosSemidef.zero, PosDef.one, zero_le_one, rfl⟩)
    [.predict .none, .update (some fun _ => z 0)] (by simp)
  have hs : IMMNear (atTop : Filter ℕ) (fun _ => s) s := by
    constructor
    · exact fun k => KFNear.refl _ (by rw [hf]; rfl)
    all_goals exact tendsto_const_nhds
  obtain ⟨s', g1, g2⟩ := C145_imm Real.continuous_exp he hs (os := [fun _ => .predict .none,
    fun i : ℕ => .update (some fun _ => z 0 + 1 / (i + 1 : ℝ))])
    (.cons (.predict .none) (.cons (.update (tendsto_pi_nhds.2 fun _ => by
      simpa using (tendsto_one_div_add_atTop_nhds_zero_nat (𝕜 := ℝ)).const_add (z 0))) .nil)) h'
  exact ⟨s, s', t', h, g1, g2⟩

end Filterpy
