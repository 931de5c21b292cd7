import Verif.Props.UkfNearby
import Verif.Props.SmootherNearby
import Verif.Props.Renumbering
import Verif.Props.UKFSmooth
import Verif.Props.DiscreteBayesRun

/-!
# C145 for the ensemble filter, the unscented smoother and the discrete Bayes filter
-/

namespace Filterpy

open Matrix Filter Topology Spec

variable {ι : Type} {f : Filter ι} {n m N k : ℕ} {p : SigmaPts n}

namespace Spec

/-- A call on an `EnsembleKalmanFilter` approaches another; the random draws are arguments. -/
inductive EnkfOpNear (f : Filter ι) : (ι → EnkfOp n m N) → EnkfOp n m N → Prop
  | predict {e : ι → Mat N n} {e' : Mat N n} (he : Tendsto e f (𝓝 e')) : EnkfOpNear f (fun i => .predict (e i)) (.predict e')
  | update {z : ι → Vec m} {z' : Vec m} {R : ι → MatArg m} {R' : MatArg m} {e : ι → Mat N m} {e' : Mat N m}
      (hz : Tendsto z f (𝓝 z')) (hR : ArgNear f R R') (he : Tendsto e f (𝓝 e')) :
      EnkfOpNear f (fun i => .update (some (z i)) (R i) (e i)) (.update (some z') R' e')
  | missing {R : ι → MatArg m} {R' : MatArg m} {e : ι → Mat N m} {e' : Mat N m} :
      EnkfOpNear f (fun i => .update none (R i) (e i)) (.update none R' e')

/-- An ensemble filter approaches another: the user's functions are the same and continuous, the rest is close. -/
structure EnKFNear (f : Filter ι) (s : ι → EnKF n m N) (t : EnKF n m N) : Prop where
  fx : ∀ i, (s i).fx = t.fx
  hx : ∀ i, (s i).hx = t.hx
  fxc : Continuous fun q : Vec n × ℝ => t.fx q.1 q.2
  hxc : Continuous t.hx
  inv : ∀ i, (s i).inv = npInv
  inv' : t.inv = npInv
  dt : Tendsto (fun i => (s i).dt) f (𝓝 t.dt)
  x : Tendsto (fun i => (s i).x) f (𝓝 t.x)
  P : Tendsto (fun i => (s i).P) f (𝓝 t.P)
  R : Tendsto (fun i => (s i).R) f (𝓝 t.R)
  sigmas : Tendsto (fun i => (s i).sigmas) f (𝓝 t.sigmas)
  xPrior : Tendsto (fun i => (s i).xPrior) f (𝓝 t.xPrior)
  PPrior : Tendsto (fun i => (s i).PPrior) f (𝓝 t.PPrior)
  xPost : Tendsto (fun i => (s i).xPost) f (𝓝 t.xPost)
  PPost : Tendsto (fun i => (s i).PPost) f (𝓝 t.PPost)

/-- A time step of the discrete Bayes filter approaches another: the same move, a close kernel and close likelihoods. -/
inductive BayesStepNear (f : Filter ι) : (ι → BayesStep n) → BayesStep n → Prop
  | step {len : ℕ} {offset : ℤ} {wrap : Bool} {kernel : ι → Fin len → ℝ} {kernel' : Fin len → ℝ} {lik : ι → Fin n → ℝ}
      {lik' : Fin n → ℝ} (hk : Tendsto kernel f (𝓝 kernel')) (hl : Tendsto lik f (𝓝 lik')) :
      BayesStepNear f (fun i => ⟨len, offset, kernel i, wrap, lik i⟩) ⟨len, offset, kernel', wrap, lik'⟩

/-- A smoothed step approaches another. -/
structure UkfRtsNear (f : Filter ι) (o : ι → UKF.RtsOut n) (o' : UKF.RtsOut n) : Prop where
  x : Tendsto (fun i => (o i).x) f (𝓝 o'.x)
  P : Tendsto (fun i => (o i).P) f (𝓝 o'.P)
  K : Tendsto (fun i => (o i).K) f (𝓝 o'.K)

/-- The argument `dts` of `rts_smoother` approaches another. -/
inductive DtsNear (f : Filter ι) : (ι → UKF.DtArg) → UKF.DtArg → Prop
  | none : DtsNear f (fun _ => .none) .none
  | scalar {c : ι → ℝ} {c' : ℝ} (h : Tendsto c f (𝓝 c')) : DtsNear f (fun i => .scalar (c i)) (.scalar c')
  | list {l : List (ι → ℝ)} {l' : List ℝ} (h : ListNear f l l') : DtsNear f (fun i => .list (l.map (· i))) (.list l')

end Spec

/-! ## Ensembles -/

theorem meanRows_near {A : ι → Mat N n} {A'} (h : Tendsto A f (𝓝 A')) : Tendsto (fun i => meanRows (A i)) f (𝓝 (meanRows A')) :=
  tendsto_pi_nhds.2 fun j => (tendsto_finsetSum _ fun a _ => (tendsto_pi_nhds.1 (tendsto_row h a)) j).div_const _

theorem enkf_step_near {s : ι → EnKF n m N} {t t' : EnKF n m N} (hs : EnKFNear f s t) {c : ι → EnkfOp n m N} {c'}
    (hc : EnkfOpNear f c c') (h : c'.run t = .ok t') :
    ∃ s', (∀ᶠ i in f, (c i).run (s i) = .ok (s' i)) ∧ EnKFNear f s' t' := by
  cases hc with
  | @predict e e' he =>
    simp only [EnkfOp.run, EnKF.predict] at h
    split_ifs at h with hN
    obtain rfl := Except.ok.inj h
    let σ (i : ι) : Mat N n := rows fun a => t.fx ((s i).sigmas a) (s i).dt + e i a
    have hσ : Tendsto σ f (𝓝 (rows fun a => t.fx (t.sigmas a) t.dt + e' a)) := tendsto_pi_nhds.2 fun a =>
      ((hs.fxc.tendsto (t.sigmas a, t.dt)).comp ((tendsto_row hs.sigmas a).prodMk_nhds hs.dt)).add (tendsto_row he a)
    have hx := meanRows_near hσ
    let d (i : ι) : Mat N n := rows fun a => σ i a - meanRows (σ i)
    have hd : Tendsto d f (𝓝 (rows fun a => (rows fun a => t.fx (t.sigmas a) t.dt + e' a) a -
      meanRows (rows fun a => t.fx (t.sigmas a) t.dt + e' a))) := tendsto_pi_nhds.2 fun a => (tendsto_row hσ a).sub hx
    have hP := (outerSum_near hd hd).const_smul ((1 : ℝ) / ((N : ℝ) - 1))
    refine ⟨fun i => { s i with
      sigmas := σ i, x := meanRows (σ i), P := ((1 : ℝ) / ((N : ℝ) - 1)) • outerSum (d i) (d i)
      xPrior := meanRows (σ i), PPrior := ((1 : ℝ) / ((N : ℝ) - 1)) • outerSum (d i) (d i) }, .of_forall fun i => ?_,
      { hs with sigmas := hσ, x := hx, P := hP, xPrior := hx, PPrior := hP }⟩
    simp only [EnkfOp.run, EnKF.predict, if_neg hN, hs.fx i]
    rfl
  | @update z z' R R' e e' hz hR he =>
    simp only [EnkfOp.run, EnKF.update] at h
    split_ifs at h with hN
    have hR' := hR.resolve hs.R
    let τ (i : ι) : Mat N m := rows fun a => t.hx ((s i).sigmas a)
    have hτ : Tendsto τ f (𝓝 (rows fun a => t.hx (t.sigmas a))) := tendsto_pi_nhds.2 fun a =>
      (hs.hxc.tendsto (t.sigmas a)).comp (tendsto_row hs.sigmas a)
    have hm := meanRows_near hτ
    let dh (i : ι) : Mat N m := rows fun a => τ i a - meanRows (τ i)
    let dx (i : ι) : Mat N n := rows fun a => (s i).sigmas a - (s i).x
    have hdh : Tendsto dh f (𝓝 (rows fun a => (rows fun a => t.hx (t.sigmas a)) a - meanRows (rows fun a => t.hx (t.sigmas a)))) :=
      tendsto_pi_nhds.2 fun a => (tendsto_row hτ a).sub hm
    have hdx : Tendsto dx f (𝓝 (rows fun a => t.sigmas a - t.x)) := tendsto_pi_nhds.2 fun a => (tendsto_row hs.sigmas a).sub hs.x
    have hS := ((outerSum_near hdh hdh).const_smul ((1 : ℝ) / ((N : ℝ) - 1))).add hR'
    have hX := (outerSum_near hdx hdh).const_smul ((1 : ℝ) / ((N : ℝ) - 1))
    rw [hs.inv'] at h
    generalize hq : npInv _ = q at h
    cases q with
    | none => cases h
    | some SI =>
      obtain ⟨h1, h2⟩ := npInv_eventually hS hq
      have hK := tendsto_mmul hX h2
      obtain rfl := Except.ok.inj h
      let S (i : ι) := ((1 : ℝ) / ((N : ℝ) - 1)) • outerSum (dh i) (dh i) + (R i).resolve (s i).R
      let K (i : ι) := ((1 : ℝ) / ((N : ℝ) - 1)) • outerSum (dx i) (dh i) * (S i)⁻¹
      let σ (i : ι) : Mat N n := rows fun a => (s i).sigmas a + K i *ᵥ (z i + e i a - τ i a)
      have hσ : Tendsto σ f (𝓝 (rows fun a => t.sigmas a + _ *ᵥ (z' + e' a - (rows fun a => t.hx (t.sigmas a)) a))) :=
        tendsto_pi_nhds.2 fun a => (tendsto_row hs.sigmas a).add (tendsto_mulVec hK ((hz.add (tendsto_row he a)).sub (tendsto_row hτ a)))
      have hx := meanRows_near hσ
      have hP := hs.P.sub (tendsto_mmul (tendsto_mmul hK hS) (tendsto_transpose hK))
      refine ⟨fun i => { s i with
        S := S i, SI := (S i)⁻¹, K := K i, sigmas := σ i, x := meanRows (σ i), P := (s i).P - K i * S i * (K i)ᵀ
        z := fun j => some (z i j), xPost := meanRows (σ i), PPost := (s i).P - K i * S i * (K i)ᵀ }, h1.mono fun i hi => ?_,
        { hs with inv' := rfl, sigmas := hσ, x := hx, P := hP, xPost := hx, PPost := hP }⟩
      have hi' : npInv (S i) = some (S i)⁻¹ := hi
      simp only [EnkfOp.run, EnKF.update, if_neg hN, hs.hx i]
      rw [show (s i).inv = npInv from hs.inv i]
      change (match npInv (S i) with
        | none => _
        | some SI => _) = _
      rw [hi']
  | missing =>
    obtain rfl := Except.ok.inj h
    exact ⟨_, .of_forall fun i => rfl, { hs with xPost := hs.x, PPost := hs.P }⟩

/-- **C145 (ensemble filter).**  With continuous user functions, and random draws that are close, nearby histories succeed
and give nearby estimates and members. -/
theorem C145_ensemble {s : ι → EnKF n m N} {t t' : EnKF n m N} (hs : EnKFNear f s t) {calls : List ((ι → EnkfOp n m N) × EnkfOp n m N)}
    (hc : ∀ p ∈ calls, EnkfOpNear f p.1 p.2) (h : runList EnkfOp.run t (calls.map Prod.snd) = .ok t') :
    ∃ s', (∀ᶠ i in f, runList EnkfOp.run (s i) (calls.map fun p => p.1 i) = .ok (s' i)) ∧ EnKFNear f s' t' := by
  induction calls generalizing s t with
  | nil => obtain rfl := Except.ok.inj h; exact ⟨s, .of_forall fun i => rfl, hs⟩
  | cons q calls ih =>
    simp only [List.map_cons, runList] at h
    cases hq : q.2.run t with
    | error e => rw [hq] at h; cases h
    | ok t1 =>
      rw [hq] at h
      obtain ⟨s1, g1, g2⟩ := enkf_step_near hs (hc q (List.mem_cons_self ..)) hq
      obtain ⟨s', k1, k2⟩ := ih g2 (fun q hq => hc q (List.mem_cons_of_mem _ hq)) h
      refine ⟨s', (g1.and k1).mono fun i hi => ?_, k2⟩
      simp only [List.map_cons, runList, hi.1]
      exact hi.2

/-! ## Discrete Bayes -/

theorem tendsto_ite_const {a : ι → ℝ} {a' : ℝ} (h : Tendsto a f (𝓝 a')) (C : Prop) [Decidable C] :
    Tendsto (fun i => if C then a i else 0) f (𝓝 (if C then a' else 0)) := by
  by_cases hC : C
  · simpa only [if_pos hC] using h
  · simpa only [if_neg hC] using tendsto_const_nhds

theorem moveProb_near {len : ℕ} (offset : ℤ) {kernel : ι → Fin len → ℝ} {kernel'} (hk : Tendsto kernel f (𝓝 kernel')) (wrap : Bool)
    (a b : Fin n) : Tendsto (fun i => moveProb (⟨len, offset, kernel i, wrap, 0⟩ : BayesStep n) a b) f
      (𝓝 (moveProb (⟨len, offset, kernel', wrap, 0⟩ : BayesStep n) a b)) := by
  have key : ∀ (C : Fin len → Prop) [DecidablePred C], Tendsto (fun i => ∑ c : Fin len, if C c then kernel i c else 0) f
      (𝓝 (∑ c : Fin len, if C c then kernel' c else 0)) := fun C _ =>
    tendsto_finsetSum _ fun c _ => tendsto_ite_const ((tendsto_pi_nhds.1 hk) c) (C c)
  cases wrap with
  | true => exact key fun c => (a : ℤ) + offset + ((c : ℤ) - (len / 2 : ℕ)) ≡ b [ZMOD n]
  | false => exact key fun c => (a : ℤ) + offset + ((c : ℤ) - (len / 2 : ℕ)) = b ∧ 0 ≤ (a : ℤ) + offset ∧ (a : ℤ) + offset < n

theorem bayes_predict_near [NeZero n] {len : ℕ} {q : ι → Fin n → ℝ} {q'} (hq : Tendsto q f (𝓝 q')) (offset : ℤ) {kernel : ι → Fin len → ℝ}
    {kernel'} (hk : Tendsto kernel f (𝓝 kernel')) (wrap : Bool) :
    Tendsto (fun i => DiscreteBayes.predict (q i) offset (kernel i) wrap 0) f (𝓝 (DiscreteBayes.predict q' offset kernel' wrap 0)) := by
  refine tendsto_pi_nhds.2 fun j => ?_
  have e : ∀ (v : Fin n → ℝ) (c : Fin len → ℝ), DiscreteBayes.predict v offset c wrap 0 j =
      ∑ i, v i * moveProb ⟨len, offset, c, wrap, 0⟩ i j := fun v c => belief_predict_move v ⟨len, offset, c, wrap, 0⟩ j
  simp only [e]
  exact tendsto_finsetSum _ fun a _ => ((tendsto_pi_nhds.1 hq) a).mul (moveProb_near offset hk wrap a j)

theorem bayes_update_near {l q : ι → Fin n → ℝ} {l' q' r'} (hl : Tendsto l f (𝓝 l')) (hq : Tendsto q f (𝓝 q'))
    (h : DiscreteBayes.update l' q' = .ok r') :
    ∃ r, (∀ᶠ i in f, DiscreteBayes.update (l i) (q i) = .ok (r i)) ∧ Tendsto r f (𝓝 r') := by
  unfold DiscreteBayes.update DiscreteBayes.normalize at h ⊢
  split_ifs at h with h0
  obtain rfl := Except.ok.inj h
  have hp (a : Fin n) : Tendsto (fun i => q i a * l i a) f (𝓝 (q' a * l' a)) := ((tendsto_pi_nhds.1 hq) a).mul ((tendsto_pi_nhds.1 hl) a)
  have hS : Tendsto (fun i => ∑ a, q i a * l i a) f (𝓝 (∑ a, q' a * l' a)) := tendsto_finsetSum _ fun a _ => hp a
  exact ⟨fun i a => q i a * l i a / ∑ b, q i b * l i b, (hS.eventually_ne h0).mono fun i hi => if_neg hi,
    tendsto_pi_nhds.2 fun a => (hp a).div hS h0⟩

/-- **C145 (discrete Bayes filter).**  Nearby priors, kernels and likelihoods give nearby beliefs after any history. -/
theorem C145_discrete_bayes [NeZero n] {q : ι → Fin n → ℝ} {q'} (hq : Tendsto q f (𝓝 q')) {c : ℕ → ι → BayesStep n} {c' : ℕ → BayesStep n}
    (hc : ∀ t, BayesStepNear f (c t) (c' t)) (T : ℕ) {r' : Fin n → ℝ} (h : bayesRun q' c' T = .ok r') :
    ∃ r, (∀ᶠ i in f, bayesRun (q i) (fun t => c t i) T = .ok (r i)) ∧ Tendsto r f (𝓝 r') := by
  induction T generalizing r' with
  | zero => obtain rfl := Except.ok.inj h; exact ⟨q, .of_forall fun i => rfl, hq⟩
  | succ T ih =>
    simp only [bayesRun] at h
    cases hb : bayesRun q' c' T with
    | error e => rw [hb] at h; cases h
    | ok b' =>
      rw [hb] at h
      obtain ⟨b, h1, h2⟩ := ih hb
      have hT := hc T
      generalize hcT : c T = cT at hT
      generalize hcT' : c' T = cT' at hT h
      cases hT with
      | @step len offset wrap kernel kernel' lik lik' hk hl =>
        obtain ⟨r, g1, g2⟩ := bayes_update_near hl (bayes_predict_near h2 offset hk wrap) h
        refine ⟨r, (h1.and g1).mono fun i hi => ?_, g2⟩
        have e : c T i = ⟨len, offset, kernel i, wrap, lik i⟩ := congrFun hcT i
        simp only [bayesRun, hi.1]
        rw [e]
        exact hi.2

/-! ## The unscented smoother -/

theorem ukf_rtsStep_near (hp : ContinuousPoints p) {s : ι → UKF n m p} {t : UKF n m p} (hs : UKFNear f s t) (hc : UkfContinuous t)
    {x : ι → Vec n} {x'} {P : ι → Mat n n} {P'} {dt : ι → Option ℝ} {dt'} (hx : Tendsto x f (𝓝 x')) (hP : Tendsto P f (𝓝 P'))
    (hdt : OptNear f dt dt') {nxt : ι → UKF.RtsOut n} {nxt'} (hn : UkfRtsNear f nxt nxt') {o'} (h : t.rtsStep x' P' dt' nxt' = .ok o') :
    ∃ o, (∀ᶠ i in f, (s i).rtsStep (x i) (P i) (dt i) (nxt i) = .ok (o i)) ∧ UkfRtsNear f o o' := by
  cases hq : p.points x' P' with
  | error e => simp only [UKF.rtsStep, hq] at h; cases h
  | ok σ' =>
    obtain ⟨σ, h1, h2⟩ := points_near hp hx hP hq
    cases hdt with
    | none => simp only [UKF.rtsStep, hq] at h; cases h
    | @some dt dt' hd =>
      have hF := pushRows_near (g := fun i v => t.fx v (dt i)) (g' := fun v => t.fx v dt') (σ := σ) (σ' := σ')
        fun a => (hc.fx.tendsto (σ' a, dt')).comp ((tendsto_row h2 a).prodMk_nhds hd)
      obtain ⟨u1, u2⟩ := ut_near p.Wm p.Wc hc.xMean hc.residualX hF hs.Q
      have hr := resFn_continuous hc.residualX
      have hX := crossFold_near hr hr p.Wc h2 hx hF u1 (List.finRange p.num) (tendsto_const_nhds (x := (0 : Mat n n)))
      rw [rtsStep_ok t hq, rtsBody, hs.inv] at h
      cases hI : npInv (unscentedTransform (UKF.pushRows (fun v => t.fx v dt') σ') p.Wm p.Wc (some t.Q) t.xMean t.residualX).2 with
      | none => simp only [hI] at h; cases h
      | some PbI =>
        simp only [hI] at h
        obtain ⟨g1, g2⟩ := npInv_eventually u2 hI
        obtain rfl := Except.ok.inj h
        have hK := tendsto_mmul hX g2
        have hv := (hr.tendsto (nxt'.x, _)).comp (hn.x.prodMk_nhds u1)
        let w (i : ι) := unscentedTransform (UKF.pushRows (fun v => t.fx v (dt i)) (σ i)) p.Wm p.Wc (some (s i).Q) t.xMean t.residualX
        let K (i : ι) := UKF.crossVariance p.Wc (resFn t.residualX) (resFn t.residualX) (x i) (w i).1 (σ i)
          (UKF.pushRows (fun v => t.fx v (dt i)) (σ i)) * (w i).2⁻¹
        refine ⟨fun i => ⟨x i + K i *ᵥ resFn t.residualX (nxt i).x (w i).1, P i + K i * ((nxt i).P - (w i).2) * (K i)ᵀ, K i⟩,
          (h1.and g1).mono fun i hi => ?_, ⟨hx.add (tendsto_mulVec hK hv),
          hP.add (tendsto_mmul (tendsto_mmul hK (hn.P.sub u2)) (tendsto_transpose hK)), hK⟩⟩
        rw [rtsStep_ok (s i) hi.1, rtsBody, (hs.same i).inv, (hs.same i).fx, (hs.same i).xMean, (hs.same i).residualX, hi.2]

/-- What the backward loop reads at one step approaches something else. -/
structure EntryNear (f : Filter ι) (e : ι → (Vec n × Mat n n) × Option ℝ) (e' : (Vec n × Mat n n) × Option ℝ) : Prop where
  x : Tendsto (fun i => (e i).1.1) f (𝓝 e'.1.1)
  P : Tendsto (fun i => (e i).1.2) f (𝓝 e'.1.2)
  dt : OptNear f (fun i => (e i).2) e'.2

theorem ukf_rtsLoop_near (hp : ContinuousPoints p) {s : ι → UKF n m p} {t : UKF n m p} (hs : UKFNear f s t) (hc : UkfContinuous t)
    {es : List (ι → (Vec n × Mat n n) × Option ℝ)} {es'} (h : List.Forall₂ (EntryNear f) es es') {out' : List (UKF.RtsOut n)}
    (hok : t.rtsLoop es' = .ok out') :
    ∃ out : List (ι → UKF.RtsOut n), (∀ᶠ i in f, (s i).rtsLoop (es.map (· i)) = .ok (out.map (· i))) ∧
      List.Forall₂ (UkfRtsNear f) out out' := by
  induction h generalizing out' with
  | nil => obtain rfl := Except.ok.inj hok; exact ⟨[], Eventually.of_forall fun _ => rfl, .nil⟩
  | @cons e e' es es' he hes ih =>
    cases hes with
    | nil =>
      obtain rfl := Except.ok.inj hok
      exact ⟨[fun i => ⟨(e i).1.1, (e i).1.2, 0⟩], Eventually.of_forall fun _ => rfl, .cons ⟨he.x, he.P, tendsto_const_nhds⟩ .nil⟩
    | @cons g g' gs gs' hg hgs =>
      simp only [UKF.rtsLoop] at hok
      cases ht : t.rtsLoop (g' :: gs') with
      | error e => rw [ht] at hok; cases hok
      | ok tail =>
        rw [ht] at hok
        obtain ⟨out, k1, k2⟩ := ih ht
        cases k2 with
        | nil =>
          obtain rfl := Except.ok.inj hok
          refine ⟨[], k1.mono fun i hi => ?_, .nil⟩
          simp only [List.map_cons] at hi ⊢
          simp only [UKF.rtsLoop, hi]
          rfl
        | @cons a b as bs ka kas =>
          simp only at hok
          cases hr : t.rtsStep e'.1.1 e'.1.2 e'.2 b with
          | error e => rw [hr] at hok; cases hok
          | ok o' =>
            rw [hr] at hok
            obtain rfl := Except.ok.inj hok
            obtain ⟨o, j1, j2⟩ := ukf_rtsStep_near hp hs hc he.x he.P he.dt ka hr
            refine ⟨o :: a :: as, (k1.and j1).mono fun i hi => ?_, .cons j2 (.cons ka kas)⟩
            have hi1 := hi.1
            simp only [List.map_cons] at hi1 ⊢
            simp only [UKF.rtsLoop, hi1, hi.2]

theorem entries_near {Xs : List (ι → Vec n)} {Xs'} {Ps : List (ι → Mat n n)} {Ps'} {ds : List (ι → Option ℝ)} {ds'}
    (hX : ListNear f Xs Xs') (hP : ListNear f Ps Ps') (hd : List.Forall₂ (OptNear f) ds ds') :
    List.Forall₂ (EntryNear f) (List.zipWith (fun q d i => (q i, d i)) (List.zipWith (fun a b i => (a i, b i)) Xs Ps) ds)
      ((Xs'.zip Ps').zip ds') := by
  induction hX generalizing Ps Ps' ds ds' with
  | nil => exact .nil
  | cons h _ ih =>
    cases hP with
    | nil => exact .nil
    | cons g gs =>
      cases hd with
      | nil => exact .nil
      | cons d ds => exact .cons ⟨h, g, d⟩ (ih gs ds)

theorem map_zipWith_at {E G : Type} (as : List (ι → E)) (bs : List (ι → G)) (i : ι) :
    (List.zipWith (fun a b i => (a i, b i)) as bs).map (· i) = (as.map (· i)).zip (bs.map (· i)) := by
  induction as generalizing bs with
  | nil => rfl
  | cons a as ih =>
    cases bs with
    | nil => rfl
    | cons b bs => simp only [List.zipWith_cons_cons, List.map_cons, List.zip_cons_cons, ih]

theorem rtsDts_near {s : ι → UKF n m p} {t : UKF n m p} (hs : UKFNear f s t) {d : ι → UKF.DtArg} {d'} (hd : DtsNear f d d') (k : ℕ) :
    ∃ ds : List (ι → Option ℝ), (∀ i, (s i).rtsDts k (d i) = ds.map (· i)) ∧ List.Forall₂ (OptNear f) ds (t.rtsDts k d') := by
  have rep : ∀ {a : ι → Option ℝ} {b}, OptNear f a b → ∀ k, List.Forall₂ (OptNear f) (List.replicate k a) (List.replicate k b) := by
    intro a b h k
    induction k with
    | zero => exact .nil
    | succ k ih => exact .cons h ih
  cases hd with
  | none => exact ⟨List.replicate k fun i => some (s i).dt, fun i => by simp [UKF.rtsDts], rep (.some hs.dt) k⟩
  | @scalar c c' h => exact ⟨List.replicate k fun i => some (c i), fun i => by simp [UKF.rtsDts], rep (.some h) k⟩
  | @list l l' h =>
    refine ⟨(List.range k).map fun j i => (l.map (· i))[j]?, fun i => by simp [UKF.rtsDts], ?_⟩
    simp only [UKF.rtsDts]
    rw [List.forall₂_map_left_iff, List.forall₂_map_right_iff, List.forall₂_same]
    intro j _
    have key : ∀ {l : List (ι → ℝ)} {l'}, ListNear f l l' → ∀ j : ℕ, OptNear f (fun i => (l.map (· i))[j]?) l'[j]? := by
      intro l l' h
      induction h with
      | nil => intro j; simp; exact .none
      | cons h _ ih =>
        intro j
        cases j with
        | zero => simp; exact .some h
        | succ j => simpa using ih j
    exact key h j

/-- **C145 (unscented smoother).**  `rts_smoother` of an `UnscentedKalmanFilter` with continuous functions: if it succeeds,
it succeeds for everything close enough, with results as close as desired. -/
theorem C145_ukf_smoother (hp : ContinuousPoints p) {s : ι → UKF n m p} {t : UKF n m p} (hs : UKFNear f s t) (hc : UkfContinuous t)
    {Xs : List (ι → Vec n)} {Xs'} {Ps : List (ι → Mat n n)} {Ps'} (hX : ListNear f Xs Xs') (hP : ListNear f Ps Ps')
    (Qs : Option (List (Mat n n))) {d : ι → UKF.DtArg} {d'} (hd : DtsNear f d d') {out' : List (UKF.RtsOut n)}
    (h : t.rtsSmoother Xs' Ps' Qs d' = .ok out') :
    ∃ out : List (ι → UKF.RtsOut n), (∀ᶠ i in f, (s i).rtsSmoother (Xs.map (· i)) (Ps.map (· i)) Qs (d i) = .ok (out.map (· i))) ∧
      List.Forall₂ (UkfRtsNear f) out out' := by
  have lX := hX.length_eq
  have lP := hP.length_eq
  unfold UKF.rtsSmoother at h
  split_ifs at h with hl
  obtain ⟨ds, d1, d2⟩ := rtsDts_near hs hd Xs'.length
  obtain ⟨out, h1, h2⟩ := ukf_rtsLoop_near hp hs hc (entries_near hX hP d2) h
  refine ⟨out, h1.mono fun i hi => ?_, h2⟩
  unfold UKF.rtsSmoother
  rw [if_neg (by simpa [lX, lP] using hl), List.length_map, lX, d1 i, ← map_zipWith_at, ← map_zipWith_at]
  exact hi

/-! ## Non-vacuity -/

/-- Two members driven by a nonlinear function, with perturbed draws. -/
example (s : EnKF 1 1 2) (hf : s.fx = fun v dt a => v a + dt * Real.sin (v a)) (hh : s.hx = fun v => v) (hi : s.inv = npInv)
    (e : ℕ → Mat 2 1) (e' : Mat 2 1) (he : Tendsto e atTop (𝓝 e')) :
    ∃ (t' : EnKF 1 1 2) (s' : ℕ → EnKF 1 1 2), s.predict e' = .ok t' ∧ (∀ᶠ i in atTop, s.predict (e i) = .ok (s' i)) ∧ Tendsto (fun i => (s' i).P) atTop (𝓝 t'.P) := by
  obtain ⟨t', ht⟩ : ∃ t', s.predict e' = .ok t' := by
    simp only [EnKF.predict]
    exact ⟨_, rfl⟩
  obtain ⟨s', h1, h2⟩ := C145_ensemble (f := atTop) (s := fun _ : ℕ => s) (t := s) (t' := t')
    ⟨fun _ => rfl, fun _ => rfl, by rw [hf]; show Continuous fun (q : Vec 1 × ℝ) a => q.1 a + q.2 * Real.sin (q.1 a); fun_prop,
      by rw [hh]; exact continuous_id, fun _ => hi, hi, tendsto_const_nhds, tendsto_const_nhds, tendsto_const_nhds, tendsto_const_nhds,
      tendsto_const_nhds, tendsto_const_nhds, tendsto_const_nhds, tendsto_const_nhds, tendsto_const_nhds⟩
    (calls := [(fun i => .predict (e i), .predict e')]) (by
      intro q hq
      obtain rfl := List.mem_singleton.1 hq
      exact .predict he) (by simp only [List.map_cons, List.map_nil, runList, EnkfOp.run, ht])
  refine ⟨t', s', ht, h1.mono fun i hi => ?_, h2.P⟩
  simp only [List.map_cons, List.map_nil, runList, EnkfOp.run] at hi
  cases hq : s.predict (e i) with
  | error e => rw [hq] at hi; cases hi
  | ok r => rw [hq] at hi; exact hi

/-- A belief over two cells, a blurred move, a sensor that is never certain, and slightly wrong priors. -/
example (q : ℕ → Fin 2 → ℝ) (hq : Tendsto q atTop (𝓝 ![1 / 2, 1 / 2])) : ∃ (r' : Fin 2 → ℝ) (r : ℕ → Fin 2 → ℝ),
    bayesRun ![1 / 2, 1 / 2] (fun _ => ⟨1, 1, ![1], true, ![1, 2]⟩) 1 = .ok r' ∧
      (∀ᶠ i in atTop, bayesRun (q i) (fun _ => ⟨1, 1, ![1], true, ![1, 2]⟩) 1 = .ok (r i)) ∧ Tendsto r atTop (𝓝 r') := by
  have e : DiscreteBayes.predict ![1 / 2, 1 / 2] 1 ![1] true 0 = (![1 / 2, 1 / 2] : Fin 2 → ℝ) := by
    have hc : ∀ j : Fin 2, (![1 / 2, 1 / 2] : Fin 2 → ℝ) j = 1 / 2 := by intro j; fin_cases j <;> rfl
    funext i
    rw [predict_wrap_eq, Fin.sum_univ_one, hc, hc]
    simp
  obtain ⟨r', hr⟩ : ∃ r', bayesRun ![1 / 2, 1 / 2] (fun _ => (⟨1, 1, ![1], true, ![1, 2]⟩ : BayesStep 2)) 1 = .ok r' := by
    change ∃ r', DiscreteBayes.update ![1, 2] (DiscreteBayes.predict ![1 / 2, 1 / 2] 1 ![1] true 0) = .ok r'
    rw [e]
    unfold DiscreteBayes.update DiscreteBayes.normalize
    rw [if_neg (by rw [Fin.sum_univ_two]; norm_num)]
    exact ⟨_, rfl⟩
  obtain ⟨r, h1, h2⟩ := C145_discrete_bayes hq (c := fun _ _ => (⟨1, 1, ![1], true, ![1, 2]⟩ : BayesStep 2))
    (fun _ => .step tendsto_const_nhds tendsto_const_nhds) 1 hr
  exact ⟨r', r, hr, h1, h2⟩

/-- Two estimates of a random walk, the first of which is perturbed. -/
example (X : ℕ → Vec 2) (X' : Vec 2) (hX : Tendsto X atTop (𝓝 X')) : ∃ (p : SigmaPts 2) (s : UKF 2 1 p) (out' : List (UKF.RtsOut 2))
    (out : List (ℕ → UKF.RtsOut 2)), ContinuousPoints p ∧ s.rtsSmoother [X', 0] [1, 1] none (.list [1, 1]) = .ok out' ∧
      (∀ᶠ i in atTop, s.rtsSmoother [X i, 0] [1, 1] none (.list [1, 1]) = .ok (out.map (· i))) ∧
      List.Forall₂ (UkfRtsNear atTop) out out' := by
  obtain ⟨chol, hc⟩ := isCholesky_exists (n := 2)
  let s : UKF 2 1 (SigmaPts.simplex 2 chol) := UKF.fresh 1 _ 1 (fun v => ![v 0]) fun v _ => (1 : Mat 2 2) *ᵥ v
  have hp : ContinuousPoints (SigmaPts.simplex 2 chol) := .simplex hc (continuous_fst.sub continuous_snd)
  obtain ⟨o, -, ho⟩ := C63_rts_partial (.simplex chol (by norm_num) hc.upper) (fun _ => 1) s
    (by constructor <;> first | rfl | (intros; rfl)) (Or.inl PosDef.one) [X', 0] [1, 1] rfl
    (by intro P hP; simp only [List.mem_cons, List.not_mem_nil, or_false, or_self] at hP; rw [hP]; exact PosDef.one) [1, 1] (by simp) none
  have hcont : UkfContinuous s := by
    refine ⟨?_, ?_, ?_, ?_, ?_, ?_, ?_⟩ <;> try exact fun _ h => by cases h
    · show Continuous fun q : Vec 2 × ℝ => (1 : Mat 2 2) *ᵥ q.1
      simp only [one_mulVec]
      exact continuous_fst
    · refine continuous_pi fun a => ?_
      fin_cases a
      exact continuous_apply 0
  obtain ⟨out, h1, h2⟩ := C145_ukf_smoother (f := atTop) hp (s := fun _ : ℕ => s) (t := s)
    ⟨fun _ => ⟨rfl, rfl, rfl, rfl, rfl, rfl, rfl, rfl⟩, rfl, tendsto_const_nhds, tendsto_const_nhds, tendsto_const_nhds,
      tendsto_const_nhds, tendsto_const_nhds, tendsto_const_nhds, tendsto_const_nhds, tendsto_const_nhds,
      tendsto_const_nhds, tendsto_const_nhds⟩ hcont (Xs := [X, fun _ => 0]) (Ps := [fun _ => 1, fun _ => 1])
    (.cons hX (.cons tendsto_const_nhds .nil)) (.cons tendsto_const_nhds (.cons tendsto_const_nhds .nil)) none
    (d := fun _ => .list [1, 1]) (.list (l := [fun _ => 1, fun _ => 1]) (.cons tendsto_const_nhds (.cons tendsto_const_nhds .nil))) ho
  exact ⟨_, s, _, out, hp, ho, h1, h2⟩

end Filterpy
