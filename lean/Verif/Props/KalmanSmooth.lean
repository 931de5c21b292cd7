import Verif.Lemmas.Smooth
import Verif.Lemmas.Scalar1
import Verif.Props.KalmanBatch

/-!
# KalmanFilter: C11 (smoother optimality), C12 (smoothed covariances), C13 (method vs function)
-/

namespace Filterpy

open Matrix KF Spec MeasureTheory

variable {n m l : ℕ}

/-- The step of the hidden Markov chain that a row of `batch_filter` describes. -/
noncomputable def KF.toStep (s : KF n m l) (r : BatchRow n m l) : Step n m where
  F := r.F
  b := match KF.control (r.B.or s.B) r.u with
    | .ok (some b) => b
    | _ => 0
  Q := r.Q.resolve s.Q
  H := r.H
  R := r.R.resolve s.R
  z := r.z

/-- Filtered means and covariances of all steps. -/
noncomputable def filtList : Vec n → Mat n n → List (Step n m) → List (Vec n × Mat n n)
  | _, _, [] => []
  | x, P, e :: es => filtStep x P e :: filtList (filtStep x P e).1 (filtStep x P e).2 es

theorem filtList_length (es : List (Step n m)) (x : Vec n) (P : Mat n n) :
    (filtList x P es).length = es.length := by
  induction es generalizing x P with
  | nil => rfl
  | cons e es ih => simp [filtList, ih]

/-- A predict/update cycle of the model is `filtStep`. -/
theorem cycle_filtStep (s s1 s2 : KF n m l) (r : BatchRow n m l) (hinv : s.inv = npInv)
    (ha : s.alphaSq = 1) (hP : s.P.PosDef) (he : Step.PD (s.toStep r))
    (h1 : s.predict r.u r.B (some r.F) r.Q = .ok s1) (h2 : s1.update r.z r.R (some r.H) = .ok s2) :
    s1.x = predX s.x (s.toStep r) ∧ s1.P = predP s.P (s.toStep r) ∧
    (s2.x, s2.P) = filtStep s.x s.P (s.toStep r) ∧
    s2.inv = s.inv ∧ s2.alphaSq = s.alphaSq ∧ s2.Q = s.Q ∧ s2.R = s.R ∧ s2.B = s.B := by
  have hx1 : s1.x = predX s.x (s.toStep r) ∧ s1.P = predP s.P (s.toStep r) ∧
      s1.inv = s.inv ∧ s1.alphaSq = s.alphaSq ∧ s1.Q = s.Q ∧ s1.R = s.R ∧ s1.B = s.B := by
    unfold KF.predict at h1
    cases hc : KF.control (r.B.or s.B) r.u with
    | error e => simp [hc] at h1
    | ok bu =>
      simp only [hc, Option.getD_some, Except.ok.injEq] at h1
      subst h1
      refine ⟨?_, ?_, rfl, rfl, rfl, rfl, rfl⟩
      · cases bu <;> simp [predX, toStep, hc]
      · simp [predP, toStep, ha, Matrix.mul_assoc]
  obtain ⟨hx, hP1, i1, a1, q1, r1, b1⟩ := hx1
  have hPp : s1.P.PosDef := by rw [hP1]; exact predP_pd hP he
  refine ⟨hx, hP1, ?_⟩
  cases hz : r.z with
  | none =>
    rw [hz] at h2
    simp only [KF.update, Except.ok.injEq] at h2
    subst h2
    refine ⟨?_, i1, a1, q1, r1, b1⟩
    simp only [filtStep, show (s.toStep r).z = none from hz, updateNone, hx, hP1]
  | some z =>
    rw [hz] at h2
    have hRe : r.R.resolve s1.R = (s.toStep r).R := by rw [r1]; rfl
    have hR : (r.R.resolve s1.R).PosDef := by rw [hRe]; exact he.2
    obtain ⟨SI, hSI, rfl⟩ := update_ok h2
    rw [i1, hinv] at hSI
    obtain ⟨_, rfl⟩ := npInv_eq_some.1 hSI
    refine ⟨?_, i1, a1, q1, r1, b1⟩
    have hS : ((some r.H).getD s1.H * (s1.P * ((some r.H).getD s1.H)ᵀ)
        + r.R.resolve s1.R).PosDef := S_pd hPp.posSemidef hR
    have hj := joseph_simple (H := (some r.H).getD s1.H) (PD.symm hPp) rfl
      (nonsing_inv_mul _ (PD.isUnit_det hS)) (inv_symm (PD.symm hS)) rfl
    simp only [filtStep, show (s.toStep r).z = some z from hz]
    rw [Prod.mk.injEq]
    constructor
    · simp only [Option.getD_some, hx, hP1, hRe]; rfl
    · rw [hj]; simp only [Option.getD_some, hP1, hRe]; rfl

/-- `batch_filter` computes the filter recursion. -/
theorem batchLoop_filtList (rows : List (BatchRow n m l)) (s s' : KF n m l)
    (outs : List (BatchOut n)) (hinv : s.inv = npInv) (ha : s.alphaSq = 1) (hP : s.P.PosDef)
    (hes : ∀ r ∈ rows, Step.PD (s.toStep r)) (h : batchLoop false s rows = .ok (outs, s')) :
    outs.map (fun o => (o.mean, o.cov)) = filtList s.x s.P (rows.map s.toStep) ∧
    s'.Q = s.Q := by
  induction rows generalizing s outs with
  | nil =>
    simp only [batchLoop, Except.ok.injEq, Prod.mk.injEq] at h
    obtain ⟨rfl, rfl⟩ := h; exact ⟨rfl, rfl⟩
  | cons r rows ih =>
    rw [batchLoop_cons Real.exp] at h
    simp only [BatchRow.first, BatchRow.second, step, Bool.false_eq_true, if_false] at h
    split at h
    · cases h
    · rename_i s1 h1
      split at h
      · cases h
      · rename_i s2 h2
        split at h
        · cases h
        · rename_i out s3 h3
          simp only [Except.ok.injEq, Prod.mk.injEq] at h
          obtain ⟨rfl, rfl⟩ := h
          have he := hes r (by simp)
          obtain ⟨_, _, hf, i2, a2, q2, r2, b2⟩ := cycle_filtStep s s1 s2 r hinv ha hP he h1 h2
          have hts : s2.toStep = s.toStep := by
            funext r'; unfold toStep; rw [q2, r2, b2]
          have hf1 : s2.x = (filtStep s.x s.P (s.toStep r)).1 := by rw [← hf]
          have hf2 : s2.P = (filtStep s.x s.P (s.toStep r)).2 := by rw [← hf]
          have := ih s2 out (i2.trans hinv) (a2.trans ha) (by rw [hf2]; exact filtStep_pd _ hP he)
            (fun r' hr' => by rw [hts]; exact hes r' (by simp [hr'])) h3
          simp only [List.map_cons, filtList, this.1, hts, hf1, hf2, hf, this.2, q2, and_self]

/-- The smoother's backward loop computes `smooth`: the covariances always, the means when no
control effect is present. -/
theorem rtsLoop_smooth (es : List (Step n m)) (x : Vec n) (P : Mat n n) (fq : Mat n n × Mat n n)
    (hP : P.PosDef) (hes : ∀ e ∈ es, Step.PD e) :
    ∃ sm, rtsLoop npInv (((x, P), fq) :: (filtList x P es).zip (es.map fun e => (e.F, e.Q)))
      = .ok sm ∧
      sm.map (·.P) = (smooth x P es).1.2 :: (smooth x P es).2.map Prod.snd ∧
      ((∀ e ∈ es, e.b = 0) →
        sm.map (fun o => (o.x, o.P)) = (smooth x P es).1 :: (smooth x P es).2) := by
  induction es generalizing x P fq with
  | nil => exact ⟨_, rfl, rfl, fun _ => rfl⟩
  | cons e es ih =>
    have he := hes e (by simp)
    obtain ⟨sm, h1, hc, h2⟩ := ih (filtStep x P e).1 (filtStep x P e).2 (e.F, e.Q)
      (filtStep_pd x hP he) (fun e' h' => hes e' (by simp [h']))
    simp only [filtList, List.map_cons, List.zip_cons_cons, rtsLoop]
    rw [h1]
    cases sm with
    | nil => simp at hc
    | cons nxt sm =>
      have hPp : (e.F * P * e.Fᵀ + e.Q) = predP P e := by rw [predP, Matrix.mul_assoc]
      have hd := PD.det_ne (predP_pd hP he)
      simp only [Bind.bind, Except.bind, rtsStep, hPp, npInv_of_det_ne hd]
      refine ⟨_, rfl, ?_, fun hb => ?_⟩
      · simp only [List.map_cons, List.cons.injEq] at hc
        simp only [List.map_cons, hc.2, smooth, hc.1]
        rfl
      · have h2 := h2 (fun e' h' => hb e' (by simp [h']))
        simp only [List.map_cons, List.cons.injEq] at h2
        obtain ⟨e1, e2⟩ := h2
        simp only [List.map_cons, e2, smooth, ← e1]
        have hx : predX x e = e.F *ᵥ x := by rw [predX, hb e (by simp), add_zero]
        rw [hx]
        rfl

theorem smooth_getElem (es : List (Step n m)) (x : Vec n) (P : Mat n n) (k : ℕ)
    (hk : k < ((smooth x P es).1 :: (smooth x P es).2).length) :
    ((smooth x P es).1 :: (smooth x P es).2)[k]
      = (smooth (filtAll x P (es.take k)).1 (filtAll x P (es.take k)).2 (es.drop k)).1 := by
  induction es generalizing x P k with
  | nil =>
    cases k with
    | zero => rfl
    | succ k => simp [smooth] at hk
  | cons e es ih =>
    cases k with
    | zero => simp [filtAll]
    | succ k =>
      simp only [smooth, List.getElem_cons_succ, List.take_succ_cons, List.drop_succ_cons, filtAll]
      exact ih _ _ k (by simpa [smooth] using hk)

theorem smooth_length (es : List (Step n m)) (x : Vec n) (P : Mat n n) :
    (smooth x P es).2.length = es.length := by
  induction es generalizing x P with
  | nil => rfl
  | cons e es ih => simp [smooth, ih]

/-- What a smoother must return for a chain: `sm` holds one mean and covariance per step such
that (1) the means are the unique most probable joint trajectory given all observations, and
(2) at every step the marginal density of the state given all observations, past and future,
is normal with the returned mean and covariance. -/
structure SmootherSpec (p0 : Vec n → ℝ) (steps : List (Step n m)) (sm : List (Vec n × Mat n n)) :
    Prop where
  length : sm.length = steps.length
  map : ∀ Xs : List (Vec n), Xs.length = steps.length →
    jointDensity p0 steps Xs ≤ jointDensity p0 steps (sm.map Prod.fst) ∧
    (jointDensity p0 steps Xs = jointDensity p0 steps (sm.map Prod.fst) ↔ Xs = sm.map Prod.fst)
  marginal : ∀ (k : ℕ) (hk : k < sm.length), (sm[k]).2.PosDef ∧ ∃ c : ℝ, 0 < c ∧ ∀ X,
    fwd p0 (steps.take (k + 1)) X * bwd (steps.drop (k + 1)) X = c * gaussDensity sm[k].1 sm[k].2 X

theorem smooth_spec (steps : List (Step n m)) (x : Vec n) (P : Mat n n) (e : Step n m)
    (hP : P.PosDef) (hes : ∀ e' ∈ e :: steps, Step.PD e') :
    let f := filtStep x P e
    SmootherSpec (gaussDensity x P) (e :: steps)
      ((smooth f.1 f.2 steps).1 :: (smooth f.1 f.2 steps).2) := by
  intro f
  have he := hes e (by simp)
  have hes' : ∀ e' ∈ steps, Step.PD e' := fun e' h' => hes e' (by simp [h'])
  have hf : f.2.PosDef := filtStep_pd x hP he
  obtain ⟨c, hc, hobs⟩ := filtStep_obs x hP he
  have hint : ∀ X, (∫ X₀, gaussDensity x P X₀ * e.trans X₀ X)
      = gaussDensity (predX x e) (predP P e) X := by
    intro Y
    have e1 : ∀ X, e.trans X Y = gaussDensity (e.F *ᵥ X) e.Q (Y - e.b) :=
      fun X => gaussDensity_congr _ (by abel)
    simp only [e1]
    rw [total_probability e.F hP he.1 x]
    exact gaussDensity_congr _ (by unfold predX; abel)
  have hj : ∀ X Xs, jointDensity (gaussDensity x P) (e :: steps) (X :: Xs)
      = c * (gaussDensity f.1 f.2 X * tailDensity X steps Xs) := by
    intro X Xs
    simp only [jointDensity, hint, hobs]
    ring
  refine ⟨by simp [smooth_length], ?_, ?_⟩
  · obtain ⟨M, hM, hmap⟩ := smooth_map steps f.1 f.2 hf hes'
    have hopt := (hmap (smooth f.1 f.2 steps).1.1 ((smooth f.1 f.2 steps).2.map Prod.fst)
      (by simp [smooth_length])).2.2 ⟨rfl, rfl⟩
    intro Xs hXs
    cases Xs with
    | nil => simp at hXs
    | cons X Xs =>
      simp only [List.length_cons, add_left_inj] at hXs
      obtain ⟨h1, h2⟩ := hmap X Xs hXs
      simp only [List.map_cons]
      rw [hj, hj, hopt]
      refine ⟨mul_le_mul_of_nonneg_left h1 hc.le, ?_⟩
      rw [mul_right_inj' hc.ne', h2]
      simp
  · intro k hk
    rw [smooth_getElem]
    have hpd := filtAll_pd (steps.take k) f.1 f.2 hf (fun e' h' => hes' e' (List.mem_of_mem_take h'))
    have hdrop : ∀ e' ∈ steps.drop k, Step.PD e' := fun e' h' => hes' e' (List.mem_of_mem_drop h')
    refine ⟨(smooth_pd _ _ _ hpd hdrop).1, ?_⟩
    obtain ⟨c1, hc1, h1⟩ := fwd_filtAll ((e :: steps).take (k + 1)) x P hP
      (fun e' h' => hes e' (List.mem_of_mem_take h'))
    obtain ⟨c2, hc2, h2⟩ := smooth_bwd (steps.drop k) _ _ hpd hdrop
    refine ⟨c1 * c2, by positivity, fun X => ?_⟩
    rw [h1, List.drop_succ_cons, mul_assoc]
    simp only [List.take_succ_cons, filtAll]
    rw [show filtStep x P e = f from rfl, h2, mul_assoc]

/-- `batch_filter` followed by `rts_smoother` with the same model, in terms of `smooth`. -/
theorem batch_rts (s : KF n m l) (zs : List (Option (Vec m))) (a : BatchArgs n m l)
    (hinv : s.inv = npInv) (ha : s.alphaSq = 1) (hP : s.P.PosDef)
    (hpd : ∀ r ∈ s.batchRows zs a, (r.Q.resolve s.Q).PosDef ∧ (r.R.resolve s.R).PosDef)
    (hctl : ∀ r ∈ s.batchRows zs a, ∃ b, KF.control (r.B.or s.B) r.u = .ok b)
    : ∃ outs s' sm, s.batchFilter zs a = .ok (outs, s') ∧
      s'.rtsSmoother (outs.map (·.mean)) (outs.map (·.cov))
        (some ((s.batchRows zs a).map (·.F)))
        (some ((s.batchRows zs a).map fun r => r.Q.resolve s.Q)) = .ok sm ∧
      outs.map (fun o => (o.mean, o.cov)) = filtList s.x s.P ((s.batchRows zs a).map s.toStep) ∧
      match (s.batchRows zs a).map s.toStep with
      | [] => sm = []
      | e :: es =>
        sm.map (·.P) = (smooth (filtStep s.x s.P e).1 (filtStep s.x s.P e).2 es).1.2 ::
          (smooth (filtStep s.x s.P e).1 (filtStep s.x s.P e).2 es).2.map Prod.snd ∧
        ((∀ e ∈ es, e.b = 0) → sm.map (fun o => (o.x, o.P)) =
          (smooth (filtStep s.x s.P e).1 (filtStep s.x s.P e).2 es).1 ::
          (smooth (filtStep s.x s.P e).1 (filtStep s.x s.P e).2 es).2) := by
  unfold batchFilter
  generalize hrows : s.batchRows zs a = rows at *
  obtain ⟨outs, s', h⟩ := batchLoop_total false s rows hinv hP.posSemidef (by rw [ha]; norm_num)
    (fun r hr => ⟨(hpd r hr).1.posSemidef, (hpd r hr).2, hctl r hr⟩)
  obtain ⟨hf, -⟩ := batchLoop_filtList rows s s' outs hinv ha hP (fun r hr => hpd r hr) h
  have hm : outs.map (·.mean) = (filtList s.x s.P (rows.map s.toStep)).map Prod.fst := by
    rw [← hf]; simp
  have hc : outs.map (·.cov) = (filtList s.x s.P (rows.map s.toStep)).map Prod.snd := by
    rw [← hf]; simp
  have hzip : (outs.map (·.mean)).zip (outs.map (·.cov))
      = filtList s.x s.P (rows.map s.toStep) := by
    rw [hm, hc, List.zip_map', List.map_id']
  have hlen : outs.length = rows.length := by
    have := congrArg List.length hf
    simpa [filtList_length] using this
  have hfq : (rows.map (·.F)).zip (rows.map fun r => r.Q.resolve s.Q)
      = (rows.map s.toStep).map fun e => (e.F, e.Q) := by
    rw [List.zip_map', List.map_map]; rfl
  have hPD : ∀ e ∈ rows.map s.toStep, Step.PD e := by
    intro e he
    obtain ⟨r, hr, rfl⟩ := List.mem_map.1 he
    exact hpd r hr
  refine ⟨outs, s', ?_⟩
  simp only [rtsSmoother, List.length_map, ne_eq, not_true_eq_false, if_false, Option.getD_some,
    hlen, lt_irrefl, or_self, and_false, hzip, hfq]
  generalize hst : rows.map s.toStep = st at *
  have hlen' : rows.length = st.length := by rw [← hst]; simp
  rw [hlen']
  cases st with
  | nil =>
    exact ⟨[], h, by simp [rtsLoop, filtList], hf, rfl⟩
  | cons e es =>
    have he := hPD e (by simp)
    have hes : ∀ e' ∈ es, Step.PD e' := fun e' h' => hPD e' (by simp [h'])
    by_cases hes0 : es = []
    · subst hes0
      refine ⟨[⟨(filtStep s.x s.P e).1, (filtStep s.x s.P e).2, 0, (filtStep s.x s.P e).2⟩],
        h, ?_, hf, rfl, fun _ => rfl⟩
      simp only [List.length_cons, List.length_nil, zero_add, show (1 < 2) from by norm_num,
          if_true, filtList, List.map_cons, List.map_nil, rtsLoop]
    · obtain ⟨sm, h1, h2⟩ := rtsLoop_smooth es (filtStep s.x s.P e).1 (filtStep s.x s.P e).2
        (e.F, e.Q) (filtStep_pd _ hP he) hes
      refine ⟨sm, h, ?_, hf, h2⟩
      have h2' : ¬ (e :: es).length < 2 := by
        have : es.length ≠ 0 := by simpa using hes0
        simp; omega
      rw [if_neg h2']
      exact h1

/-- Full statement of C11: for every linear Gaussian system, including one with control inputs,
the smoother returns the most probable trajectory and the exact posterior marginals.
`_partial`: proved when no step after the first has a control effect; with a control effect it
is false (`C11_control_refuted`).

`batch_filter` succeeds, `rts_smoother` on its output with the same per-step matrices succeeds,
and the result meets `SmootherSpec` for the chain the user described. -/
theorem C11_smoother_optimal_partial (s : KF n m l) (zs : List (Option (Vec m)))
    (a : BatchArgs n m l) (hinv : s.inv = npInv) (ha : s.alphaSq = 1) (hP : s.P.PosDef)
    (hne : s.batchRows zs a ≠ [])
    (hpd : ∀ r ∈ s.batchRows zs a, (r.Q.resolve s.Q).PosDef ∧ (r.R.resolve s.R).PosDef)
    (hctl : ∀ r ∈ s.batchRows zs a, ∃ b, KF.control (r.B.or s.B) r.u = .ok b)
    (hb : ∀ e ∈ ((s.batchRows zs a).map s.toStep).tail, e.b = 0) :
    ∃ outs s' sm, s.batchFilter zs a = .ok (outs, s') ∧
      s'.rtsSmoother (outs.map (·.mean)) (outs.map (·.cov))
        (some ((s.batchRows zs a).map (·.F)))
        (some ((s.batchRows zs a).map fun r => r.Q.resolve s.Q)) = .ok sm ∧
      SmootherSpec (gaussDensity s.x s.P) ((s.batchRows zs a).map s.toStep)
        (sm.map fun o => (o.x, o.P)) := by
  obtain ⟨outs, s', sm, h1, h2, -, h3⟩ := batch_rts s zs a hinv ha hP hpd hctl
  refine ⟨outs, s', sm, h1, h2, ?_⟩
  have hPD : ∀ e ∈ (s.batchRows zs a).map s.toStep, Step.PD e := by
    intro e he
    obtain ⟨r, hr, rfl⟩ := List.mem_map.1 he
    exact hpd r hr
  cases hst : (s.batchRows zs a).map s.toStep with
  | nil => exact absurd (List.map_eq_nil_iff.1 hst) hne
  | cons e es =>
    rw [hst] at h3 hb
    rw [h3.2 hb]
    exact smooth_spec es s.x s.P e hP (hst ▸ hPD)

/-- **C11.** Whatever its inputs, the smoother returns one entry per filtered state and leaves
the last filtered mean and covariance as they are. -/
theorem C11_last_unchanged (s : KF n m l) (Xs : List (Vec n)) (Ps : List (Mat n n))
    (Fs Qs : Option (List (Mat n n))) (inv : Mat n n → Option (Mat n n)) (sm : List (RtsOut n))
    (h : s.rtsSmoother Xs Ps Fs Qs inv = .ok sm) :
    Ps.length = Xs.length ∧ sm.length = Xs.length ∧
    sm.getLast?.map (·.x) = Xs.getLast? ∧ sm.getLast?.map (·.P) = Ps.getLast? := by
  have key : ∀ (L : List ((Vec n × Mat n n) × (Mat n n × Mat n n))) sm, rtsLoop inv L = .ok sm →
      sm.length = L.length ∧ sm.getLast?.map (fun o => (o.x, o.P)) = L.getLast?.map (·.1) := by
    intro L
    induction L with
    | nil => intro sm h; simp only [rtsLoop, Except.ok.injEq] at h; subst h; simp
    | cons e L ih =>
      cases L with
      | nil => intro sm h; simp only [rtsLoop, Except.ok.injEq] at h; subst h; simp
      | cons e' L =>
        intro sm h
        simp only [rtsLoop] at h
        cases ht : rtsLoop inv (e' :: L) with
        | error er => simp [ht, Bind.bind, Except.bind] at h
        | ok tail =>
          obtain ⟨h1, h2⟩ := ih tail ht
          rw [ht] at h
          cases tail with
          | nil => simp at h1
          | cons nxt tail =>
            simp only [Bind.bind, Except.bind] at h
            split at h
            · cases h
            · rename_i o ho
              simp only [Except.ok.injEq] at h
              subst h
              refine ⟨by simp [h1], ?_⟩
              rw [List.getLast?_cons_cons, List.getLast?_cons_cons]
              exact h2
  unfold rtsSmoother at h
  split_ifs at h with hl
  have hl' : Xs.length = Ps.length := by simpa using hl
  have fin : ∀ L : List ((Vec n × Mat n n) × (Mat n n × Mat n n)), L.map (·.1) = Xs.zip Ps →
      rtsLoop inv L = .ok sm → Ps.length = Xs.length ∧ sm.length = Xs.length ∧
      sm.getLast?.map (·.x) = Xs.getLast? ∧ sm.getLast?.map (·.P) = Ps.getLast? := by
    intro L hL hr
    obtain ⟨k1, k2⟩ := key _ _ hr
    have e1 : L.length = Xs.length := by
      have := congrArg List.length hL
      simpa [hl'] using this
    have k2 : sm.getLast?.map (fun o => (o.x, o.P)) = (Xs.zip Ps).getLast? := by
      rw [← hL, List.getLast?_map]; exact k2
    refine ⟨hl'.symm, k1.trans e1, ?_, ?_⟩
    · have : Xs = (Xs.zip Ps).map Prod.fst := (List.map_fst_zip (by omega)).symm
      conv_rhs => rw [this, List.getLast?_map, ← k2]
      rw [Option.map_map]; rfl
    · have : Ps = (Xs.zip Ps).map Prod.snd := (List.map_snd_zip (by omega)).symm
      conv_rhs => rw [this, List.getLast?_map, ← k2]
      rw [Option.map_map]; rfl
  simp only at h
  split_ifs at h with h1 h2
  · exact fin _ (by rw [List.map_map]; exact List.map_id _) h
  · refine fin _ ?_ h
    refine List.map_fst_zip ?_
    simp only [not_and_or, not_or, not_lt] at h1 h2
    simp only [List.length_zip]
    omega

/-! ## C12 -/

theorem filtStep_le {P : Mat n n} {e : Step n m} (x : Vec n) (hP : P.PosDef) (he : Step.PD e) :
    (predP P e - (filtStep x P e).2).PosSemidef := by
  have hPp := predP_pd hP he
  unfold filtStep
  cases e.z with
  | none => simp only [sub_self]; exact PosSemidef.zero
  | some z =>
    simp only
    set Pp := predP P e
    have hS : (e.H * (Pp * e.Hᵀ) + e.R).PosDef := S_pd hPp.posSemidef he.2
    have : Pp - (1 - Pp * e.Hᵀ * (e.H * (Pp * e.Hᵀ) + e.R)⁻¹ * e.H) * Pp
        = (Pp * e.Hᵀ) * (e.H * (Pp * e.Hᵀ) + e.R)⁻¹ * (Pp * e.Hᵀ)ᵀ := by
      rw [Matrix.sub_mul, Matrix.one_mul, sub_sub_cancel, transpose_mul, transpose_transpose,
        PD.symm hPp, Matrix.mul_assoc _ e.H]
    rw [this]
    exact PSD.congr hS.inv.posSemidef _

theorem smooth_le (es : List (Step n m)) (x : Vec n) (P : Mat n n) (hP : P.PosDef)
    (hes : ∀ e ∈ es, Step.PD e) :
    List.Forall₂ (fun f c => (f - c).PosSemidef) (P :: (filtList x P es).map Prod.snd)
      ((smooth x P es).1.2 :: (smooth x P es).2.map Prod.snd) := by
  induction es generalizing x P with
  | nil =>
    refine .cons ?_ .nil
    simp only [smooth, sub_self]; exact PosSemidef.zero
  | cons e es ih =>
    have he := hes e (by simp)
    have ih := ih (filtStep x P e).1 (filtStep x P e).2 (filtStep_pd x hP he)
      (fun e' h' => hes e' (by simp [h']))
    refine .cons ?_ ?_
    · simp only [smooth]
      rw [List.forall₂_cons] at ih
      have h := (filtStep_le x hP he).add ih.1
      rw [sub_add_sub_cancel] at h
      have e1 : ∀ (A K C D : Mat n n), A - (A + K * (C - D) * Kᵀ) = K * (D - C) * Kᵀ := by
        intro A K C D; rw [Matrix.mul_sub, Matrix.mul_sub, Matrix.sub_mul, Matrix.sub_mul]; abel
      rw [e1]
      exact PSD.congr h _
    · simp only [filtList, smooth, List.map_cons]
      exact ih

/-- **C12.** On the output of `batch_filter`, every smoothed covariance is positive definite (in
particular symmetric) and does not exceed the filtered covariance of the same step.  Control
inputs are allowed. -/
theorem C12_smoothing_reduces (s : KF n m l) (zs : List (Option (Vec m)))
    (a : BatchArgs n m l) (hinv : s.inv = npInv) (ha : s.alphaSq = 1) (hP : s.P.PosDef)
    (hpd : ∀ r ∈ s.batchRows zs a, (r.Q.resolve s.Q).PosDef ∧ (r.R.resolve s.R).PosDef)
    (hctl : ∀ r ∈ s.batchRows zs a, ∃ b, KF.control (r.B.or s.B) r.u = .ok b) :
    ∃ outs s' sm, s.batchFilter zs a = .ok (outs, s') ∧
      s'.rtsSmoother (outs.map (·.mean)) (outs.map (·.cov))
        (some ((s.batchRows zs a).map (·.F)))
        (some ((s.batchRows zs a).map fun r => r.Q.resolve s.Q)) = .ok sm ∧
      sm.length = outs.length ∧ ∀ (k : ℕ) (h1 : k < sm.length) (h2 : k < outs.length),
        sm[k].P.PosDef ∧ (outs[k].cov - sm[k].P).PosSemidef := by
  obtain ⟨outs, s', sm, h1, h2, hf, h3⟩ := batch_rts s zs a hinv ha hP hpd hctl
  refine ⟨outs, s', sm, h1, h2, ?_⟩
  have hPD : ∀ e ∈ (s.batchRows zs a).map s.toStep, Step.PD e := by
    intro e he
    obtain ⟨r, hr, rfl⟩ := List.mem_map.1 he
    exact hpd r hr
  have hfc : outs.map (·.cov) = (filtList s.x s.P ((s.batchRows zs a).map s.toStep)).map Prod.snd := by
    rw [← hf]; simp
  generalize (s.batchRows zs a).map s.toStep = st at *
  cases st with
  | nil =>
    simp only at h3
    subst h3
    have : outs = [] := by simpa [filtList] using hf
    subst this
    simp
  | cons e es =>
    have he := hPD e (by simp)
    have hes : ∀ e' ∈ es, Step.PD e' := fun e' h' => hPD e' (by simp [h'])
    have hle := smooth_le es (filtStep s.x s.P e).1 (filtStep s.x s.P e).2 (filtStep_pd _ hP he) hes
    have hps := smooth_pd es (filtStep s.x s.P e).1 (filtStep s.x s.P e).2 (filtStep_pd _ hP he) hes
    rw [← h3.1] at hle
    have hfc' : outs.map (·.cov) = (filtStep s.x s.P e).2 ::
      (filtList (filtStep s.x s.P e).1 (filtStep s.x s.P e).2 es).map Prod.snd := hfc
    rw [← hfc'] at hle
    have hlen : sm.length = outs.length := by simpa using hle.length_eq.symm
    refine ⟨hlen, fun k k1 k2 => ⟨?_, ?_⟩⟩
    · have hmem : sm[k].P ∈ sm.map (·.P) := List.mem_map.2 ⟨_, List.getElem_mem k1, rfl⟩
      rw [h3.1, List.mem_cons] at hmem
      rcases hmem with hm | hm
      · rw [hm]; exact hps.1
      · obtain ⟨o, ho, ho'⟩ := List.mem_map.1 hm
        rw [← ho']; exact hps.2 o ho
    · have := List.Forall₂.get hle (i := k) (by simpa using k2) (by simpa using k1)
      simpa using this

/-! ## C13 -/

/-- **C13.** The function `rts_smoother(Xs, Ps, Fs, Qs)` is the method with the model lists
shifted by one: it reads the transition *out of* step `k` from `Fs[k]`, where the method reads
it from `Fs[k+1]`.  This holds for all inputs, including those that raise. -/
theorem C13_function_is_shifted_method (s : KF n m l) (Xs : List (Vec n)) (Ps Fs Qs : List (Mat n n))
    (A B : Mat n n) :
    KFun.rtsSmoother Xs Ps Fs Qs = s.rtsSmoother Xs Ps (some (A :: Fs)) (some (B :: Qs)) := by
  have key : ∀ (L : List (Vec n × Mat n n)) (F Q : List (Mat n n)) (A B : Mat n n),
      L.length ≤ F.length + 1 → L.length ≤ Q.length + 1 →
      KFun.rtsLoop (L.zip ((F ++ [0]).zip (Q ++ [0])))
        = rtsLoop npInv (L.zip ((A :: F).zip (B :: Q))) := by
    intro L
    induction L with
    | nil => intros; rfl
    | cons a L ih =>
      intro F Q A B hF hQ
      cases L with
      | nil => cases F <;> cases Q <;> simp [KFun.rtsLoop, rtsLoop]
      | cons a' L =>
        cases F with
        | nil => simp at hF
        | cons f F =>
          cases Q with
          | nil => simp at hQ
          | cons q Q =>
            have := ih F Q f q (by simpa using hF) (by simpa using hQ)
            cases F with
            | nil =>
              have hL : L = [] := by simpa using hF
              subst hL
              simp [KFun.rtsLoop, rtsLoop] 
              cases Q <;> simp [KFun.rtsLoop, rtsLoop, Bind.bind, Except.bind]
            | cons f' F =>
              cases Q with
              | nil =>
                have hL : L = [] := by simpa using hQ
                subst hL
                simp [KFun.rtsLoop, rtsLoop, Bind.bind, Except.bind]
              | cons q' Q =>
                simp only [List.cons_append, List.zip_cons_cons] at this
                simp only [List.cons_append, List.zip_cons_cons, KFun.rtsLoop, rtsLoop, this]
                rfl
  unfold KFun.rtsSmoother rtsSmoother
  by_cases hl : Xs.length = Ps.length
  swap
  · simp [hl]
  simp only [hl, ne_eq, not_true_eq_false, if_false, Option.getD_some, List.length_cons]
  by_cases h2 : 2 ≤ Ps.length
  · have e1 : (2 ≤ Ps.length ∧ (Fs.length + 1 < Ps.length ∨ Qs.length + 1 < Ps.length)) =
        (Fs.length + 1 < Ps.length ∨ Qs.length + 1 < Ps.length) := by simp [h2]
    simp only [e1]
    split_ifs with h3 h4
    · rfl
    · omega
    · exact key _ _ _ _ _ (by simp [hl]; omega) (by simp [hl]; omega)
  · have e1 : ¬ (Fs.length + 1 < Ps.length ∨ Qs.length + 1 < Ps.length) := by omega
    have e2 : ¬ (2 ≤ Ps.length ∧ (Fs.length + 1 < Ps.length ∨ Qs.length + 1 < Ps.length)) := by omega
    have e3 : Ps.length < 2 := by omega
    rw [if_neg e1, if_neg e2, if_pos e3]
    rw [key _ _ _ 0 0 (by simp [hl]; omega) (by simp [hl]; omega)]
    rcases Xs with _ | ⟨x, _ | ⟨x', Xs⟩⟩ <;> rcases Ps with _ | ⟨p, _ | ⟨p', Ps⟩⟩ <;>
      simp at hl e3 <;> simp [rtsLoop]

/-- Full statement of C13: method and function agree for all lists.  `_partial`: proved for
time-invariant models; false in general (`C13_time_varying_refuted`). -/
theorem C13_agree_constant_partial (s : KF n m l) (Xs : List (Vec n)) (Ps : List (Mat n n))
    (F Q : Mat n n) :
    KFun.rtsSmoother Xs Ps (List.replicate Xs.length F) (List.replicate Xs.length Q)
      = s.rtsSmoother Xs Ps (some (List.replicate Xs.length F)) (some (List.replicate Xs.length Q)) := by
  rw [C13_function_is_shifted_method s Xs Ps _ _ F Q]
  have hz : ∀ {α β : Type} (L : List α) (A B : List β), L.length ≤ A.length →
      L.zip (A ++ B) = L.zip A := by
    intro α β L
    induction L with
    | nil => intros; simp
    | cons a L ih =>
      intro A B h
      cases A with
      | nil => simp at h
      | cons b A => simp [ih A B (by simpa using h)]
  have hr : ∀ A : Mat n n, A :: List.replicate Xs.length A = List.replicate Xs.length A ++ [A] := by
    intro A; rw [← List.replicate_succ, List.replicate_succ']
  unfold rtsSmoother
  simp only [Option.getD_some, List.length_cons, List.length_replicate, lt_irrefl, or_self,
    and_false, if_false, Nat.not_lt.2 (Nat.le_succ Xs.length)]
  by_cases hl : Xs.length = Ps.length
  · rw [hr, hr, List.zip_append (by simp), hz _ _ _ (by simp)]
  · simp [hl]

/-- **C13 refuted.** With a time-varying model the two smoothers return different means on the
same arguments. -/
theorem C13_time_varying_refuted : ∃ (s : KF 1 1 0) (Xs : List (Vec 1)) (Ps Fs Qs : List (Mat 1 1))
    (a b : List (RtsOut 1)), s.rtsSmoother Xs Ps (some Fs) (some Qs) = .ok a ∧
      KFun.rtsSmoother Xs Ps Fs Qs = .ok b ∧ a.map (·.x) ≠ b.map (·.x) := by
  have h1 : (KF.fresh 1 1 0).rtsSmoother [vc 0, vc 1] [sc 1, sc 1] (some [sc 1, sc 2])
      (some [sc 1, sc 1]) = .ok [⟨vc (2/5), sc (9/25), sc (2/5), sc 5⟩, ⟨vc 1, sc 1, sc 0, sc 1⟩] := by
    rw [rtsSmoother, if_neg (by simp), if_neg (by simp), if_neg (by simp)]
    simp only [Option.getD_some, List.zip_cons_cons, List.zip_nil_right, rtsLoop, rtsStep,
      Bind.bind, Except.bind, sc_mul, sc_transpose, sc_add, sc_npInv _ (show (2 * 1 * 2 + 1 : ℝ) ≠ 0 by norm_num),
      sc_mulVec, vc_sub, vc_add, sc_sub, sc_zero]
    norm_num
  have h2 : KFun.rtsSmoother [vc 0, vc 1] [sc 1, sc 1] [sc 1, sc 2] [sc 1, sc 1]
      = .ok [⟨vc (1/2), sc (3/4), sc (1/2), sc 2⟩, ⟨vc 1, sc 1, sc 0, sc 1⟩] := by
    rw [KFun.rtsSmoother, if_neg (by simp), if_neg (by simp)]
    simp only [List.cons_append, List.zip_cons_cons, List.zip_nil_left, KFun.rtsLoop, rtsStep,
      Bind.bind, Except.bind, sc_mul, sc_transpose, sc_add, sc_npInv _ (show (1 * 1 * 1 + 1 : ℝ) ≠ 0 by norm_num),
      sc_mulVec, vc_sub, vc_add, sc_sub, sc_zero]
    norm_num
  refine ⟨_, _, _, _, _, _, _, h1, h2, ?_⟩
  intro h
  have := (vc_inj (2/5) (1/2)).1 (List.cons.inj h).1
  norm_num at this

/-! ## Refutation of C11 with control inputs, and non-vacuity -/

/-- A one-dimensional random walk with control input. -/
noncomputable def smoothKF : KF 1 1 1 :=
  { KF.fresh 1 1 1 with
    x := vc 0, P := sc 1, F := sc 1, Q := sc 1, R := sc 1, H := sc 1, B := some (sc 1) }

/-- **C11 refuted.** `rts_smoother` ignores the control input: on this run (no measurement,
controls `0` then `1`) every hypothesis of `C11_smoother_optimal_partial` except "no control"
holds, and the returned means are not the most probable trajectory. -/
theorem C11_control_refuted : ∃ (zs : List (Option (Vec 1))) (a : BatchArgs 1 1 1),
    (∀ r ∈ smoothKF.batchRows zs a, (r.Q.resolve smoothKF.Q).PosDef ∧ (r.R.resolve smoothKF.R).PosDef) ∧
    (∀ r ∈ smoothKF.batchRows zs a, ∃ b, KF.control (r.B.or smoothKF.B) r.u = .ok b) ∧
    ∃ outs s' sm, smoothKF.batchFilter zs a = .ok (outs, s') ∧
      s'.rtsSmoother (outs.map (·.mean)) (outs.map (·.cov))
        (some ((smoothKF.batchRows zs a).map (·.F)))
        (some ((smoothKF.batchRows zs a).map fun r => r.Q.resolve smoothKF.Q)) = .ok sm ∧
      ¬ SmootherSpec (gaussDensity smoothKF.x smoothKF.P) ((smoothKF.batchRows zs a).map smoothKF.toStep)
        (sm.map fun o => (o.x, o.P)) := by
  have hrows : smoothKF.batchRows [none, none] { us := some [.vec (vc 0), .vec (vc 1)] }
      = [⟨none, sc 1, .mat (sc 1), sc 1, .mat (sc 1), some (sc 1), .vec (vc 0)⟩,
         ⟨none, sc 1, .mat (sc 1), sc 1, .mat (sc 1), some (sc 1), .vec (vc 1)⟩] := rfl
  have hpd : ∀ r ∈ smoothKF.batchRows [none, none] { us := some [.vec (vc 0), .vec (vc 1)] },
      (r.Q.resolve smoothKF.Q).PosDef ∧ (r.R.resolve smoothKF.R).PosDef := by
    rw [hrows]
    intro r hr
    simp only [List.mem_cons, List.not_mem_nil, or_false] at hr
    rcases hr with rfl | rfl <;> exact ⟨sc_posDef 1 one_pos, sc_posDef 1 one_pos⟩
  have hctl : ∀ r ∈ smoothKF.batchRows [none, none] { us := some [.vec (vc 0), .vec (vc 1)] },
      ∃ b, KF.control (r.B.or smoothKF.B) r.u = .ok b := by
    rw [hrows]
    intro r hr
    simp only [List.mem_cons, List.not_mem_nil, or_false] at hr
    rcases hr with rfl | rfl <;> exact ⟨_, rfl⟩
  obtain ⟨outs, s', sm, h1, h2, hf, -⟩ := batch_rts smoothKF _ _ rfl rfl (sc_posDef 1 one_pos) hpd hctl
  refine ⟨_, _, hpd, hctl, outs, s', sm, h1, h2, ?_⟩
  have hst : (smoothKF.batchRows [none, none] { us := some [.vec (vc 0), .vec (vc 1)] }).map
      smoothKF.toStep = [⟨sc 1, vc 0, sc 1, sc 1, sc 1, none⟩, ⟨sc 1, vc 1, sc 1, sc 1, sc 1, none⟩] := by
    rw [hrows]
    simp only [List.map_cons, List.map_nil, KF.toStep, MatArg.resolve, KF.control, sc_mulVec,
      Option.or, mul_zero, mul_one]
  rw [hst] at hf ⊢
  have hfl : outs.map (fun o => (o.mean, o.cov)) = [(vc 0, sc 2), (vc 1, sc 3)] := by
    rw [hf]
    simp only [filtList, filtStep, predX, predP, smoothKF, sc_mul, sc_add, sc_transpose, sc_mulVec,
      vc_add]
    norm_num
  have hm : outs.map (·.mean) = [vc 0, vc 1] := by
    have := congrArg (List.map Prod.fst) hfl
    simpa [List.map_map, Function.comp_def] using this
  have hc : outs.map (·.cov) = [sc 2, sc 3] := by
    have := congrArg (List.map Prod.snd) hfl
    simpa [List.map_map, Function.comp_def] using this
  rw [hm, hc, hrows] at h2
  have h2' : sm = [⟨vc (2/3), sc 2, sc (2/3), sc 3⟩, ⟨vc 1, sc 3, sc 0, sc 3⟩] := by
    rw [rtsSmoother, if_neg (by simp), if_neg (by simp), if_neg (by simp)] at h2
    simp only [List.map_cons, List.map_nil, MatArg.resolve,
      Option.getD_some, List.zip_cons_cons, List.zip_nil_right, rtsLoop, rtsStep,
      Bind.bind, Except.bind, sc_mul, sc_transpose, sc_add, sc_npInv _ (show (1 * 2 * 1 + 1 : ℝ) ≠ 0 by norm_num),
      sc_mulVec, vc_sub, vc_add, sc_sub, sc_zero, Except.ok.injEq] at h2
    rw [← h2]; norm_num
  have hspec := smooth_spec [⟨sc 1, vc 1, sc 1, sc 1, sc 1, none⟩] (vc 0) (sc 1)
    (⟨sc 1, vc 0, sc 1, sc 1, sc 1, none⟩ : Step 1 1) (sc_posDef 1 one_pos) (by
      intro e he
      simp only [List.mem_cons, List.not_mem_nil, or_false] at he
      rcases he with rfl | rfl <;> exact ⟨sc_posDef 1 one_pos, sc_posDef 1 one_pos⟩)
  simp only [smooth, filtStep, predX, predP, sGain, sc_mul, sc_add, sc_transpose, sc_mulVec, vc_add,
    vc_sub, sc_sub, List.map_cons, List.map_nil] at hspec
  rw [sc_inv _ (by norm_num)] at hspec
  simp only [sc_mul, sc_add, sc_transpose, sc_mulVec, vc_add,
    vc_sub, sc_sub] at hspec
  norm_num at hspec
  intro hbad
  subst h2'
  have e1 := hspec.map [vc (2/3), vc 1] rfl
  have e2 := hbad.map [vc 0, vc 1] rfl
  simp only [List.map_cons, List.map_nil] at e1 e2
  have := e1.2.1 (le_antisymm e1.1 e2.1)
  simp only [List.cons.injEq, vc_inj] at this
  norm_num at this

/-- C11 and C12 apply to a run with measurements, a missing measurement and no control. -/
example : ∃ outs s' sm,
    smoothKF.batchFilter [some (vc 1), none, some (vc 3)] = .ok (outs, s') ∧
      s'.rtsSmoother (outs.map (·.mean)) (outs.map (·.cov))
        (some [sc 1, sc 1, sc 1]) (some [sc 1, sc 1, sc 1]) = .ok sm ∧
      SmootherSpec (gaussDensity (vc 0) (sc 1))
        [⟨sc 1, vc 0, sc 1, sc 1, sc 1, some (vc 1)⟩, ⟨sc 1, vc 0, sc 1, sc 1, sc 1, none⟩,
          ⟨sc 1, vc 0, sc 1, sc 1, sc 1, some (vc 3)⟩] (sm.map fun o => (o.x, o.P)) := by
  have hrows : smoothKF.batchRows [some (vc 1), none, some (vc 3)] {}
      = [⟨some (vc 1), sc 1, .mat (sc 1), sc 1, .mat (sc 1), some (sc 1), .scalar 0⟩,
         ⟨none, sc 1, .mat (sc 1), sc 1, .mat (sc 1), some (sc 1), .scalar 0⟩,
         ⟨some (vc 3), sc 1, .mat (sc 1), sc 1, .mat (sc 1), some (sc 1), .scalar 0⟩] := rfl
  have h0 : (fun i : Fin 1 => 0 * sc 1 i 0) = vc 0 := by
    funext i; simp [vc]
  have hst : (smoothKF.batchRows [some (vc 1), none, some (vc 3)] {}).map smoothKF.toStep
      = [⟨sc 1, vc 0, sc 1, sc 1, sc 1, some (vc 1)⟩, ⟨sc 1, vc 0, sc 1, sc 1, sc 1, none⟩,
          ⟨sc 1, vc 0, sc 1, sc 1, sc 1, some (vc 3)⟩] := by
    rw [hrows]
    simp only [List.map_cons, List.map_nil, KF.toStep, MatArg.resolve, KF.control,
      Option.or, dite_true]
    rw [← h0]; rfl
  have := C11_smoother_optimal_partial smoothKF [some (vc 1), none, some (vc 3)] {} rfl rfl
    (sc_posDef 1 one_pos) (by rw [hrows]; simp) (by
      rw [hrows]
      intro r hr
      simp only [List.mem_cons, List.not_mem_nil, or_false] at hr
      rcases hr with rfl | rfl | rfl <;> exact ⟨sc_posDef 1 one_pos, sc_posDef 1 one_pos⟩) (by
      rw [hrows]
      intro r hr
      simp only [List.mem_cons, List.not_mem_nil, or_false] at hr
      rcases hr with rfl | rfl | rfl <;> exact ⟨_, rfl⟩) (by
      rw [hst]; simp [vc_zero])
  rw [hst] at this
  exact this

end Filterpy
