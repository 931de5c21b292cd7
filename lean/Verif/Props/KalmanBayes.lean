import Verif.Lemmas.GaussInt
import Verif.Lemmas.Kalman
import Verif.Props.KalmanBasic

/-!
# KalmanFilter: C02 (Bayes posterior) and C17 (likelihood properties)
-/

namespace Filterpy

open Matrix KF Spec MeasureTheory

variable {n m l : ℕ}

/-- `update` on positive definite `P`, `R` with the default inverse: it succeeds, and its result
in closed form. -/
theorem update_pd (s : KF n m l) (z : Vec m) (R : MatArg m) (H : Option (Mat m n))
    (hinv : s.inv = npInv) (hP : s.P.PosDef) (hR : (R.resolve s.R).PosDef) :
    ∃ s', s.update (some z) R H = .ok s' ∧
      s'.S = (H.getD s.H) * (s.P * (H.getD s.H)ᵀ) + R.resolve s.R ∧
      s'.SI = s'.S⁻¹ ∧ s'.y = z - H.getD s.H *ᵥ s.x ∧
      s'.x = s.x + (s.P * (H.getD s.H)ᵀ * s'.S⁻¹) *ᵥ (z - H.getD s.H *ᵥ s.x) ∧
      s'.P = (1 - s.P * (H.getD s.H)ᵀ * s'.S⁻¹ * H.getD s.H) * s.P ∧
      s'.logLik = none ∧ s'.lik = none ∧ s'.mahal = none := by
  have hS : (H.getD s.H * (s.P * (H.getD s.H)ᵀ) + R.resolve s.R).PosDef := S_pd hP.posSemidef hR
  have hok : ∃ s', s.update (some z) R H = .ok s' := by
    simp only [KF.update, hinv, npInv_of_det_ne (PD.det_ne hS)]
    exact ⟨_, rfl⟩
  obtain ⟨s', hs'⟩ := hok
  refine ⟨s', hs', ?_⟩
  obtain ⟨SI, h1, rfl⟩ := update_ok hs'
  rw [hinv] at h1
  obtain ⟨_, rfl⟩ := npInv_eq_some.1 h1
  refine ⟨rfl, rfl, rfl, rfl, ?_, rfl, rfl, rfl⟩
  exact joseph_simple (PD.symm hP) rfl (nonsing_inv_mul _ (PD.isUnit_det hS))
    (inv_symm (PD.symm hS)) rfl

/-- **C02.** Bayes' rule, exactly.  For positive definite `P` and `R`, `update(z)` succeeds and,
as functions of the candidate state `X`,
`N(X; x, P) · N(z; H X, R) = N(X; kf.x, kf.P) · N(z; H x, kf.S)`. -/
theorem C02_bayes_product (s : KF n m l) (z : Vec m) (R : MatArg m) (H : Option (Mat m n))
    (hinv : s.inv = npInv) (hP : s.P.PosDef) (hR : (R.resolve s.R).PosDef) :
    ∃ s', s.update (some z) R H = .ok s' ∧ s'.P.PosDef ∧ s'.S.PosDef ∧ ∀ X : Vec n,
      gaussDensity s.x s.P X * gaussDensity (H.getD s.H *ᵥ X) (R.resolve s.R) z
        = gaussDensity s'.x s'.P X * gaussDensity (H.getD s.H *ᵥ s.x) s'.S z := by
  obtain ⟨s', hs', hS, -, -, hx, hP', -⟩ := update_pd s z R H hinv hP hR
  set H' := H.getD s.H
  set R' := R.resolve s.R
  have hSpd : s'.S.PosDef := by rw [hS]; exact S_pd hP.posSemidef hR
  have hP'pd : s'.P.PosDef := by rw [hP', hS]; exact post_pd hP hR
  refine ⟨s', hs', hP'pd, hSpd, fun X => ?_⟩
  unfold gaussDensity
  have hsq : ∀ {k j : ℕ} {A : Mat k k} {B : Mat j j}, A.PosDef → B.PosDef →
      (Real.sqrt ((2 * Real.pi) ^ k * A.det))⁻¹ * (Real.sqrt ((2 * Real.pi) ^ j * B.det))⁻¹
      = (Real.sqrt ((2 * Real.pi) ^ (k + j) * (A.det * B.det)))⁻¹ := by
    intro k j A B hA hB
    have := hA.det_pos
    have := hB.det_pos
    rw [← mul_inv, ← Real.sqrt_mul (by positivity)]
    congr 2; ring
  have hdet : s'.P.det * s'.S.det = s.P.det * R'.det := by
    rw [hP', hS]; exact det_balance hP hR
  have hexp := complete_square (H := H') hP hR (X - s.x) (z - H' *ᵥ s.x)
  rw [← hS, ← hP'] at hexp
  have e1 : z - H' *ᵥ s.x - H' *ᵥ (X - s.x) = z - H' *ᵥ X := by
    rw [mulVec_sub]; abel
  have e2 : X - s.x - (s.P * H'ᵀ * s'.S⁻¹) *ᵥ (z - H' *ᵥ s.x) = X - s'.x := by
    rw [hx]; abel
  rw [e1, e2] at hexp
  have comm : ∀ a b c d : ℝ, a * b * (c * d) = (a * c) * (b * d) := fun _ _ _ _ => by ring
  conv_lhs => rw [comm]
  conv_rhs => rw [comm]
  rw [hsq hP hR, hsq hP'pd hSpd, hdet, ← Real.exp_add, ← Real.exp_add]
  congr 2
  linarith

/-- **C02.** Hence `N(kf.x, kf.P)` is the posterior density: prior times likelihood, divided by
its integral over all states (which is positive). -/
theorem C02_posterior (s : KF n m l) (z : Vec m) (R : MatArg m) (H : Option (Mat m n))
    (hinv : s.inv = npInv) (hP : s.P.PosDef) (hR : (R.resolve s.R).PosDef) :
    ∃ s', s.update (some z) R H = .ok s' ∧
      let joint := fun X => gaussDensity s.x s.P X *
        gaussDensity (H.getD s.H *ᵥ X) (R.resolve s.R) z
      0 < ∫ X, joint X ∧ ∀ X : Vec n, gaussDensity s'.x s'.P X = joint X / ∫ X, joint X := by
  obtain ⟨s', hs', hP', hS, h⟩ := C02_bayes_product s z R H hinv hP hR
  refine ⟨s', hs', ?_⟩
  simp only [h]
  rw [integral_mul_const, gaussDensity_integral _ hP', one_mul]
  have hpos := gaussDensity_pos (H.getD s.H *ᵥ s.x) z hS
  exact ⟨hpos, fun X => by rw [mul_div_assoc, div_self hpos.ne', mul_one]⟩

example (z : Vec 1) : ∃ s', cvKF.update (some z) = .ok s' ∧ s'.P.PosDef := by
  obtain ⟨s', h, h', _⟩ := C02_bayes_product cvKF z .none none rfl PosDef.one PosDef.one
  exact ⟨s', h, h'⟩

/-! ## C17 -/

/-- **C17.** After `update(z)` with positive definite `P`, `R`: `log_likelihood` is the log of
the density of `z` under the filter's predictive distribution `N(H x, S)`; `likelihood` is the
exponential of it (or the smallest positive float if `exp` underflows); `mahalanobis` is the
square root of `yᵀ S⁻¹ y`. -/
theorem C17_values_after_update (expf : ℝ → ℝ) (s : KF n m l) (z : Vec m) (R : MatArg m)
    (H : Option (Mat m n)) (hinv : s.inv = npInv) (hP : s.P.PosDef)
    (hR : (R.resolve s.R).PosDef) :
    ∃ s', s.update (some z) R H = .ok s' ∧
      s'.readLogLik.1 = Real.log (gaussDensity (H.getD s.H *ᵥ s.x)
        ((H.getD s.H) * s.P * (H.getD s.H)ᵀ + R.resolve s.R) z) ∧
      (s'.readLik expf).1 = (if expf s'.readLogLik.1 = 0 then floatMin else expf s'.readLogLik.1) ∧
      ∃ s'', s'.readMahal = .ok (Real.sqrt ((z - H.getD s.H *ᵥ s.x) ⬝ᵥ
        (((H.getD s.H) * s.P * (H.getD s.H)ᵀ + R.resolve s.R)⁻¹ *ᵥ (z - H.getD s.H *ᵥ s.x))),
        s'') := by
  obtain ⟨s', hs', hS, hSI, hy, hx, hP', h1, h2, h3⟩ := update_pd s z R H hinv hP hR
  refine ⟨s', hs', ?_⟩
  have hSpd : s'.S.PosDef := by rw [hS]; exact S_pd hP.posSemidef hR
  rw [← Matrix.mul_assoc] at hS
  rw [← hS]
  refine ⟨?_, ?_, ?_⟩
  · simp only [readLogLik, h1, logpdf, hy, gaussDensity]
    have hd := hSpd.det_pos
    rw [Real.log_mul (by positivity) (Real.exp_ne_zero _), Real.log_exp, Real.log_inv,
      Real.log_sqrt (by positivity), Real.log_mul (by positivity) hd.ne', Real.log_pow]
    ring
  · simp only [readLik, h2, readLogLik, h1]
  · have hq := PSD.quad hSpd.inv.posSemidef s'.y
    rw [← hSI] at hq
    simp only [readMahal, h3, not_lt.2 hq, if_false]
    rw [hSI, hy]
    exact ⟨_, rfl⟩

/-- The property reads. -/
def KFOp.isRead : KFOp n m l → Bool
  | .readLogLik => true
  | .readLik => true
  | .readMahal => true
  | _ => false

theorem readLogLik_val (s : KF n m l) : s.readLogLik.1 = s.logLik.getD (logpdf s.y s.S) := by
  unfold readLogLik; cases s.logLik <;> rfl

theorem readLik_val (expf : ℝ → ℝ) (s : KF n m l) : (s.readLik expf).1
    = s.lik.getD (if expf s.readLogLik.1 = 0 then floatMin else expf s.readLogLik.1) := by
  unfold readLik; cases s.lik <;> rfl

theorem readLogLik_snd (s : KF n m l) :
    s.readLogLik.2 = { s with logLik := some s.readLogLik.1 } := by
  rcases s with ⟨_, _, _, _, _, _, _, _, _, _, _, y, _, SI, _, _, _, _, ll, lk, mh, _⟩
  cases ll <;> rfl

theorem readLik_snd (expf : ℝ → ℝ) (s : KF n m l) :
    ∃ c, (s.readLik expf).2 = { s with logLik := c, lik := some (s.readLik expf).1 } ∧
        c.getD (logpdf s.y s.S) = s.readLogLik.1 := by
  rcases s with ⟨_, _, _, _, _, _, _, _, _, _, _, y, _, SI, _, _, _, _, ll, lk, mh, _⟩
  cases lk with
  | none => cases ll <;> exact ⟨_, rfl, rfl⟩
  | some v => cases ll <;> exact ⟨_, rfl, rfl⟩

theorem readMahal_val (s : KF n m l) : s.readMahal.map Prod.fst
    = match s.mahal with
      | some v => .ok v
      | none => if s.y ⬝ᵥ (s.SI *ᵥ s.y) < 0 then .error .valueError
          else .ok (Real.sqrt (s.y ⬝ᵥ (s.SI *ᵥ s.y))) := by
  unfold readMahal
  cases s.mahal with
  | some v => rfl
  | none => simp only; split_ifs <;> rfl

theorem read_read (expf : ℝ → ℝ) (s s' : KF n m l) (op : KFOp n m l) (ho : op.isRead)
    (h : s.step expf op = .ok s') :
    s'.readLogLik.1 = s.readLogLik.1 ∧ (s'.readLik expf).1 = (s.readLik expf).1 ∧
    s'.readMahal.map Prod.fst = s.readMahal.map Prod.fst ∧
    s' = { s with logLik := s'.logLik, lik := s'.lik, mahal := s'.mahal } := by
  cases op with
  | readLogLik =>
    simp only [step, Except.ok.injEq] at h
    have e : s' = { s with logLik := some s.readLogLik.1 } := by
      rw [← h]; exact readLogLik_snd s
    have e1 : s'.readLogLik.1 = s.readLogLik.1 := by rw [readLogLik_val s', e]; rfl
    refine ⟨e1, ?_, ?_, ?_⟩
    · rw [readLik_val, readLik_val, e1, e]
    · rw [readMahal_val, readMahal_val, e]
    · rw [e]
  | readLik =>
    simp only [step, Except.ok.injEq] at h
    have e : ∃ c, s' = { s with logLik := c, lik := some (s.readLik expf).1 } ∧
        c.getD (logpdf s.y s.S) = s.readLogLik.1 := by
      rw [← h]; exact readLik_snd expf s
    obtain ⟨c, e, hc⟩ := e
    have e1 : s'.readLogLik.1 = s.readLogLik.1 := by rw [readLogLik_val s', e]; exact hc
    refine ⟨e1, ?_, ?_, ?_⟩
    · rw [readLik_val expf s', e]; rfl
    · rw [readMahal_val, readMahal_val, e]
    · rw [e]
  | readMahal =>
    simp only [step] at h
    cases hm : s.readMahal with
    | error e => rw [hm] at h; cases h
    | ok r =>
      rw [hm, Except.ok.injEq] at h
      have e : s' = { s with mahal := some r.1 } := by
        rw [← h]
        unfold readMahal at hm
        cases hl : s.mahal with
        | some v => simp only [hl, Except.ok.injEq] at hm; rw [← hm]; simp only [← hl]
        | none =>
          simp only [hl] at hm
          split_ifs at hm with hd
          simp only [Except.ok.injEq] at hm; rw [← hm]
      have e1 : s'.readLogLik.1 = s.readLogLik.1 := by rw [readLogLik_val, readLogLik_val, e]
      refine ⟨e1, ?_, ?_, ?_⟩
      · rw [readLik_val, readLik_val, e1, e]
      · rw [readMahal_val, e]; rfl
      · rw [e]
  | _ => simp [KFOp.isRead] at ho

/-- **C17.** Reading the three properties, in any order and any number of times, never changes
the values later reads return, nor any attribute of the filter other than the caches. -/
theorem C17_reads_idempotent (expf : ℝ → ℝ) (s s' : KF n m l) (ops : List (KFOp n m l))
    (hops : ∀ op ∈ ops, op.isRead) (h : s.run expf ops = .ok s') :
    s'.readLogLik.1 = s.readLogLik.1 ∧ (s'.readLik expf).1 = (s.readLik expf).1 ∧
    s'.readMahal.map Prod.fst = s.readMahal.map Prod.fst ∧
    s' = { s with logLik := s'.logLik, lik := s'.lik, mahal := s'.mahal } := by
  induction ops generalizing s with
  | nil =>
    simp only [run, Except.ok.injEq] at h
    subst h; exact ⟨rfl, rfl, rfl, rfl⟩
  | cons op ops ih =>
    simp only [run] at h
    cases hs : s.step expf op with
    | error e => rw [hs] at h; cases h
    | ok t =>
      rw [hs] at h
      obtain ⟨a1, a2, a3, a4⟩ := read_read expf s t op (hops op (by simp)) hs
      obtain ⟨b1, b2, b3, b4⟩ := ih t (fun o ho => hops o (by simp [ho])) h
      refine ⟨b1.trans a1, b2.trans a2, b3.trans a3, ?_⟩
      rw [b4, a4]

/-- The caches agree with the current `y`, `S`, `SI`. -/
def Fresh (expf : ℝ → ℝ) (s : KF n m l) : Prop :=
  s.readLogLik.1 = logpdf s.y s.S ∧
  (s.readLik expf).1 = (if expf (logpdf s.y s.S) = 0 then floatMin else expf (logpdf s.y s.S)) ∧
  ∀ v, s.readMahal.map Prod.fst = .ok v → v = Real.sqrt (s.y ⬝ᵥ (s.SI *ᵥ s.y))

theorem fresh_of_cleared (expf : ℝ → ℝ) (s : KF n m l) (h1 : s.logLik = none) (h2 : s.lik = none)
    (h3 : s.mahal = none) : Fresh expf s := by
  refine ⟨by simp [readLogLik, h1], by simp [readLik, h2, readLogLik, h1], fun v hv => ?_⟩
  simp only [readMahal, h3] at hv
  split_ifs at hv
  · cases hv
  · simp only [Except.map, Except.ok.injEq] at hv; exact hv.symm

/-- Full statement of the "last measurement" part of C17: in every history, whatever calls
follow a measurement call, the property values read are those of the filter's current `y, S`.
`_partial`: this is proved for histories whose calls after the measurement are any except
`update_sequential`; it is false for `update_sequential`
(`C17_stale_after_sequential_refuted`). -/
theorem C17_reads_describe_last_measurement_partial (expf : ℝ → ℝ) (s s' : KF n m l)
    (before after : List (KFOp n m l)) (p : KFOp n m l)
    (hp : p.isUpdate) (hps : ∀ st len zi Ri Hi, p ≠ .updateSequential st len zi Ri Hi)
    (hafter : ∀ op ∈ after, ∀ st len zi Ri Hi, op ≠ .updateSequential st len zi Ri Hi)
    (h : s.run expf (before ++ p :: after) = .ok s') :
    s'.readLogLik.1 = logpdf s'.y s'.S ∧
    (s'.readLik expf).1
      = (if expf (logpdf s'.y s'.S) = 0 then floatMin else expf (logpdf s'.y s'.S)) ∧
    ∀ v, s'.readMahal.map Prod.fst = .ok v → v = Real.sqrt (s'.y ⬝ᵥ (s'.SI *ᵥ s'.y)) := by
  have key1 : ∀ (t t' : KF n m l) (op : KFOp n m l), op.isUpdate →
      (∀ st len zi Ri Hi, op ≠ .updateSequential st len zi Ri Hi) →
      t.step expf op = .ok t' → Fresh expf t' := by
    intro t t' op hu hns ht
    refine fresh_of_cleared expf t' ?_ ?_ ?_
    all_goals
      cases op with
      | update z R H =>
        cases z with
        | none => simp only [step, KF.update, Except.ok.injEq] at ht; rw [← ht]; rfl
        | some z => obtain ⟨_, _, rfl⟩ := update_ok ht; rfl
      | updateSequential st len zi Ri Hi => exact absurd rfl (hns st len zi Ri Hi)
      | updateSteadystate z =>
        simp only [step, Except.ok.injEq] at ht; rw [← ht]; cases z <;> rfl
      | updateCorrelated z R H =>
        cases z with
        | none => simp only [step, KF.updateCorrelated, Except.ok.injEq] at ht; rw [← ht]; rfl
        | some z => obtain ⟨_, _, rfl⟩ := updateCorrelated_ok ht; rfl
      | _ => simp [KFOp.isUpdate] at hu
  have same : ∀ {t t' : KF n m l}, Fresh expf t → t'.logLik = t.logLik → t'.lik = t.lik →
      t'.mahal = t.mahal → t'.y = t.y → t'.S = t.S → t'.SI = t.SI → Fresh expf t' := by
    intro t t' hf h1 h2 h3 h4 h5 h6
    unfold Fresh at hf ⊢
    simp only [readMahal_val, readLik_val, readLogLik_val] at hf ⊢
    rw [h1, h2, h3, h4, h5, h6]; exact hf
  have key2 : ∀ (t t' : KF n m l) (op : KFOp n m l), Fresh expf t →
      (∀ st len zi Ri Hi, op ≠ .updateSequential st len zi Ri Hi) →
      t.step expf op = .ok t' → Fresh expf t' := by
    intro t t' op hf hns ht
    cases hu : op.isUpdate with
    | true => exact key1 t t' op hu hns ht
    | false =>
      cases hr : op.isRead with
      | true =>
        obtain ⟨a1, a2, a3, a4⟩ := read_read expf t t' op hr ht
        have ey : t'.y = t.y := by rw [a4]
        have eS : t'.S = t.S := by rw [a4]
        have eI : t'.SI = t.SI := by rw [a4]
        refine ⟨by rw [a1, ey, eS]; exact hf.1, by rw [a2, ey, eS]; exact hf.2.1, fun v hv => ?_⟩
        rw [ey, eI]; exact hf.2.2 v (a3 ▸ hv)
      | false =>
        cases op with
        | predict u B F Q => obtain ⟨x, rfl⟩ := predict_ok ht; exact same hf rfl rfl rfl rfl rfl rfl
        | predictSteadystate u B =>
          obtain ⟨x, rfl⟩ := predictSteadystate_ok ht; exact same hf rfl rfl rfl rfl rfl rfl
        | setAlpha v => obtain ⟨_, rfl⟩ := setAlpha_ok ht; exact same hf rfl rfl rfl rfl rfl rfl
        | _ => simp [KFOp.isUpdate, KFOp.isRead] at hu hr
  have key3 : ∀ (ops : List (KFOp n m l)) (t : KF n m l), Fresh expf t →
      (∀ op ∈ ops, ∀ st len zi Ri Hi, op ≠ .updateSequential st len zi Ri Hi) →
      t.run expf ops = .ok s' → Fresh expf s' := by
    intro ops
    induction ops with
    | nil => intro t hf _ ht; simp only [run, Except.ok.injEq] at ht; exact ht ▸ hf
    | cons op ops ih =>
      intro t hf hns ht
      simp only [run] at ht
      cases hs : t.step expf op with
      | error e => rw [hs] at ht; cases ht
      | ok t' =>
        rw [hs] at ht
        exact ih t' (key2 t t' op hf (hns op (by simp)) hs) (fun o ho => hns o (by simp [ho])) ht
  rw [show before ++ p :: after = (before ++ [p]) ++ after by simp] at h
  obtain ⟨s1, h1, h2⟩ := run_append_ok expf h
  obtain ⟨s0, h0, h01⟩ := run_append_ok expf h1
  simp only [run] at h01
  cases hstep : s0.step expf p with
  | error e => simp [hstep] at h01
  | ok t =>
    simp only [hstep, Except.ok.injEq] at h01
    subst h01
    exact key3 after t (key1 s0 t p hp hps hstep) hafter h2

/-- **C17.** `likelihood` is strictly positive in every reachable state: after any history on a
freshly constructed filter, even one ending in an exception, and for any floating-point
exponential that never returns a negative number (it may underflow to zero). -/
theorem C17_likelihood_pos (expf : ℝ → ℝ) (hexp : ∀ t, 0 ≤ expf t) (ops : List (KFOp n m l)) :
    0 < (((KF.fresh n m l).run expf ops).left.readLik expf).1 := by
  have hfm : 0 < floatMin := by unfold floatMin; positivity
  have pos : ∀ t : KF n m l, (∀ v, t.lik = some v → 0 < v) → 0 < (t.readLik expf).1 := by
    intro t ht
    unfold readLik
    cases hl : t.lik with
    | some v => exact ht v hl
    | none =>
      simp only
      split_ifs with h0
      · exact hfm
      · exact lt_of_le_of_ne (hexp _) (Ne.symm h0)
  have step1 : ∀ (t : KF n m l) (op : KFOp n m l), (∀ v, t.lik = some v → 0 < v) →
      ∀ v, (t.step expf op).left.lik = some v → 0 < v := by
    intro t op ht v hv
    cases op with
    | predict u B F Q =>
      simp only [step] at hv
      cases h : t.predict u B F Q with
      | error e => rw [h, Exec.left, predict_err h] at hv; exact ht v hv
      | ok t' => rw [h] at hv; obtain ⟨x, rfl⟩ := predict_ok h; exact ht v hv
    | update z R H =>
      simp only [step] at hv
      cases h : t.update z R H with
      | error e => rw [h] at hv; obtain ⟨y, S, rfl⟩ := update_err h; simp [Exec.left] at hv
      | ok t' =>
        rw [h] at hv
        cases z with
        | none => simp only [KF.update, Except.ok.injEq] at h; subst h; simp [Exec.left, updateNone] at hv
        | some z => obtain ⟨_, _, rfl⟩ := update_ok h; simp [Exec.left] at hv
    | updateSequential st len zi Ri Hi =>
      simp only [step] at hv
      cases h : t.updateSequential st zi Ri Hi with
      | error e => obtain ⟨y, he⟩ := updateSequential_err h; rw [h, Exec.left, he] at hv; exact ht v hv
      | ok t' => rw [h] at hv; obtain ⟨_, _, _, _, rfl⟩ := updateSequential_ok h; exact ht v hv
    | predictSteadystate u B =>
      simp only [step] at hv
      cases h : t.predictSteadystate u B with
      | error e => rw [h, Exec.left, predictSteadystate_err h] at hv; exact ht v hv
      | ok t' => rw [h] at hv; obtain ⟨x, rfl⟩ := predictSteadystate_ok h; exact ht v hv
    | updateSteadystate z =>
      cases z <;> simp [step, Exec.left, KF.updateSteadystate, updateNone] at hv
    | updateCorrelated z R H =>
      simp only [step] at hv
      cases h : t.updateCorrelated z R H with
      | error e =>
        rw [h] at hv; obtain ⟨y, S, rfl⟩ := updateCorrelated_err h; simp [Exec.left] at hv
      | ok t' =>
        rw [h] at hv
        cases z with
        | none =>
          simp only [KF.updateCorrelated, Except.ok.injEq] at h
          subst h; simp [Exec.left, updateNone] at hv
        | some z => obtain ⟨_, _, rfl⟩ := updateCorrelated_ok h; simp [Exec.left] at hv
    | readLogLik =>
      obtain ⟨w, hw⟩ := readLogLik_state t
      simp only [step, Exec.left, hw] at hv; exact ht v hv
    | readLik =>
      have hp := pos t ht
      simp only [step, Exec.left] at hv
      unfold readLik at hv hp
      cases hl : t.lik with
      | some w => simp only [hl] at hv hp; exact ht v (hl ▸ hv)
      | none =>
        simp only [hl, Option.some.injEq] at hv hp
        rw [← hv]; exact hp
    | readMahal =>
      simp only [step] at hv
      cases h : t.readMahal with
      | error e => rw [h] at hv; exact ht v hv
      | ok r =>
        obtain ⟨w, hw⟩ := readMahal_state h
        simp only [h, Exec.left, hw] at hv; exact ht v hv
    | setAlpha a =>
      simp only [step] at hv
      cases h : t.setAlpha a with
      | error e => rw [h] at hv; obtain ⟨_, rfl⟩ := setAlpha_err h; exact ht v hv
      | ok t' => rw [h] at hv; obtain ⟨_, rfl⟩ := setAlpha_ok h; exact ht v hv
  have hist : ∀ (ops : List (KFOp n m l)) (t : KF n m l), (∀ v, t.lik = some v → 0 < v) →
      ∀ v, (t.run expf ops).left.lik = some v → 0 < v := by
    intro ops
    induction ops with
    | nil => intro t ht; exact ht
    | cons op ops ih =>
      intro t ht
      have h1 := step1 t op ht
      simp only [run]
      cases h : t.step expf op with
      | error e => rw [h] at h1; exact h1
      | ok t' => rw [h] at h1; exact ih t' h1
  refine pos _ (hist ops _ fun v hv => ?_)
  simp only [KF.fresh, Option.some.injEq] at hv
  rw [← hv]; exact hfm

/-- **C17 refuted for `update_sequential`.** After `update`, reading `log_likelihood` and then
`update_sequential`, `log_likelihood` still reports the value of the earlier measurement, not
the one for the innovation now stored in `y`. -/
theorem C17_stale_after_sequential_refuted :
    ∃ (s s' : KF 1 1 1) (z z' : Vec 1) (expf : ℝ → ℝ),
      s.run expf [.update (some z) .none none, .readLogLik, .updateSequential 0 1 z' .none none]
        = .ok s' ∧ s'.readLogLik.1 ≠ logpdf s'.y s'.S := by
  set s : KF 1 1 1 := { KF.fresh 1 1 1 with H := 1 } with hs
  obtain ⟨s1, h1, hS, hSI, hy, hx, hP', c1, c2, c3⟩ :=
    update_pd s 0 .none none rfl PosDef.one PosDef.one
  have hy0 : s1.y = 0 := by rw [hy]; simp [hs, KF.fresh]
  have hS2 : s1.S = !![2] := by
    rw [hS]; ext i j; fin_cases i; fin_cases j
    simp [hs, KF.fresh, MatArg.resolve]; norm_num
  have hx1 : s1.x = 0 := by rw [hx]; simp [hs, KF.fresh]
  have hP1 : s1.P.PosDef := by
    rw [hP', hS]; exact post_pd PosDef.one PosDef.one
  have hattr : s1.H = 1 ∧ s1.R = 1 := by
    obtain ⟨_, _, rfl⟩ := update_ok h1; exact ⟨rfl, rfl⟩
  set s2 := s1.readLogLik.2 with hs2
  have hs2' : s2 = { s1 with logLik := some (logpdf s1.y s1.S) } := by
    rw [hs2]; simp [readLogLik, c1]
  have hseq : ∃ s', s2.updateSequential 0 (1 : Vec 1) .none none = .ok s' := by
    refine updateSequential_total s2 (by norm_num) 1 .none none ?_
    have h0 : 0 < s1.P 0 0 := hP1.diag_pos
    have e : (sliceIdx (start := 0) (len := 1) (m := 1) (by norm_num) : Fin 1 → Fin 1) = id := by
      funext i; exact Subsingleton.elim _ _
    rw [hs2', e]
    simp [hattr, MatArg.resolve]
    intro h; linarith
  obtain ⟨s3, h3⟩ := hseq
  refine ⟨s, s3, 0, 1, Real.exp, ?_, ?_⟩
  · simp only [run, step, h1, ← hs2, h3]
  · obtain ⟨hb, Ki, _, _, rfl⟩ := updateSequential_ok h3
    have e : (sliceIdx hb : Fin 1 → Fin 1) = id := by funext i; exact Subsingleton.elim _ _
    simp only [readLogLik, hs2', hy0, hx1, hattr, e]
    have hset : sliceSet hb (0 : Vec 1) ((1 : Vec 1) - (Option.getD none
        ((1 : Mat 1 1).submatrix id id)) *ᵥ (0 : Vec 1)) = 1 := by
      funext i; simp [sliceSet]
    rw [hset]
    unfold logpdf
    rw [hS2]
    have hinv2 : (!![(2 : ℝ)] : Mat 1 1)⁻¹ = !![1/2] := by
      apply inv_eq_right_inv
      ext i j; fin_cases i; fin_cases j; norm_num [Matrix.mul_apply]
    rw [hinv2]
    norm_num [Matrix.mulVec, dotProduct]

end Filterpy
