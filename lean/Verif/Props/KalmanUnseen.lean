import Verif.Props.KalmanMonotone

/-!
# What the measurements cannot see stays unknown: C110
-/

namespace Filterpy
open Matrix

variable {n m l : ℕ}

/-- Where a call takes a displacement `v` of the state: the model moves it, measurements leave it. -/
def Spec.carry (F : Mat n n) (v : Vec n) : KFOp n m l → Vec n
  | .predict _ _ F' _ => F'.getD F *ᵥ v
  | .predictSteadystate _ _ => F *ᵥ v
  | _ => v

/-- The displacement after a history of calls. -/
def Spec.carried (F : Mat n n) (v : Vec n) : List (KFOp n m l) → Vec n
  | [] => v
  | op :: ops => carried F (carry F v op) ops

/-- The measurement, if there is one, does not depend on the displacement `v`. -/
def Spec.Blind (H : Mat m n) (v : Vec n) : KFOp n m l → Prop
  | .update (some _) _ H' => H'.getD H *ᵥ v = 0
  | .updateCorrelated (some _) _ H' => H'.getD H *ᵥ v = 0
  | .updateSteadystate _ => H *ᵥ v = 0
  | .updateSequential start len _ _ H' =>
      ∀ h : start + len ≤ m, H'.getD (H.submatrix (KF.sliceIdx h) id) *ᵥ v = 0
  | _ => True

/-- No measurement of the history depends on the displacement, which moves as the model says. -/
def Spec.Unseen (F : Mat n n) (H : Mat m n) (v : Vec n) : List (KFOp n m l) → Prop
  | [] => True
  | op :: ops => Blind H v op ∧ Unseen F H (carry F v op) ops

/-- Two filters that agree in everything except that the second has its state (and the recorded prior and
posterior states) displaced; the state by exactly `v`. -/
def Shifted (v : Vec n) (s t : KF n m l) : Prop :=
  t = { s with x := s.x + v, xPrior := t.xPrior, xPost := t.xPost }

open Spec

theorem shifted_step (expf : ℝ → ℝ) {v : Vec n} {s t : KF n m l} (h : Shifted v s t) (op : KFOp n m l)
    (hb : Blind s.H v op) :
    (∀ s', s.step expf op = .ok s' → s'.F = s.F ∧ s'.H = s.H ∧
      ∃ t', t.step expf op = .ok t' ∧ Shifted (carry s.F v op) s' t') ∧
    ∀ e s', s.step expf op = .error (e, s') → ∃ t', t.step expf op = .error (e, t') := by
  unfold Shifted at h
  generalize t.xPrior = a at h
  generalize t.xPost = b at h
  subst h
  cases op with
  | predict u B F Q =>
    simp only [KF.step, KF.predict]
    cases KF.control (B.or s.B) u with
    | error e => exact ⟨fun s' h => (nomatch h), fun e s' h => ⟨_, by cases h; rfl⟩⟩
    | ok bu =>
      refine ⟨fun s' h => ?_, fun e s' h => (nomatch h)⟩
      cases h
      refine ⟨rfl, rfl, _, rfl, ?_⟩
      cases bu with
      | none => simp [Shifted, carry, mulVec_add]
      | some c => simp [Shifted, carry, mulVec_add, add_right_comm]
  | predictSteadystate u B =>
    simp only [KF.step, KF.predictSteadystate]
    cases KF.steadyControl (B.or s.B) u with
    | error e => exact ⟨fun s' h => (nomatch h), fun e s' h => ⟨_, by cases h; rfl⟩⟩
    | ok bu =>
      refine ⟨fun s' h => ?_, fun e s' h => (nomatch h)⟩
      cases h
      refine ⟨rfl, rfl, _, rfl, ?_⟩
      cases bu with
      | none => simp [Shifted, carry, mulVec_add]
      | some c => simp [Shifted, carry, mulVec_add, add_right_comm]
  | update z R H =>
    cases z with
    | none =>
      refine ⟨fun s' h => ?_, fun e s' h => (nomatch h)⟩
      cases h
      exact ⟨rfl, rfl, _, rfl, rfl⟩
    | some z =>
      simp only [Blind] at hb
      simp only [KF.step, KF.update, mulVec_add, hb, add_zero]
      cases s.inv (H.getD s.H * (s.P * (H.getD s.H)ᵀ) + R.resolve s.R) with
      | none => exact ⟨fun s' h => (nomatch h), fun e s' h => ⟨_, by cases h; rfl⟩⟩
      | some SI =>
        refine ⟨fun s' h => ?_, fun e s' h => (nomatch h)⟩
        cases h
        refine ⟨rfl, rfl, _, rfl, ?_⟩
        simp [Shifted, carry, add_right_comm]
  | updateCorrelated z R H =>
    cases z with
    | none =>
      refine ⟨fun s' h => ?_, fun e s' h => (nomatch h)⟩
      cases h
      exact ⟨rfl, rfl, _, rfl, rfl⟩
    | some z =>
      simp only [Blind] at hb
      simp only [KF.step, KF.updateCorrelated, mulVec_add, hb, add_zero]
      cases s.inv (H.getD s.H * (s.P * (H.getD s.H)ᵀ) + H.getD s.H * s.M + s.Mᵀ * (H.getD s.H)ᵀ + R.resolve s.R) with
      | none => exact ⟨fun s' h => (nomatch h), fun e s' h => ⟨_, by cases h; rfl⟩⟩
      | some SI =>
        refine ⟨fun s' h => ?_, fun e s' h => (nomatch h)⟩
        cases h
        refine ⟨rfl, rfl, _, rfl, ?_⟩
        simp [Shifted, carry, add_right_comm]
  | updateSteadystate z =>
    simp only [Blind] at hb
    refine ⟨fun s' h => ?_, fun e s' h => (nomatch h)⟩
    cases h
    cases z with
    | none => exact ⟨rfl, rfl, _, rfl, rfl⟩
    | some z =>
      refine ⟨rfl, rfl, _, rfl, ?_⟩
      simp [Shifted, carry, KF.updateSteadystate, mulVec_add, hb, add_right_comm]
  | updateSequential start len zi Ri Hi =>
    simp only [Blind] at hb
    simp only [KF.step, KF.updateSequential]
    by_cases hl : start + len ≤ m
    · simp only [dif_pos hl, mulVec_add, hb hl, add_zero]
      generalize (if hl : len = 1 then _ else _ : Except Err (Mat n len)) = Ki
      cases Ki with
      | error e => exact ⟨fun s' h => (nomatch h), fun e s' h => ⟨_, by cases h; rfl⟩⟩
      | ok Ki =>
        refine ⟨fun s' h => ?_, fun e s' h => (nomatch h)⟩
        cases h
        refine ⟨rfl, rfl, _, rfl, ?_⟩
        simp [Shifted, carry, add_right_comm]
    · simp only [dif_neg hl]
      exact ⟨fun s' h => (nomatch h), fun e s' h => ⟨_, by cases h; rfl⟩⟩
  | readLogLik =>
    obtain ⟨x, P, Q, B, F, H, R, al, M, z, K, y, S, SI, xp, Pp, xq, Pq, ll, lk, mh, iv⟩ := s
    refine ⟨fun s' h => ?_, fun e s' h => (nomatch h)⟩
    cases h
    cases ll <;> exact ⟨rfl, rfl, _, rfl, rfl⟩
  | readLik =>
    obtain ⟨x, P, Q, B, F, H, R, al, M, z, K, y, S, SI, xp, Pp, xq, Pq, ll, lk, mh, iv⟩ := s
    refine ⟨fun s' h => ?_, fun e s' h => (nomatch h)⟩
    cases h
    cases lk <;> cases ll <;> exact ⟨rfl, rfl, _, rfl, rfl⟩
  | readMahal =>
    obtain ⟨x, P, Q, B, F, H, R, al, M, z, K, y, S, SI, xp, Pp, xq, Pq, ll, lk, mh, iv⟩ := s
    simp only [KF.step, KF.readMahal]
    cases mh with
    | some d => exact ⟨fun s' h => by cases h; exact ⟨rfl, rfl, _, rfl, rfl⟩, fun e s' h => (nomatch h)⟩
    | none =>
      by_cases hd : y ⬝ᵥ (SI *ᵥ y) < 0
      · simp only [if_pos hd]
        exact ⟨fun s' h => (nomatch h), fun e s' h => ⟨_, by cases h; rfl⟩⟩
      · simp only [if_neg hd]
        exact ⟨fun s' h => by cases h; exact ⟨rfl, rfl, _, rfl, rfl⟩, fun e s' h => (nomatch h)⟩
  | setAlpha a =>
    simp only [KF.step, KF.setAlpha]
    split_ifs
    · exact ⟨fun s' h => (nomatch h), fun e s' h => ⟨_, by cases h; rfl⟩⟩
    · exact ⟨fun s' h => by cases h; exact ⟨rfl, rfl, _, rfl, rfl⟩, fun e s' h => (nomatch h)⟩

/-- **C110 (the estimate).** Two filters told different initial states, the difference `v` being something none of the
measurements depends on (and which moves as the model says): whatever the data and the calls, the gains, residuals,
covariances, likelihoods and exceptions are the same, and the difference of the estimates is never corrected: it is
still exactly the moved `v` after the last call. -/
theorem C110_never_corrected (expf : ℝ → ℝ) {v : Vec n} {s t : KF n m l} (h : Shifted v s t) (ops : List (KFOp n m l))
    (hb : Unseen s.F s.H v ops) :
    (∀ s', s.run expf ops = .ok s' → ∃ t', t.run expf ops = .ok t' ∧ Shifted (carried s.F v ops) s' t') ∧
    ∀ e s', s.run expf ops = .error (e, s') → ∃ t', t.run expf ops = .error (e, t') := by
  induction ops generalizing s t v with
  | nil =>
    refine ⟨fun s' hs => ?_, fun e s' hs => (nomatch hs)⟩
    cases hs
    exact ⟨t, rfl, h⟩
  | cons op ops ih =>
    obtain ⟨h1, h2⟩ := shifted_step expf h op hb.1
    simp only [KF.run]
    cases hs : s.step expf op with
    | error e =>
      refine ⟨fun s' hs => (nomatch hs), fun e' s' he => ?_⟩
      cases he
      obtain ⟨t', ht⟩ := h2 _ _ hs
      exact ⟨t', by rw [ht]⟩
    | ok s1 =>
      obtain ⟨hF, hH, t1, ht, hsh⟩ := h1 s1 hs
      have := ih hsh (by rw [hF, hH]; exact hb.2)
      simp only [ht, carried]
      rwa [hF] at this

/-- Calls with covariances that are covariances. -/
def SoundCall (Q : Mat n n) (R : Mat m m) : KFOp n m l → Prop
  | .predict _ _ _ Q₁ => (Q₁.resolve Q).PosSemidef
  | .update z R₁ _ => z ≠ none → (R₁.resolve R).PosSemidef
  | .updateSequential start len _ R₁ _ => ∀ h : start + len ≤ m,
      (R₁.resolve (R.submatrix (KF.sliceIdx h) (KF.sliceIdx h))).PosSemidef
  | .readLogLik => True
  | .readLik => True
  | .readMahal => True
  | _ => False

theorem floor_joseph {k : ℕ} {v : Vec n} {P : Mat n n} {H : Mat k n} {R : Mat k k} (K : Mat n k)
    (hf : ∀ c, (c ⬝ᵥ v) ^ 2 ≤ c ⬝ᵥ (P *ᵥ c)) (hH : H *ᵥ v = 0) (hR : R.PosSemidef) (c : Vec n) :
    (c ⬝ᵥ v) ^ 2 ≤ c ⬝ᵥ (((1 - K * H) * P * (1 - K * H)ᵀ + K * R * Kᵀ) *ᵥ c) := by
  have h1 := hf ((1 - K * H)ᵀ *ᵥ c)
  have h2 : ((1 - K * H)ᵀ *ᵥ c) ⬝ᵥ v = c ⬝ᵥ v := by
    rw [mulVec_transpose, ← dotProduct_mulVec, sub_mulVec, one_mulVec, ← mulVec_mulVec, hH, mulVec_zero, sub_zero]
  have h3 : 0 ≤ (Kᵀ *ᵥ c) ⬝ᵥ (R *ᵥ (Kᵀ *ᵥ c)) := hR.dotProduct_mulVec_nonneg _
  rw [h2] at h1
  rw [add_mulVec, dotProduct_add, ← mulVec_mulVec, ← mulVec_mulVec, ← mulVec_mulVec, ← mulVec_mulVec,
    dotProduct_mulVec c (1 - K * H), dotProduct_mulVec c K, ← mulVec_transpose, ← mulVec_transpose]
  linarith

/-- **C110 (the covariance).** A filter that starts with a standard deviation of at least one unit of `v` (every
combination `c` of the state has standard deviation at least `|c · v|`) never claims to know more than that: as long as
no measurement depends on `v`, after any number of measurements, however precise, the standard deviation of every
combination is at least that of one unit of the moved `v`. -/
theorem C110_never_certain (expf : ℝ → ℝ) {v : Vec n} {s s' : KF n m l} (ha : 1 ≤ s.alphaSq)
    (hf : ∀ c, (c ⬝ᵥ v) ^ 2 ≤ c ⬝ᵥ (s.P *ᵥ c)) (ops : List (KFOp n m l)) (hb : Unseen s.F s.H v ops)
    (hops : ∀ op ∈ ops, SoundCall s.Q s.R op) (h : s.run expf ops = .ok s') (c : Vec n) :
    (c ⬝ᵥ carried s.F v ops) ^ 2 ≤ c ⬝ᵥ (s'.P *ᵥ c) := by
  induction ops generalizing s v with
  | nil => cases h; exact hf c
  | cons op ops ih =>
    simp only [KF.run] at h
    have hop := hops op (by simp)
    have hb1 := hb.1
    cases hs : s.step expf op with
    | error e => rw [hs] at h; cases h
    | ok s1 =>
      rw [hs] at h
      have key : s1.F = s.F ∧ s1.H = s.H ∧ s1.Q = s.Q ∧ s1.R = s.R ∧ s1.alphaSq = s.alphaSq ∧
          ∀ c, (c ⬝ᵥ carry s.F v op) ^ 2 ≤ c ⬝ᵥ (s1.P *ᵥ c) := by
        cases op <;> simp only [SoundCall] at hop <;> simp only [KF.step] at hs
        · rename_i u B F Q
          obtain ⟨x, rfl⟩ := KF.predict_ok hs
          refine ⟨rfl, rfl, rfl, rfl, rfl, fun c => ?_⟩
          simp only [carry]
          have h1 := hf ((F.getD s.F)ᵀ *ᵥ c)
          have h2 : ((F.getD s.F)ᵀ *ᵥ c) ⬝ᵥ v = c ⬝ᵥ (F.getD s.F *ᵥ v) := by
            rw [mulVec_transpose, ← dotProduct_mulVec]
          have h3 : 0 ≤ c ⬝ᵥ (Q.resolve s.Q *ᵥ c) := hop.dotProduct_mulVec_nonneg _
          rw [h2] at h1
          have h5 : c ⬝ᵥ ((F.getD s.F * s.P * (F.getD s.F)ᵀ) *ᵥ c) =
              ((F.getD s.F)ᵀ *ᵥ c) ⬝ᵥ (s.P *ᵥ ((F.getD s.F)ᵀ *ᵥ c)) := by
            rw [← mulVec_mulVec, ← mulVec_mulVec, dotProduct_mulVec c (F.getD s.F), ← mulVec_transpose]
          rw [add_mulVec, dotProduct_add, smul_mulVec, dotProduct_smul, smul_eq_mul, h5]
          have h4 : 0 ≤ ((F.getD s.F)ᵀ *ᵥ c) ⬝ᵥ (s.P *ᵥ ((F.getD s.F)ᵀ *ᵥ c)) := (sq_nonneg _).trans h1
          nlinarith
        · rename_i z R H
          cases z with
          | none =>
            cases hs
            exact ⟨rfl, rfl, rfl, rfl, rfl, hf⟩
          | some z =>
            obtain ⟨SI, -, rfl⟩ := KF.update_ok hs
            exact ⟨rfl, rfl, rfl, rfl, rfl, floor_joseph _ hf hb1 (hop (by simp))⟩
        · rename_i start len zi Ri Hi
          simp only [KF.updateSequential] at hs
          by_cases hl : start + len ≤ m
          · rw [dif_pos hl] at hs
            split at hs
            · cases hs
            · cases hs
              exact ⟨rfl, rfl, rfl, rfl, rfl, floor_joseph _ hf (hb1 hl) (hop hl)⟩
          · rw [dif_neg hl] at hs; cases hs
        · cases hs
          unfold KF.readLogLik
          cases s.logLik <;> exact ⟨rfl, rfl, rfl, rfl, rfl, hf⟩
        · cases hs
          unfold KF.readLik KF.readLogLik
          cases s.lik <;> cases s.logLik <;> exact ⟨rfl, rfl, rfl, rfl, rfl, hf⟩
        · unfold KF.readMahal at hs
          cases hm : s.mahal with
          | some d => simp only [hm] at hs; cases hs; exact ⟨rfl, rfl, rfl, rfl, rfl, hf⟩
          | none =>
            simp only [hm] at hs
            by_cases hd : s.y ⬝ᵥ (s.SI *ᵥ s.y) < 0
            · simp only [if_pos hd] at hs; cases hs
            · simp only [if_neg hd] at hs; cases hs; exact ⟨rfl, rfl, rfl, rfl, rfl, hf⟩
      obtain ⟨eF, eH, eQ, eR, ea, hf1⟩ := key
      have := ih (by rw [ea]; exact ha) hf1 (by rw [eF, eH]; exact hb.2)
        (fun o ho => by rw [eQ, eR]; exact hops o (List.mem_cons_of_mem _ ho)) h
      rwa [eF] at this

/-- A filter for position and velocity that only measures the velocity. -/
noncomputable def odometerKF : KF 2 1 1 := { cvKF with H := !![0, 1] }

/-- The hypotheses of both theorems are met by a filter that only measures its velocity, for any number of cycles with
any data: the position is never known better than at the start (`v = (1, 0)` stays `(1, 0)`). -/
example (zs : List (Vec 1)) :
    let ops := zs.flatMap fun z => [KFOp.predict (l := 1) .none none none .none, .update (some z) .none none]
    1 ≤ odometerKF.alphaSq ∧ (∀ c, (c ⬝ᵥ ![1, 0]) ^ 2 ≤ c ⬝ᵥ (odometerKF.P *ᵥ c)) ∧
      Unseen odometerKF.F odometerKF.H ![1, 0] ops ∧ carried odometerKF.F ![1, 0] ops = ![1, 0] ∧
      (∀ op ∈ ops, SoundCall odometerKF.Q odometerKF.R op) := by
  intro ops
  have hF : odometerKF.F *ᵥ ![1, 0] = ![1, 0] := by
    ext i; fin_cases i <;> simp [odometerKF, cvKF, mulVec, dotProduct, Fin.sum_univ_two]
  have hH : odometerKF.H *ᵥ ![1, 0] = 0 := by
    ext i; fin_cases i; simp [odometerKF, mulVec, dotProduct, Fin.sum_univ_two]
  refine ⟨by simp [odometerKF, cvKF, KF.fresh], fun c => ?_, ?_, ?_, ?_⟩
  · have : c ⬝ᵥ (odometerKF.P *ᵥ c) = c 0 ^ 2 + c 1 ^ 2 := by
      simp [odometerKF, cvKF, KF.fresh, dotProduct, Fin.sum_univ_two]; ring
    rw [this]
    simp [dotProduct, Fin.sum_univ_two]
    positivity
  · induction zs with
    | nil => trivial
    | cons z zs ih =>
      simp only [ops, List.flatMap_cons, List.cons_append, List.nil_append, Unseen, Blind, carry, Option.getD_none, hF, hH]
      exact ⟨trivial, trivial, ih⟩
  · induction zs with
    | nil => rfl
    | cons z zs ih =>
      simp only [ops, List.flatMap_cons, List.cons_append, List.nil_append, carried, carry, Option.getD_none, hF]
      exact ih
  · intro op hop
    simp only [ops, List.mem_flatMap] at hop
    obtain ⟨z, -, hz⟩ := hop
    simp only [List.mem_cons, List.not_mem_nil, or_false] at hz
    rcases hz with rfl | rfl
    · simp [SoundCall, MatArg.resolve, odometerKF, cvKF, KF.fresh, PosSemidef.one]
    · simp [SoundCall, MatArg.resolve, odometerKF, cvKF, KF.fresh, PosSemidef.one]

end Filterpy
