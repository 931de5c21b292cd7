import Verif.Props.UKFSmallNoise
import Verif.Props.EKF

/-!
# C112 for the extended filter

The user of a nonlinear `ExtendedKalmanFilter` overrides `predict_x`, assigns the Jacobian of the dynamics to
`F` before each prediction, and passes the Jacobian of `Hx` to `update`.
-/

namespace Filterpy

open Matrix Spec Filter Topology Asymptotics

variable {n m l l' : ℕ} {L : Filter ℝ}

/-- One cycle of a nonlinear extended filter: assign the Jacobian to `F`, predict with `predict_x` overridden
by `f`, update with `h` and its Jacobian. -/
noncomputable def ekfCycle (f : Vec n → Vec n) (F : Vec n → Mat n n) (h : Vec n → Vec m) (H : Vec n → Mat m n)
    (s : EKF n m l) (z : Option (Vec m)) : Exec (EKF n m l) :=
  match EKF.predictBy { s with F := F s.x } f with
  | .error e => .error e
  | .ok s1 => s1.update z H h

/-- The extended filter started near its own `x`, with all uncertainties scaled down by `ε`. -/
def shrunkEKF (s : EKF n m l) (k : KF n m l') (ε : ℝ) : EKF n m l :=
  { s with x := s.x + ε • k.x, P := ε ^ 2 • k.P, Q := ε ^ 2 • k.Q, R := ε ^ 2 • k.R }

/-- The extended filters `s ε` follow, at scale `ε`, the Kalman filter `k` around the point `xb`. -/
structure FollowsEKF (L : Filter ℝ) (s : ℝ → EKF n m l) (xb : Vec n) (k : KF n m l') : Prop where
  Q : ∀ᶠ e in L, (s e).Q = e ^ 2 • k.Q
  R : ∀ᶠ e in L, (s e).R = e ^ 2 • k.R
  x : Tendsto (fun e => e⁻¹ • ((s e).x - xb)) L (𝓝 k.x)
  P : Tendsto (fun e => (e⁻¹) ^ 2 • (s e).P) L (𝓝 k.P)
  K : Tendsto (fun e => (s e).K) L (𝓝 k.K)
  S : Tendsto (fun e => (e⁻¹) ^ 2 • (s e).S) L (𝓝 k.S)

theorem near_point (h0 : Tendsto (fun e : ℝ => e) L (𝓝 0)) (hpos : ∀ᶠ e in L, 0 < e) {x : ℝ → Vec n} {xb ξ : Vec n}
    (hx : Tendsto (fun e => e⁻¹ • (x e - xb)) L (𝓝 ξ)) : Tendsto x L (𝓝 xb) := by
  have := (h0.smul hx).const_add xb
  rw [zero_smul, add_zero] at this
  refine this.congr' ?_
  filter_upwards [hpos] with e h
  rw [smul_smul, mul_inv_cancel₀ h.ne', one_smul]
  abel

theorem near_image (h0 : Tendsto (fun e : ℝ => e) L (𝓝 0)) (hpos : ∀ᶠ e in L, 0 < e) {x : ℝ → Vec n} {xb ξ : Vec n}
    (hx : Tendsto (fun e => e⁻¹ • (x e - xb)) L (𝓝 ξ)) {f : Vec n → Vec m} {A : Mat m n} (hf : HasJacobian f A xb) :
    Tendsto (fun e => e⁻¹ • (f (x e) - f xb)) L (𝓝 (A *ᵥ ξ)) := by
  refine tendsto_pi_nhds.2 fun b => ?_
  have h1 := jac_limit hf h0 hpos (d := fun e => e⁻¹ • (x e - xb))
    (fun a => (((continuous_apply a).tendsto ξ).comp hx).isBigO_one ℝ) b
  have h2 := ((continuous_apply b).tendsto _).comp (tendsto_mulVec (tendsto_const_nhds (x := A)) hx)
  have h3 := h1.add h2
  rw [zero_add] at h3
  refine h3.congr' ?_
  filter_upwards [hpos] with e h
  rw [smul_smul, mul_inv_cancel₀ h.ne', one_smul, add_sub_cancel]
  simp only [Function.comp]
  ring

theorem scaled_noise {e : ℝ} (he : 0 < e) {A B : Mat n n} (h : A = e ^ 2 • B) : (e⁻¹) ^ 2 • A = B := by
  rw [h, smul_smul, ← mul_pow, inv_mul_cancel₀ he.ne', one_pow, one_smul]

theorem ekf_follows_cycle (h0 : Tendsto (fun e : ℝ => e) L (𝓝 0)) (hpos : ∀ᶠ e in L, 0 < e)
    {s : ℝ → EKF n m l} {xb : Vec n} {k : KF n m l'} (hs : FollowsEKF L s xb k) (hk : Proper k)
    {f : Vec n → Vec n} {F : Vec n → Mat n n} (hf : ∀ v, HasJacobian f (F v) v) (hF : Continuous F)
    {h : Vec n → Vec m} {H : Vec n → Mat m n} (hh : ∀ v, HasJacobian h (H v) v) (hH : Continuous H)
    (ζ : Option (Vec m)) (expf : ℝ → ℝ) :
    ∃ k' s', k.run expf [.predict .none none (some (F xb)) .none, .update ζ .none (some (H (f xb)))] = .ok k' ∧
      (∀ᶠ e in L, ekfCycle f F h H (s e) (ζ.map fun ζ => h (f xb) + e • ζ) = .ok (s' e)) ∧
      FollowsEKF L s' (f xb) k' ∧ Proper k' ∧
      (ζ.isSome → Tendsto (fun e => e⁻¹ • (s' e).y) L (𝓝 k'.y)) := by
  -- prediction
  have hP1pd : (F xb * k.P * (F xb)ᵀ + k.Q).PosDef := Matrix.PosDef.posSemidef_add (PSD.congr hk.P.posSemidef _) hk.Q
  have hk1 : k.predict .none none (some (F xb)) = .ok { k with
      x := F xb *ᵥ k.x
      P := F xb * k.P * (F xb)ᵀ + k.Q
      xPrior := F xb *ᵥ k.x
      PPrior := F xb * k.P * (F xb)ᵀ + k.Q } := by
    simp only [KF.predict, KF.control, MatArg.resolve, hk.alpha, one_smul, Option.getD_some, Option.or]
    cases k.B <;> rfl
  set k1 : KF n m l' := { k with
      x := F xb *ᵥ k.x
      P := F xb * k.P * (F xb)ᵀ + k.Q
      xPrior := F xb *ᵥ k.x
      PPrior := F xb * k.P * (F xb)ᵀ + k.Q } with hk1d
  have hx0 := near_point h0 hpos hs.x
  have hx1 : Tendsto (fun e => e⁻¹ • (f (s e).x - f xb)) L (𝓝 k1.x) := near_image h0 hpos hs.x (hf xb)
  have hFt := (hF.tendsto xb).comp hx0
  have hP1 : Tendsto (fun e => (e⁻¹) ^ 2 • (F (s e).x * (s e).P * (F (s e).x)ᵀ + (s e).Q)) L (𝓝 k1.P) := by
    have := (tendsto_mmul (tendsto_mmul hFt hs.P) (tendsto_transpose hFt)).add (tendsto_const_nhds (x := k.Q))
    refine this.congr' ?_
    filter_upwards [hs.Q, hpos] with e g1 g2
    rw [smul_add, scaled_noise g2 g1]
    simp only [Function.comp, Matrix.mul_smul, Matrix.smul_mul]
  have hpr : ∀ e, EKF.predictBy { s e with F := F (s e).x } f = .ok { s e with
      F := F (s e).x
      x := f (s e).x
      P := F (s e).x * (s e).P * (F (s e).x)ᵀ + (s e).Q
      xPrior := f (s e).x
      PPrior := F (s e).x * (s e).P * (F (s e).x)ᵀ + (s e).Q } := fun e => rfl
  set s1 : ℝ → EKF n m l := fun e => { s e with
      F := F (s e).x
      x := f (s e).x
      P := F (s e).x * (s e).P * (F (s e).x)ᵀ + (s e).Q
      xPrior := f (s e).x
      PPrior := F (s e).x * (s e).P * (F (s e).x)ᵀ + (s e).Q } with hs1
  cases ζ with
  | none =>
    refine ⟨k1.updateNone, fun e => { s1 e with z := fun _ => none, xPost := (s1 e).x, PPost := (s1 e).P }, ?_, ?_,
      ?_, ⟨hk.inv, hk.alpha, hP1pd, hk.Q, hk.R⟩, by simp⟩
    · simp only [KF.run, KF.step, hk1]
      rfl
    · exact Eventually.of_forall fun e => rfl
    · exact { Q := hs.Q, R := hs.R, x := hx1, P := hP1, K := hs.K, S := hs.S }
  | some ζ =>
    set H0 := H (f xb) with hH0
    have hHt : Tendsto (fun e => H (f (s e).x)) L (𝓝 H0) := (hH.tendsto (f xb)).comp (near_point h0 hpos hx1)
    set S0 : Mat m m := H0 * (k1.P * H0ᵀ) + k.R with hS0
    set S1 : ℝ → Mat m m := fun e => H (f (s e).x) * ((s1 e).P * (H (f (s e).x))ᵀ) + (s e).R with hS1
    have hSpd : S0.PosDef := S_pd hP1pd.posSemidef hk.R
    have hXt := tendsto_mmul hP1 (tendsto_transpose hHt)
    have hS1t : Tendsto (fun e => (e⁻¹) ^ 2 • S1 e) L (𝓝 S0) := by
      have := (tendsto_mmul hHt hXt).add (tendsto_const_nhds (x := k.R))
      refine this.congr' ?_
      filter_upwards [hs.R, hpos] with e g1 g2
      simp only [hS1]
      conv_rhs => rw [smul_add, scaled_noise g2 g1]
      rw [Matrix.smul_mul, Matrix.mul_smul]
    have hdet : ∀ᶠ e in L, (S1 e).det ≠ 0 := by
      have := ((continuous_id.matrix_det.tendsto S0).comp hS1t).eventually_ne (PD.det_ne hSpd)
      filter_upwards [this] with e g h
      apply g
      simp only [Function.comp, id, det_smul, h, mul_zero]
    have hKt : Tendsto (fun e => (s1 e).P * (H (f (s e).x))ᵀ * (S1 e)⁻¹) L (𝓝 (k1.P * H0ᵀ * S0⁻¹)) := by
      have := tendsto_mmul hXt (tendsto_minv hS1t (PD.det_ne hSpd))
      refine this.congr' ?_
      filter_upwards [hdet, hpos] with e g1 g2
      have hne : (e⁻¹) ^ 2 ≠ 0 := by positivity
      have e1 : ((e⁻¹) ^ 2 • S1 e)⁻¹ = ((e⁻¹) ^ 2)⁻¹ • (S1 e)⁻¹ := by
        refine Matrix.inv_eq_left_inv ?_
        rw [Matrix.smul_mul, Matrix.mul_smul, smul_smul, inv_mul_cancel₀ hne, one_smul,
          nonsing_inv_mul _ (isUnit_iff_ne_zero.2 g1)]
      rw [e1, Matrix.smul_mul, Matrix.smul_mul, Matrix.mul_smul, smul_smul, mul_inv_cancel₀ hne, one_smul]
    set Ke : ℝ → Mat n m := fun e => (s1 e).P * (H (f (s e).x))ᵀ * (S1 e)⁻¹ with hKe
    have hyt : Tendsto (fun e => e⁻¹ • (h (f xb) + e • ζ - h (f (s e).x))) L (𝓝 (ζ - H0 *ᵥ k1.x)) := by
      have := (tendsto_const_nhds (x := ζ)).sub (near_image h0 hpos hx1 (hh (f xb)))
      refine this.congr' ?_
      filter_upwards [hpos] with e g
      have e1 : h (f xb) + e • ζ - h (f (s e).x) = e • ζ - (h (f (s e).x) - h (f xb)) := by abel
      rw [e1, smul_sub e⁻¹ (e • ζ), smul_smul, inv_mul_cancel₀ g.ne', one_smul]
    obtain ⟨k', hk', hpd', hS', -⟩ := C02_bayes_product k1 ζ .none (some H0) hk.inv hP1pd hk.R
    have hrun : ∀ q, k1.update (some ζ) .none (some H0) = .ok q →
        k.run expf [.predict .none none (some (F xb)) .none, .update (some ζ) .none (some H0)] = .ok q := by
      intro q hq
      simp only [KF.run, KF.step, hk1, hq]
    obtain ⟨SI, h1, rfl⟩ := KF.update_ok hk'
    have hSi : npInv S0 = some S0⁻¹ := npInv_of_det_ne (PD.det_ne hSpd)
    have hki : k1.inv = npInv := hk.inv
    simp only [Option.getD_some, MatArg.resolve, hki] at h1
    have h2 : SI = S0⁻¹ := (Option.some.inj (hSi.symm.trans h1)).symm
    subst h2
    refine ⟨_, fun e => { s1 e with
        S := S1 e, SI := (S1 e)⁻¹, K := Ke e, y := h (f xb) + e • ζ - h (f (s e).x)
        x := f (s e).x + Ke e *ᵥ (h (f xb) + e • ζ - h (f (s e).x))
        P := (1 - Ke e * H (f (s e).x)) * (s1 e).P * (1 - Ke e * H (f (s e).x))ᵀ + Ke e * (s e).R * (Ke e)ᵀ
        logLik := none, lik := none, mahal := none
        z := fun i => some ((h (f xb) + e • ζ) i)
        xPost := f (s e).x + Ke e *ᵥ (h (f xb) + e • ζ - h (f (s e).x))
        PPost := (1 - Ke e * H (f (s e).x)) * (s1 e).P * (1 - Ke e * H (f (s e).x))ᵀ + Ke e * (s e).R * (Ke e)ᵀ },
      hrun _ hk', ?_, ?_, ⟨hk.inv, hk.alpha, hpd', hk.Q, hk.R⟩, fun _ => hyt⟩
    · filter_upwards [hdet] with e g1
      have hi : npInv (S1 e) = some (S1 e)⁻¹ := npInv_of_det_ne g1
      simp only [ekfCycle, hpr, Option.map_some, EKF.update, MatArg.resolve]
      have hi' := hi
      simp only [hS1, hs1] at hi'
      rw [hi']
    · exact
        { Q := hs.Q
          R := hs.R
          x := by
            have := hx1.add (tendsto_mulVec hKt hyt)
            refine this.congr fun e => ?_
            rw [mulVec_smul, ← smul_add]
            congr 1
            simp only
            abel
          P := by
            have hI := (tendsto_const_nhds (x := (1 : Mat n n))).sub (tendsto_mmul hKt hHt)
            have := (tendsto_mmul (tendsto_mmul hI hP1) (tendsto_transpose hI)).add
              (tendsto_mmul (tendsto_mmul hKt (tendsto_const_nhds (x := k.R))) (tendsto_transpose hKt))
            refine this.congr' ?_
            filter_upwards [hs.R, hpos] with e g1 g2
            rw [← scaled_noise g2 g1]
            conv_rhs => rw [smul_add]
            simp only [Matrix.mul_smul, Matrix.smul_mul]
            rfl
          K := hKt
          S := hS1t }

theorem ekf_follows_run (h0 : Tendsto (fun e : ℝ => e) L (𝓝 0)) (hpos : ∀ᶠ e in L, 0 < e)
    {f : Vec n → Vec n} {F : Vec n → Mat n n} (hf : ∀ v, HasJacobian f (F v) v) (hF : Continuous F)
    {h : Vec n → Vec m} {H : Vec n → Mat m n} (hh : ∀ v, HasJacobian h (H v) v) (hH : Continuous H)
    (expf : ℝ → ℝ) (ζs : List (Option (Vec m))) :
    ∀ (s : ℝ → EKF n m l) (xb : Vec n) (k : KF n m l'), FollowsEKF L s xb k → Proper k →
    ∃ k' s', k.run expf (linearCalls f F H xb ζs) = .ok k' ∧
      (∀ᶠ e in L, runList (ekfCycle f F h H) (s e) (nearData f h e xb ζs) = .ok (s' e)) ∧
      FollowsEKF L s' (f^[ζs.length] xb) k' ∧ Proper k' ∧
      ((∃ r ζ, ζs = r ++ [some ζ]) → Tendsto (fun e => e⁻¹ • (s' e).y) L (𝓝 k'.y)) := by
  induction ζs with
  | nil =>
    intro u xb k h hk
    exact ⟨k, u, rfl, Eventually.of_forall fun _ => rfl, h, hk, by simp⟩
  | cons ζ r ih =>
    intro u xb k h1 hk
    obtain ⟨k1, u1, a1, a2, a3, a4, a5⟩ := ekf_follows_cycle h0 hpos h1 hk hf hF hh hH ζ expf
    obtain ⟨k2, u2, b1, b2, b3, b4, b5⟩ := ih u1 _ k1 a3 a4
    refine ⟨k2, u2, ?_, ?_, b3, b4, ?_⟩
    · have : linearCalls (l := l') f F H xb (ζ :: r)
          = [.predict .none none (some (F xb)) .none, .update ζ .none (some (H (f xb)))]
            ++ linearCalls f F H (f xb) r := rfl
      rw [this, KF.run_append, a1]
      exact b1
    · filter_upwards [a2, b2] with e g1 g2
      simp only [nearData, runList, g1, g2]
    · rintro ⟨r', ζ', hr⟩
      cases r with
      | nil =>
        have hz : ζ = some ζ' := by
          cases r' with
          | nil => simpa using hr
          | cons a t => simp at hr
        have e1 : k2 = k1 := by
          simp only [linearCalls, KF.run, Except.ok.injEq] at b1
          exact b1.symm
        subst e1
        refine (a5 (by simp [hz])).congr' ?_
        filter_upwards [b2] with e g
        simp only [nearData, runList, Except.ok.injEq] at g
        rw [g]
      | cons a t =>
        refine b5 ?_
        cases r' with
        | nil => simp at hr
        | cons b s =>
          simp only [List.cons_append, List.cons.injEq] at hr
          exact ⟨s, ζ', hr.2⟩

/-- **C112 (extended filter).**  The same for `ExtendedKalmanFilter` with continuously differentiable `f`, `h`
and their Jacobians: for small `ε` the run succeeds, and as `ε → 0` it is, in units of `ε`, the Kalman filter of
the system linearised along the noise-free trajectory. -/
theorem C112_extended (s : EKF n m l) (k : KF n m l') (hk : Proper k)
    (hK : s.K = k.K) (hS : s.S = 0) (hS' : k.S = 0)
    (f : Vec n → Vec n) (F : Vec n → Mat n n) (hf : ∀ v, HasJacobian f (F v) v) (hF : Continuous F)
    (h : Vec n → Vec m) (H : Vec n → Mat m n) (hh : ∀ v, HasJacobian h (H v) v) (hH : Continuous H)
    (expf : ℝ → ℝ) (ζs : List (Option (Vec m))) :
    ∃ (k' : KF n m l') (s' : ℝ → EKF n m l), k.run expf (linearCalls f F H s.x ζs) = .ok k' ∧
      (∀ᶠ ε in 𝓝[>] (0 : ℝ), runList (ekfCycle f F h H) (shrunkEKF s k ε) (nearData f h ε s.x ζs) = .ok (s' ε)) ∧
      Tendsto (fun ε => ε⁻¹ • ((s' ε).x - f^[ζs.length] s.x)) (𝓝[>] 0) (𝓝 k'.x) ∧
      Tendsto (fun ε => (ε⁻¹) ^ 2 • (s' ε).P) (𝓝[>] 0) (𝓝 k'.P) ∧
      Tendsto (fun ε => (s' ε).K) (𝓝[>] 0) (𝓝 k'.K) ∧
      Tendsto (fun ε => (ε⁻¹) ^ 2 • (s' ε).S) (𝓝[>] 0) (𝓝 k'.S) ∧
      ((∃ r ζ, ζs = r ++ [some ζ]) → Tendsto (fun ε => ε⁻¹ • (s' ε).y) (𝓝[>] 0) (𝓝 k'.y)) := by
  have h0 : Tendsto (fun e : ℝ => e) (𝓝[>] 0) (𝓝 0) := tendsto_id.mono_left nhdsWithin_le_nhds
  have hpos : ∀ᶠ e in 𝓝[>] (0 : ℝ), 0 < e := self_mem_nhdsWithin
  have hst : FollowsEKF (𝓝[>] (0 : ℝ)) (shrunkEKF s k) s.x k :=
    { Q := Eventually.of_forall fun _ => rfl
      R := Eventually.of_forall fun _ => rfl
      x := by
        refine Tendsto.congr' ?_ tendsto_const_nhds
        filter_upwards [hpos] with e h
        simp only [shrunkEKF, add_sub_cancel_left, smul_smul, inv_mul_cancel₀ h.ne', one_smul]
      P := by
        refine Tendsto.congr' ?_ tendsto_const_nhds
        filter_upwards [hpos] with e h
        simp only [shrunkEKF, smul_smul, ← mul_pow, inv_mul_cancel₀ h.ne', one_pow, one_smul]
      K := by rw [← hK]; exact tendsto_const_nhds
      S := by
        rw [hS']
        simp only [shrunkEKF, hS, smul_zero]
        exact tendsto_const_nhds }
  obtain ⟨k', s', a1, a2, a3, -, a5⟩ := ekf_follows_run h0 hpos hf hF hh hH expf ζs _ _ _ hst hk
  exact ⟨k', s', a1, a2, a3.x, a3.P, a3.K, a3.S, a5⟩

/-- The pendulum meets the hypotheses. -/
example : (∀ v, HasJacobian (fun v => pendulum v 0.1) !![1, 0.1; -(0.1 * Real.cos (v 0)), 1] v) ∧
    (∀ v, HasJacobian bob !![Real.cos (v 0), 0] v) ∧
    Continuous (fun v : Vec 2 => (!![1, 0.1; -(0.1 * Real.cos (v 0)), 1] : Mat 2 2)) ∧
    Continuous (fun v : Vec 2 => (!![Real.cos (v 0), 0] : Mat 1 2)) ∧
    Proper (KF.fresh 2 1 1) ∧ (EKF.fresh 2 1 1).K = (KF.fresh 2 1 1).K ∧ (EKF.fresh 2 1 1).S = 0 ∧
    (KF.fresh 2 1 1).S = 0 := by
  refine ⟨pendulum_jacobian 0.1, bob_jacobian, ?_, ?_, ⟨rfl, rfl, PosDef.one, PosDef.one, PosDef.one⟩, rfl, rfl, rfl⟩
  · refine continuous_matrix fun i j => ?_
    fin_cases i <;> fin_cases j <;> simp <;> fun_prop
  · refine continuous_matrix fun i j => ?_
    fin_cases i; fin_cases j <;> simp <;> fun_prop

end Filterpy
