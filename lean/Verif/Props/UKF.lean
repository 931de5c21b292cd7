import Verif.Model.UKF
import Verif.Props.SigmaPoints
import Verif.Lemmas.Kalman
import Verif.Props.KalmanBayes
import Verif.Lemmas.Scalar1

/-!
# C22: the unscented filter on linear systems
-/

namespace Filterpy

open Matrix SigmaPts Spec

variable {n m l : ℕ} {p : SigmaPts n}

theorem crossVariance_eq {k n m : ℕ} (Wc : Vec k) (rx : Vec n → Vec n → Vec n)
    (rz : Vec m → Vec m → Vec m) (x : Vec n) (z : Vec m) (sf : Mat k n) (sh : Mat k m) :
    UKF.crossVariance Wc rx rz x z sf sh = ∑ i, Wc i • vecMulVec (rx (sf i) x) (rz (sh i) z) := by
  have h : ∀ (l : List (Fin k)) (A : Mat n m), l.foldl (UKF.crossStep Wc rx rz x z sf sh) A
      = A + (l.map fun i => Wc i • vecMulVec (rx (sf i) x) (rz (sh i) z)).sum := by
    intro l
    induction l with
    | nil => intro A; simp
    | cons a l ih =>
      intro A
      rw [List.foldl_cons, ih, List.map_cons, List.sum_cons]
      unfold UKF.crossStep
      abel
  unfold UKF.crossVariance
  rw [h, zero_add, ← List.ofFn_eq_map, List.sum_ofFn]

/-- Sigma points of `(x, P)` pushed through a linear map. -/
theorem ut_linear (he : Encodes p) {x : Vec n} {P : Mat n n} (hP : P.PosDef) {s : Mat p.num n}
    (hs : p.points x P = .ok s) {k : ℕ} (A : Mat k n) (N : Mat k k) :
    unscentedTransform (UKF.pushRows (fun v => A *ᵥ v) s) p.Wm p.Wc (some N) none none
      = (A *ᵥ x, A * P * Aᵀ + N) := by
  obtain ⟨s', hs', hu⟩ := C24_affine_exact p he x P hP A 0 N
  obtain rfl : s = s' := Except.ok.inj (hs.symm.trans hs')
  have e : mapRows (fun v => A *ᵥ v + 0) s = UKF.pushRows (fun v => A *ᵥ v) s := by
    funext i; simp [mapRows, UKF.pushRows]
  rw [e] at hu
  simpa using hu

theorem cross_linear (he : Encodes p) {x : Vec n} {P : Mat n n} (hP : P.PosDef) {s : Mat p.num n}
    (hs : p.points x P = .ok s) {k : ℕ} (A : Mat k n) :
    UKF.crossVariance p.Wc (resFn none) (resFn none) x (A *ᵥ x) s
      (UKF.pushRows (fun v => A *ᵥ v) s) = P * Aᵀ := by
  obtain ⟨s', hs', _, hc⟩ := he.pts x P hP
  obtain rfl : s = s' := Except.ok.inj (hs.symm.trans hs')
  rw [crossVariance_eq]
  conv_rhs => rw [← hc, wcov_eq, Matrix.sum_mul]
  refine Finset.sum_congr rfl fun i _ => ?_
  show p.Wc i • vecMulVec (s i - x) (A *ᵥ s i - A *ᵥ x) = _
  rw [Matrix.smul_mul, vecMulVec_mul, vecMul_transpose, mulVec_sub]

/-! ### The two filters driven by the same calls -/

/-- A call: `predict(dt)`, or `update(z, R, hx)` where `hx` is measurement by the matrix `H`. -/
inductive UkfOp (n m : ℕ)
  | predict (dt : Option ℝ)
  | update (z : Option (Vec m)) (R : MatArg m) (H : Option (Mat m n))

/-- The call on the unscented filter. -/
noncomputable def UkfOp.onUkf (s : UKF n m p) : UkfOp n m → Exec (UKF n m p)
  | .predict dt => s.predict dt
  | .update z R H => s.update z R (H.map fun H v => H *ᵥ v)

/-- The same call on a `KalmanFilter`; `F t` is the transition matrix for a step of length `t` and
`dt0` the default step. -/
noncomputable def UkfOp.onKf (F : ℝ → Mat n n) (dt0 : ℝ) (s : KF n m l) : UkfOp n m → Exec (KF n m l)
  | .predict dt => s.predict .none none (some (F (dt.getD dt0)))
  | .update z R H => s.update z R H

/-- At most one measurement between two predictions (and a prediction before the first one, unless
`ready`); missing measurements may occur anywhere. -/
def Alternating : Bool → List (UkfOp n m) → Prop
  | _, [] => True
  | _, .predict _ :: ops => Alternating true ops
  | b, .update none _ _ :: ops => Alternating b ops
  | b, .update (some _) _ _ :: ops => b = true ∧ Alternating false ops

/-- The configuration of a linear `UnscentedKalmanFilter` and the corresponding `KalmanFilter`. -/
structure LinearPair (F : ℝ → Mat n n) (u : UKF n m p) (k : KF n m l) : Prop where
  fx : u.fx = fun v t => F t *ᵥ v
  hx : u.hx = fun v => k.H *ᵥ v
  xMean : u.xMean = none
  zMean : u.zMean = none
  resX : u.residualX = none
  resZ : u.residualZ = none
  add : u.stateAdd = none
  uinv : ∀ {j : ℕ} (A : Mat j j), u.inv A = npInv A
  kinv : k.inv = npInv
  alpha : k.alphaSq = 1
  Q : u.Q = k.Q
  R : u.R = k.R

/-- What is compared after every history. -/
structure SameEstimate (u : UKF n m p) (k : KF n m l) : Prop where
  x : u.x = k.x
  P : u.P = k.P
  xPrior : u.xPrior = k.xPrior
  PPrior : u.PPrior = k.PPrior
  xPost : u.xPost = k.xPost
  PPost : u.PPost = k.PPost
  z : u.z = k.z
  K : u.K = k.K
  S : u.S = k.S
  SI : u.SI = k.SI

/-- Noise for which predicted covariances stay positive definite. -/
def NoiseOK (F : ℝ → Mat n n) (Q : Mat n n) : Prop :=
  Q.PosDef ∨ (Q.PosSemidef ∧ ∀ t, (F t).det ≠ 0)

/-- The measurement noise of a call is positive definite. -/
def UkfOp.GoodR (R0 : Mat m m) : UkfOp n m → Prop
  | .update (some _) R _ => (R.resolve R0).PosDef
  | _ => True

theorem pred_pd {F : ℝ → Mat n n} {Q P : Mat n n} (h : NoiseOK F Q) (hP : P.PosDef) (t : ℝ) :
    (F t * P * (F t)ᵀ + Q).PosDef := by
  rcases h with h | ⟨h, hF⟩
  · exact Matrix.PosDef.posSemidef_add (PSD.congr hP.posSemidef _) h
  · refine Matrix.PosDef.add_posSemidef ?_ h
    refine PSD.posDef_of_det (PSD.congr hP.posSemidef _) ?_
    rw [det_mul, det_mul, det_transpose]
    exact mul_ne_zero (mul_ne_zero (hF t) (PD.det_ne hP)) (hF t)

/-- A sigma point object built with parameters and a square root routine that are valid. -/
inductive ValidPoints : SigmaPts n → Prop
  | merwe (alpha beta kappa : ℝ) (sqrt : Mat n n → Except Err (Mat n n)) (p : SigmaPts n)
      (hpos : 0 < alpha ^ 2 * (n + kappa)) (hs : IsCholUpper sqrt)
      (hp : merwe n alpha beta kappa sqrt = .ok p) : ValidPoints p
  | julier (kappa : ℝ) (sqrt : Mat n n → Except Err (Mat n n)) (p : SigmaPts n)
      (hpos : 0 < n + kappa) (hs : IsCholUpper sqrt)
      (hp : julier n kappa sqrt = .ok p) : ValidPoints p
  | simplex (sqrt : Mat n n → Except Err (Mat n n)) (hn : 0 < n) (hs : IsCholUpper sqrt) :
      ValidPoints (simplex n sqrt)

theorem ValidPoints.encodes {p : SigmaPts n} (h : ValidPoints p) : Encodes p := by
  cases h with
  | merwe alpha beta kappa sqrt _ hpos hs hp =>
    obtain ⟨q, hq, -, he⟩ := encodes_merwe alpha beta kappa hpos sqrt hs
    obtain rfl : p = q := Except.ok.inj (hp.symm.trans hq)
    exact he
  | julier kappa sqrt _ hpos hs hp =>
    obtain ⟨q, hq, -, he⟩ := encodes_julier kappa hpos sqrt hs
    obtain rfl : p = q := Except.ok.inj (hp.symm.trans hq)
    exact he
  | simplex sqrt hn hs => exact (encodes_simplex hn sqrt hs).2

structure UkfInv (F : ℝ → Mat n n) (dt0 : ℝ) (b : Bool) (u : UKF n m p) (k : KF n m l) : Prop where
  lin : LinearPair F u k
  same : SameEstimate u k
  dt : u.dt = dt0
  pd : k.P.PosDef
  ready : b = true → p.points u.x u.P = .ok u.sigmasF

theorem ukf_predict_step (he : Encodes p) {F : ℝ → Mat n n} {dt0 : ℝ} {b : Bool} {u : UKF n m p}
    {k : KF n m l} (h : UkfInv F dt0 b u k) (hn : NoiseOK F k.Q) (dt : Option ℝ) :
    ∃ u' k', (UkfOp.predict dt).onUkf u = .ok u' ∧ (UkfOp.predict dt).onKf F dt0 k = .ok k' ∧
      UkfInv F dt0 true u' k' ∧ k'.R = k.R ∧ k'.Q = k.Q := by
  obtain ⟨s, hs, -, -⟩ := he.pts u.x u.P (by rw [h.same.P]; exact h.pd)
  have hpd := pred_pd hn h.pd (dt.getD dt0)
  obtain ⟨s2, hs2, -, -⟩ := he.pts (F (dt.getD dt0) *ᵥ k.x) _ hpd
  have hut := ut_linear he (x := u.x) (P := u.P) (by rw [h.same.P]; exact h.pd) hs
    (F (dt.getD dt0)) u.Q
  refine ⟨{ u with
      x := F (dt.getD dt0) *ᵥ k.x
      P := F (dt.getD dt0) * k.P * (F (dt.getD dt0))ᵀ + k.Q
      sigmasF := s2
      xPrior := F (dt.getD dt0) *ᵥ k.x
      PPrior := F (dt.getD dt0) * k.P * (F (dt.getD dt0))ᵀ + k.Q },
    { k with
      x := F (dt.getD dt0) *ᵥ k.x
      P := F (dt.getD dt0) * k.P * (F (dt.getD dt0))ᵀ + k.Q
      xPrior := F (dt.getD dt0) *ᵥ k.x
      PPrior := F (dt.getD dt0) * k.P * (F (dt.getD dt0))ᵀ + k.Q }, ?_, ?_, ?_, rfl, rfl⟩
  · simp only [UkfOp.onUkf, UKF.predict, UKF.computeProcessSigmas, hs, UKF.predictUT, Option.getD_none,
      h.dt, h.lin.fx, h.lin.xMean, h.lin.resX, hut]
    rw [h.same.x, h.same.P, h.lin.Q, hs2]
  · simp only [UkfOp.onKf, KF.predict, KF.control, MatArg.resolve, h.lin.alpha, one_smul,
      Option.getD_some, Option.or]
    cases k.B <;> rfl
  · exact
      { lin := { h.lin with }
        same := { h.same with x := rfl, P := rfl, xPrior := rfl, PPrior := rfl }
        dt := h.dt
        pd := hpd
        ready := fun _ => hs2 }

theorem ukf_none_step {F : ℝ → Mat n n} {dt0 : ℝ} {b : Bool} {u : UKF n m p}
    {k : KF n m l} (h : UkfInv F dt0 b u k) (R : MatArg m) (H : Option (Mat m n)) :
    ∃ u' k', (UkfOp.update none R H).onUkf u = .ok u' ∧ (UkfOp.update none R H).onKf F dt0 k = .ok k' ∧
      UkfInv F dt0 b u' k' ∧ k'.R = k.R ∧ k'.Q = k.Q := by
  refine ⟨_, _, rfl, rfl, ?_, rfl, rfl⟩
  exact
      { lin := { h.lin with }
        same := { h.same with z := rfl, xPost := h.same.x, PPost := h.same.P }
        dt := h.dt
        pd := h.pd
        ready := h.ready }

theorem ukf_update_step (he : Encodes p) {F : ℝ → Mat n n} {dt0 : ℝ} {u : UKF n m p}
    {k : KF n m l} (h : UkfInv F dt0 true u k) (z : Vec m) (R : MatArg m) (H : Option (Mat m n))
    (hR : (R.resolve k.R).PosDef) :
    ∃ u' k', (UkfOp.update (some z) R H).onUkf u = .ok u' ∧
      (UkfOp.update (some z) R H).onKf F dt0 k = .ok k' ∧
      UkfInv F dt0 false u' k' ∧ k'.R = k.R ∧ k'.Q = k.Q ∧ u'.y = k'.y ∧
      u'.readLogLik.1 = k'.readLogLik.1 ∧
      (∃ v a b, u'.readMahal = .ok (v, a) ∧ k'.readMahal = .ok (v, b)) := by
  have hS : (H.getD k.H * (k.P * (H.getD k.H)ᵀ) + R.resolve k.R).PosDef := S_pd h.pd.posSemidef hR
  have hSi : npInv (H.getD k.H * (k.P * (H.getD k.H)ᵀ) + R.resolve k.R)
      = some (H.getD k.H * (k.P * (H.getD k.H)ᵀ) + R.resolve k.R)⁻¹ := npInv_of_det_ne (PD.det_ne hS)
  obtain ⟨k', hk', hpd', hS', -⟩ := C02_bayes_product k z R H h.lin.kinv h.pd hR
  obtain ⟨SI, h1, rfl⟩ := KF.update_ok hk'
  rw [h.lin.kinv, hSi] at h1
  obtain rfl := Option.some.inj h1
  have hx : (H.map fun H v => H *ᵥ v).getD u.hx = fun v => H.getD k.H *ᵥ v := by
    cases H
    · simp [h.lin.hx]
    · simp
  have hPu : u.P.PosDef := by rw [h.same.P]; exact h.pd
  have hut := ut_linear he hPu (h.ready rfl) (H.getD k.H) (R.resolve k.R)
  have hcr := cross_linear he hPu (h.ready rfl) (H.getD k.H)
  have hJ := joseph_opt (P := k.P) (H := H.getD k.H) (R := R.resolve k.R) (PD.symm h.pd) rfl
    (nonsing_inv_mul _ (PD.isUnit_det hS)) (inv_symm (PD.symm hS)) rfl
  have hu : (UkfOp.update (some z) R H).onUkf u = .ok { u with
      sigmasH := UKF.pushRows (fun v => H.getD k.H *ᵥ v) u.sigmasF
      S := H.getD k.H * (k.P * (H.getD k.H)ᵀ) + R.resolve k.R
      SI := (H.getD k.H * (k.P * (H.getD k.H)ᵀ) + R.resolve k.R)⁻¹
      K := k.P * (H.getD k.H)ᵀ * (H.getD k.H * (k.P * (H.getD k.H)ᵀ) + R.resolve k.R)⁻¹
      y := z - H.getD k.H *ᵥ k.x
      x := k.x + (k.P * (H.getD k.H)ᵀ * (H.getD k.H * (k.P * (H.getD k.H)ᵀ) + R.resolve k.R)⁻¹) *ᵥ
        (z - H.getD k.H *ᵥ k.x)
      P := k.P - k.P * (H.getD k.H)ᵀ * (H.getD k.H * (k.P * (H.getD k.H)ᵀ) + R.resolve k.R)⁻¹ *
        (H.getD k.H * (k.P * (H.getD k.H)ᵀ) + R.resolve k.R) *
        (k.P * (H.getD k.H)ᵀ * (H.getD k.H * (k.P * (H.getD k.H)ᵀ) + R.resolve k.R)⁻¹)ᵀ
      z := fun i => some (z i)
      xPost := k.x + (k.P * (H.getD k.H)ᵀ * (H.getD k.H * (k.P * (H.getD k.H)ᵀ) + R.resolve k.R)⁻¹) *ᵥ
        (z - H.getD k.H *ᵥ k.x)
      PPost := k.P - k.P * (H.getD k.H)ᵀ * (H.getD k.H * (k.P * (H.getD k.H)ᵀ) + R.resolve k.R)⁻¹ *
        (H.getD k.H * (k.P * (H.getD k.H)ᵀ) + R.resolve k.R) *
        (k.P * (H.getD k.H)ᵀ * (H.getD k.H * (k.P * (H.getD k.H)ᵀ) + R.resolve k.R)⁻¹)ᵀ
      logLik := none, lik := none, mahal := none } := by
    rw [Matrix.mul_assoc] at hut
    simp only [UkfOp.onUkf, UKF.update, hx, h.lin.R, h.lin.zMean, h.lin.resZ, h.lin.resX, h.lin.add, hut,
      h.lin.uinv]
    rw [h.same.P, hSi]
    simp only
    rw [hcr, h.same.P, h.same.x]
    simp only [resFn, Option.getD_none, Matrix.mul_assoc]
  refine ⟨_, _, hu, hk', ?_, rfl, rfl, rfl, rfl, ?_⟩
  · exact
      { lin := { h.lin with }
        same := { h.same with
          x := rfl, P := hJ.symm, xPost := rfl, PPost := hJ.symm, z := rfl, K := rfl, S := rfl, SI := rfl }
        dt := h.dt
        pd := hpd'
        ready := by simp }
  · have hq : ¬ (z - H.getD k.H *ᵥ k.x) ⬝ᵥ
        ((H.getD k.H * (k.P * (H.getD k.H)ᵀ) + R.resolve k.R)⁻¹ *ᵥ (z - H.getD k.H *ᵥ k.x)) < 0 :=
      not_lt.2 (PSD.quad hS.inv.posSemidef _)
    have hU : ∀ u' : UKF n m p, u'.mahal = none → ¬ u'.y ⬝ᵥ (u'.SI *ᵥ u'.y) < 0 →
        u'.readMahal = .ok (Real.sqrt (u'.y ⬝ᵥ (u'.SI *ᵥ u'.y)),
          { u' with mahal := some (Real.sqrt (u'.y ⬝ᵥ (u'.SI *ᵥ u'.y))) }) := by
      intro u' h1 h2
      simp only [UKF.readMahal, h1, if_neg h2]
    have hK : ∀ u' : KF n m l, u'.mahal = none → ¬ u'.y ⬝ᵥ (u'.SI *ᵥ u'.y) < 0 →
        u'.readMahal = .ok (Real.sqrt (u'.y ⬝ᵥ (u'.SI *ᵥ u'.y)),
          { u' with mahal := some (Real.sqrt (u'.y ⬝ᵥ (u'.SI *ᵥ u'.y))) }) := by
      intro u' h1 h2
      simp only [KF.readMahal, h1, if_neg h2]
    exact ⟨_, _, _, hU _ rfl hq, hK _ rfl hq⟩

theorem runList_append_ok {σ ι : Type*} {f : σ → ι → Exec σ} {s s' : σ} {a b : List ι}
    (h : runList f s a = .ok s') : runList f s (a ++ b) = runList f s' b := by
  induction a generalizing s with
  | nil => simp only [runList, Except.ok.injEq] at h; rw [List.nil_append, h]
  | cons i a ih =>
    simp only [runList, List.cons_append] at h ⊢
    cases hf : f s i with
    | ok s1 => simp only [hf] at h ⊢; exact ih h
    | error e => simp [hf] at h

/-- Both runs of a whole history. -/
theorem ukf_run' (he : Encodes p) {F : ℝ → Mat n n} {dt0 : ℝ} (ops : List (UkfOp n m)) :
    ∀ (b : Bool) (u : UKF n m p) (k : KF n m l), UkfInv F dt0 b u k → NoiseOK F k.Q →
      Alternating b ops → (∀ op ∈ ops, op.GoodR k.R) →
      ∃ b' u' k', runList UkfOp.onUkf u ops = .ok u' ∧ runList (UkfOp.onKf F dt0) k ops = .ok k' ∧
        UkfInv F dt0 b' u' k' ∧ k'.R = k.R ∧ k'.Q = k.Q := by
  induction ops with
  | nil => intro b u k h _ _ _; exact ⟨b, u, k, rfl, rfl, h, rfl, rfl⟩
  | cons op ops ih =>
    intro b u k h hn ha hR
    have hR' : ∀ op ∈ ops, op.GoodR k.R := fun o ho => hR o (by simp [ho])
    have go : ∀ (b1 : Bool) (u1 : UKF n m p) (k1 : KF n m l), op.onUkf u = .ok u1 →
        op.onKf F dt0 k = .ok k1 → UkfInv F dt0 b1 u1 k1 → k1.R = k.R → k1.Q = k.Q →
        Alternating b1 ops → ∃ b' u' k', runList UkfOp.onUkf u (op :: ops) = .ok u' ∧
          runList (UkfOp.onKf F dt0) k (op :: ops) = .ok k' ∧ UkfInv F dt0 b' u' k' ∧
          k'.R = k.R ∧ k'.Q = k.Q := by
      intro b1 u1 k1 h1 h2 h3 h4 h5 h6
      obtain ⟨b', u', k', g1, g2, g3, g4, g5⟩ := ih b1 u1 k1 h3 (h5 ▸ hn) h6 (by rw [h4]; exact hR')
      exact ⟨b', u', k', by simp only [runList, h1, g1], by simp only [runList, h2, g2], g3,
        g4.trans h4, g5.trans h5⟩
    match op, ha, hR, go with
    | .predict dt, ha, hR, go =>
      obtain ⟨u1, k1, h1, h2, h3, h4, h5⟩ := ukf_predict_step he h hn dt
      exact go true u1 k1 h1 h2 h3 h4 h5 ha
    | .update none R H, ha, hR, go =>
      obtain ⟨u1, k1, h1, h2, h3, h4, h5⟩ := ukf_none_step h R H
      exact go b u1 k1 h1 h2 h3 h4 h5 ha
    | .update (some z) R H, ha, hR, go =>
      obtain ⟨hb, ha'⟩ := ha
      subst hb
      obtain ⟨u1, k1, h1, h2, h3, h4, h5, -⟩ := ukf_update_step he h z R H
        (hR (.update (some z) R H) (by simp))
      exact go false u1 k1 h1 h2 h3 h4 h5 ha'

/-- **C22.**  A linear unscented filter and the corresponding Kalman filter, started from the same
estimate: after every alternating history both have run without exception and hold the same state,
covariance, priors, posteriors, measurement, gain, innovation covariance and its inverse. -/
theorem C22_linear (hp : ValidPoints p) (F : ℝ → Mat n n) (u : UKF n m p) (k : KF n m l)
    (hl : LinearPair F u k) (h0 : SameEstimate u k) (hP : k.P.PosDef) (hn : NoiseOK F k.Q)
    (ops : List (UkfOp n m)) (ha : Alternating false ops) (hR : ∀ op ∈ ops, op.GoodR k.R) :
    ∃ u' k', runList UkfOp.onUkf u ops = .ok u' ∧ runList (UkfOp.onKf F u.dt) k ops = .ok k' ∧
      SameEstimate u' k' := by
  obtain ⟨b', u', k', h1, h2, h3, -⟩ := ukf_run' hp.encodes ops false u k ⟨hl, h0, rfl, hP, by simp⟩ hn ha hR
  exact ⟨u', k', h1, h2, h3.same⟩

/-- **C22, residual and likelihood.**  After a further `predict` and measurement the residuals, the
log-likelihoods and the Mahalanobis distances agree too. -/
theorem C22_linear_residual (hp : ValidPoints p) (F : ℝ → Mat n n) (u : UKF n m p) (k : KF n m l)
    (hl : LinearPair F u k) (h0 : SameEstimate u k) (hP : k.P.PosDef) (hn : NoiseOK F k.Q)
    (ops : List (UkfOp n m)) (ha : Alternating false ops) (hR : ∀ op ∈ ops, op.GoodR k.R)
    (dt : Option ℝ) (z : Vec m) (R : MatArg m) (H : Option (Mat m n)) (hR' : (R.resolve k.R).PosDef) :
    ∃ u' k', runList UkfOp.onUkf u (ops ++ [.predict dt, .update (some z) R H]) = .ok u' ∧
      runList (UkfOp.onKf F u.dt) k (ops ++ [.predict dt, .update (some z) R H]) = .ok k' ∧
      u'.y = k'.y ∧ u'.readLogLik.1 = k'.readLogLik.1 ∧
      ∃ v a b, u'.readMahal = .ok (v, a) ∧ k'.readMahal = .ok (v, b) := by
  have he := hp.encodes
  obtain ⟨b', u', k', h1, h2, h3, h4, h5⟩ :=
    ukf_run' he ops false u k ⟨hl, h0, rfl, hP, by simp⟩ hn ha hR
  obtain ⟨u1, k1, g1, g2, g3, g4, g5⟩ := ukf_predict_step he h3 (h5 ▸ hn) dt
  obtain ⟨u2, k2, e1, e2, -, -, -, e3, e4, e5⟩ := ukf_update_step he g3 z R H
    (by rw [g4, h4]; exact hR')
  refine ⟨u2, k2, ?_, ?_, e3, e4, e5⟩
  · rw [runList_append_ok h1]
    simp only [runList, g1, e1]
  · rw [runList_append_ok h2]
    simp only [runList, g2, e2]

/-- The hypotheses are met by a constant velocity tracker with any valid point set, freshly constructed,
over a history with varying steps, a missing measurement and an override of the noise. -/
example (p : SigmaPts 2) (hp : ValidPoints p) (z : Vec 1) :
    let F : ℝ → Mat 2 2 := fun t => !![1, t; 0, 1]
    let H : Mat 1 2 := !![1, 0]
    ∃ u' k', runList UkfOp.onUkf (UKF.fresh 1 p 0.1 (fun v => H *ᵥ v) (fun v t => F t *ᵥ v))
        [.predict none, .update (some z) .none none, .predict (some 0.5), .update none .none none,
          .update (some z) (.scalar 3) none] = .ok u' ∧
      runList (UkfOp.onKf F 0.1) { KF.fresh 2 1 0 with H := H }
        [.predict none, .update (some z) .none none, .predict (some 0.5), .update none .none none,
          .update (some z) (.scalar 3) none] = .ok k' ∧ SameEstimate u' k' := by
  intro F H
  refine C22_linear hp F (UKF.fresh 1 p 0.1 (fun v => H *ᵥ v) (fun v t => F t *ᵥ v))
    { KF.fresh 2 1 0 with H := H } ?_ ?_ PosDef.one (Or.inl PosDef.one) _ ?_ ?_
  · constructor <;> first | rfl | (intros; rfl)
  · constructor <;> rfl
  · simp [Alternating]
  · intro op hop
    simp only [List.mem_cons, List.not_mem_nil, or_false] at hop
    rcases hop with rfl | rfl | rfl | rfl | rfl <;>
      simp [UkfOp.GoodR, MatArg.resolve, KF.fresh, PosDef.one, PosDef.one.smul]

example : ∃ p : SigmaPts 2, ValidPoints p := by
  obtain ⟨s, hs⟩ := cholUpper_exists (n := 2)
  exact ⟨_, .simplex s (by norm_num) hs⟩

/-! ### Outside the alternating histories

`update` does not redraw the sigma points, so a second measurement without a prediction in between
subtracts the information of the first again: the variance can even become negative. -/

theorem repeat_step {p : SigmaPts 1} (he : Encodes p) {s : Mat p.num 1}
    (hs : p.points 0 1 = .ok s) (u : UKF 1 1 p) (hx0 : u.x = 0) (hsf : u.sigmasF = s)
    (hhx : u.hx = fun v => (1 : Mat 1 1) *ᵥ v) (hR : u.R = 1) (h1 : u.zMean = none)
    (h2 : u.residualX = none) (h3 : u.residualZ = none) (h4 : u.stateAdd = none)
    (h5 : ∀ {j : ℕ} (A : Mat j j), u.inv A = npInv A) :
    ∃ u', u.update (some 0) = .ok u' ∧ u'.P = u.P - (1 / 2 : ℝ) • 1 ∧ u'.x = 0 ∧ u'.sigmasF = s ∧
      u'.hx = u.hx ∧ u'.R = u.R ∧ u'.zMean = u.zMean ∧ u'.residualX = u.residualX ∧
      u'.residualZ = u.residualZ ∧ u'.stateAdd = u.stateAdd ∧
      (∀ {j : ℕ} (A : Mat j j), u'.inv A = u.inv A) := by
  have hut := ut_linear he PosDef.one hs (1 : Mat 1 1) (1 : Mat 1 1)
  have hcr := cross_linear he PosDef.one hs (1 : Mat 1 1)
  have e2 : (1 : Mat 1 1) * 1 * (1 : Mat 1 1)ᵀ + 1 = (2 : ℝ) • 1 := by
    ext i j; fin_cases i; fin_cases j; simp; norm_num
  have hinv : npInv ((2 : ℝ) • (1 : Mat 1 1)) = some ((1 / 2 : ℝ) • 1) := by
    rw [npInv_eq_some]
    refine ⟨by simp, ?_⟩
    symm
    apply inv_eq_right_inv
    ext i j; fin_cases i; fin_cases j; simp
  rw [e2] at hut
  have hcr' : UKF.crossVariance p.Wc (resFn none) (resFn none) 0 ((1 : Mat 1 1) *ᵥ 0) s
      (UKF.pushRows (fun v => (1 : Mat 1 1) *ᵥ v) s) = 1 := by rw [hcr]; simp
  have hu : u.update (some 0) = .ok { u with
      sigmasH := UKF.pushRows (fun v => (1 : Mat 1 1) *ᵥ v) s
      S := (2 : ℝ) • 1, SI := (1 / 2 : ℝ) • 1, K := 1 * ((1 / 2 : ℝ) • 1)
      y := 0 - (1 : Mat 1 1) *ᵥ 0
      x := 0 + (1 * ((1 / 2 : ℝ) • (1 : Mat 1 1))) *ᵥ (0 - (1 : Mat 1 1) *ᵥ 0)
      P := u.P - 1 * ((1 / 2 : ℝ) • 1) * (((2 : ℝ) • 1) * (1 * ((1 / 2 : ℝ) • (1 : Mat 1 1)))ᵀ)
      z := fun i => some ((0 : Vec 1) i)
      xPost := 0 + (1 * ((1 / 2 : ℝ) • (1 : Mat 1 1))) *ᵥ (0 - (1 : Mat 1 1) *ᵥ 0)
      PPost := u.P - 1 * ((1 / 2 : ℝ) • 1) * (((2 : ℝ) • 1) * (1 * ((1 / 2 : ℝ) • (1 : Mat 1 1)))ᵀ)
      logLik := none, lik := none, mahal := none } := by
    simp only [UKF.update, hhx, hR, MatArg.resolve, h1, h2, h3, h4, Option.getD_none, hsf, hut, h5, hinv,
      hx0]
    rw [hcr']
    rfl
  refine ⟨_, hu, ?_, ?_, hsf, rfl, rfl, rfl, rfl, rfl, rfl, fun A => rfl⟩
  · show u.P - _ = _
    congr 1
    ext i j; fin_cases i; fin_cases j; simp
  · simp

/-- **C22, scope.**  The restriction to alternating histories is necessary: one prediction followed by
three measurements leaves the unscented filter with the variance `-1/2`. -/
theorem C22_repeated_updates_refuted {p : SigmaPts 1} (hp : ValidPoints p) :
    ∃ u', runList UkfOp.onUkf
        { UKF.fresh 1 p 1 (fun v => (1 : Mat 1 1) *ᵥ v) (fun v _ => (1 : Mat 1 1) *ᵥ v) with Q := 0 }
        [.predict none, .update (some 0) .none none, .update (some 0) .none none,
          .update (some 0) .none none] = .ok u' ∧ u'.P 0 0 = -1 / 2 := by
  have he := hp.encodes
  obtain ⟨s, hs, -, -⟩ := he.pts 0 1 PosDef.one
  have hut := ut_linear he PosDef.one hs (1 : Mat 1 1) (0 : Mat 1 1)
  have e1 : (1 : Mat 1 1) * 1 * (1 : Mat 1 1)ᵀ + 0 = 1 := by simp
  have e0 : (1 : Mat 1 1) *ᵥ (0 : Vec 1) = 0 := by simp
  rw [e1, e0] at hut
  set u0 : UKF 1 1 p :=
    { UKF.fresh 1 p 1 (fun v => (1 : Mat 1 1) *ᵥ v) (fun v _ => (1 : Mat 1 1) *ᵥ v) with Q := 0 } with hu0
  have hpr : u0.predict none = .ok { u0 with x := 0, P := 1, sigmasF := s, xPrior := 0, PPrior := 1 } := by
    have hs' : p.points u0.x u0.P = .ok s := hs
    have hut' : unscentedTransform (UKF.pushRows (fun v => u0.fx v u0.dt) s) p.Wm p.Wc (some u0.Q)
        u0.xMean u0.residualX = (0, 1) := hut
    simp only [UKF.predict, UKF.computeProcessSigmas, hs', UKF.predictUT, Option.getD_none, hut', hs]
  obtain ⟨u1, a1, a2, a3, a4, a5, a6, a7, a8, a9, a10, a11⟩ := repeat_step he hs
    { u0 with x := 0, P := 1, sigmasF := s, xPrior := 0, PPrior := 1 } rfl rfl rfl rfl rfl rfl rfl rfl
    (fun A => rfl)
  obtain ⟨u2, b1, b2, b3, b4, b5, b6, b7, b8, b9, b10, b11⟩ := repeat_step he hs u1 a3 a4 a5 a6 a7 a8 a9
    a10 (fun A => a11 A)
  obtain ⟨u3, c1, c2, -⟩ := repeat_step he hs u2 b3 b4 (b5.trans a5) (b6.trans a6) (b7.trans a7)
    (b8.trans a8) (b9.trans a9) (b10.trans a10) (fun A => (b11 A).trans (a11 A))
  refine ⟨u3, ?_, ?_⟩
  · simp only [runList, UkfOp.onUkf, hpr, Option.map_none, a1, b1, c1]
  · rw [c2, b2, a2]
    simp
    norm_num

end Filterpy
