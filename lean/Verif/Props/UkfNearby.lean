import Verif.Lemmas.CholNear
import Verif.Props.NonlinearRuns

/-!
# C145 for the unscented Kalman filter
-/

namespace Filterpy

open Matrix Filter Topology Spec SigmaPts

variable {ι : Type} {f : Filter ι} {n m k : ℕ} {p : SigmaPts n}

namespace Spec

/-- The library's sigma points, with a correct Cholesky routine and a continuous `subtract`. -/
inductive ContinuousPoints : SigmaPts n → Prop
  | merwe {alpha beta kappa : ℝ} {chol : Mat n n → Except Err (Mat n n)} {sub : Vec n → Vec n → Vec n} {p : SigmaPts n}
      (hc : IsCholesky chol) (hs : Continuous fun q : Vec n × Vec n => sub q.1 q.2)
      (hp : SigmaPts.merwe n alpha beta kappa chol sub = .ok p) : ContinuousPoints p
  | julier {kappa : ℝ} {chol : Mat n n → Except Err (Mat n n)} {sub : Vec n → Vec n → Vec n} {p : SigmaPts n}
      (hc : IsCholesky chol) (hs : Continuous fun q : Vec n × Vec n => sub q.1 q.2)
      (hp : SigmaPts.julier n kappa chol sub = .ok p) : ContinuousPoints p
  | simplex {chol : Mat n n → Except Err (Mat n n)} {sub : Vec n → Vec n → Vec n}
      (hc : IsCholesky chol) (hs : Continuous fun q : Vec n × Vec n => sub q.1 q.2) :
      ContinuousPoints (SigmaPts.simplex n chol sub)

/-- A call approaches another: the user's functions are the same, and continuous. -/
inductive UkfCallNear (f : Filter ι) : (ι → UkfCall n m) → UkfCall n m → Prop
  | predict {dt : ι → Option ℝ} {dt' : Option ℝ} {fx : Option (Vec n → ℝ → Vec n)} (hd : OptNear f dt dt')
      (hf : ∀ g ∈ fx, Continuous fun q : Vec n × ℝ => g q.1 q.2) :
      UkfCallNear f (fun i => .predict (dt i) fx) (.predict dt' fx)
  | update {z : ι → Vec m} {z' : Vec m} {R : ι → MatArg m} {R' : MatArg m} {hx : Option (Vec n → Vec m)}
      (hz : Tendsto z f (𝓝 z')) (hR : ArgNear f R R') (hh : ∀ g ∈ hx, Continuous g) :
      UkfCallNear f (fun i => .update (some (z i)) (R i) hx) (.update (some z') R' hx)
  | missing {R : ι → MatArg m} {R' : MatArg m} {hx : Option (Vec n → Vec m)} :
      UkfCallNear f (fun i => .update none (R i) hx) (.update none R' hx)

/-- The user's functions of the filter are continuous. -/
structure UkfContinuous (t : UKF n m p) : Prop where
  fx : Continuous fun q : Vec n × ℝ => t.fx q.1 q.2
  hx : Continuous t.hx
  xMean : ∀ g ∈ t.xMean, Continuous fun σ => g σ p.Wm
  zMean : ∀ g ∈ t.zMean, Continuous fun σ => g σ p.Wm
  residualX : ∀ g ∈ t.residualX, Continuous fun q : Vec n × Vec n => g q.1 q.2
  residualZ : ∀ g ∈ t.residualZ, Continuous fun q : Vec m × Vec m => g q.1 q.2
  stateAdd : ∀ g ∈ t.stateAdd, Continuous fun q : Vec n × Vec n => g q.1 q.2

/-- The same user's functions. -/
structure SameFunctions (s t : UKF n m p) : Prop where
  fx : s.fx = t.fx
  hx : s.hx = t.hx
  xMean : s.xMean = t.xMean
  zMean : s.zMean = t.zMean
  residualX : s.residualX = t.residualX
  residualZ : s.residualZ = t.residualZ
  stateAdd : s.stateAdd = t.stateAdd
  inv : @UKF.inv n m p s = @npInv

/-- An unscented Kalman filter approaches another in estimate, noises and sigma points. -/
structure UKFNear (f : Filter ι) (s : ι → UKF n m p) (t : UKF n m p) : Prop where
  same : ∀ i, SameFunctions (s i) t
  inv : @UKF.inv n m p t = @npInv
  dt : Tendsto (fun i => (s i).dt) f (𝓝 t.dt)
  x : Tendsto (fun i => (s i).x) f (𝓝 t.x)
  P : Tendsto (fun i => (s i).P) f (𝓝 t.P)
  Q : Tendsto (fun i => (s i).Q) f (𝓝 t.Q)
  R : Tendsto (fun i => (s i).R) f (𝓝 t.R)
  sigmasF : Tendsto (fun i => (s i).sigmasF) f (𝓝 t.sigmasF)
  xPrior : Tendsto (fun i => (s i).xPrior) f (𝓝 t.xPrior)
  PPrior : Tendsto (fun i => (s i).PPrior) f (𝓝 t.PPrior)
  xPost : Tendsto (fun i => (s i).xPost) f (𝓝 t.xPost)
  PPost : Tendsto (fun i => (s i).PPost) f (𝓝 t.PPost)

end Spec

theorem tendsto_row {A : ι → Mat k n} {A' : Mat k n} (h : Tendsto A f (𝓝 A')) (a : Fin k) :
    Tendsto (fun i => A i a) f (𝓝 (A' a)) := (tendsto_pi_nhds.1 h) a

theorem symmetricSet_near {sub : Vec n → Vec n → Vec n} (hs : Continuous fun q : Vec n × Vec n => sub q.1 q.2)
    {x : ι → Vec n} {x'} {U : ι → Mat n n} {U'} (hx : Tendsto x f (𝓝 x')) (hU : Tendsto U f (𝓝 U')) :
    Tendsto (fun i => symmetricSet sub (x i) (U i)) f (𝓝 (symmetricSet sub x' U')) := by
  refine tendsto_pi_nhds.2 fun a => ?_
  simp only [symmetricSet]
  split_ifs with h0 h1
  · exact hx
  · exact (hs.tendsto (x', _)).comp (hx.prodMk_nhds (tendsto_row hU _).neg)
  · exact (hs.tendsto (x', _)).comp (hx.prodMk_nhds (tendsto_row hU _))

/-- The sigma points depend continuously on mean and covariance, and can be drawn near where they can be drawn. -/
theorem points_near (hp : ContinuousPoints p) {x : ι → Vec n} {x'} {P : ι → Mat n n} {P'} (hx : Tendsto x f (𝓝 x'))
    (hP : Tendsto P f (𝓝 P')) {σ'} (h : p.points x' P' = .ok σ') :
    ∃ σ, (∀ᶠ i in f, p.points (x i) (P i) = .ok (σ i)) ∧ Tendsto σ f (𝓝 σ') := by
  cases hp with
  | @merwe alpha beta kappa chol sub _ hc hs hp =>
    simp only [SigmaPts.merwe] at hp
    split_ifs at hp
    obtain rfl := Except.ok.inj hp
    dsimp only at h ⊢
    set c : ℝ := alpha ^ 2 * (n + kappa) - n + n
    cases hq : chol (c • P') with
    | error e => simp only [hq] at h; cases h
    | ok U' =>
      simp only [hq] at h
      obtain rfl := Except.ok.inj h
      obtain ⟨U, h1, h2⟩ := chol_near hc (hP.const_smul c) hq
      exact ⟨fun i => symmetricSet sub (x i) (U i), h1.mono fun i hi => by simp only [hi], symmetricSet_near hs hx h2⟩
  | @julier kappa chol sub _ hc hs hp =>
    unfold SigmaPts.julier at hp
    split_ifs at hp
    obtain rfl := Except.ok.inj hp
    dsimp only at h ⊢
    set c : ℝ := n + kappa
    cases hq : chol (c • P') with
    | error e => simp only [hq] at h; cases h
    | ok U' =>
      simp only [hq] at h
      obtain rfl := Except.ok.inj h
      obtain ⟨U, h1, h2⟩ := chol_near hc (hP.const_smul c) hq
      exact ⟨fun i => symmetricSet sub (x i) (U i), h1.mono fun i hi => by simp only [hi], symmetricSet_near hs hx h2⟩
  | @simplex chol sub hc hs =>
    dsimp only [SigmaPts.simplex] at h ⊢
    cases hq : chol P' with
    | error e => simp only [hq] at h; cases h
    | ok U' =>
      simp only [hq] at h
      obtain rfl := Except.ok.inj h
      obtain ⟨U, h1, h2⟩ := chol_near hc hP hq
      refine ⟨fun i j => sub (x i) (-(fun a => ((U i)ᵀ * simplexI n) a j)), h1.mono fun i hi => by simp only [hi],
        tendsto_pi_nhds.2 fun j => ?_⟩
      have h3 : Tendsto (fun i a => ((U i)ᵀ * simplexI n) a j) f (𝓝 fun a => (U'ᵀ * simplexI n) a j) :=
        tendsto_row (tendsto_transpose (tendsto_mmul (tendsto_transpose h2) (tendsto_const_nhds (x := simplexI n)))) j
      exact (hs.tendsto (x', _)).comp (hx.prodMk_nhds h3.neg)

theorem pushRows_near {g : ι → Vec n → Vec m} {g' : Vec n → Vec m} {σ : ι → Mat k n} {σ'} 
    (hg : ∀ a, Tendsto (fun i => g i (σ i a)) f (𝓝 (g' (σ' a)))) :
    Tendsto (fun i => UKF.pushRows (g i) (σ i)) f (𝓝 (UKF.pushRows g' σ')) := tendsto_pi_nhds.2 hg

theorem vecMulVec_near {x : ι → Vec n} {x'} {y : ι → Vec m} {y'} (hx : Tendsto x f (𝓝 x')) (hy : Tendsto y f (𝓝 y')) :
    Tendsto (fun i => vecMulVec (x i) (y i)) f (𝓝 (vecMulVec x' y')) :=
  tendsto_pi_nhds.2 fun a => tendsto_pi_nhds.2 fun b => ((tendsto_pi_nhds.1 hx) a).mul ((tendsto_pi_nhds.1 hy) b)

theorem utFold_near {res : Vec n → Vec n → Vec n} (hr : Continuous fun q : Vec n × Vec n => res q.1 q.2) (Wc : Vec k)
    {σ : ι → Mat k n} {σ'} {x : ι → Vec n} {x'} (hσ : Tendsto σ f (𝓝 σ')) (hx : Tendsto x f (𝓝 x')) (l : List (Fin k))
    {A : ι → Mat n n} {A'} (hA : Tendsto A f (𝓝 A')) :
    Tendsto (fun i => l.foldl (utStep (σ i) Wc res (x i)) (A i)) f (𝓝 (l.foldl (utStep σ' Wc res x') A')) := by
  induction l generalizing A A' with
  | nil => exact hA
  | cons a l ih =>
    have hv : Tendsto (fun i => res (σ i a) (x i)) f (𝓝 (res (σ' a) x')) :=
      (hr.tendsto (σ' a, x')).comp ((tendsto_row hσ a).prodMk_nhds hx)
    exact ih (hA.add ((vecMulVec_near hv hv).const_smul (Wc a)))

theorem crossFold_near {resX : Vec n → Vec n → Vec n} {resZ : Vec m → Vec m → Vec m}
    (hX : Continuous fun q : Vec n × Vec n => resX q.1 q.2) (hZ : Continuous fun q : Vec m × Vec m => resZ q.1 q.2)
    (Wc : Vec k) {σ : ι → Mat k n} {σ'} {x : ι → Vec n} {x'} (hσ : Tendsto σ f (𝓝 σ')) (hx : Tendsto x f (𝓝 x'))
    {τ : ι → Mat k m} {τ'} {z : ι → Vec m} {z'} (hτ : Tendsto τ f (𝓝 τ')) (hz : Tendsto z f (𝓝 z')) (l : List (Fin k))
    {A : ι → Mat n m} {A'} (hA : Tendsto A f (𝓝 A')) :
    Tendsto (fun i => l.foldl (UKF.crossStep Wc resX resZ (x i) (z i) (σ i) (τ i)) (A i)) f
      (𝓝 (l.foldl (UKF.crossStep Wc resX resZ x' z' σ' τ') A')) := by
  induction l generalizing A A' with
  | nil => exact hA
  | cons a l ih =>
    have hv : Tendsto (fun i => resX (σ i a) (x i)) f (𝓝 (resX (σ' a) x')) :=
      (hX.tendsto (σ' a, x')).comp ((tendsto_row hσ a).prodMk_nhds hx)
    have hw : Tendsto (fun i => resZ (τ i a) (z i)) f (𝓝 (resZ (τ' a) z')) :=
      (hZ.tendsto (τ' a, z')).comp ((tendsto_row hτ a).prodMk_nhds hz)
    exact ih (hA.add ((vecMulVec_near hv hw).const_smul (Wc a)))

/-- The unscented transform is continuous. -/
theorem ut_near (Wm Wc : Vec k) {mean : Option (Mat k n → Vec k → Vec n)} (hm : ∀ g ∈ mean, Continuous fun σ => g σ Wm)
    {res : Option (Vec n → Vec n → Vec n)} (hr : ∀ g ∈ res, Continuous fun q : Vec n × Vec n => g q.1 q.2)
    {σ : ι → Mat k n} {σ'} (hσ : Tendsto σ f (𝓝 σ')) {N : ι → Mat n n} {N'} (hN : Tendsto N f (𝓝 N')) :
    Tendsto (fun i => (unscentedTransform (σ i) Wm Wc (some (N i)) mean res).1) f
        (𝓝 (unscentedTransform σ' Wm Wc (some N') mean res).1) ∧
      Tendsto (fun i => (unscentedTransform (σ i) Wm Wc (some (N i)) mean res).2) f
        (𝓝 (unscentedTransform σ' Wm Wc (some N') mean res).2) := by
  have h1 : Tendsto (fun i => (unscentedTransform (σ i) Wm Wc (some (N i)) mean res).1) f
      (𝓝 (unscentedTransform σ' Wm Wc (some N') mean res).1) := by
    cases mean with
    | none =>
      have := tendsto_mulVec (tendsto_transpose hσ) (tendsto_const_nhds (x := Wm))
      simp only [mulVec_transpose] at this
      exact this
    | some g => exact ((hm g rfl).tendsto σ').comp hσ
  refine ⟨h1, ?_⟩
  cases res with
  | none =>
    have hy : Tendsto (fun i => (fun a => σ i a - (unscentedTransform (σ i) Wm Wc (some (N i)) mean none).1 : Mat k n)) f
        (𝓝 (fun a => σ' a - (unscentedTransform σ' Wm Wc (some N') mean none).1 : Mat k n)) :=
      tendsto_pi_nhds.2 fun a => (tendsto_row hσ a).sub h1
    exact (tendsto_mmul (tendsto_transpose hy) (tendsto_mmul (tendsto_const_nhds (x := diagonal Wc)) hy)).add hN
  | some g => exact (utFold_near (hr g rfl) Wc hσ h1 _ tendsto_const_nhds).add hN

theorem resFn_continuous {res : Option (Vec n → Vec n → Vec n)} (hr : ∀ g ∈ res, Continuous fun q : Vec n × Vec n => g q.1 q.2) :
    Continuous fun q : Vec n × Vec n => resFn res q.1 q.2 := by
  cases res with
  | none => exact continuous_fst.sub continuous_snd
  | some g => exact hr g rfl

theorem ukf_predictUT_near (hp : ContinuousPoints p) {s : ι → UKF n m p} {t t' : UKF n m p} (hs : UKFNear f s t)
    (hc : UkfContinuous t) (h : t.predictUT = .ok t') :
    ∃ s', (∀ᶠ i in f, (s i).predictUT = .ok (s' i)) ∧ UKFNear f s' t' ∧ UkfContinuous t' := by
  obtain ⟨u1, u2⟩ := ut_near p.Wm p.Wc hc.xMean hc.residualX hs.sigmasF hs.Q
  let w (i : ι) := unscentedTransform (s i).sigmasF p.Wm p.Wc (some (s i).Q) t.xMean t.residualX
  let w' := unscentedTransform t.sigmasF p.Wm p.Wc (some t.Q) t.xMean t.residualX
  simp only [UKF.predictUT] at h
  cases hq : p.points w'.1 w'.2 with
  | error e => simp only [w'] at hq; simp only [hq] at h; cases h
  | ok σ' =>
    obtain ⟨σ, h1, h2⟩ := points_near hp u1 u2 hq
    simp only [w'] at hq
    simp only [hq] at h
    obtain rfl := Except.ok.inj h
    refine ⟨fun i => { s i with x := (w i).1, P := (w i).2, sigmasF := σ i, xPrior := (w i).1, PPrior := (w i).2 },
      h1.mono fun i hi => ?_, ?_, ?_⟩
    · simp only [UKF.predictUT, (hs.same i).xMean, (hs.same i).residualX, hi, w]
    · exact { hs with same := fun i => { hs.same i with }, x := u1, P := u2, sigmasF := h2, xPrior := u1, PPrior := u2 }
    · exact { hc with }

theorem ukf_sigmas_near (hp : ContinuousPoints p) {s : ι → UKF n m p} {t t' : UKF n m p} (hs : UKFNear f s t)
    (hc : UkfContinuous t) {dt : ι → ℝ} {dt' : ℝ} {fx} (hd : Tendsto dt f (𝓝 dt'))
    (hf : ∀ g ∈ fx, Continuous fun q : Vec n × ℝ => g q.1 q.2) (h : t.computeProcessSigmas dt' fx = .ok t') :
    ∃ s', (∀ᶠ i in f, (s i).computeProcessSigmas (dt i) fx = .ok (s' i)) ∧ UKFNear f s' t' ∧ UkfContinuous t' := by
  have hg : Continuous fun q : Vec n × ℝ => fx.getD t.fx q.1 q.2 := by
    cases fx with
    | none => exact hc.fx
    | some g => exact hf g rfl
  simp only [UKF.computeProcessSigmas] at h
  cases hq : p.points t.x t.P with
  | error e => simp only [hq] at h; cases h
  | ok σ' =>
    obtain ⟨σ, h1, h2⟩ := points_near hp hs.x hs.P hq
    simp only [hq] at h
    obtain rfl := Except.ok.inj h
    refine ⟨fun i => { s i with sigmasF := UKF.pushRows (fun v => fx.getD t.fx v (dt i)) (σ i) }, h1.mono fun i hi => ?_,
      ?_, { hc with }⟩
    · simp only [UKF.computeProcessSigmas, hi, (hs.same i).fx]
    · have hF := pushRows_near (g := fun i v => fx.getD t.fx v (dt i)) (g' := fun v => fx.getD t.fx v dt')
        fun a => (hg.tendsto (σ' a, dt')).comp ((tendsto_row h2 a).prodMk_nhds hd)
      exact { hs with same := fun i => { hs.same i with }, sigmasF := hF }

theorem ukf_step_near (hp : ContinuousPoints p) {s : ι → UKF n m p} {t t' : UKF n m p} (hs : UKFNear f s t)
    (hct : UkfContinuous t) {c : ι → UkfCall n m} {c'} (hc : UkfCallNear f c c') (h : c'.on t = .ok t') :
    ∃ s', (∀ᶠ i in f, (c i).on (s i) = .ok (s' i)) ∧ UKFNear f s' t' ∧ UkfContinuous t' := by
  cases hc with
  | @predict dt dt' fx hd hf =>
    simp only [UkfCall.on, UKF.predict] at h
    cases hq : t.computeProcessSigmas (dt'.getD t.dt) fx with
    | error e => rw [hq] at h; cases h
    | ok t1 =>
      rw [hq] at h
      obtain ⟨s1, g1, g2, g3⟩ := ukf_sigmas_near hp hs hct (hd.getD hs.dt) hf hq
      obtain ⟨s2, k1, k2, k3⟩ := ukf_predictUT_near hp g2 g3 h
      refine ⟨s2, (g1.and k1).mono fun i hi => ?_, k2, k3⟩
      simp only [UkfCall.on, UKF.predict, hi.1, hi.2]
  | @update z z' R R' hx hz hR hh =>
    have hg : Continuous (hx.getD t.hx) := by
      cases hx with
      | none => exact hct.hx
      | some g => exact hh g rfl
    simp only [UkfCall.on, UKF.update] at h
    have hR' := hR.resolve hs.R
    have hH := pushRows_near (g := fun _ => hx.getD t.hx) (g' := hx.getD t.hx)
      fun a => (hg.tendsto (t.sigmasF a)).comp (tendsto_row hs.sigmasF a)
    obtain ⟨u1, u2⟩ := ut_near p.Wm p.Wc hct.zMean hct.residualZ hH hR'
    have hX := resFn_continuous hct.residualX
    have hZ := resFn_continuous hct.residualZ
    have hPxz := crossFold_near hX hZ p.Wc hs.sigmasF hs.x hH u1 (List.finRange p.num) (tendsto_const_nhds (x := (0 : Mat n m)))
    have hy := (hZ.tendsto (z', _)).comp (hz.prodMk_nhds u1)
    have hadd : Continuous fun q : Vec n × Vec n => (t.stateAdd.getD fun a b => a + b) q.1 q.2 := by
      cases hq : t.stateAdd with
      | none => exact continuous_fst.add continuous_snd
      | some g => exact hct.stateAdd g hq
    cases hq : t.inv (unscentedTransform (UKF.pushRows (hx.getD t.hx) t.sigmasF) p.Wm p.Wc (some (R'.resolve t.R)) t.zMean t.residualZ).2 with
    | none => simp only [hq] at h; cases h
    | some SI =>
      simp only [hq] at h
      rw [hs.inv] at hq
      obtain ⟨h1, h2⟩ := npInv_eventually u2 hq
      have hK := tendsto_mmul hPxz h2
      have hxn := (hadd.tendsto (t.x, _)).comp (hs.x.prodMk_nhds (tendsto_mulVec hK hy))
      have hPn := hs.P.sub (tendsto_mmul hK (tendsto_mmul u2 (tendsto_transpose hK)))
      obtain rfl := Except.ok.inj h
      let sH (i : ι) := UKF.pushRows (hx.getD t.hx) (s i).sigmasF
      let zS (i : ι) := unscentedTransform (sH i) p.Wm p.Wc (some ((R i).resolve (s i).R)) t.zMean t.residualZ
      let K (i : ι) := UKF.crossVariance p.Wc (resFn t.residualX) (resFn t.residualZ) (s i).x (zS i).1 (s i).sigmasF (sH i) * (zS i).2⁻¹
      let y (i : ι) := resFn t.residualZ (z i) (zS i).1
      let x (i : ι) := (t.stateAdd.getD fun a b => a + b) (s i).x (K i *ᵥ y i)
      let P (i : ι) := (s i).P - K i * ((zS i).2 * (K i)ᵀ)
      refine ⟨fun i => { s i with
        sigmasH := sH i, S := (zS i).2, SI := (zS i).2⁻¹, K := K i, y := y i, x := x i, P := P i
        z := fun j => some (z i j), xPost := x i, PPost := P i
        logLik := none, lik := none, mahal := none }, h1.mono fun i hi => ?_, ?_, { hct with }⟩
      · have hi' : (s i).inv (zS i).2 = some (zS i).2⁻¹ := by rw [(hs.same i).inv]; exact hi
        simp only [zS, sH] at hi'
        simp only [UkfCall.on, UKF.update, (hs.same i).hx, (hs.same i).zMean, (hs.same i).residualX,
          (hs.same i).residualZ, (hs.same i).stateAdd, hi']
        rfl
      · exact { hs with same := fun i => { hs.same i with }, x := hxn, P := hPn, xPost := hxn, PPost := hPn }
  | missing =>
    obtain rfl := Except.ok.inj h
    exact ⟨_, .of_forall fun i => rfl, { hs with same := fun i => { hs.same i with }, xPost := hs.x, PPost := hs.P },
      { hct with }⟩

/-- **C145 (unscented Kalman filter).** With any of the library's sigma points and continuous user functions, if a
sequence of calls on an UnscentedKalmanFilter succeeds, sequences of calls that approach it, on filters that approach
the given one, succeed as well from some point on, and their estimates approach the given ones. -/
theorem C145_ukf (hp : ContinuousPoints p) {s : ι → UKF n m p} {t t' : UKF n m p} (hs : UKFNear f s t)
    (hct : UkfContinuous t) {calls : List ((ι → UkfCall n m) × UkfCall n m)}
    (hc : ∀ q ∈ calls, UkfCallNear f q.1 q.2) (h : runList UkfCall.on t (calls.map Prod.snd) = .ok t') :
    ∃ s', (∀ᶠ i in f, runList UkfCall.on (s i) (calls.map fun q => q.1 i) = .ok (s' i)) ∧ UKFNear f s' t' := by
  induction calls generalizing s t with
  | nil => obtain rfl := Except.ok.inj h; exact ⟨s, .of_forall fun i => rfl, hs⟩
  | cons q calls ih =>
    simp only [List.map_cons, runList] at h
    cases hq : q.2.on t with
    | error e => rw [hq] at h; cases h
    | ok t1 =>
      rw [hq] at h
      obtain ⟨s1, g1, g2, g3⟩ := ukf_step_near hp hs hct (hc q (List.mem_cons_self ..)) hq
      obtain ⟨s', k1, k2⟩ := ih g2 g3 (fun q hq => hc q (List.mem_cons_of_mem _ hq)) h
      refine ⟨s', (g1.and k1).mono fun i hi => ?_, k2⟩
      simp only [List.map_cons, runList, hi.1]
      exact hi.2

/-- A nonlinear filter with simplex points: a prediction, a measurement and another prediction. -/
example (z : ℕ → Vec 1) (z' : Vec 1) (hz : Tendsto z atTop (𝓝 z')) : ∃ (p : SigmaPts 2) (s : UKF 2 1 p) (t' : UKF 2 1 p)
    (s' : ℕ → UKF 2 1 p), ContinuousPoints p ∧
      runList UkfCall.on s [.predict none none, .update (some z') .none none, .predict none none] = .ok t' ∧
      (∀ᶠ i in atTop, runList UkfCall.on s [.predict none none, .update (some (z i)) .none none, .predict none none] = .ok (s' i)) ∧
      Tendsto (fun i => (s' i).x) atTop (𝓝 t'.x) ∧ Tendsto (fun i => (s' i).P) atTop (𝓝 t'.P) := by
  obtain ⟨chol, hc⟩ := isCholesky_exists (n := 2)
  let s : UKF 2 1 (simplex 2 chol) := UKF.fresh 1 _ 1 (fun v => ![√(v 0 ^ 2 + v 1 ^ 2)]) fun v dt a => v a + dt * Real.sin (v a)
  have hp : ContinuousPoints (simplex 2 chol) := .simplex hc (continuous_fst.sub continuous_snd)
  obtain ⟨t', ht, -⟩ := C118_ukf (.simplex chol (by norm_num) hc.upper) s ⟨rfl, Or.inr (C118_simplex chol).2⟩ (fun _ => rfl)
    Matrix.PosDef.one Matrix.PosDef.one.posSemidef Matrix.PosDef.one Matrix.PosDef.one
    [.predict none none, .update (some z') .none none, .predict none none] ⟨rfl, trivial⟩ (by
      intro op hop
      simp only [List.mem_cons, List.not_mem_nil, or_false] at hop
      rcases hop with rfl | rfl | rfl
      · exact ⟨trivial, Or.inl Matrix.PosDef.one⟩
      · exact ⟨Matrix.PosDef.one, trivial⟩
      · exact ⟨trivial, Or.inl Matrix.PosDef.one⟩)
  have hcont : UkfContinuous s := by
    refine ⟨?_, ?_, ?_, ?_, ?_, ?_, ?_⟩ <;> try exact fun _ h => by cases h
    · show Continuous fun (q : Vec 2 × ℝ) a => q.1 a + q.2 * Real.sin (q.1 a)
      fun_prop
    · refine continuous_pi fun a => ?_
      fin_cases a
      show Continuous fun v : Vec 2 => √(v 0 ^ 2 + v 1 ^ 2)
      fun_prop
  obtain ⟨s', h1, h2⟩ := C145_ukf (f := atTop) hp (s := fun _ : ℕ => s) (t := s)
    ⟨fun _ => ⟨rfl, rfl, rfl, rfl, rfl, rfl, rfl, rfl⟩, rfl, tendsto_const_nhds, tendsto_const_nhds, tendsto_const_nhds,
      tendsto_const_nhds, tendsto_const_nhds, tendsto_const_nhds, tendsto_const_nhds, tendsto_const_nhds,
      tendsto_const_nhds, tendsto_const_nhds⟩ hcont
    (calls := [(fun _ => .predict none none, .predict none none), (fun i => .update (some (z i)) .none none, .update (some z') .none none),
      (fun _ => .predict none none, .predict none none)]) (by
      intro q hq
      simp only [List.mem_cons, List.not_mem_nil, or_false] at hq
      rcases hq with rfl | rfl | rfl
      · exact .predict .none fun _ h => by cases h
      · exact .update hz .none fun _ h => by cases h
      · exact .predict .none fun _ h => by cases h) ht
  exact ⟨_, s, t', s', hp, ht, h1, h2.x, h2.P⟩

/-! ## The cubature filter -/

namespace Spec

/-- A call approaches another. -/
inductive CkfCallNear (f : Filter ι) : (ι → CkfCall m) → CkfCall m → Prop
  | predict {dt : ι → Option ℝ} {dt' : Option ℝ} (hd : OptNear f dt dt') : CkfCallNear f (fun i => .predict (dt i)) (.predict dt')
  | update {z : ι → Vec m} {z' : Vec m} {R : ι → MatArg m} {R' : MatArg m} (hz : Tendsto z f (𝓝 z')) (hR : ArgNear f R R') :
      CkfCallNear f (fun i => .update (some (z i)) (R i)) (.update (some z') R')
  | missing {R : ι → MatArg m} {R' : MatArg m} : CkfCallNear f (fun i => .update none (R i)) (.update none R')

/-- A cubature Kalman filter approaches another, with the same, continuous, user's functions. -/
structure CKFNear (f : Filter ι) (s : ι → CKF n m) (t : CKF n m) : Prop where
  sameF : ∀ i, (s i).fx = t.fx
  sameH : ∀ i, (s i).hx = t.hx
  sameR : ∀ i, (s i).residualZ = t.residualZ
  fx : Continuous fun q : Vec n × ℝ => t.fx q.1 q.2
  hx : Continuous t.hx
  residualZ : ∀ g ∈ t.residualZ, Continuous fun q : Vec m × Vec m => g q.1 q.2
  dt : Tendsto (fun i => (s i).dt) f (𝓝 t.dt)
  x : Tendsto (fun i => (s i).x) f (𝓝 t.x)
  P : Tendsto (fun i => (s i).P) f (𝓝 t.P)
  Q : Tendsto (fun i => (s i).Q) f (𝓝 t.Q)
  R : Tendsto (fun i => (s i).R) f (𝓝 t.R)
  sigmasF : Tendsto (fun i => (s i).sigmasF) f (𝓝 t.sigmasF)
  xPrior : Tendsto (fun i => (s i).xPrior) f (𝓝 t.xPrior)
  PPrior : Tendsto (fun i => (s i).PPrior) f (𝓝 t.PPrior)
  xPost : Tendsto (fun i => (s i).xPost) f (𝓝 t.xPost)
  PPost : Tendsto (fun i => (s i).PPost) f (𝓝 t.PPost)

end Spec

theorem radial_near {chol : Mat n n → Except Err (Mat n n)} (hc : IsCholesky chol) {x : ι → Vec n} {x'} {P : ι → Mat n n} {P'}
    (hx : Tendsto x f (𝓝 x')) (hP : Tendsto P f (𝓝 P')) {σ'} (h : sphericalRadialSigmas chol x' P' = .ok σ') :
    ∃ σ, (∀ᶠ i in f, sphericalRadialSigmas chol (x i) (P i) = .ok (σ i)) ∧ Tendsto σ f (𝓝 σ') := by
  simp only [sphericalRadialSigmas] at h ⊢
  cases hq : chol P' with
  | error e => simp only [hq] at h; cases h
  | ok C' =>
    simp only [hq] at h
    obtain rfl := Except.ok.inj h
    obtain ⟨C, h1, h2⟩ := chol_near hc hP hq
    have h3 := h2.const_smul (Real.sqrt n)
    refine ⟨fun i => rows fun a => if h : (a : ℕ) < n then x i + (Real.sqrt n • C i) ⟨a, h⟩
      else x i - (Real.sqrt n • C i) ⟨a - n, by omega⟩, h1.mono fun i hi => by simp only [hi], tendsto_pi_nhds.2 fun a => ?_⟩
    simp only [rows]
    split_ifs with ha
    · exact hx.add (tendsto_row h3 _)
    · exact hx.sub (tendsto_row h3 _)

theorem ckfFold_near {σ : ι → Mat k n} {σ'} {x : ι → Vec n} {x'} (hσ : Tendsto σ f (𝓝 σ')) (hx : Tendsto x f (𝓝 x'))
    (l : List (Fin k)) {A : ι → Mat n n} {A'} (hA : Tendsto A f (𝓝 A')) :
    Tendsto (fun i => l.foldl (ckfStep (σ i) (x i)) (A i)) f (𝓝 (l.foldl (ckfStep σ' x') A')) := by
  induction l generalizing A A' with
  | nil => exact hA
  | cons a l ih =>
    exact ih (hA.add ((vecMulVec_near (tendsto_row hσ a) (tendsto_row hσ a)).sub (vecMulVec_near hx hx)))

theorem ckf_transform_near {σ : ι → Mat k n} {σ'} (hσ : Tendsto σ f (𝓝 σ')) {N : ι → Mat n n} {N'} (hN : Tendsto N f (𝓝 N')) :
    Tendsto (fun i => (ckfTransform (σ i) (N i)).1) f (𝓝 (ckfTransform σ' N').1) ∧
      Tendsto (fun i => (ckfTransform (σ i) (N i)).2) f (𝓝 (ckfTransform σ' N').2) := by
  have h1 : Tendsto (fun i => (ckfTransform (σ i) (N i)).1) f (𝓝 (ckfTransform σ' N').1) :=
    tendsto_pi_nhds.2 fun j => (tendsto_finsetSum _ fun a _ => (tendsto_pi_nhds.1 (tendsto_row hσ a)) j).div_const _
  exact ⟨h1, ((ckfFold_near hσ h1 _ tendsto_const_nhds).const_smul _).add hN⟩

theorem outerSum_near {σ : ι → Mat k n} {σ'} {τ : ι → Mat k m} {τ'} (hσ : Tendsto σ f (𝓝 σ')) (hτ : Tendsto τ f (𝓝 τ')) :
    Tendsto (fun i => outerSum (σ i) (τ i)) f (𝓝 (outerSum σ' τ')) :=
  tendsto_pi_nhds.2 fun a => tendsto_pi_nhds.2 fun b => tendsto_finsetSum _ fun j _ =>
    ((tendsto_pi_nhds.1 (tendsto_row hσ j)) a).mul ((tendsto_pi_nhds.1 (tendsto_row hτ j)) b)

theorem ckf_step_near {chol : Mat n n → Except Err (Mat n n)} (hch : IsCholesky chol) {s : ι → CKF n m} {t t' : CKF n m}
    (hs : CKFNear f s t) {c : ι → CkfCall m} {c'} (hc : CkfCallNear f c c') (h : c'.on chol t = .ok t') :
    ∃ s', (∀ᶠ i in f, (c i).on chol (s i) = .ok (s' i)) ∧ CKFNear f s' t' := by
  cases hc with
  | @predict dt dt' hd =>
    simp only [CkfCall.on, CKF.predict] at h
    cases hq : sphericalRadialSigmas chol t.x t.P with
    | error e => simp only [hq] at h; cases h
    | ok σ' =>
      simp only [hq] at h
      obtain rfl := Except.ok.inj h
      obtain ⟨σ, h1, h2⟩ := radial_near hch hs.x hs.P hq
      have hF : Tendsto (fun i => rows fun a => t.fx (σ i a) ((dt i).getD (s i).dt)) f
          (𝓝 (rows fun a => t.fx (σ' a) (dt'.getD t.dt))) :=
        tendsto_pi_nhds.2 fun a => (hs.fx.tendsto (σ' a, dt'.getD t.dt)).comp ((tendsto_row h2 a).prodMk_nhds (hd.getD hs.dt))
      obtain ⟨u1, u2⟩ := ckf_transform_near hF hs.Q
      let sF (i : ι) := rows fun a => t.fx (σ i a) ((dt i).getD (s i).dt)
      let w (i : ι) := ckfTransform (sF i) (s i).Q
      refine ⟨fun i => { s i with sigmasF := sF i, x := (w i).1, P := (w i).2, xPrior := (w i).1, PPrior := (w i).2 },
        h1.mono fun i hi => ?_, { hs with sigmasF := hF, x := u1, P := u2, xPrior := u1, PPrior := u2 }⟩
      simp only [CkfCall.on, CKF.predict, hi, hs.sameF i, w, sF]
  | @update z z' R R' hz hR =>
    simp only [CkfCall.on, CKF.update, Option.map_some] at h
    have hR' := hR.resolve hs.R
    have hH : Tendsto (fun i => rows fun a => t.hx ((s i).sigmasF a)) f (𝓝 (rows fun a => t.hx (t.sigmasF a))) :=
      tendsto_pi_nhds.2 fun a => (hs.hx.tendsto (t.sigmasF a)).comp (tendsto_row hs.sigmasF a)
    obtain ⟨u1, u2⟩ := ckf_transform_near hH hR'
    have hZ : Continuous fun q : Vec m × Vec m => (t.residualZ.getD fun a b => a - b) q.1 q.2 := by
      cases hq : t.residualZ with
      | none => exact continuous_fst.sub continuous_snd
      | some g => exact hs.residualZ g hq
    have hPxz := (outerSum_near (σ := fun i => rows fun a => (s i).sigmasF a - (s i).x) (σ' := rows fun a => t.sigmasF a - t.x)
      (tendsto_pi_nhds.2 fun a => (tendsto_row hs.sigmasF a).sub hs.x)
      (tendsto_pi_nhds.2 fun a => (tendsto_row hH a).sub u1)).const_smul ((1 : ℝ) / (2 * n : ℕ))
    have hy := (hZ.tendsto (z', _)).comp (hz.prodMk_nhds u1)
    cases hq : npInv (ckfTransform (rows fun a => t.hx (t.sigmasF a)) (R'.resolve t.R)).2 with
    | none => simp only [hq] at h; cases h
    | some SI =>
      simp only [hq] at h
      obtain ⟨h1, h2⟩ := npInv_eventually u2 hq
      have hK := tendsto_mmul hPxz h2
      have hxn := hs.x.add (tendsto_mulVec hK hy)
      have hPn := hs.P.sub (tendsto_mmul (tendsto_mmul hK u2) (tendsto_transpose hK))
      obtain rfl := Except.ok.inj h
      let sH (i : ι) := rows fun a => t.hx ((s i).sigmasF a)
      let zS (i : ι) := ckfTransform (sH i) ((R i).resolve (s i).R)
      let K (i : ι) := (((1 : ℝ) / (2 * n : ℕ)) • outerSum (rows fun a => (s i).sigmasF a - (s i).x) (rows fun a => sH i a - (zS i).1)) * (zS i).2⁻¹
      let y (i : ι) := (t.residualZ.getD fun a b => a - b) (z i) (zS i).1
      let x (i : ι) := (s i).x + K i *ᵥ y i
      let P (i : ι) := (s i).P - K i * (zS i).2 * (K i)ᵀ
      refine ⟨fun i => { s i with
        sigmasH := sH i, S := (zS i).2, SI := (zS i).2⁻¹, K := K i, y := y i, x := x i, P := P i
        z := fun j => some (z i j), xPost := x i, PPost := P i
        logLik := none, lik := none, mahal := none, yArray := true }, h1.mono fun i hi => ?_, ?_⟩
      · have hi' : npInv (zS i).2 = some (zS i).2⁻¹ := hi
        simp only [zS, sH] at hi'
        simp only [CkfCall.on, CKF.update, Option.map_some, hs.sameH i, hs.sameR i, hi']
        rfl
      · exact { hs with x := hxn, P := hPn, xPost := hxn, PPost := hPn }
  | missing =>
    obtain rfl := Except.ok.inj h
    exact ⟨_, .of_forall fun i => rfl, { hs with xPost := hs.x, PPost := hs.P }⟩

/-- **C145 (cubature Kalman filter).** The same for a CubatureKalmanFilter. -/
theorem C145_ckf {chol : Mat n n → Except Err (Mat n n)} (hch : IsCholesky chol) {s : ι → CKF n m} {t t' : CKF n m}
    (hs : CKFNear f s t) {calls : List ((ι → CkfCall m) × CkfCall m)} (hc : ∀ q ∈ calls, CkfCallNear f q.1 q.2)
    (h : runList (CkfCall.on chol) t (calls.map Prod.snd) = .ok t') :
    ∃ s', (∀ᶠ i in f, runList (CkfCall.on chol) (s i) (calls.map fun q => q.1 i) = .ok (s' i)) ∧ CKFNear f s' t' := by
  induction calls generalizing s t with
  | nil => obtain rfl := Except.ok.inj h; exact ⟨s, .of_forall fun i => rfl, hs⟩
  | cons q calls ih =>
    simp only [List.map_cons, runList] at h
    cases hq : q.2.on chol t with
    | error e => rw [hq] at h; cases h
    | ok t1 =>
      rw [hq] at h
      obtain ⟨s1, g1, g2⟩ := ckf_step_near hch hs (hc q (List.mem_cons_self ..)) hq
      obtain ⟨s', k1, k2⟩ := ih g2 (fun q hq => hc q (List.mem_cons_of_mem _ hq)) h
      refine ⟨s', (g1.and k1).mono fun i hi => ?_, k2⟩
      simp only [List.map_cons, runList, hi.1]
      exact hi.2

end Filterpy
