import Verif.Props.KalmanStochastic
import Verif.Props.KalmanSequential

/-!
# Innovations are white (C78)
-/

namespace Filterpy

open MeasureTheory ProbabilityTheory Matrix Spec KF

variable {Ω : Type*} [MeasurableSpace Ω] {μ : Measure Ω} [IsProbabilityMeasure μ]
variable {n m l k : ℕ}

omit [MeasurableSpace Ω] in
/-- One event in all outcomes at once: the new error is a fixed linear function of the old error and
of the noise of the event. -/
theorem ens_step {kf0 : KF n m l} {kf : Ω → KF n m l} {X : Ω → Vec n} {P : Mat n n}
    (hE : Ens kf P kf0) (e : Event Ω n m l) {c : Ω → KF n m l × Vec n}
    (hc : ∀ ω, worldStep ω (kf ω, X ω) e = .ok (c ω)) :
    ∃ (A : Mat n n) (B : Mat n e.dim),
      Ens (fun ω => (c ω).1) (A * P * Aᵀ + B * e.noiseCov kf0.Q kf0.R * Bᵀ) kf0 ∧
      ∀ ω, (c ω).2 - (c ω).1.x = A *ᵥ (X ω - (kf ω).x) + B *ᵥ e.noise ω := by
  cases e with
  | move u B F Q w =>
    have hc' : ∀ ω, (kf ω).predict (uArg u) B F Q = .ok (c ω).1 ∧
        (c ω).2 = (F.getD kf0.F) *ᵥ X ω + controlEffect (B.or kf0.B) u + w ω := by
      intro ω
      have h := hc ω
      simp only [worldStep] at h
      cases hp : (kf ω).predict (uArg u) B F Q with
      | error err => rw [hp] at h; cases h
      | ok s' =>
        rw [hp] at h
        injection h with h'
        rw [← h', hE.F ω, hE.B ω]; exact ⟨rfl, rfl⟩
    refine ⟨F.getD kf0.F, (1 : Mat n n), ⟨?_, ?_, ?_, ?_, ?_, ?_, ?_, ?_⟩, fun ω => ?_⟩
    · intro ω
      obtain ⟨x, hx⟩ := predict_ok (hc' ω).1
      rw [hx]
      simp only [hE.alpha ω, hE.P ω, hE.F ω, hE.Q ω, one_smul, Event.noiseCov]
      show _ = _ + (1 : Mat n n) * Q.resolve kf0.Q * (1 : Mat n n)ᵀ
      rw [transpose_one, Matrix.mul_one, Matrix.one_mul]
    iterate 7
      intro ω
      obtain ⟨x, hx⟩ := predict_ok (hc' ω).1
      rw [hx]
      first | exact hE.F ω | exact hE.B ω | exact hE.Q ω | exact hE.H ω | exact hE.R ω |
        exact hE.alpha ω | exact hE.inv ω
    · rw [(hc' ω).2, predict_truth (hc' ω).1, hE.F ω, hE.B ω, Matrix.mulVec_sub]
      show _ = _ + (1 : Mat n n) *ᵥ w ω
      rw [Matrix.one_mulVec]
      abel
  | measure R H v =>
    have hc' : ∀ ω, (kf ω).update (some ((H.getD kf0.H) *ᵥ X ω + v ω)) R H = .ok (c ω).1 ∧
        (c ω).2 = X ω := by
      intro ω
      have h := hc ω
      simp only [worldStep] at h
      cases hp : (kf ω).update (some ((H.getD (kf ω).H) *ᵥ X ω + v ω)) R H with
      | error err => rw [hp] at h; cases h
      | ok s' =>
        rw [hp] at h
        injection h with h'
        rw [← h', ← hE.H ω]; exact ⟨hp, rfl⟩
    set H' := H.getD kf0.H with hH'
    set R' := R.resolve kf0.R with hR'
    obtain ⟨SI, hSI⟩ : ∃ SI, ∀ ω : Ω, kf0.inv (H' * (P * H'ᵀ) + R') = some SI := by
      cases hi : kf0.inv (H' * (P * H'ᵀ) + R') with
      | some SI => exact ⟨SI, fun _ => rfl⟩
      | none =>
        refine ⟨0, fun ω => ?_⟩
        obtain ⟨SI, h1, _⟩ := update_ok (hc' ω).1
        rw [hE.inv ω, hE.P ω, hE.H ω, hE.R ω, ← hH', ← hR', hi] at h1
        cases h1
    set K := P * H'ᵀ * SI with hK
    have hupd : ∀ ω, (c ω).1.x = (kf ω).x + K *ᵥ (H' *ᵥ X ω + v ω - H' *ᵥ (kf ω).x) ∧
        (c ω).1.P = (1 - K * H') * P * (1 - K * H')ᵀ + K * R' * Kᵀ := by
      intro ω
      obtain ⟨SI', h1, h2⟩ := update_ok (hc' ω).1
      rw [hE.inv ω, hE.P ω, hE.H ω, hE.R ω, ← hH', ← hR', hSI ω] at h1
      cases h1
      rw [h2]; simp only [hE.P ω, hE.H ω, hE.R ω, ← hH', ← hR', ← hK]
      exact ⟨trivial, trivial⟩
    refine ⟨1 - K * H', (-K : Mat n m), ⟨?_, ?_, ?_, ?_, ?_, ?_, ?_, ?_⟩, fun ω => ?_⟩
    · intro ω
      show (c ω).1.P = _ + (-K : Mat n m) * R' * (-K : Mat n m)ᵀ
      rw [(hupd ω).2]; simp
    iterate 7
      intro ω
      obtain ⟨x, _, hx⟩ := update_ok (hc' ω).1
      rw [hx]
      first | exact hE.F ω | exact hE.B ω | exact hE.Q ω | exact hE.H ω | exact hE.R ω |
        exact hE.alpha ω | exact hE.inv ω
    · show _ = _ + (-K : Mat n m) *ᵥ v ω
      rw [(hc' ω).2, (hupd ω).1]
      simp only [Matrix.sub_mulVec, Matrix.mulVec_sub, Matrix.mulVec_add, Matrix.one_mulVec,
        ← Matrix.mulVec_mulVec, Matrix.neg_mulVec]
      abel
  | miss =>
    have hc' : ∀ ω, c ω = ((kf ω).updateNone, X ω) := by
      intro ω
      have h := hc ω
      simp only [worldStep, KF.update] at h
      injection h with h; exact h.symm
    refine ⟨1, (0 : Mat n 0), ⟨?_, ?_, ?_, ?_, ?_, ?_, ?_, ?_⟩, fun ω => ?_⟩
    · intro ω
      rw [hc' ω]
      show (kf ω).P = _ + (0 : Mat n 0) * (0 : Mat 0 0) * (0 : Mat n 0)ᵀ
      rw [hE.P ω]; simp
    iterate 7
      intro ω
      rw [hc' ω]
      first | exact hE.F ω | exact hE.B ω | exact hE.Q ω | exact hE.H ω |
        exact hE.R ω | exact hE.alpha ω | exact hE.inv ω
    · rw [hc' ω]
      show _ = _ + (0 : Mat n 0) *ᵥ (fun _ => 0)
      simp [KF.updateNone]

omit [MeasurableSpace Ω] in
/-- Splitting a run. -/
theorem worldRun_append (ω : Ω) (c : KF n m l × Vec n) (a b : List (Event Ω n m l))
    {d : KF n m l × Vec n} (h : worldRun ω c (a ++ b) = .ok d) :
    ∃ c', worldRun ω c a = .ok c' ∧ worldRun ω c' b = .ok d := by
  induction a generalizing c with
  | nil => exact ⟨c, rfl, h⟩
  | cons e a ih =>
    simp only [List.cons_append, worldRun] at h ⊢
    cases hs : worldStep ω c e with
    | error err => rw [hs] at h; cases h
    | ok c1 =>
      rw [hs] at h
      obtain ⟨c', h1, h2⟩ := ih c1 h
      exact ⟨c', h1, h2⟩

/-- A whole history in all outcomes at once: the error stays an affine image of the initial error
and the noises, so whatever is uncorrelated with those is uncorrelated with it. -/
theorem ens_run (evs : List (Event Ω n m l)) {kf0 : KF n m l} {kf : Ω → KF n m l} {X : Ω → Vec n}
    {P : Mat n n} (hE : Ens kf P kf0) (hN : NoiseOK (fun ω => X ω - (kf ω).x) μ P)
    (hns : ∀ e ∈ evs, NoiseOK e.noise μ (e.noiseCov kf0.Q kf0.R))
    (hin : ∀ e ∈ evs, covMat (fun ω => X ω - (kf ω).x) e.noise μ = 0)
    (hpw : evs.Pairwise fun a b => covMat a.noise b.noise μ = 0)
    {fin : Ω → KF n m l × Vec n} (hr : ∀ ω, worldRun ω (kf ω, X ω) evs = .ok (fin ω)) :
    ∃ P', Ens (fun ω => (fin ω).1) P' kf0 ∧
      NoiseOK (fun ω => (fin ω).2 - (fin ω).1.x) μ P' ∧
      ∀ (j : ℕ) (Y : Ω → Vec j), SqInt Y μ → covMat (fun ω => X ω - (kf ω).x) Y μ = 0 →
        (∀ e ∈ evs, covMat e.noise Y μ = 0) →
        covMat (fun ω => (fin ω).2 - (fin ω).1.x) Y μ = 0 := by
  induction evs generalizing kf X P with
  | nil =>
    have : fin = fun ω => (kf ω, X ω) := by
      funext ω; have := hr ω; simp only [worldRun, Except.ok.injEq] at this; exact this.symm
    subst this
    exact ⟨P, hE, hN, fun j Y _ h _ => h⟩
  | cons e evs ih =>
    obtain ⟨hhd, htl⟩ := List.pairwise_cons.1 hpw
    have hne := hns e (by simp)
    have hie := hin e (by simp)
    have hstep : ∀ ω, ∃ c, worldStep ω (kf ω, X ω) e = .ok c ∧ worldRun ω c evs = .ok (fin ω) := by
      intro ω
      have h := hr ω
      simp only [worldRun] at h
      cases hs : worldStep ω (kf ω, X ω) e with
      | error err => rw [hs] at h; cases h
      | ok c => rw [hs] at h; exact ⟨c, rfl, h⟩
    choose c hc hcr using hstep
    obtain ⟨A, B, hE', herr⟩ := ens_step hE e hc
    have herr' : (fun ω => (c ω).2 - (c ω).1.x) =
        fun ω => A *ᵥ (X ω - (kf ω).x) + B *ᵥ e.noise ω := funext herr
    obtain ⟨P', h1, h2, h3⟩ := ih (kf := fun ω => (c ω).1) (X := fun ω => (c ω).2) hE'
      (by rw [herr']; exact noise_mulVec_add hN hne hie A B)
      (fun e he => hns e (by simp [he]))
      (fun e' he' => by
        rw [herr']
        exact cov_mulVec_add_right hN.sq hne.sq (hns e' (by simp [he'])).sq
          (hin e' (by simp [he'])) (hhd e' he') _ _) htl hcr
    refine ⟨P', h1, h2, fun j Y hY h0 hYs => h3 j Y hY ?_ fun e he => hYs e (by simp [he])⟩
    rw [herr']
    exact cov_mulVec_add_right hN.sq hne.sq hY h0 (hYs e (by simp)) _ _

/-- What one measurement does in all outcomes: the residual is `H e + v`, its covariance is `S`, and
the new error is uncorrelated with it. -/
theorem innov_step {kf0 : KF n m l} (hinv : kf0.inv = npInv) {kf : Ω → KF n m l} {X : Ω → Vec n}
    {P : Mat n n} (hE : Ens kf P kf0) (hN : NoiseOK (fun ω => X ω - (kf ω).x) μ P)
    (R : MatArg m) (H : Option (Mat m n)) {v : Ω → Vec m}
    (hv : NoiseOK v μ (R.resolve kf0.R)) (hev : covMat (fun ω => X ω - (kf ω).x) v μ = 0)
    {c : Ω → KF n m l × Vec n}
    (hc : ∀ ω, worldStep ω (kf ω, X ω) (.measure R H v) = .ok (c ω)) :
    (∀ ω, (c ω).1.y = H.getD kf0.H *ᵥ (X ω - (kf ω).x) + (1 : Mat m m) *ᵥ v ω) ∧
    (∀ ω, NoiseOK (fun ω => (c ω).1.y) μ (c ω).1.S) ∧
    covMat (fun ω => (c ω).2 - (c ω).1.x) (fun ω => (c ω).1.y) μ = 0 := by
  set H' := H.getD kf0.H with hH'
  set R' := R.resolve kf0.R with hR'
  have hc' : ∀ ω, (kf ω).update (some (H' *ᵥ X ω + v ω)) R H = .ok (c ω).1 ∧ (c ω).2 = X ω := by
    intro ω
    have h := hc ω
    simp only [worldStep] at h
    cases hp : (kf ω).update (some ((H.getD (kf ω).H) *ᵥ X ω + v ω)) R H with
    | error err => rw [hp] at h; cases h
    | ok s' =>
      rw [hp] at h
      injection h with h'
      rw [← h', hH', ← hE.H ω]; exact ⟨hp, rfl⟩
  have hS : ∀ ω, (H' * (P * H'ᵀ) + R').det ≠ 0 ∧
      (c ω).1.y = H' *ᵥ X ω + v ω - H' *ᵥ (kf ω).x ∧ (c ω).1.S = H' * (P * H'ᵀ) + R' ∧
      (c ω).1.x = (kf ω).x + (P * H'ᵀ * (H' * (P * H'ᵀ) + R')⁻¹) *ᵥ
        (H' *ᵥ X ω + v ω - H' *ᵥ (kf ω).x) := by
    intro ω
    obtain ⟨SI', h1, h2⟩ := update_ok (hc' ω).1
    rw [hE.inv ω, hE.P ω, hE.H ω, hE.R ω, ← hH', ← hR', hinv] at h1
    obtain ⟨hd, rfl⟩ := npInv_eq_some.1 h1
    rw [h2]; simp only [hE.P ω, hE.H ω, hE.R ω, ← hH', ← hR']
    exact ⟨hd, trivial, trivial, trivial⟩
  have hy : ∀ ω, (c ω).1.y = H' *ᵥ (X ω - (kf ω).x) + (1 : Mat m m) *ᵥ v ω := by
    intro ω
    rw [(hS ω).2.1, Matrix.mulVec_sub, Matrix.one_mulVec]; abel
  have hy' : (fun ω => (c ω).1.y) = fun ω => H' *ᵥ (X ω - (kf ω).x) + (1 : Mat m m) *ᵥ v ω := funext hy
  have hyN := noise_mulVec_add hN hv hev H' (1 : Mat m m)
  have eS : H' * P * H'ᵀ + (1 : Mat m m) * R' * (1 : Mat m m)ᵀ = H' * (P * H'ᵀ) + R' := by
    simp [Matrix.mul_assoc]
  rw [eS, ← hy'] at hyN
  refine ⟨hy, fun ω => by rw [(hS ω).2.2.1]; exact hyN, ?_⟩
  obtain ⟨ω0⟩ := nonempty_of_isProbabilityMeasure μ
  have hu := isUnit_det_of_ne (hS ω0).1
  set S := H' * (P * H'ᵀ) + R' with hSdef
  set K := P * H'ᵀ * S⁻¹ with hK
  have herr : (fun ω => (c ω).2 - (c ω).1.x) =
      fun ω => (X ω - (kf ω).x) - K *ᵥ (c ω).1.y := by
    funext ω
    rw [(hc' ω).2, (hS ω).2.2.2, (hS ω).2.1]; abel
  have hcy : covMat (fun ω => X ω - (kf ω).x) (fun ω => (c ω).1.y) μ = P * H'ᵀ := by
    rw [hy', covMat_add_right hN.sq (hN.sq.mulVec _) (hv.sq.mulVec _), covMat_mulVec_right hN.sq hN.sq,
      covMat_mulVec_right hN.sq hv.sq, hev, hN.cov]
    simp
  rw [herr, covMat_sub_left hN.sq (hyN.sq.mulVec K) hyN.sq, covMat_mulVec_left hyN.sq hyN.sq, hyN.cov,
    hcy, hK, Matrix.mul_assoc, nonsing_inv_mul _ hu, Matrix.mul_one, sub_self]

omit [MeasurableSpace Ω] in
theorem worldRun_one {ω : Ω} {c d : KF n m l × Vec n} {e : Event Ω n m l}
    (h : worldRun ω c [e] = .ok d) : worldStep ω c e = .ok d := by
  simp only [worldRun] at h
  cases hs : worldStep ω c e with
  | error err => rw [hs] at h; cases h
  | ok c1 => rw [hs] at h; exact h

/-- **C78 (the residuals are white).** In the world of C01 (unbiased start with error covariance
`P`, zero-mean noises with the covariances the filter was told, everything uncorrelated), take any
two measurements of any history, with any calls before, between and no matter what arguments. The
residual `y` the filter reports for the second one has mean zero and covariance exactly the reported
`S`; it is uncorrelated with the residual of the first; and the estimation error after the second is
uncorrelated with both residuals - nothing that could still be predicted from the data is left over. -/
theorem C78_innovations_white (kf0 : KF n m l) (X0 : Ω → Vec n) (evs₁ evs₂ : List (Event Ω n m l))
    (R₁ R₂ : MatArg m) (H₁ H₂ : Option (Mat m n)) (v₁ v₂ : Ω → Vec m)
    (halpha : kf0.alphaSq = 1) (hinv : kf0.inv = npInv)
    (h0 : NoiseOK (fun ω => X0 ω - kf0.x) μ kf0.P)
    (hnoise : ∀ e ∈ evs₁ ++ .measure R₁ H₁ v₁ :: (evs₂ ++ [.measure R₂ H₂ v₂]),
      NoiseOK e.noise μ (e.noiseCov kf0.Q kf0.R))
    (hinit : ∀ e ∈ evs₁ ++ .measure R₁ H₁ v₁ :: (evs₂ ++ [.measure R₂ H₂ v₂]),
      covMat (fun ω => X0 ω - kf0.x) e.noise μ = 0)
    (hpair : (evs₁ ++ Event.measure R₁ H₁ v₁ :: (evs₂ ++ [Event.measure R₂ H₂ v₂])).Pairwise
      fun a b : Event Ω n m l => covMat a.noise b.noise μ = 0)
    (mid fin : Ω → KF n m l × Vec n)
    (hmid : ∀ ω, worldRun ω (kf0, X0 ω) (evs₁ ++ [.measure R₁ H₁ v₁]) = .ok (mid ω))
    (hfin : ∀ ω, worldRun ω (mid ω) (evs₂ ++ [.measure R₂ H₂ v₂]) = .ok (fin ω)) :
    meanVec (fun ω => (fin ω).1.y) μ = 0 ∧
    (∀ ω, covMat (fun ω => (fin ω).1.y) (fun ω => (fin ω).1.y) μ = (fin ω).1.S) ∧
    covMat (fun ω => (mid ω).1.y) (fun ω => (fin ω).1.y) μ = 0 ∧
    covMat (fun ω => (fin ω).2 - (fin ω).1.x) (fun ω => (mid ω).1.y) μ = 0 ∧
    covMat (fun ω => (fin ω).2 - (fin ω).1.x) (fun ω => (fin ω).1.y) μ = 0 := by
  obtain ⟨ω0⟩ := nonempty_of_isProbabilityMeasure μ
  -- split the history
  have hs1 := fun ω => worldRun_append ω _ _ _ (hmid ω)
  choose c1 hc1 hm1 using hs1
  have hs2 := fun ω => worldRun_append ω _ _ _ (hfin ω)
  choose c2 hc2 hm2 using hs2
  have hm1 := fun ω => worldRun_one (hm1 ω)
  have hm2 := fun ω => worldRun_one (hm2 ω)
  obtain ⟨p1, p2, p12⟩ := List.pairwise_append.1 hpair
  obtain ⟨p2h, p2t⟩ := List.pairwise_cons.1 p2
  obtain ⟨p3, -, p34⟩ := List.pairwise_append.1 p2t
  -- up to the first measurement
  obtain ⟨P1, E1, N1, U1⟩ := ens_run evs₁ (kf := fun _ => kf0) (X := X0) (P := kf0.P)
    ⟨fun _ => rfl, fun _ => rfl, fun _ => rfl, fun _ => rfl, fun _ => rfl, fun _ => rfl,
      fun _ => halpha, fun _ => rfl⟩ h0 (fun e he => hnoise e (by simp [he]))
    (fun e he => hinit e (by simp [he])) p1 hc1
  have V1 : ∀ e ∈ Event.measure R₁ H₁ v₁ :: (evs₂ ++ [.measure R₂ H₂ v₂]),
      covMat (fun ω => (c1 ω).2 - (c1 ω).1.x) e.noise μ = 0 := fun e he =>
    U1 _ _ (hnoise e (List.mem_append_right _ he)).sq (hinit e (List.mem_append_right _ he))
      fun e' he' => p12 e' he' e he
  have nv1 : NoiseOK v₁ μ (R₁.resolve kf0.R) := hnoise (.measure R₁ H₁ v₁) (by simp)
  have nv2 : NoiseOK v₂ μ (R₂.resolve kf0.R) := hnoise (.measure R₂ H₂ v₂) (by simp)
  have cv1 : covMat (fun ω => (c1 ω).2 - (c1 ω).1.x) v₁ μ = 0 := V1 (.measure R₁ H₁ v₁) (by simp)
  obtain ⟨y1, n1, u1⟩ := innov_step hinv E1 N1 R₁ H₁ nv1 cv1 hm1
  have y1' : (fun ω => (mid ω).1.y) = fun ω =>
      H₁.getD kf0.H *ᵥ ((c1 ω).2 - (c1 ω).1.x) + (1 : Mat m m) *ᵥ v₁ ω := funext y1
  -- the first residual is uncorrelated with all later noises
  have Y1 : ∀ e ∈ evs₂ ++ [.measure R₂ H₂ v₂],
      covMat (fun ω => (mid ω).1.y) e.noise μ = 0 := fun e he => by
    rw [y1']
    exact cov_mulVec_add_right N1.sq nv1.sq
      (hnoise e (List.mem_append_right _ (List.mem_cons_of_mem _ he))).sq
      (V1 e (List.mem_cons_of_mem _ he)) (p2h e he) _ _
  -- the ensemble after the first measurement
  obtain ⟨A, B, E2, err2⟩ := ens_step E1 (.measure R₁ H₁ v₁) hm1
  have err2' : (fun ω => (mid ω).2 - (mid ω).1.x) =
      fun ω => A *ᵥ ((c1 ω).2 - (c1 ω).1.x) + B *ᵥ v₁ ω := funext err2
  have N2 : NoiseOK (fun ω => (mid ω).2 - (mid ω).1.x) μ
      (A * P1 * Aᵀ + B * (Event.measure R₁ H₁ v₁ : Event Ω n m l).noiseCov kf0.Q kf0.R * Bᵀ) := by
    rw [err2']; exact noise_mulVec_add N1 nv1 cv1 A B
  have V2 : ∀ e ∈ evs₂ ++ [.measure R₂ H₂ v₂],
      covMat (fun ω => (mid ω).2 - (mid ω).1.x) e.noise μ = 0 := fun e he => by
    rw [err2']
    exact cov_mulVec_add_right N1.sq nv1.sq
      (hnoise e (List.mem_append_right _ (List.mem_cons_of_mem _ he))).sq
      (V1 e (List.mem_cons_of_mem _ he)) (p2h e he) _ _
  obtain ⟨P3, E3, N3, U3⟩ := ens_run evs₂ (kf := fun ω => (mid ω).1) (X := fun ω => (mid ω).2) E2 N2
    (fun e he => hnoise e (by simp [he])) (fun e he => V2 e (by simp [he])) p3 hc2
  have cv2 : covMat (fun ω => (c2 ω).2 - (c2 ω).1.x) v₂ μ = 0 :=
    U3 _ _ nv2.sq (V2 (.measure R₂ H₂ v₂) (by simp)) fun e he => p34 e he (.measure R₂ H₂ v₂) (by simp)
  obtain ⟨y2, n2, u2⟩ := innov_step hinv E3 N3 R₂ H₂ nv2 cv2 hm2
  have y2' : (fun ω => (fin ω).1.y) = fun ω =>
      H₂.getD kf0.H *ᵥ ((c2 ω).2 - (c2 ω).1.x) + (1 : Mat m m) *ᵥ v₂ ω := funext y2
  have tr : ∀ {a b : ℕ} {Y : Ω → Vec a} {Z : Ω → Vec b}, covMat Y Z μ = 0 → covMat Z Y μ = 0 := by
    intro a b Y Z h
    rw [covMat_transpose, h, transpose_zero]
  have e1 : covMat (fun ω => (c2 ω).2 - (c2 ω).1.x) (fun ω => (mid ω).1.y) μ = 0 :=
    U3 _ _ (n1 ω0).sq u1 fun e he => tr (Y1 e (by simp [he]))
  have e2 : covMat v₂ (fun ω => (mid ω).1.y) μ = 0 := tr (Y1 (.measure R₂ H₂ v₂) (by simp))
  obtain ⟨A', B', -, err4⟩ := ens_step E3 (.measure R₂ H₂ v₂) hm2
  have err4' : (fun ω => (fin ω).2 - (fin ω).1.x) =
      fun ω => A' *ᵥ ((c2 ω).2 - (c2 ω).1.x) + B' *ᵥ v₂ ω := funext err4
  refine ⟨(n2 ω0).mean, fun ω => (n2 ω).cov, tr ?_, ?_, u2⟩
  · rw [y2']
    exact cov_mulVec_add_right N3.sq nv2.sq (n1 ω0).sq e1 e2 _ _
  · rw [err4']
    exact cov_mulVec_add_right N3.sq nv2.sq (n1 ω0).sq e1 e2 _ _

/-- Two measurements of a scalar, with the three Walsh functions as initial error and noises: all
hypotheses hold, and the two residuals are uncorrelated although both are correlated with the state. -/
example : ∃ mid fin : Fin 4 → KF 1 1 1 × Vec 1,
    (∀ ω, worldRun ω (walkKF, walsh 0 ω) [.measure .none none (walsh 1)] = .ok (mid ω)) ∧
    (∀ ω, worldRun ω (mid ω) [.miss, .measure .none none (walsh 2)] = .ok (fin ω)) ∧
    covMat (fun ω => (mid ω).1.y) (fun ω => (fin ω).1.y) mu4 = 0 := by
  have hall : ∀ ω, ∃ c d, worldRun ω (walkKF, walsh 0 ω) [.measure .none none (walsh 1)] = .ok c ∧
      worldRun ω c [.miss, .measure .none none (walsh 2)] = .ok d := by
    intro ω
    obtain ⟨s1, h1, -⟩ := update_pd walkKF (walkKF.H *ᵥ walsh 0 ω + walsh 1 ω) .none none rfl
      PosDef.one PosDef.one
    have i1 : s1.inv = npInv ∧ s1.R = 1 ∧ s1.P.PosDef := by
      obtain ⟨SI, h3, h2⟩ := update_ok h1
      obtain ⟨-, rfl⟩ := npInv_eq_some.1 h3
      rw [h2]
      exact ⟨rfl, rfl, (info_step (P := walkKF.P) (R := walkKF.R) (H := walkKF.H) PosDef.one
        PosDef.one 0 0).1⟩
    obtain ⟨s2, h2, -⟩ := update_pd s1.updateNone (s1.H *ᵥ walsh 0 ω + walsh 2 ω) .none none i1.1
      i1.2.2 (by show s1.R.PosDef; rw [i1.2.1]; exact PosDef.one)
    refine ⟨(s1, walsh 0 ω), (s2, walsh 0 ω), ?_, ?_⟩
    · simp only [worldRun, worldStep, Option.getD_none, h1, bind, Except.bind]
    · have h3 : s1.update none .none none = .ok s1.updateNone := rfl
      have h4 : s1.updateNone.H = s1.H := rfl
      simp only [worldRun, worldStep, Option.getD_none, h3, h4, h2, bind, Except.bind]
  choose mid fin hm hf using hall
  refine ⟨mid, fin, hm, hf, ?_⟩
  have hz : ∀ c : Fin 4 → Vec 1, covMat c (fun _ => (0 : Vec 0)) mu4 = 0 := fun c => by
    ext i j; exact j.elim0
  have hz' : ∀ c : Fin 4 → Vec 1, covMat (fun _ => (0 : Vec 0)) c mu4 = 0 := fun c => by
    ext i j; exact i.elim0
  have he : (fun ω => walsh 0 ω - walkKF.x) = walsh 0 := by
    funext ω; simp [walkKF, KF.fresh]
  refine (C78_innovations_white (μ := mu4) walkKF (walsh 0) [] [.miss] .none .none none none
    (walsh 1) (walsh 2) rfl rfl ?_ ?_ ?_ ?_ mid fin hm hf).2.2.1
  · rw [he]; exact walsh_ok 0
  · intro e hmem
    simp only [List.nil_append, List.cons_append, List.mem_cons, List.not_mem_nil, or_false] at hmem
    rcases hmem with rfl | rfl | rfl
    · exact walsh_ok 1
    · exact ⟨SqInt.zero0 _, by ext i; exact i.elim0, by ext i; exact i.elim0⟩
    · exact walsh_ok 2
  · intro e hmem
    rw [he]
    simp only [List.nil_append, List.cons_append, List.mem_cons, List.not_mem_nil, or_false] at hmem
    rcases hmem with rfl | rfl | rfl
    · exact walsh_uncorr 0 1 (by decide)
    · exact hz _
    · exact walsh_uncorr 0 2 (by decide)
  · simp only [List.nil_append, List.cons_append, List.pairwise_cons, List.mem_cons,
      List.not_mem_nil, or_false, forall_eq_or_imp, forall_eq, List.Pairwise.nil, and_true,
      false_implies, implies_true]
    exact ⟨⟨hz _, walsh_uncorr 1 2 (by decide)⟩, hz' _⟩

end Filterpy
