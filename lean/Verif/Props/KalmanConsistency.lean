import Verif.Props.KalmanInnovations
import Verif.Props.KalmanMonotone
import Verif.Props.Stats
import Verif.Lemmas.QR
import Mathlib.MeasureTheory.Integral.Bochner.Basic

/-!
# C93: consistency statistics, gates and conservative tuning

`NEES` and `mahalanobis` are what one tests a filter with, and gates measurements with.
-/

namespace Filterpy

open MeasureTheory ProbabilityTheory Matrix Spec KF Stats

variable {Ω : Type*} [MeasurableSpace Ω] {μ : Measure Ω} [IsProbabilityMeasure μ]
variable {n m l k : ℕ}

/-- Zero-mean, square-integrable, with a covariance at most `C`. -/
structure Spec.NoiseWithin (w : Ω → Vec k) (μ : Measure Ω) (C : Mat k k) : Prop where
  sq : SqInt w μ
  mean : meanVec w μ = 0
  cov : CovLE (covMat w w μ) C

theorem Spec.NoiseOK.within {w : Ω → Vec k} {C : Mat k k} (h : NoiseOK w μ C) : NoiseWithin w μ C :=
  ⟨h.sq, h.mean, by rw [h.cov]; exact ⟨h.cov ▸ covMat_psd h.sq, by rw [sub_self]; exact PosSemidef.zero⟩⟩

/-! ## The mean of a quadratic form -/

omit [IsProbabilityMeasure μ] in
theorem quad_integrable {e : Ω → Vec k} (h : SqInt e μ) (A : Mat k k) : Integrable (fun ω => e ω ⬝ᵥ (A *ᵥ e ω)) μ := by
  have e1 : (fun ω => e ω ⬝ᵥ (A *ᵥ e ω)) = fun ω => ∑ i, ∑ j, A i j * (e ω i * e ω j) := by
    funext ω
    simp only [dotProduct, mulVec, Finset.mul_sum]
    exact Finset.sum_congr rfl fun i _ => Finset.sum_congr rfl fun j _ => by ring
  rw [e1]
  exact integrable_finsetSum _ fun i _ => integrable_finsetSum _ fun j _ => ((h i).integrable_mul (h j)).const_mul _

theorem quad_mean {e : Ω → Vec k} (h : SqInt e μ) (h0 : meanVec e μ = 0) (A : Mat k k) :
    ∫ ω, e ω ⬝ᵥ (A *ᵥ e ω) ∂μ = (A * covMat e e μ).trace := by
  have e1 : (fun ω => e ω ⬝ᵥ (A *ᵥ e ω)) = fun ω => ∑ i, ∑ j, A i j * (e ω i * e ω j) := by
    funext ω
    simp only [dotProduct, mulVec, Finset.mul_sum]
    exact Finset.sum_congr rfl fun i _ => Finset.sum_congr rfl fun j _ => by ring
  have hi : ∀ i j, Integrable (fun ω => A i j * (e ω i * e ω j)) μ := fun i j =>
    ((h i).integrable_mul (h j)).const_mul _
  have m0 : ∀ i, ∫ ω, e ω i ∂μ = 0 := fun i => congrFun h0 i
  rw [e1, integral_finsetSum _ fun i _ => integrable_finsetSum _ fun j _ => hi i j]
  simp only [Matrix.trace, diag_apply, mul_apply]
  refine Finset.sum_congr rfl fun i _ => ?_
  rw [integral_finsetSum _ fun j _ => hi i j]
  refine Finset.sum_congr rfl fun j _ => ?_
  rw [integral_const_mul]
  simp only [covMat, of_apply]
  rw [covariance_eq_sub (h j) (h i), m0 i, m0 j]
  simp [mul_comm]

theorem trace_mul_psd {A D : Mat k k} (hA : A.PosDef) (hD : D.PosSemidef) : 0 ≤ (A * D).trace := by
  obtain ⟨L, hL⟩ := chol_exists hA.posSemidef
  have : (A * D).trace = (Lᵀ * D * L).trace := by
    rw [← hL.1, Matrix.mul_assoc, Matrix.trace_mul_comm, Matrix.mul_assoc]
  rw [this]
  exact (PSD.congr' hD L).trace_nonneg

/-- The mean of the normalised square. -/
theorem normalised_mean {e : Ω → Vec k} {P : Mat k k} (hP : P.PosDef) (h : NoiseWithin e μ P) :
    ∫ ω, e ω ⬝ᵥ (P⁻¹ *ᵥ e ω) ∂μ ≤ k := by
  rw [quad_mean h.sq h.mean]
  have h1 := trace_mul_psd hP.inv h.cov.2
  rw [Matrix.mul_sub, Matrix.trace_sub, nonsing_inv_mul _ (PD.isUnit_det hP), Matrix.trace_one, Fintype.card_fin] at h1
  linarith

theorem normalised_mean_eq {e : Ω → Vec k} {P : Mat k k} (hP : P.PosDef) (h : NoiseOK e μ P) :
    ∫ ω, e ω ⬝ᵥ (P⁻¹ *ᵥ e ω) ∂μ = k := by
  rw [quad_mean h.sq h.mean, h.cov, nonsing_inv_mul _ (PD.isUnit_det hP), Matrix.trace_one, Fintype.card_fin]

/-! ## Conservative tuning -/

theorem within_mulVec_add {e : Ω → Vec n} {w : Ω → Vec k} {P : Mat n n} {Q : Mat k k} (he : NoiseWithin e μ P) (hw : NoiseWithin w μ Q)
    (hew : covMat e w μ = 0) {j : ℕ} (A : Mat j n) (B : Mat j k) :
    NoiseWithin (fun ω => A *ᵥ e ω + B *ᵥ w ω) μ (A * P * Aᵀ + B * Q * Bᵀ) := by
  have h := noise_mulVec_add (P := covMat e e μ) (Q := covMat w w μ) ⟨he.sq, he.mean, rfl⟩ ⟨hw.sq, hw.mean, rfl⟩ hew A B
  refine ⟨h.sq, h.mean, ?_⟩
  rw [h.cov]
  exact (he.cov.congr A).add (hw.cov.congr B)

theorem within_run (evs : List (Event Ω n m l)) {kf0 : KF n m l} {kf : Ω → KF n m l} {X : Ω → Vec n} {P : Mat n n}
    (hE : Ens kf P kf0) (hN : NoiseWithin (fun ω => X ω - (kf ω).x) μ P)
    (hns : ∀ e ∈ evs, NoiseWithin e.noise μ (e.noiseCov kf0.Q kf0.R))
    (hin : ∀ e ∈ evs, covMat (fun ω => X ω - (kf ω).x) e.noise μ = 0)
    (hpw : evs.Pairwise fun a b => covMat a.noise b.noise μ = 0)
    {fin : Ω → KF n m l × Vec n} (hr : ∀ ω, worldRun ω (kf ω, X ω) evs = .ok (fin ω)) :
    ∃ P', Ens (fun ω => (fin ω).1) P' kf0 ∧ NoiseWithin (fun ω => (fin ω).2 - (fin ω).1.x) μ P' ∧
      ∀ (j : ℕ) (Y : Ω → Vec j), SqInt Y μ → covMat (fun ω => X ω - (kf ω).x) Y μ = 0 →
        (∀ e ∈ evs, covMat e.noise Y μ = 0) → covMat (fun ω => (fin ω).2 - (fin ω).1.x) Y μ = 0 := by
  induction evs generalizing kf X P with
  | nil =>
    have : fin = fun ω => (kf ω, X ω) := by
      funext ω; have := hr ω; simp only [worldRun, Except.ok.injEq] at this; exact this.symm
    subst this
    exact ⟨P, hE, hN, fun j Y _ h _ => h⟩
  | cons e evs ih =>
    obtain ⟨hhd, htl⟩ := List.pairwise_cons.1 hpw
    have hne := hns e (by simp)
    have hie := hin e (by simp)
    have hstep : ∀ ω, ∃ c, worldStep ω (kf ω, X ω) e = .ok c ∧ worldRun ω c evs = .ok (fin ω) := by
      intro ω
      have h := hr ω
      simp only [worldRun] at h
      cases hs : worldStep ω (kf ω, X ω) e with
      | error err => rw [hs] at h; cases h
      | ok c => rw [hs] at h; exact ⟨c, rfl, h⟩
    choose c hc hcr using hstep
    obtain ⟨A, B, hE', herr⟩ := ens_step hE e hc
    have herr' : (fun ω => (c ω).2 - (c ω).1.x) = fun ω => A *ᵥ (X ω - (kf ω).x) + B *ᵥ e.noise ω := funext herr
    obtain ⟨P', h1, h2, h3⟩ := ih (kf := fun ω => (c ω).1) (X := fun ω => (c ω).2) hE'
      (by rw [herr']; exact within_mulVec_add hN hne hie A B)
      (fun e he => hns e (by simp [he]))
      (fun e' he' => by
        rw [herr']
        exact cov_mulVec_add_right hN.sq hne.sq (hns e' (by simp [he'])).sq (hin e' (by simp [he'])) (hhd e' he') _ _) htl hcr
    refine ⟨P', h1, h2, fun j Y hY h0 hYs => h3 j Y hY ?_ fun e he => hYs e (by simp [he])⟩
    rw [herr']
    exact cov_mulVec_add_right hN.sq hne.sq hY h0 (hYs e (by simp)) _ _

/-- The world of C01 with the noises allowed to be smaller than the filter was told. -/
structure Spec.ToldEnough (μ : Measure Ω) (kf0 : KF n m l) (X0 : Ω → Vec n) (evs : List (Event Ω n m l)) : Prop where
  alpha : kf0.alphaSq = 1
  init : NoiseWithin (fun ω => X0 ω - kf0.x) μ kf0.P
  noise : ∀ e ∈ evs, NoiseWithin e.noise μ (e.noiseCov kf0.Q kf0.R)
  uncorr : ∀ e ∈ evs, covMat (fun ω => X0 ω - kf0.x) e.noise μ = 0
  pair : evs.Pairwise fun a b => covMat a.noise b.noise μ = 0

/-- The world of C01: the noises are what the filter was told. -/
structure Spec.ToldTruth (μ : Measure Ω) (kf0 : KF n m l) (X0 : Ω → Vec n) (evs : List (Event Ω n m l)) : Prop where
  alpha : kf0.alphaSq = 1
  init : NoiseOK (fun ω => X0 ω - kf0.x) μ kf0.P
  noise : ∀ e ∈ evs, NoiseOK e.noise μ (e.noiseCov kf0.Q kf0.R)
  uncorr : ∀ e ∈ evs, covMat (fun ω => X0 ω - kf0.x) e.noise μ = 0
  pair : evs.Pairwise fun a b => covMat a.noise b.noise μ = 0

theorem Spec.ToldTruth.enough {kf0 : KF n m l} {X0 : Ω → Vec n} {evs : List (Event Ω n m l)} (h : ToldTruth μ kf0 X0 evs) :
    ToldEnough μ kf0 X0 evs :=
  ⟨h.alpha, h.init.within, fun e he => (h.noise e he).within, h.uncorr, h.pair⟩

omit [MeasurableSpace Ω] in
theorem ens_fresh {kf0 : KF n m l} (h : kf0.alphaSq = 1) : Ens (fun _ : Ω => kf0) kf0.P kf0 :=
  ⟨fun _ => rfl, fun _ => rfl, fun _ => rfl, fun _ => rfl, fun _ => rfl, fun _ => rfl, fun _ => h, fun _ => rfl⟩

/-- **C93, conservative tuning.**  A filter told noise covariances and an initial covariance at least as large
as the true ones never reports less than its true error covariance, whatever the calls; and it stays unbiased. -/
theorem C93_conservative (kf0 : KF n m l) (X0 : Ω → Vec n) (evs : List (Event Ω n m l)) (h : ToldEnough μ kf0 X0 evs)
    (final : Ω → KF n m l × Vec n) (hrun : ∀ ω, worldRun ω (kf0, X0 ω) evs = .ok (final ω)) (ω0 : Ω) :
    meanVec (fun ω => (final ω).2 - (final ω).1.x) μ = 0 ∧
    ((final ω0).1.P - covMat (fun ω => (final ω).2 - (final ω).1.x) (fun ω => (final ω).2 - (final ω).1.x) μ).PosSemidef := by
  obtain ⟨P', hE, hN, -⟩ := within_run evs (ens_fresh h.alpha) h.init h.noise h.uncorr h.pair hrun
  rw [hE.P ω0]
  exact ⟨hN.mean, hN.cov.2⟩

/-! ## NEES -/

theorem nees_of (xs est : List (Vec n)) (ps : List (Mat n n)) (hl : xs.length = est.length) (hp : ∀ p ∈ ps, p.PosDef) :
    nees xs est ps = .ok (((List.zipWith (· - ·) xs est).zip ps).map fun p => p.1 ⬝ᵥ (p.2⁻¹ *ᵥ p.1)) := by
  have hq : ∀ q ∈ (List.zipWith (· - ·) xs est).zip ps, q.2.PosDef := by
    rintro ⟨a, b⟩ h
    exact hp b (List.of_mem_zip h).2
  simp only [nees, if_neg (not_not.2 hl)]
  exact neesLoop_ok _ hq

omit [IsProbabilityMeasure μ] in
theorem ToldEnough.take {kf0 : KF n m l} {X0 : Ω → Vec n} {evs : List (Event Ω n m l)} (h : ToldEnough μ kf0 X0 evs) (j : ℕ) :
    ToldEnough μ kf0 X0 (evs.take j) :=
  ⟨h.alpha, h.init, fun e he => h.noise e (List.mem_of_mem_take he), fun e he => h.uncorr e (List.mem_of_mem_take he),
    h.pair.sublist (List.take_sublist _ _)⟩

omit [IsProbabilityMeasure μ] in
theorem ToldTruth.take {kf0 : KF n m l} {X0 : Ω → Vec n} {evs : List (Event Ω n m l)} (h : ToldTruth μ kf0 X0 evs) (j : ℕ) :
    ToldTruth μ kf0 X0 (evs.take j) :=
  ⟨h.alpha, h.init, fun e he => h.noise e (List.mem_of_mem_take he), fun e he => h.uncorr e (List.mem_of_mem_take he),
    h.pair.sublist (List.take_sublist _ _)⟩

/-- **C93, `NEES`.**  Record the truth, the estimate and the covariance after every call of a history (`st j` is
the state of affairs after call `j`) and hand the records to `NEES`.  It returns one number per call, and
the expected value of each is the dimension of the state if the filter was told the truth, and at most that if
it was told enough. -/
theorem C93_nees (kf0 : KF n m l) (X0 : Ω → Vec n) (evs : List (Event Ω n m l)) (h : ToldEnough μ kf0 X0 evs)
    (st : ℕ → Ω → KF n m l × Vec n)
    (hst : ∀ j < evs.length, ∀ ω, worldRun ω (kf0, X0 ω) (evs.take (j + 1)) = .ok (st j ω))
    (hdet : ∀ j < evs.length, ∀ ω, (st j ω).1.P.det ≠ 0) :
    ∃ v : ℕ → Ω → ℝ,
      (∀ ω, nees ((List.range evs.length).map fun j => (st j ω).2) ((List.range evs.length).map fun j => (st j ω).1.x)
        ((List.range evs.length).map fun j => (st j ω).1.P) = .ok ((List.range evs.length).map fun j => v j ω)) ∧
      (∀ j < evs.length, Integrable (v j) μ ∧ ∫ ω, v j ω ∂μ ≤ n) ∧
      (ToldTruth μ kf0 X0 evs → ∀ j < evs.length, ∫ ω, v j ω ∂μ = n) := by
  obtain ⟨ω0⟩ := nonempty_of_isProbabilityMeasure μ
  have key : ∀ j < evs.length, ∃ P', P'.PosDef ∧ (∀ ω, (st j ω).1.P = P') ∧
      NoiseWithin (fun ω => (st j ω).2 - (st j ω).1.x) μ P' := fun j hj => by
    have h' := ToldEnough.take h (j + 1)
    obtain ⟨P', hE, hN, -⟩ := within_run _ (ens_fresh h'.alpha) h'.init h'.noise h'.uncorr h'.pair (hst j hj)
    have hd := hdet j hj ω0
    rw [hE.P ω0] at hd
    exact ⟨P', PSD.posDef_of_det hN.cov.right hd, hE.P, hN⟩
  refine ⟨fun j ω => ((st j ω).2 - (st j ω).1.x) ⬝ᵥ ((st j ω).1.P⁻¹ *ᵥ ((st j ω).2 - (st j ω).1.x)), fun ω => ?_, fun j hj => ?_, fun ht j hj => ?_⟩
  · rw [nees_of _ _ _ (by simp)]
    · congr 1
      apply List.ext_getElem
      · simp
      · intro i h1 h2
        simp
    · intro p hp
      obtain ⟨j, hj, rfl⟩ := List.mem_map.1 hp
      obtain ⟨P', h1, h2, -⟩ := key j (List.mem_range.1 hj)
      rw [h2]; exact h1
  · obtain ⟨P', h1, h2, h3⟩ := key j hj
    simp only [h2]
    exact ⟨quad_integrable h3.sq _, normalised_mean h1 h3⟩
  · obtain ⟨P', h1, h2, -⟩ := key j hj
    have h' := ToldTruth.take ht (j + 1)
    obtain ⟨P'', hE, hN, -⟩ := ens_run _ (ens_fresh h'.alpha) h'.init h'.noise h'.uncorr h'.pair (hst j hj)
    have e : P'' = P' := by rw [← hE.P ω0, ← h2 ω0]
    simp only [h2]
    exact normalised_mean_eq h1 (e ▸ hN)

/-! ## Residuals -/

omit [MeasurableSpace Ω] in
theorem residual_step {kf0 : KF n m l} (hinv : kf0.inv = npInv) {kf : Ω → KF n m l} {X : Ω → Vec n}
    {P : Mat n n} (hE : Ens kf P kf0) (R : MatArg m) (H : Option (Mat m n)) {v : Ω → Vec m} {c : Ω → KF n m l × Vec n}
    (hc : ∀ ω, worldStep ω (kf ω, X ω) (.measure R H v) = .ok (c ω)) (ω : Ω) :
    (c ω).1.y = H.getD kf0.H *ᵥ (X ω - (kf ω).x) + (1 : Mat m m) *ᵥ v ω ∧
    (c ω).1.S = H.getD kf0.H * P * (H.getD kf0.H)ᵀ + (1 : Mat m m) * R.resolve kf0.R * (1 : Mat m m)ᵀ ∧
    (c ω).1.S.det ≠ 0 ∧ (c ω).1.SI = (c ω).1.S⁻¹ ∧ (c ω).1.mahal = none := by
  have h := hc ω
  simp only [worldStep] at h
  cases hp : (kf ω).update (some ((H.getD (kf ω).H) *ᵥ X ω + v ω)) R H with
  | error err => rw [hp] at h; cases h
  | ok s' =>
    rw [hp] at h
    injection h with h'
    rw [← h']
    obtain ⟨SI', h1, h2⟩ := update_ok hp
    rw [hE.inv ω, hE.P ω, hE.H ω, hE.R ω, hinv] at h1
    obtain ⟨hd, rfl⟩ := npInv_eq_some.1 h1
    rw [h2]
    simp only [hE.P ω, hE.H ω, hE.R ω]
    refine ⟨?_, ?_, hd, trivial, trivial⟩
    · rw [Matrix.mulVec_sub, Matrix.one_mulVec]; abel
    · rw [transpose_one, Matrix.mul_one, Matrix.one_mul, Matrix.mul_assoc]

/-- **C93, `mahalanobis`.**  After any history ending with a measurement the expected square of `mahalanobis` is
the dimension of the measurement if the filter was told the truth, and at most that if it was told enough; so a gate
that rejects measurements at distance `t` or more rejects a genuine one with probability at most `dim_z / t²`, whatever the
distribution of the noise. -/
theorem C93_mahalanobis (kf0 : KF n m l) (hinv : kf0.inv = npInv) (X0 : Ω → Vec n) (evs : List (Event Ω n m l))
    (R : MatArg m) (H : Option (Mat m n)) (v : Ω → Vec m) (h : ToldEnough μ kf0 X0 (evs ++ [.measure R H v]))
    (final : Ω → KF n m l × Vec n) (hrun : ∀ ω, worldRun ω (kf0, X0 ω) (evs ++ [.measure R H v]) = .ok (final ω)) :
    ∃ d : Ω → ℝ, (∀ ω, ∃ s', (final ω).1.readMahal = .ok (d ω, s')) ∧
      Integrable (fun ω => d ω ^ 2) μ ∧ ∫ ω, d ω ^ 2 ∂μ ≤ m ∧
      (ToldTruth μ kf0 X0 (evs ++ [.measure R H v]) → ∫ ω, d ω ^ 2 ∂μ = m) ∧
      ∀ t : ℝ, 0 < t → μ.real {ω | t ≤ d ω} ≤ m / t ^ 2 := by
  obtain ⟨ω0⟩ := nonempty_of_isProbabilityMeasure μ
  choose c hc hm using fun ω => worldRun_append ω _ _ _ (hrun ω)
  have hm := fun ω => worldRun_one (hm ω)
  obtain ⟨p1, -, p12⟩ := List.pairwise_append.1 h.pair
  obtain ⟨P, hE, hN, hU⟩ := within_run evs (ens_fresh h.alpha) h.init (fun e he => h.noise e (by simp [he]))
    (fun e he => h.uncorr e (by simp [he])) p1 hc
  have hr := residual_step hinv hE R H hm
  have hv : NoiseWithin v μ (R.resolve kf0.R) := h.noise (.measure R H v) (by simp)
  have hcv : covMat (fun ω => (c ω).2 - (c ω).1.x) v μ = 0 :=
    hU _ _ hv.sq (h.uncorr (.measure R H v) (by simp)) fun e he => p12 e he (.measure R H v) (by simp)
  set S := H.getD kf0.H * P * (H.getD kf0.H)ᵀ + (1 : Mat m m) * R.resolve kf0.R * (1 : Mat m m)ᵀ with hS
  have hy : NoiseWithin (fun ω => (final ω).1.y) μ S := by
    have := within_mulVec_add hN hv hcv (H.getD kf0.H) (1 : Mat m m)
    rwa [show (fun ω => (final ω).1.y) = _ from funext fun ω => (hr ω).1]
  have hPD : S.PosDef := PSD.posDef_of_det hy.cov.right ((hr ω0).2.1 ▸ (hr ω0).2.2.1)
  have hSI : ∀ ω, (final ω).1.SI = S⁻¹ := fun ω => by rw [(hr ω).2.2.2.1, (hr ω).2.1]
  have hq : ∀ ω, 0 ≤ (final ω).1.y ⬝ᵥ (S⁻¹ *ᵥ (final ω).1.y) := fun ω => PSD.quad hPD.inv.posSemidef _
  have hsq : (fun ω => Real.sqrt ((final ω).1.y ⬝ᵥ (S⁻¹ *ᵥ (final ω).1.y)) ^ 2) = fun ω => (final ω).1.y ⬝ᵥ (S⁻¹ *ᵥ (final ω).1.y) :=
    funext fun ω => Real.sq_sqrt (hq ω)
  have hI := quad_integrable hy.sq S⁻¹
  refine ⟨fun ω => Real.sqrt ((final ω).1.y ⬝ᵥ (S⁻¹ *ᵥ (final ω).1.y)), fun ω => ?_, ?_, ?_, fun ht => ?_, fun t ht => ?_⟩
  · refine ⟨{ (final ω).1 with mahal := some (Real.sqrt ((final ω).1.y ⬝ᵥ (S⁻¹ *ᵥ (final ω).1.y))) }, ?_⟩
    unfold KF.readMahal
    simp only [(hr ω).2.2.2.2, hSI ω]
    rw [if_neg (not_lt.2 (hq ω))]
  · rw [hsq]; exact hI
  · rw [hsq]; exact normalised_mean hPD hy
  · rw [hsq]
    obtain ⟨P2, hE2, hN2, hU2⟩ := ens_run evs (ens_fresh ht.alpha) ht.init (fun e he => ht.noise e (by simp [he]))
      (fun e he => ht.uncorr e (by simp [he])) p1 hc
    have eP : P2 = P := by rw [← hE2.P ω0, ← hE.P ω0]
    have hv2 : NoiseOK v μ (R.resolve kf0.R) := ht.noise (.measure R H v) (by simp)
    have := noise_mulVec_add hN2 hv2 hcv (H.getD kf0.H) (1 : Mat m m)
    rw [eP] at this
    refine normalised_mean_eq hPD ?_
    rwa [show (fun ω => (final ω).1.y) = _ from funext fun ω => (hr ω).1]
  · have hmk := mul_meas_ge_le_integral_of_nonneg (μ := μ) (f := fun ω => (final ω).1.y ⬝ᵥ (S⁻¹ *ᵥ (final ω).1.y))
      (Filter.Eventually.of_forall hq) hI (t ^ 2)
    have hset : {ω | t ≤ Real.sqrt ((final ω).1.y ⬝ᵥ (S⁻¹ *ᵥ (final ω).1.y))} =
        {ω | t ^ 2 ≤ (final ω).1.y ⬝ᵥ (S⁻¹ *ᵥ (final ω).1.y)} := by
      ext ω
      exact Real.le_sqrt' ht
    rw [hset, le_div_iff₀ (by positivity), mul_comm]
    exact hmk.trans (normalised_mean hPD hy)

/-! ## Not vacuous -/

/-- A walk measured once, with the Walsh functions as initial error and noises. -/
theorem walk_told (R : MatArg 1) (hR : NoiseWithin (walsh 2) mu4 (R.resolve 1)) :
    ToldEnough mu4 walkKF (walsh 0) [.move none none none .none (walsh 1), .measure R none (walsh 2)] := by
  have he : (fun ω => walsh 0 ω - walkKF.x) = walsh 0 := by
    funext ω; simp [walkKF, KF.fresh]
  refine ⟨rfl, (by rw [he]; exact (walsh_ok 0).within), fun e hmem => ?_, fun e hmem => ?_, ?_⟩
  · simp only [List.mem_cons, List.not_mem_nil, or_false] at hmem
    rcases hmem with rfl | rfl
    · exact (walsh_ok 1).within
    · exact hR
  · rw [he]
    simp only [List.mem_cons, List.not_mem_nil, or_false] at hmem
    rcases hmem with rfl | rfl
    · exact walsh_uncorr 0 1 (by decide)
    · exact walsh_uncorr 0 2 (by decide)
  · simp only [List.pairwise_cons, List.mem_cons, List.not_mem_nil, or_false, forall_eq, List.Pairwise.nil, and_true,
      false_implies, implies_true]
    exact walsh_uncorr 1 2 (by decide)

theorem walk_truth : ToldTruth mu4 walkKF (walsh 0) [.move none none none .none (walsh 1), .measure .none none (walsh 2)] := by
  have h := walk_told .none (walsh_ok 2).within
  refine ⟨h.alpha, ?_, fun e hmem => ?_, h.uncorr, h.pair⟩
  · have he : (fun ω => walsh 0 ω - walkKF.x) = walsh 0 := by
      funext ω; simp [walkKF, KF.fresh]
    rw [he]; exact walsh_ok 0
  · simp only [List.mem_cons, List.not_mem_nil, or_false] at hmem
    rcases hmem with rfl | rfl
    · exact walsh_ok 1
    · exact walsh_ok 2

/-- A measurement noise declared three times too large is within what the filter was told. -/
theorem walk_cautious : ToldEnough mu4 walkKF (walsh 0)
    [.move none none none .none (walsh 1), .measure (.scalar 3) none (walsh 2)] := by
  refine walk_told (.scalar 3) ⟨(walsh_ok 2).sq, (walsh_ok 2).mean, ?_⟩
  rw [(walsh_ok 2).cov]
  refine ⟨PosSemidef.one, ?_⟩
  have : MatArg.resolve (.scalar 3) (1 : Mat 1 1) - 1 = (2 : ℝ) • (1 : Mat 1 1) := by
    simp only [MatArg.resolve]
    ext i j
    fin_cases i; fin_cases j
    norm_num
  rw [this]
  exact PSD.smul PosSemidef.one (by norm_num)

/-- The run goes through, and the statistics are what the theorems say. -/
example : ∃ final : Fin 4 → KF 1 1 1 × Vec 1,
    (∀ ω, worldRun ω (walkKF, walsh 0 ω) ([.move none none none .none (walsh 1)] ++ [.measure .none none (walsh 2)]) = .ok (final ω)) ∧
    ∃ d : Fin 4 → ℝ, (∀ ω, ∃ s', (final ω).1.readMahal = .ok (d ω, s')) ∧ ∫ ω, d ω ^ 2 ∂mu4 = (1 : ℕ) := by
  have hS : ∀ A : Mat 1 1, A = (1 : ℝ) • (1 * 1 * 1ᵀ) + 1 →
      npInv ((1 : Mat 1 1) * (A * 1ᵀ) + 1) = some ((1 : Mat 1 1) * (A * 1ᵀ) + 1)⁻¹ := by
    intro A hA
    refine npInv_of_det_ne ?_
    rw [hA, Matrix.det_fin_one]; simp; norm_num
  have hrun : ∀ ω, ∃ c, worldRun ω (walkKF, walsh 0 ω)
      ([.move none none none .none (walsh 1)] ++ [.measure .none none (walsh 2)]) = .ok c := by
    intro ω
    simp only [List.cons_append, List.nil_append, worldRun, worldStep, KF.predict, KF.control, uArg, walkKF, KF.fresh, KF.update,
      Option.none_or, Option.getD_none, MatArg.resolve, bind, Except.bind]
    rw [hS _ rfl]
    exact ⟨_, rfl⟩
  choose final hfinal using hrun
  obtain ⟨d, h1, -, -, h2, -⟩ := C93_mahalanobis (μ := mu4) walkKF rfl (walsh 0) _ .none none (walsh 2) walk_truth.enough final hfinal
  exact ⟨final, hfinal, d, h1, h2 walk_truth⟩

end Filterpy
