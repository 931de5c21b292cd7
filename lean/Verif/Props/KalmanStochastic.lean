import Verif.Spec.LinearWorld
import Verif.Lemmas.Prob
import Verif.Lemmas.Kalman
import Mathlib.Probability.Distributions.Gaussian.Real
import Mathlib.MeasureTheory.Measure.Dirac

/-!
# KalmanFilter against a stochastic world: C01, C03, C15
-/

namespace Filterpy

open MeasureTheory ProbabilityTheory Matrix Spec KF

variable {Ω : Type*} [MeasurableSpace Ω] {μ : Measure Ω} [IsProbabilityMeasure μ]
variable {n m l k : ℕ}

/-- Zero-mean, square-integrable, with covariance `C`. -/
structure Spec.NoiseOK (w : Ω → Vec k) (μ : Measure Ω) (C : Mat k k) : Prop where
  sq : SqInt w μ
  mean : meanVec w μ = 0
  cov : covMat w w μ = C

/-! ## One step -/

theorem noise_mulVec_add {e : Ω → Vec n} {w : Ω → Vec k} {P : Mat n n} {Q : Mat k k}
    (he : NoiseOK e μ P) (hw : NoiseOK w μ Q) (hew : covMat e w μ = 0) {j : ℕ} (A : Mat j n)
    (B : Mat j k) :
    NoiseOK (fun ω => A *ᵥ e ω + B *ᵥ w ω) μ (A * P * Aᵀ + B * Q * Bᵀ) := by
  have sA := he.sq.mulVec A
  have sB := hw.sq.mulVec B
  have hwe : covMat w e μ = 0 := by rw [covMat_transpose, hew, transpose_zero]
  refine ⟨sA.add sB, ?_, ?_⟩
  · rw [meanVec_add sA sB, meanVec_mulVec he.sq, meanVec_mulVec hw.sq, he.mean, hw.mean]
    simp
  · rw [covMat_add_left sA sB (sA.add sB), covMat_add_right sA sA sB, covMat_add_right sB sA sB]
    simp only [covMat_mulVec_left he.sq sA, covMat_mulVec_left he.sq sB,
      covMat_mulVec_left hw.sq sA, covMat_mulVec_left hw.sq sB, covMat_mulVec_right he.sq he.sq,
      covMat_mulVec_right he.sq hw.sq, covMat_mulVec_right hw.sq he.sq,
      covMat_mulVec_right hw.sq hw.sq, hew, hwe, he.cov, hw.cov]
    simp [Matrix.mul_assoc]

theorem cov_mulVec_add_right {e : Ω → Vec n} {w : Ω → Vec k} {j i : ℕ} {v : Ω → Vec i}
    (he : SqInt e μ) (hw : SqInt w μ) (hv : SqInt v μ)
    (hev : covMat e v μ = 0) (hwv : covMat w v μ = 0) (A : Mat j n) (B : Mat j k) :
    covMat (fun ω => A *ᵥ e ω + B *ᵥ w ω) v μ = 0 := by
  rw [covMat_add_left (he.mulVec A) (hw.mulVec B) hv, covMat_mulVec_left he hv,
    covMat_mulVec_left hw hv, hev, hwv]
  simp

/-- The state of the world in all outcomes at once: the filter objects share everything that
does not depend on the measured values. -/
structure Ens (kf : Ω → KF n m l) (P : Mat n n) (s0 : KF n m l) : Prop where
  P : ∀ ω, (kf ω).P = P
  F : ∀ ω, (kf ω).F = s0.F
  B : ∀ ω, (kf ω).B = s0.B
  Q : ∀ ω, (kf ω).Q = s0.Q
  H : ∀ ω, (kf ω).H = s0.H
  R : ∀ ω, (kf ω).R = s0.R
  alpha : ∀ ω, (kf ω).alphaSq = 1
  inv : ∀ ω, (kf ω).inv = s0.inv

omit [IsProbabilityMeasure μ] in
theorem predict_truth {s s' : KF n m l} {u : Option (Vec l)} {B F Q}
    (h : s.predict (uArg u) B F Q = .ok s') :
    s'.x = (F.getD s.F) *ᵥ s.x + controlEffect (B.or s.B) u := by
  unfold KF.predict at h
  cases u with
  | none =>
    cases hB : B.or s.B with
    | none => simp only [hB, uArg, KF.control, Except.ok.injEq] at h; rw [← h]; simp [controlEffect]
    | some B => simp only [hB, uArg, KF.control, Except.ok.injEq] at h; rw [← h]; simp [controlEffect]
  | some u =>
    cases hB : B.or s.B with
    | none => simp only [hB, uArg, KF.control, Except.ok.injEq] at h; rw [← h]; simp [controlEffect]
    | some B => simp only [hB, uArg, KF.control, Except.ok.injEq] at h; rw [← h]; simp [controlEffect]

/-- **C01.** Start the filter with an unbiased estimate whose error covariance is `P`, and let
every process and measurement noise be zero-mean with the covariance the filter was told,
uncorrelated with the initial error and with every other noise.  Then after any history of
`predict`, `update(z)` and `update(None)` calls with any per-call arguments that runs through,
the estimation error is still zero-mean and its covariance is exactly `kf.P`. -/
theorem C01_reported_covariance_is_true (kf0 : KF n m l) (X0 : Ω → Vec n)
    (evs : List (Event Ω n m l)) (halpha : kf0.alphaSq = 1)
    (h0 : NoiseOK (fun ω => X0 ω - kf0.x) μ kf0.P)
    (hnoise : ∀ e ∈ evs, NoiseOK e.noise μ (e.noiseCov kf0.Q kf0.R))
    (hinit : ∀ e ∈ evs, covMat (fun ω => X0 ω - kf0.x) e.noise μ = 0)
    (hpair : evs.Pairwise fun a b => covMat a.noise b.noise μ = 0)
    (final : Ω → KF n m l × Vec n)
    (hrun : ∀ ω, worldRun ω (kf0, X0 ω) evs = .ok (final ω)) :
    meanVec (fun ω => (final ω).2 - (final ω).1.x) μ = 0 ∧
    (∀ ω, covMat (fun ω => (final ω).2 - (final ω).1.x) (fun ω => (final ω).2 - (final ω).1.x) μ
      = (final ω).1.P) ∧
    SqInt (fun ω => (final ω).2 - (final ω).1.x) μ := by
  have key : ∀ (evs : List (Event Ω n m l)) (kf : Ω → KF n m l) (X : Ω → Vec n) (P : Mat n n),
      Ens kf P kf0 →
      NoiseOK (fun ω => X ω - (kf ω).x) μ P →
      (∀ e ∈ evs, NoiseOK e.noise μ (e.noiseCov kf0.Q kf0.R)) →
      (∀ e ∈ evs, covMat (fun ω => X ω - (kf ω).x) e.noise μ = 0) →
      (evs.Pairwise fun a b => covMat a.noise b.noise μ = 0) →
      (∀ ω, worldRun ω (kf ω, X ω) evs = .ok (final ω)) →
      ∃ P', (∀ ω, (final ω).1.P = P') ∧
        NoiseOK (fun ω => (final ω).2 - (final ω).1.x) μ P' := by
    intro evs
    induction evs with
    | nil =>
      intro kf X P hE hN _ _ _ hr
      have : final = fun ω => (kf ω, X ω) := by
        funext ω; have := hr ω; simp only [worldRun, Except.ok.injEq] at this; exact this.symm
      subst this
      exact ⟨P, hE.P, hN⟩
    | cons e evs ih =>
      intro kf X P hE hN hns hin hpw hr
      obtain ⟨hhd, htl⟩ := List.pairwise_cons.1 hpw
      have hne := hns e (by simp)
      have hie := hin e (by simp)
      have hstep : ∀ ω, ∃ c, worldStep ω (kf ω, X ω) e = .ok c ∧
          worldRun ω c evs = .ok (final ω) := by
        intro ω
        have h := hr ω
        simp only [worldRun] at h
        cases hs : worldStep ω (kf ω, X ω) e with
        | error err => rw [hs] at h; cases h
        | ok c => rw [hs] at h; exact ⟨c, rfl, h⟩
      choose c hc hcr using hstep
      cases e with
      | move u B F Q w =>
        have hc' : ∀ ω, (kf ω).predict (uArg u) B F Q = .ok (c ω).1 ∧
            (c ω).2 = (F.getD kf0.F) *ᵥ X ω + controlEffect (B.or kf0.B) u + w ω := by
          intro ω
          have h := hc ω
          simp only [worldStep] at h
          cases hp : (kf ω).predict (uArg u) B F Q with
          | error err => rw [hp] at h; cases h
          | ok s' =>
            rw [hp] at h
            injection h with h'
            rw [← h', hE.F ω, hE.B ω]; exact ⟨rfl, rfl⟩
        have herr : (fun ω => (c ω).2 - (c ω).1.x)
            = fun ω => (F.getD kf0.F) *ᵥ (X ω - (kf ω).x) + (1 : Mat n n) *ᵥ w ω := by
          funext ω
          rw [(hc' ω).2, predict_truth (hc' ω).1, hE.F ω, hE.B ω, Matrix.mulVec_sub,
            Matrix.one_mulVec]
          abel
        have hP' : ∀ ω, (c ω).1.P = F.getD kf0.F * P * (F.getD kf0.F)ᵀ + Q.resolve kf0.Q := by
          intro ω
          obtain ⟨x, hx⟩ := predict_ok (hc' ω).1
          rw [hx]; simp [hE.alpha ω, hE.P ω, hE.F ω, hE.Q ω]
        refine ih (fun ω => (c ω).1) (fun ω => (c ω).2) _ ⟨hP', ?_, ?_, ?_, ?_, ?_, ?_, ?_⟩ ?_
          (fun e he => hns e (by simp [he])) ?_ htl hcr
        iterate 7
          intro ω
          obtain ⟨x, hx⟩ := predict_ok (hc' ω).1
          rw [hx]
          first | exact hE.F ω | exact hE.B ω | exact hE.Q ω | exact hE.H ω | exact hE.R ω |
            exact hE.alpha ω | exact hE.inv ω
        · rw [herr]
          have := noise_mulVec_add hN hne hie (F.getD kf0.F) (1 : Mat n n)
          have e1 : (1 : Mat n n) * Q.resolve kf0.Q * (1 : Mat n n)ᵀ = Q.resolve kf0.Q := by simp
          exact e1 ▸ this
        · intro e' he'
          rw [herr]
          exact cov_mulVec_add_right hN.sq hne.sq (hns e' (by simp [he'])).sq
            (hin e' (by simp [he'])) (hhd e' he') _ _
      | measure R H v =>
        have hc' : ∀ ω, (kf ω).update (some ((H.getD kf0.H) *ᵥ X ω + v ω)) R H = .ok (c ω).1 ∧
            (c ω).2 = X ω := by
          intro ω
          have h := hc ω
          simp only [worldStep] at h
          cases hp : (kf ω).update (some ((H.getD (kf ω).H) *ᵥ X ω + v ω)) R H with
          | error err => rw [hp] at h; cases h
          | ok s' =>
            rw [hp] at h
            injection h with h'
            rw [← h', ← hE.H ω]; exact ⟨hp, rfl⟩
        set H' := H.getD kf0.H with hH'
        set R' := R.resolve kf0.R with hR'
        -- the inverse returned is the same in every outcome
        obtain ⟨SI, hSI⟩ : ∃ SI, ∀ ω, kf0.inv (H' * (P * H'ᵀ) + R') = some SI := by
          cases hi : kf0.inv (H' * (P * H'ᵀ) + R') with
          | some SI => exact ⟨SI, fun _ => rfl⟩
          | none =>
            refine ⟨0, fun ω => ?_⟩
            obtain ⟨SI, h1, _⟩ := update_ok (hc' ω).1
            rw [hE.inv ω, hE.P ω, hE.H ω, hE.R ω, ← hH', ← hR', hi] at h1
            cases h1
        set K := P * H'ᵀ * SI with hK
        have hupd : ∀ ω, (c ω).1.x = (kf ω).x + K *ᵥ (H' *ᵥ X ω + v ω - H' *ᵥ (kf ω).x) ∧
            (c ω).1.P = (1 - K * H') * P * (1 - K * H')ᵀ + K * R' * Kᵀ := by
          intro ω
          obtain ⟨SI', h1, h2⟩ := update_ok (hc' ω).1
          rw [hE.inv ω, hE.P ω, hE.H ω, hE.R ω, ← hH', ← hR', hSI ω] at h1
          cases h1
          rw [h2]; simp only [hE.P ω, hE.H ω, hE.R ω, ← hH', ← hR', ← hK]
          exact ⟨trivial, trivial⟩
        have herr : (fun ω => (c ω).2 - (c ω).1.x)
            = fun ω => (1 - K * H') *ᵥ (X ω - (kf ω).x) + (-K) *ᵥ v ω := by
          funext ω
          rw [(hc' ω).2, (hupd ω).1]
          simp only [Matrix.sub_mulVec, Matrix.mulVec_sub, Matrix.mulVec_add, Matrix.one_mulVec,
            ← Matrix.mulVec_mulVec, Matrix.neg_mulVec]
          abel
        refine ih (fun ω => (c ω).1) (fun ω => (c ω).2) _
          ⟨fun ω => (hupd ω).2, ?_, ?_, ?_, ?_, ?_, ?_, ?_⟩ ?_
          (fun e he => hns e (by simp [he])) ?_ htl hcr
        iterate 7
          intro ω
          obtain ⟨x, _, hx⟩ := update_ok (hc' ω).1
          rw [hx]
          first | exact hE.F ω | exact hE.B ω | exact hE.Q ω | exact hE.H ω | exact hE.R ω |
            exact hE.alpha ω | exact hE.inv ω
        · rw [herr]
          have := noise_mulVec_add hN hne hie (1 - K * H') (-K)
          have e1 : (-K) * R' * (-K)ᵀ = K * R' * Kᵀ := by simp
          exact e1 ▸ this
        · intro e' he'
          rw [herr]
          exact cov_mulVec_add_right hN.sq hne.sq (hns e' (by simp [he'])).sq
            (hin e' (by simp [he'])) (hhd e' he') _ _
      | miss =>
        have hc' : ∀ ω, c ω = ((kf ω).updateNone, X ω) := by
          intro ω
          have h := hc ω
          simp only [worldStep, KF.update] at h
          injection h with h; exact h.symm
        refine ih (fun ω => (c ω).1) (fun ω => (c ω).2) P ⟨?_, ?_, ?_, ?_, ?_, ?_, ?_, ?_⟩ ?_
          (fun e he => hns e (by simp [he])) ?_ htl hcr
        iterate 8
          intro ω
          rw [hc' ω]
          first | exact hE.P ω | exact hE.F ω | exact hE.B ω | exact hE.Q ω | exact hE.H ω |
            exact hE.R ω | exact hE.alpha ω | exact hE.inv ω
        · simp only [hc']; exact hN
        · intro e' he'
          simp only [hc']; exact hin e' (by simp [he'])
  obtain ⟨P', h1, h2⟩ := key evs (fun _ => kf0) X0 kf0.P
    ⟨fun _ => rfl, fun _ => rfl, fun _ => rfl, fun _ => rfl, fun _ => rfl, fun _ => rfl,
      fun _ => halpha, fun _ => rfl⟩ h0 hnoise hinit hpair hrun
  exact ⟨h2.mean, fun ω => by rw [h1 ω]; exact h2.cov, h2.sq⟩

/-! ## A concrete world meeting the hypotheses of C01

Four equally likely outcomes; the initial error, the process noise and the measurement noise
are the three nonconstant Walsh functions, which have mean 0, variance 1 and are pairwise
uncorrelated. -/

/-- The uniform distribution on four outcomes. -/
noncomputable def mu4 : Measure (Fin 4) := (4 : ENNReal)⁻¹ • Measure.count

instance : IsProbabilityMeasure mu4 := ⟨by
  simp only [mu4, Measure.smul_apply, smul_eq_mul, Measure.count_univ]
  rw [show ENat.toENNReal (ENat.card (Fin 4)) = 4 by simp]
  exact ENNReal.inv_mul_cancel (by norm_num) (by norm_num)⟩

theorem integral_mu4 (f : Fin 4 → ℝ) : ∫ ω, f ω ∂mu4 = (f 0 + f 1 + f 2 + f 3) / 4 := by
  rw [mu4, integral_smul_measure, integral_count, Fin.sum_univ_four]
  simp; ring

theorem cov_mu4 (f g : Fin 4 → ℝ) : cov[f, g; mu4] =
    (f 0 * g 0 + f 1 * g 1 + f 2 * g 2 + f 3 * g 3) / 4
      - (f 0 + f 1 + f 2 + f 3) / 4 * ((g 0 + g 1 + g 2 + g 3) / 4) := by
  rw [covariance, integral_mu4, integral_mu4, integral_mu4]
  ring

theorem memLp_mu4 (f : Fin 4 → ℝ) : MemLp f 2 mu4 := by
  have : IsFiniteMeasure mu4 := inferInstance
  refine MemLp.of_bound (measurable_of_finite f).aestronglyMeasurable (∑ i, |f i|) ?_
  refine Filter.Eventually.of_forall fun ω => ?_
  rw [Real.norm_eq_abs]
  exact Finset.single_le_sum (f := fun i => |f i|) (fun i _ => abs_nonneg _) (Finset.mem_univ ω)

/-- The three noises of the concrete world. -/
def walsh (j : Fin 3) : Fin 4 → Vec 1 := fun ω _ =>
  (!![1, 1, -1, -1; 1, -1, 1, -1; 1, -1, -1, 1] : Matrix (Fin 3) (Fin 4) ℝ) j ω

theorem walsh_ok (j : Fin 3) : NoiseOK (walsh j) mu4 1 := by
  refine ⟨fun i => memLp_mu4 _, ?_, ?_⟩
  · ext i; simp only [meanVec, integral_mu4]; fin_cases j <;> simp [walsh]
  · ext a b
    rw [Subsingleton.elim b a]
    simp only [covMat, Matrix.of_apply, cov_mu4, Matrix.one_apply_eq]
    fin_cases j <;> simp [walsh] <;> norm_num

theorem walsh_uncorr (i j : Fin 3) (h : i ≠ j) : covMat (walsh i) (walsh j) mu4 = 0 := by
  ext a b
  simp only [covMat, Matrix.of_apply, cov_mu4, Matrix.zero_apply]
  fin_cases i <;> fin_cases j <;> first | exact absurd rfl h | (simp [walsh])

/-- A scalar random-walk filter. -/
noncomputable def walkKF : KF 1 1 1 := { KF.fresh 1 1 1 with H := 1 }

/-- One prediction, one missing measurement, one measurement: all hypotheses of C01 hold, the
history runs through, and so the reported `P` is the covariance of the error. -/
example : ∃ final : Fin 4 → KF 1 1 1 × Vec 1,
    (∀ ω, worldRun ω (walkKF, walsh 0 ω)
      [.move none none none .none (walsh 1), .miss, .measure .none none (walsh 2)]
        = .ok (final ω)) ∧
    covMat (fun ω => (final ω).2 - (final ω).1.x) (fun ω => (final ω).2 - (final ω).1.x) mu4
      = (final 0).1.P := by
  have hS : ∀ A : Mat 1 1, A = (1 : ℝ) • (1 * 1 * 1ᵀ) + 1 →
      npInv ((1 : Mat 1 1) * (A * 1ᵀ) + 1) = some ((1 : Mat 1 1) * (A * 1ᵀ) + 1)⁻¹ := by
    intro A hA
    refine npInv_of_det_ne ?_
    rw [hA, Matrix.det_fin_one]; simp; norm_num
  have hrun : ∀ ω, ∃ c, worldRun ω (walkKF, walsh 0 ω)
      [.move none none none .none (walsh 1), .miss, .measure .none none (walsh 2)] = .ok c := by
    intro ω
    simp only [worldRun, worldStep, KF.predict, KF.control, uArg, walkKF, KF.fresh, KF.update,
      Option.none_or, Option.getD_none, MatArg.resolve, KF.updateNone, bind, Except.bind]
    rw [hS _ rfl]
    exact ⟨_, rfl⟩
  choose final hfinal using hrun
  refine ⟨final, hfinal, ?_⟩
  have hz : ∀ c : Fin 4 → Vec 1, covMat c (fun _ => (0 : Vec 0)) mu4 = 0 := fun c => by
    ext i j; exact j.elim0
  have hz' : ∀ c : Fin 4 → Vec 1, covMat (fun _ => (0 : Vec 0)) c mu4 = 0 := fun c => by
    ext i j; exact i.elim0
  have he : (fun ω => walsh 0 ω - walkKF.x) = walsh 0 := by
    funext ω; simp [walkKF, KF.fresh]
  refine (C01_reported_covariance_is_true (μ := mu4) walkKF (walsh 0) _ rfl ?_ ?_ ?_ ?_ final
    hfinal).2.1 0
  · rw [he]; exact walsh_ok 0
  · intro e hmem
    simp only [List.mem_cons, List.not_mem_nil, or_false] at hmem
    rcases hmem with rfl | rfl | rfl
    · exact walsh_ok 1
    · exact ⟨SqInt.zero0 _, by ext i; exact i.elim0, by ext i; exact i.elim0⟩
    · exact walsh_ok 2
  · intro e hmem
    rw [he]
    simp only [List.mem_cons, List.not_mem_nil, or_false] at hmem
    rcases hmem with rfl | rfl | rfl
    · exact walsh_uncorr 0 1 (by decide)
    · exact hz _
    · exact walsh_uncorr 0 2 (by decide)
  · simp only [List.pairwise_cons, List.mem_cons, List.not_mem_nil, or_false, forall_eq_or_imp,
      forall_eq, List.Pairwise.nil, and_true, false_implies, implies_true]
    exact ⟨⟨hz _, walsh_uncorr 1 2 (by decide)⟩, hz' _⟩

/-! ## C03 and C15: optimality of the gain -/

/-- Covariance of `(1-KH)e - K v` when `cov(e) = P`, `cov(v) = R`, `cov(e,v) = M`. -/
theorem corr_cov {e : Ω → Vec n} {v : Ω → Vec m} {P : Mat n n} {R : Mat m m} {M : Mat n m}
    (he : NoiseOK e μ P) (hv : NoiseOK v μ R) (hM : covMat e v μ = M) (H : Mat m n)
    (K : Mat n m) :
    NoiseOK (fun ω => e ω - K *ᵥ (H *ᵥ e ω + v ω)) μ
      (P - K * (P * Hᵀ + M)ᵀ - (P * Hᵀ + M) * Kᵀ
        + K * (H * (P * Hᵀ) + H * M + Mᵀ * Hᵀ + R) * Kᵀ) := by
  have hM' : covMat v e μ = Mᵀ := by rw [covMat_transpose, hM]
  have hPs : Pᵀ = P := by rw [← he.cov]; exact covMat_transpose.symm
  have s1 := he.sq.mulVec H
  have s2 : SqInt (fun ω => H *ᵥ e ω + v ω) μ := s1.add hv.sq
  have s3 : SqInt (fun ω => K *ᵥ (H *ᵥ e ω + v ω)) μ := s2.mulVec K
  have c1 : covMat e (fun ω => H *ᵥ e ω + v ω) μ = P * Hᵀ + M := by
    rw [covMat_add_right he.sq s1 hv.sq, covMat_mulVec_right he.sq he.sq, he.cov, hM]
  have c2 : covMat (fun ω => H *ᵥ e ω + v ω) (fun ω => H *ᵥ e ω + v ω) μ
      = H * (P * Hᵀ) + H * M + Mᵀ * Hᵀ + R := by
    rw [covMat_add_left s1 hv.sq s2, covMat_mulVec_left he.sq s2, c1,
      covMat_add_right hv.sq s1 hv.sq, covMat_mulVec_right hv.sq he.sq, hM', hv.cov,
      Matrix.mul_add]
    abel
  refine ⟨he.sq.sub s3, ?_, ?_⟩
  · rw [meanVec_sub he.sq s3, meanVec_mulVec s2, meanVec_add s1 hv.sq, meanVec_mulVec he.sq,
      he.mean, hv.mean]
    simp
  · rw [covMat_sub_left he.sq s3 (he.sq.sub s3), covMat_sub_right he.sq he.sq s3,
      covMat_sub_right s3 he.sq s3, covMat_mulVec_left s2 he.sq, covMat_mulVec_left s2 s3,
      covMat_mulVec_right he.sq s2, covMat_mulVec_right s2 s2, c1, c2, he.cov,
      covMat_transpose (X := e), c1]
    simp only [Matrix.mul_assoc]
    abel

/-- With `K = T S⁻¹` the covariance `P - K Tᵀ - T Kᵀ + K S Kᵀ` is `P - K Tᵀ`, and any other
gain costs `(K'-K) S (K'-K)ᵀ` more. -/
theorem gain_optimal {P : Mat n n} {T : Mat n m} {S : Mat m m} (hS : Sᵀ = S) (hd : S.det ≠ 0) :
    (P - (T * S⁻¹) * Tᵀ - T * (T * S⁻¹)ᵀ + (T * S⁻¹) * S * (T * S⁻¹)ᵀ = P - (T * S⁻¹) * Tᵀ) ∧
    ∀ K' : Mat n m, (P - K' * Tᵀ - T * K'ᵀ + K' * S * K'ᵀ) - (P - (T * S⁻¹) * Tᵀ)
      = (K' - T * S⁻¹) * S * (K' - T * S⁻¹)ᵀ := by
  have hi : S⁻¹ * S = 1 := nonsing_inv_mul _ (isUnit_det_of_ne hd)
  have hi' : S * S⁻¹ = 1 := mul_nonsing_inv _ (isUnit_det_of_ne hd)
  have hSi : (S⁻¹)ᵀ = S⁻¹ := inv_symm hS
  have h1 : T * S⁻¹ * S = T := by rw [Matrix.mul_assoc, hi, Matrix.mul_one]
  have h2 : S * (T * S⁻¹)ᵀ = Tᵀ := by
    rw [transpose_mul, hSi, ← Matrix.mul_assoc, hi', Matrix.one_mul]
  have h3 : T * (T * S⁻¹)ᵀ = T * S⁻¹ * Tᵀ := by
    rw [transpose_mul, hSi, Matrix.mul_assoc]
  refine ⟨by rw [h1]; abel, fun K' => ?_⟩
  simp only [Matrix.sub_mul, transpose_sub, Matrix.mul_sub]
  rw [h1, Matrix.mul_assoc K' S (T * S⁻¹)ᵀ, h2, h3]
  abel

theorem eq_zero_of_congr_zero {D : Mat n m} {S : Mat m m} (hS : S.PosDef)
    (h : D * S * Dᵀ = 0) : D = 0 := by
  ext i j
  by_contra hij
  have hne : D i ≠ 0 := fun h0 => hij (by rw [h0]; rfl)
  have h1 := PD.quad hS hne
  have h2 : (D * S * Dᵀ) i i = D i ⬝ᵥ (S *ᵥ D i) := by
    rw [dotProduct_mulVec]; rfl
  rw [h] at h2
  rw [← h2] at h1
  exact lt_irrefl _ h1

/-- Optimality of the gain `T S⁻¹` for the noise model `cov(e) = P`, `cov(v) = R`,
`cov(e,v) = M`. -/
theorem gain_thm {e : Ω → Vec n} {v : Ω → Vec m} {P : Mat n n} {R : Mat m m} {M : Mat n m}
    (he : NoiseOK e μ P) (hv : NoiseOK v μ R) (hM : covMat e v μ = M) (H : Mat m n)
    (hd : (H * (P * Hᵀ) + H * M + Mᵀ * Hᵀ + R).det ≠ 0) {K : Mat n m}
    (hK : K = (P * Hᵀ + M) * (H * (P * Hᵀ) + H * M + Mᵀ * Hᵀ + R)⁻¹) :
    NoiseOK (fun ω => e ω - K *ᵥ (H *ᵥ e ω + v ω)) μ (P - K * (P * Hᵀ + M)ᵀ) ∧
    ∀ K' : Mat n m,
      let err := fun ω => e ω - K' *ᵥ (H *ᵥ e ω + v ω)
      (covMat err err μ - (P - K * (P * Hᵀ + M)ᵀ)).PosSemidef ∧
      (covMat err err μ = P - K * (P * Hᵀ + M)ᵀ → K' = K) := by
  have s1 := he.sq.mulVec H
  have s2 : SqInt (fun ω => H *ᵥ e ω + v ω) μ := s1.add hv.sq
  have hM' : covMat v e μ = Mᵀ := by rw [covMat_transpose, hM]
  have c2 : covMat (fun ω => H *ᵥ e ω + v ω) (fun ω => H *ᵥ e ω + v ω) μ
      = H * (P * Hᵀ) + H * M + Mᵀ * Hᵀ + R := by
    rw [covMat_add_left s1 hv.sq s2, covMat_mulVec_left he.sq s2,
      covMat_add_right he.sq s1 hv.sq, covMat_mulVec_right he.sq he.sq, he.cov, hM,
      covMat_add_right hv.sq s1 hv.sq, covMat_mulVec_right hv.sq he.sq, hM', hv.cov,
      Matrix.mul_add]
    abel
  set S := H * (P * Hᵀ) + H * M + Mᵀ * Hᵀ + R with hSd
  have hSs : Sᵀ = S := by rw [← c2]; exact covMat_transpose.symm
  have hSpsd : S.PosSemidef := by rw [← c2]; exact covMat_psd s2
  have hSpd : S.PosDef := PSD.posDef_of_det hSpsd hd
  obtain ⟨g1, g2⟩ := gain_optimal (P := P) (T := P * Hᵀ + M) hSs hd
  rw [← hK] at g1 g2
  refine ⟨g1 ▸ corr_cov he hv hM H K, fun K' => ?_⟩
  have hc := (corr_cov he hv hM H K').cov
  simp only
  rw [← hSd] at hc
  rw [hc, g2 K']
  refine ⟨PSD.congr hSpsd _, fun h => ?_⟩
  have h0 := g2 K'
  rw [h, sub_self] at h0
  exact sub_eq_zero.1 (eq_zero_of_congr_zero hSpd h0.symm)

/-- **C03.** Let the filter's prior `x, P` describe the error of `x` about the true state `X`
and measure `z = H X + v` with noise covariance `R`.  Then in every outcome `update(z)` (which
does not raise for invertible `S`) reports as `P` the covariance of its own error, and the
error covariance of any other linear correction `x + K'(z - H x)` exceeds it by a positive
semidefinite matrix, with equality only for the filter's own gain. -/
theorem C03_gain_optimal (s : KF n m l) (X : Ω → Vec n) (v : Ω → Vec m) (R : MatArg m)
    (H : Option (Mat m n)) (hinv : s.inv = npInv)
    (hX : NoiseOK (fun ω => X ω - s.x) μ s.P) (hv : NoiseOK v μ (R.resolve s.R))
    (huncorr : covMat (fun ω => X ω - s.x) v μ = 0)
    (hS : ((H.getD s.H) * s.P * (H.getD s.H)ᵀ + R.resolve s.R).det ≠ 0) :
    ∃ s' : Ω → KF n m l,
      (∀ ω, s.update (some ((H.getD s.H) *ᵥ X ω + v ω)) R H = .ok (s' ω)) ∧
      (∀ ω, NoiseOK (fun ω => X ω - (s' ω).x) μ (s' ω).P) ∧
      ∀ (ω : Ω) (K' : Mat n m),
        let err := fun ω => X ω - (s.x + K' *ᵥ (((H.getD s.H) *ᵥ X ω + v ω) - (H.getD s.H) *ᵥ s.x))
        (covMat err err μ - (s' ω).P).PosSemidef ∧
        (covMat err err μ = (s' ω).P → K' = (s' ω).K) := by
  set H' := H.getD s.H with hH'
  set R' := R.resolve s.R with hR'
  rw [Matrix.mul_assoc] at hS
  have hok : ∀ ω, ∃ s', s.update (some (H' *ᵥ X ω + v ω)) R H = .ok s' := by
    intro ω
    simp only [KF.update, ← hH', ← hR', hinv, npInv_of_det_ne hS]
    exact ⟨_, rfl⟩
  choose s' hs' using hok
  have hPs : s.Pᵀ = s.P := by rw [← hX.cov]; exact covMat_transpose.symm
  have hRs : R'ᵀ = R' := by rw [← hv.cov]; exact covMat_transpose.symm
  have hSs : (H' * (s.P * H'ᵀ) + R')ᵀ = H' * (s.P * H'ᵀ) + R' := S_symm hPs hRs
  set K := s.P * H'ᵀ * (H' * (s.P * H'ᵀ) + R')⁻¹ with hK
  have hval : ∀ ω, (s' ω).K = K ∧
      (s' ω).x = s.x + K *ᵥ (H' *ᵥ X ω + v ω - H' *ᵥ s.x) ∧
      (s' ω).P = s.P - K * (s.P * H'ᵀ)ᵀ := by
    intro ω
    obtain ⟨SI, h1, h2⟩ := update_ok (hs' ω)
    rw [hinv] at h1
    obtain ⟨_, rfl⟩ := npInv_eq_some.1 h1
    rw [h2]
    refine ⟨rfl, rfl, ?_⟩
    simp only [← hH', ← hR', ← hK]
    rw [joseph_simple hPs rfl (nonsing_inv_mul _ (isUnit_det_of_ne hS)) (inv_symm hSs) hK,
      Matrix.sub_mul, Matrix.one_mul, transpose_mul, transpose_transpose, hPs, Matrix.mul_assoc]
  have herr : ∀ K' : Mat n m, (fun ω => X ω - (s.x + K' *ᵥ ((H' *ᵥ X ω + v ω) - H' *ᵥ s.x)))
      = fun ω => (X ω - s.x) - K' *ᵥ (H' *ᵥ (X ω - s.x) + v ω) := by
    intro K'; funext ω
    rw [Matrix.mulVec_sub H', sub_add_eq_sub_sub,
      show H' *ᵥ X ω + v ω - H' *ᵥ s.x = H' *ᵥ X ω - H' *ᵥ s.x + v ω by abel]
  have hd : (H' * (s.P * H'ᵀ) + H' * (0 : Mat n m) + (0 : Mat n m)ᵀ * H'ᵀ + R').det ≠ 0 := by
    simpa using hS
  have hK0 : K = (s.P * H'ᵀ + 0) *
      (H' * (s.P * H'ᵀ) + H' * (0 : Mat n m) + (0 : Mat n m)ᵀ * H'ᵀ + R')⁻¹ := by
    simpa using hK
  obtain ⟨t1, t2⟩ := gain_thm hX hv huncorr H' hd hK0
  rw [add_zero] at t1 t2
  refine ⟨s', hs', fun ω => ?_, fun ω K' => ?_⟩
  · have : (fun ω => X ω - (s' ω).x) = fun ω => (X ω - s.x) - K *ᵥ (H' *ᵥ (X ω - s.x) + v ω) := by
      rw [← herr K]; funext ω; rw [(hval ω).2.1]
    rw [this, (hval ω).2.2]
    exact t1
  · simp only
    rw [herr K', (hval ω).2.2, (hval ω).1]
    exact t2 K'

/-- **C15.** With `M = 0`, `update_correlated` is `update` whenever `P` and `R` are symmetric:
same `x, P, K, S, y` and same exception behaviour. -/
theorem C15_M_zero (s : KF n m l) (z : Option (Vec m)) (R : MatArg m) (H : Option (Mat m n))
    (hM : s.M = 0) (hinv : s.inv = npInv) (hP : s.Pᵀ = s.P)
    (hR : (R.resolve s.R)ᵀ = R.resolve s.R) :
    s.updateCorrelated z R H = s.update z R H := by
  cases z with
  | none => rfl
  | some z =>
    simp only [KF.updateCorrelated, KF.update, hM, hinv]
    set H' := H.getD s.H
    set R' := R.resolve s.R
    have hS0 : H' * (s.P * H'ᵀ) + H' * (0 : Mat n m) + (0 : Mat n m)ᵀ * H'ᵀ + R'
        = H' * (s.P * H'ᵀ) + R' := by simp
    rw [hS0]
    cases hi : npInv (H' * (s.P * H'ᵀ) + R') with
    | none => rfl
    | some SI =>
      obtain ⟨hd, rfl⟩ := npInv_eq_some.1 hi
      have hj := joseph_simple hP (rfl : H' * (s.P * H'ᵀ) + R' = _)
        (nonsing_inv_mul _ (isUnit_det_of_ne hd)) (inv_symm (S_symm hP hR)) rfl
      simp only [add_zero, transpose_zero]
      rw [hj]
      simp [Matrix.sub_mul, Matrix.mul_assoc]

/-- **C15.** The system moves by `X' = F X + B u + w` and is then measured by `z = H X' + v`
where process and measurement noise are correlated, `cov(w, v) = M`.  After `predict` and
`update_correlated(z)` the reported `P` is the covariance of the error, and every other linear
correction of the predicted state has an error covariance exceeding it by a positive
semidefinite matrix. -/
theorem C15_correlated_exact_and_optimal (s : KF n m l) (X : Ω → Vec n) (w : Ω → Vec n)
    (v : Ω → Vec m) (u : Option (Vec l)) (hinv : s.inv = npInv) (halpha : s.alphaSq = 1)
    (hX : NoiseOK (fun ω => X ω - s.x) μ s.P) (hw : NoiseOK w μ s.Q) (hv : NoiseOK v μ s.R)
    (hXw : covMat (fun ω => X ω - s.x) w μ = 0) (hXv : covMat (fun ω => X ω - s.x) v μ = 0)
    (hM : covMat w v μ = s.M) (s1 : KF n m l) (hpred : s.predict (uArg u) = .ok s1)
    (s2 : Ω → KF n m l)
    (hupd : ∀ ω, s1.updateCorrelated
      (some (s.H *ᵥ (s.F *ᵥ X ω + controlEffect s.B u + w ω) + v ω)) = .ok (s2 ω)) :
    let X' := fun ω => s.F *ᵥ X ω + controlEffect s.B u + w ω
    (∀ ω, NoiseOK (fun ω => X' ω - (s2 ω).x) μ (s2 ω).P) ∧
    ∀ (ω : Ω) (K' : Mat n m),
      let err := fun ω => X' ω - (s1.x + K' *ᵥ ((s.H *ᵥ X' ω + v ω) - s.H *ᵥ s1.x))
      (covMat err err μ - (s2 ω).P).PosSemidef ∧
      (covMat err err μ = (s2 ω).P → K' = (s2 ω).K) := by
  set X' := fun ω => s.F *ᵥ X ω + controlEffect s.B u + w ω with hX'
  have hx1 := predict_truth hpred
  obtain ⟨x1, hs1⟩ := predict_ok hpred
  have hxx : x1 = s1.x := by rw [hs1]
  simp only [Option.none_or, Option.getD_none] at hx1
  have e1 : (fun ω => X' ω - s1.x)
      = fun ω => s.F *ᵥ (X ω - s.x) + (1 : Mat n n) *ᵥ w ω := by
    funext ω
    simp only [hX', hx1, Matrix.mulVec_sub, Matrix.one_mulVec]
    abel
  have hN : NoiseOK (fun ω => X' ω - s1.x) μ s1.P := by
    have h0 := noise_mulVec_add hX hw hXw s.F (1 : Mat n n)
    rw [← e1] at h0
    have : s1.P = s.F * s.P * s.Fᵀ + (1 : Mat n n) * s.Q * (1 : Mat n n)ᵀ := by
      rw [hs1]; simp [halpha, MatArg.resolve]
    rw [this]; exact h0
  have hcv : covMat (fun ω => X' ω - s1.x) v μ = s.M := by
    rw [e1, covMat_add_left (hX.sq.mulVec _) (hw.sq.mulVec _) hv.sq, covMat_mulVec_left hX.sq hv.sq,
      covMat_mulVec_left hw.sq hv.sq, hXv, hM]
    simp
  have hattr : s1.H = s.H ∧ s1.R = s.R ∧ s1.M = s.M ∧ s1.inv = npInv := by
    rw [hs1]; exact ⟨rfl, rfl, rfl, hinv⟩
  obtain ⟨aH, aR, aM, ainv⟩ := hattr
  have hPs : s1.Pᵀ = s1.P := by rw [← hN.cov]; exact covMat_transpose.symm
  by_cases hne : Nonempty Ω
  swap
  · exact ⟨fun ω => absurd ⟨ω⟩ hne, fun ω => absurd ⟨ω⟩ hne⟩
  obtain ⟨ω0⟩ := hne
  have hd : (s.H * (s1.P * s.Hᵀ) + s.H * s.M + s.Mᵀ * s.Hᵀ + s.R).det ≠ 0 := by
    obtain ⟨SI, h1, _⟩ := updateCorrelated_ok (hupd ω0)
    rw [ainv, aH, aR, aM] at h1
    exact (npInv_eq_some.1 h1).1
  set K := (s1.P * s.Hᵀ + s.M) * (s.H * (s1.P * s.Hᵀ) + s.H * s.M + s.Mᵀ * s.Hᵀ + s.R)⁻¹ with hK
  have hval : ∀ ω, (s2 ω).K = K ∧
      (s2 ω).x = s1.x + K *ᵥ (s.H *ᵥ X' ω + v ω - s.H *ᵥ s1.x) ∧
      (s2 ω).P = s1.P - K * (s1.P * s.Hᵀ + s.M)ᵀ := by
    intro ω
    obtain ⟨SI, h1, h2⟩ := updateCorrelated_ok (hupd ω)
    simp only [ainv, aH, aR, aM, Option.getD_none, MatArg.resolve] at h1 h2
    obtain ⟨_, rfl⟩ := npInv_eq_some.1 h1
    rw [h2]
    refine ⟨rfl, rfl, ?_⟩
    simp only [transpose_add, transpose_mul, transpose_transpose, hPs]
    rfl
  obtain ⟨t1, t2⟩ := gain_thm hN hv hcv s.H hd hK
  have herr : ∀ K' : Mat n m, (fun ω => X' ω - (s1.x + K' *ᵥ ((s.H *ᵥ X' ω + v ω) - s.H *ᵥ s1.x)))
      = fun ω => (X' ω - s1.x) - K' *ᵥ (s.H *ᵥ (X' ω - s1.x) + v ω) := by
    intro K'; funext ω
    rw [Matrix.mulVec_sub s.H, sub_add_eq_sub_sub,
      show s.H *ᵥ X' ω + v ω - s.H *ᵥ s1.x = s.H *ᵥ X' ω - s.H *ᵥ s1.x + v ω by abel]
  refine ⟨fun ω => ?_, fun ω K' => ?_⟩
  · have : (fun ω => X' ω - (s2 ω).x)
        = fun ω => (X' ω - s1.x) - K *ᵥ (s.H *ᵥ (X' ω - s1.x) + v ω) := by
      rw [← herr K]; funext ω; rw [(hval ω).2.1]
    rw [this, (hval ω).2.2]
    exact t1
  · simp only
    rw [herr K', (hval ω).2.2, (hval ω).1]
    exact t2 K'

/-- Hypotheses of C03 met in the four-outcome world. -/
example : ∃ s' : Fin 4 → KF 1 1 1,
    (∀ ω, walkKF.update (some (walkKF.H *ᵥ walsh 0 ω + walsh 1 ω)) = .ok (s' ω)) ∧
    (∀ ω, NoiseOK (fun ω => walsh 0 ω - (s' ω).x) mu4 (s' ω).P) := by
  have he : (fun ω => walsh 0 ω - walkKF.x) = walsh 0 := by
    funext ω; simp [walkKF, KF.fresh]
  obtain ⟨s', h1, h2, _⟩ := C03_gain_optimal (μ := mu4) walkKF (walsh 0) (walsh 1) .none none rfl
    (by rw [he]; exact walsh_ok 0) (walsh_ok 1) (by rw [he]; exact walsh_uncorr 0 1 (by decide))
    (by simp [walkKF, KF.fresh, MatArg.resolve])
  exact ⟨s', h1, h2⟩

/-- Hypotheses of C15 met in the four-outcome world with fully correlated noises `w = v`. -/
example : ∃ (s1 : KF 1 1 1) (s2 : Fin 4 → KF 1 1 1),
    ({ walkKF with M := 1 } : KF 1 1 1).predict (uArg none) = .ok s1 ∧
    ∀ ω, s1.updateCorrelated (some ((1 : Mat 1 1) *ᵥ ((1 : Mat 1 1) *ᵥ walsh 0 ω
      + controlEffect (none : Option (Mat 1 1)) none + walsh 1 ω) + walsh 1 ω)) = .ok (s2 ω) ∧
      NoiseOK (fun ω => ((1 : Mat 1 1) *ᵥ walsh 0 ω + controlEffect (none : Option (Mat 1 1)) none + walsh 1 ω)
        - (s2 ω).x) mu4 (s2 ω).P := by
  have he : (fun ω => walsh 0 ω - walkKF.x) = walsh 0 := by
    funext ω; simp [walkKF, KF.fresh]
  obtain ⟨s1, h1⟩ : ∃ s1, ({ walkKF with M := 1 } : KF 1 1 1).predict (uArg none) = .ok s1 :=
    ⟨_, rfl⟩
  have h2 : ∀ ω, ∃ s2, s1.updateCorrelated (some ((1 : Mat 1 1) *ᵥ ((1 : Mat 1 1) *ᵥ walsh 0 ω
      + controlEffect (none : Option (Mat 1 1)) none + walsh 1 ω) + walsh 1 ω)) = .ok s2 := by
    intro ω
    obtain ⟨x, rfl⟩ := predict_ok h1
    simp only [KF.updateCorrelated, walkKF, KF.fresh, Option.getD_none, MatArg.resolve]
    rw [npInv_of_det_ne]
    · exact ⟨_, rfl⟩
    · simp; norm_num
  choose s2 hs2 using h2
  refine ⟨s1, s2, h1, fun ω => ⟨hs2 ω, ?_⟩⟩
  exact (C15_correlated_exact_and_optimal (μ := mu4) { walkKF with M := 1 } (walsh 0) (walsh 1)
    (walsh 1) none rfl rfl (by rw [he]; exact walsh_ok 0) (walsh_ok 1) (walsh_ok 1)
    (by rw [he]; exact walsh_uncorr 0 1 (by decide)) (by rw [he]; exact walsh_uncorr 0 1 (by decide))
    (walsh_ok 1).cov s1 h1 s2 hs2).1 ω

end Filterpy
