import Verif.Props.KalmanEvidence
import Verif.Props.KalmanChiSquare

/-!
# C149: error bars and ellipses have the coverage they advertise, whatever has been measured
-/

namespace Filterpy

open MeasureTheory ProbabilityTheory Matrix Spec KF Stats

variable {n m l : ℕ}

/-- **C149, independence.**  The estimation error is normal with mean zero and covariance `kf.P` and independent of all the
measurements: the probability that the error lies in `A` and the measurements in `D` is the product of the two
probabilities. -/
theorem C149_error {kf : KF n m l} {p : List (Act n m l)} (h : Planned kf p)
    (final : (Fin (measurements p) → Vec m) → KF n m l × ℝ) (hrun : ∀ d, listen p d kf 0 = .ok (final d)) :
    ∃ C : Mat n n, C.PosSemidef ∧ (∀ d, (final d).1.P = C) ∧
      ∀ (A : Set (Vec n)) (D : Set (Fin (measurements p) → Vec m)), MeasurableSet A → MeasurableSet D →
        MeasurableSet {q : Vec n × (Fin (measurements p) → Vec m) | q.1 - (final q.2).1.x ∈ A ∧ q.2 ∈ D} ∧
        world kf p {q | q.1 - (final q.2).1.x ∈ A ∧ q.2 ∈ D} = normal 0 C A * world kf p {q | q.2 ∈ D} := by
  obtain ⟨⟨C, hC, hP⟩, hx, hl, hw⟩ := world_lintegral h hrun
  refine ⟨C, hC, hP, fun A D hA hD => ?_⟩
  have hme : Measurable fun q : Vec n × (Fin (measurements p) → Vec m) => q.1 - (final q.2).1.x :=
    measurable_fst.sub (hx.comp measurable_snd)
  have hms : MeasurableSet {q : Vec n × (Fin (measurements p) → Vec m) | q.1 - (final q.2).1.x ∈ A ∧ q.2 ∈ D} :=
    (hme hA).inter (measurable_snd hD)
  refine ⟨hms, ?_⟩
  have hD' : world kf p {q | q.2 ∈ D} = ∫⁻ d, ENNReal.ofReal (Real.exp (final d).2) * D.indicator 1 d := by
    have hi : Measurable fun q : Vec n × (Fin (measurements p) → Vec m) => D.indicator (1 : (Fin (measurements p) → Vec m) → ENNReal) q.2 :=
      (measurable_one.indicator hD).comp measurable_snd
    have e : world kf p {q | q.2 ∈ D} = ∫⁻ q, D.indicator (1 : (Fin (measurements p) → Vec m) → ENNReal) q.2 ∂(world kf p) := by
      exact (lintegral_indicator_one (measurable_snd hD)).symm.trans (lintegral_congr fun q => rfl)
    rw [e, hw _ hi]
    refine lintegral_congr fun d => ?_
    dsimp only
    rw [lintegral_const, measure_univ, mul_one]
  have hf : Measurable fun q : Vec n × (Fin (measurements p) → Vec m) =>
      A.indicator (1 : Vec n → ENNReal) (q.1 - (final q.2).1.x) * D.indicator (1 : (Fin (measurements p) → Vec m) → ENNReal) q.2 :=
    ((measurable_one.indicator hA).comp hme).mul ((measurable_one.indicator hD).comp measurable_snd)
  have e : world kf p {q | q.1 - (final q.2).1.x ∈ A ∧ q.2 ∈ D} = ∫⁻ q, A.indicator (1 : Vec n → ENNReal) (q.1 - (final q.2).1.x) *
      D.indicator (1 : (Fin (measurements p) → Vec m) → ENNReal) q.2 ∂(world kf p) := by
    rw [← lintegral_indicator_one hms]
    refine lintegral_congr fun q => ?_
    by_cases h1 : q.1 - (final q.2).1.x ∈ A <;> by_cases h2 : q.2 ∈ D <;> simp [h1, h2]
  have hg : Measurable fun d => ENNReal.ofReal (Real.exp (final d).2) * D.indicator (1 : (Fin (measurements p) → Vec m) → ENNReal) d :=
    hl.exp.ennreal_ofReal.mul (measurable_one.indicator hD)
  rw [e, hw _ hf, hD', ← lintegral_const_mul _ hg]
  refine lintegral_congr fun d => ?_
  have hi : Measurable fun v : Vec n => A.indicator (1 : Vec n → ENNReal) (v - (final d).1.x) :=
    (measurable_one.indicator hA).comp (measurable_sub_const _)
  dsimp only
  rw [hP, lintegral_mul_const _ hi, normal_lintegral _ hC hi]
  simp only [add_sub_cancel_right]
  rw [lintegral_indicator_one hA, mul_left_comm]

/-- A linear combination of the components of a normal vector, in units of its deviation, is standard normal. -/
theorem normal_bar {C : Mat n n} (hC : C.PosSemidef) (w : Vec n) (hw : 0 < w ⬝ᵥ (C *ᵥ w)) (t : ℝ) :
    normal 0 C {v | |w ⬝ᵥ v| ≤ t * Real.sqrt (w ⬝ᵥ (C *ᵥ w))} = gaussianReal 0 1 (Set.Icc (-t) t) := by
  set s := Real.sqrt (w ⬝ᵥ (C *ᵥ w)) with hs
  have hs0 : 0 < s := Real.sqrt_pos.2 hw
  have hss : s * s = w ⬝ᵥ (C *ᵥ w) := Real.mul_self_sqrt hw.le
  have h1 := normal_affine (0 : Vec n) hC (Matrix.of fun (_ : Fin 1) j => w j / s) 0
  have e1 : (Matrix.of fun (_ : Fin 1) j => w j / s) * C * (Matrix.of fun (_ : Fin 1) j => w j / s)ᵀ = 1 := by
    ext a b
    rw [Subsingleton.elim a 0, Subsingleton.elim b 0]
    have : ((Matrix.of fun (_ : Fin 1) j => w j / s) * C * (Matrix.of fun (_ : Fin 1) j => w j / s)ᵀ) 0 0 =
        (w ⬝ᵥ (C *ᵥ w)) / (s * s) := by
      rw [Matrix.mul_assoc, mul_apply]
      simp only [of_apply, mul_apply, transpose_apply, dotProduct, mulVec, Finset.sum_div, Finset.mul_sum]
      refine Finset.sum_congr rfl fun i _ => Finset.sum_congr rfl fun j _ => ?_
      field_simp
    rw [this, hss, div_self hw.ne', one_apply_eq]
  rw [mulVec_zero, add_zero, e1, normal_std] at h1
  have hev := (measurePreserving_eval (fun _ : Fin 1 => gaussianReal 0 1) 0).map_eq
  have hm : Measurable fun v : Vec n => (Matrix.of fun (_ : Fin 1) j => w j / s) *ᵥ v + 0 := affine_measurable _ _
  rw [← h1, Measure.map_map (measurable_pi_apply _) hm] at hev
  rw [← hev, Measure.map_apply ((measurable_pi_apply _).comp hm) measurableSet_Icc]
  congr 1
  ext v
  have e2 : ((Matrix.of fun (_ : Fin 1) j => w j / s) *ᵥ v + 0) 0 = (w ⬝ᵥ v) / s := by
    simp only [add_zero, mulVec, dotProduct, of_apply, Finset.sum_div]
    exact Finset.sum_congr rfl fun i _ => by ring
  simp only [Set.mem_ofPred_eq, Set.mem_preimage, Function.comp, Function.eval, e2, Set.mem_Icc]
  rw [← abs_le, abs_div, abs_of_pos hs0, div_le_iff₀ hs0]

/-- **C149, error bars.**  A combination `w · x` of state components (one component, a difference of two, a predicted
measurement) with reported deviation `sqrt(wᵀ P w)`: the true value lies within `t` reported deviations of the estimate
with exactly the probability that a standard normal number lies within `t` of zero, also among the runs with measurements
of any given kind. -/
theorem C149_bars {kf : KF n m l} {p : List (Act n m l)} (h : Planned kf p)
    (final : (Fin (measurements p) → Vec m) → KF n m l × ℝ) (hrun : ∀ d, listen p d kf 0 = .ok (final d))
    (w : Vec n) (hw : ∀ d, 0 < w ⬝ᵥ ((final d).1.P *ᵥ w)) (t : ℝ) {D : Set (Fin (measurements p) → Vec m)} (hD : MeasurableSet D) :
    world kf p {q | |w ⬝ᵥ q.1 - w ⬝ᵥ (final q.2).1.x| ≤ t * Real.sqrt (w ⬝ᵥ ((final q.2).1.P *ᵥ w)) ∧ q.2 ∈ D}
      = gaussianReal 0 1 (Set.Icc (-t) t) * world kf p {q | q.2 ∈ D} := by
  obtain ⟨C, hC, hP, hA⟩ := C149_error h final hrun
  have hwC : 0 < w ⬝ᵥ (C *ᵥ w) := by rw [← hP fun _ => 0]; exact hw _
  have hms : MeasurableSet {v : Vec n | |w ⬝ᵥ v| ≤ t * Real.sqrt (w ⬝ᵥ (C *ᵥ w))} :=
    measurableSet_le (Continuous.dotProduct continuous_const continuous_id).abs.measurable measurable_const
  have := (hA _ D hms hD).2
  rw [normal_bar hC w hwC] at this
  rw [← this]
  congr 1
  ext q
  simp only [Set.mem_ofPred_eq, dotProduct_sub, hP]

/-- **C149, ellipsoids.**  The true state lies within `t` deviations of `kf.x` in the sense of `kf.P` with the probability
that a chi-square number with `n` degrees of freedom is at most `t²`, also among the runs with measurements of any given
kind. -/
theorem C149_ellipsoid {kf : KF n m l} {p : List (Act n m l)} (h : Planned kf p)
    (final : (Fin (measurements p) → Vec m) → KF n m l × ℝ) (hrun : ∀ d, listen p d kf 0 = .ok (final d))
    (hdet : ∀ d, (final d).1.P.det ≠ 0) (t : ℝ) {D : Set (Fin (measurements p) → Vec m)} (hD : MeasurableSet D) :
    world kf p {q | (q.1 - (final q.2).1.x) ⬝ᵥ ((final q.2).1.P⁻¹ *ᵥ (q.1 - (final q.2).1.x)) ≤ t ^ 2 ∧ q.2 ∈ D}
      = chiSquare n {s | s ≤ t ^ 2} * world kf p {q | q.2 ∈ D} := by
  obtain ⟨C, hC, hP, hA⟩ := C149_error h final hrun
  have hpd : C.PosDef := hC.posDef_iff_det_ne_zero.2 (by rw [← hP fun _ => 0]; exact hdet _)
  have hms : MeasurableSet {v : Vec n | v ⬝ᵥ (C⁻¹ *ᵥ v) ≤ t ^ 2} := measurableSet_le (quad_measurable _) measurable_const
  have := (hA _ D hms hD).2
  have hs : MeasurableSet {s : ℝ | s ≤ t ^ 2} := measurableSet_Iic
  rw [← chi_of_normal hpd, Measure.map_apply (quad_measurable _) hs]
  refine Eq.trans ?_ this
  congr 1
  ext q
  simp only [Set.mem_ofPred_eq, hP]

/-- **C149, plots.**  In two dimensions `plot_covariance(kf.x, kf.P, std=d)` draws an ellipse around the true state with
probability `1 - exp(-d²/2)`, also among the runs with measurements of any given kind. -/
theorem C149_plot {kf : KF 2 m l} {p : List (Act 2 m l)} (h : Planned kf p)
    (final : (Fin (measurements p) → Vec m) → KF 2 m l × ℝ) (hrun : ∀ d, listen p d kf 0 = .ok (final d))
    (hdet : ∀ d, (final d).1.P.det ≠ 0) (svd : Mat 2 2 → Mat 2 2 × Vec 2)
    (hsvd : ∀ P : Mat 2 2, P.PosDef → ∃ V, IsSvd P (svd P).1 V (svd P).2) (interval1 : ℝ → ℝ) (r : ℝ) (hr : 0 < r) (semi : Bool)
    {D : Set (Fin (measurements p) → Vec m)} (hD : MeasurableSet D) :
    ∃ patch : (Fin (measurements p) → Vec m) → EllipsePatch,
      (∀ d, ∃ pic, plotCovariance svd interval1 (final d).1.x (some (final d).1.P) none (some (.scalar 1)) (some (.scalar r)) none semi
        = .ok pic ∧ pic.patches = [patch d]) ∧
      world kf p {q | q.1 ∈ inside (patch q.2) ∧ q.2 ∈ D} = ENNReal.ofReal (1 - Real.exp (-r ^ 2 / 2)) * world kf p {q | q.2 ∈ D} := by
  obtain ⟨C, hC, hP, hA⟩ := C149_error h final hrun
  have hpd : C.PosDef := hC.posDef_iff_det_ne_zero.2 (by rw [← hP fun _ => 0]; exact hdet _)
  obtain ⟨V, hV⟩ := hsvd C hpd
  have key : ∀ d, ∃ patch, (∃ pic, plotCovariance svd interval1 (final d).1.x (some (final d).1.P) none (some (.scalar 1))
      (some (.scalar r)) none semi = .ok pic ∧ pic.patches = [patch]) ∧
      ∀ q, q ∈ inside patch ↔ (q - (final d).1.x) ⬝ᵥ ((final d).1.P⁻¹ *ᵥ (q - (final d).1.x)) ≤ r ^ 2 := fun d => by
    obtain ⟨pic, h1, h2, h3⟩ := C117_contours svd interval1 (final d).1.x hpd hV (.scalar 1) (some (.scalar r)) none semi
    rw [hP]
    obtain ⟨patch, hp⟩ := List.length_eq_one_iff.1 h2
    exact ⟨patch, ⟨pic, h1, hp⟩, fun q => (h3 0 r patch rfl (by rw [hp]; rfl) hr q).2⟩
  choose patch hpic hin using key
  refine ⟨patch, hpic, ?_⟩
  have hc := C149_ellipsoid h final hrun hdet r hD
  rw [← C141_gate_plane r hr.le]
  have : IsProbabilityMeasure (chiSquare 2) := by
    unfold chiSquare
    exact Measure.isProbabilityMeasure_map (Measurable.aemeasurable (by fun_prop))
  rw [ofReal_measureReal, ← hc]
  congr 1
  ext q
  simp only [Set.mem_ofPred_eq, hin]

/-- A singular value decomposition of every covariance exists. -/
theorem svd_exists : ∃ svd : Mat 2 2 → Mat 2 2 × Vec 2, ∀ P : Mat 2 2, P.PosDef → ∃ V, IsSvd P (svd P).1 V (svd P).2 := by
  have key : ∀ P : Mat 2 2, ∃ q : Mat 2 2 × Vec 2, P.PosDef → ∃ V, IsSvd P q.1 V q.2 := fun P => by
    by_cases hP : P.PosDef
    swap
    · exact ⟨(0, 0), fun h => absurd h hP⟩
    have hh : P.IsHermitian := hP.1
    obtain ⟨U, D, h1, h2, h3⟩ : ∃ (U : Mat 2 2) (D : Fin 2 → ℝ), Uᵀ * U = 1 ∧ P = U * diagonal D * Uᵀ ∧ ∀ i, 0 < D i := by
      refine ⟨(hh.eigenvectorUnitary : Mat 2 2), hh.eigenvalues, ?_, ?_, hP.eigenvalues_pos⟩
      · have := (Unitary.mem_iff.1 hh.eigenvectorUnitary.2).1
        rwa [star_eq_conjTranspose, conjTranspose_eq_transpose_of_trivial] at this
      · have := hh.spectral_theorem
        rw [Unitary.conjStarAlgAut_apply, star_eq_conjTranspose, conjTranspose_eq_transpose_of_trivial] at this
        exact this
    by_cases hle : D 1 ≤ D 0
    · exact ⟨(U, D), fun _ => ⟨U, h1, h1, h2, (h3 1).le, hle⟩⟩
    · have e : (!![0, 1; 1, 0] : Mat 2 2)ᵀ * (Uᵀ * U) * !![0, 1; 1, 0] = 1 := by
        rw [h1]; ext i j; fin_cases i <;> fin_cases j <;> simp [Matrix.mul_apply, Fin.sum_univ_two]
      have eU : (U * !![0, 1; 1, 0])ᵀ * (U * !![0, 1; 1, 0]) = 1 := by
        rw [transpose_mul, ← e]; simp only [Matrix.mul_assoc]
      refine ⟨(U * !![0, 1; 1, 0], ![D 1, D 0]), fun _ => ⟨U * !![0, 1; 1, 0], eU, eU, ?_, (h3 0).le, (not_le.1 hle).le⟩⟩
      have e2 : (!![0, 1; 1, 0] : Mat 2 2) * diagonal ![D 1, D 0] * (!![0, 1; 1, 0] : Mat 2 2)ᵀ = diagonal D := by
        have d1 : diagonal ![D 1, D 0] = !![D 1, 0; 0, D 0] := by ext i j; fin_cases i <;> fin_cases j <;> rfl
        have d2 : diagonal D = !![D 0, 0; 0, D 1] := by ext i j; fin_cases i <;> fin_cases j <;> rfl
        have d3 : (!![0, 1; 1, 0] : Mat 2 2)ᵀ = !![0, 1; 1, 0] := by ext i j; fin_cases i <;> fin_cases j <;> rfl
        rw [d1, d2, d3, mul_fin_two, mul_fin_two]
        simp
      rw [h2, ← e2, transpose_mul]
      simp only [Matrix.mul_assoc]
  choose svd h using key
  exact ⟨svd, h⟩

/-- A filter is measured, moves, and misses a measurement. -/
def coverPlan : List (Act 2 1 1) := [.measure (.scalar 3) none, .move none none none .none, .miss]

theorem cover_planned : Planned cvKF coverPlan where
  inv := rfl
  alpha := rfl
  P := PosSemidef.one
  noise a ha := by
    simp only [coverPlan, List.mem_cons, List.not_mem_nil, or_false] at ha
    rcases ha with rfl | rfl | rfl
    · exact PosDef.one.smul (by norm_num : (0 : ℝ) < 3)
    · exact PosSemidef.one
    · trivial

/-- In its runs the hypotheses of the theorems above are met. -/
example : ∃ final : (Fin (measurements coverPlan) → Vec 1) → KF 2 1 1 × ℝ, (∀ d, listen coverPlan d cvKF 0 = .ok (final d)) ∧
    (∀ d, (final d).1.P.det ≠ 0) ∧ (∀ d (w : Vec 2), w ≠ 0 → 0 < w ⬝ᵥ ((final d).1.P *ᵥ w)) ∧
    ∀ D : Set (Fin (measurements coverPlan) → Vec 1), MeasurableSet D →
      world cvKF coverPlan {q | |q.1 0 - (final q.2).1.x 0| ≤ 2 * Real.sqrt ((final q.2).1.P 0 0) ∧ q.2 ∈ D} =
        gaussianReal 0 1 (Set.Icc (-2) 2) * world cvKF coverPlan {q | q.2 ∈ D} := by
  choose final hf using C94_runs cover_planned
  have hpd : ∀ d, (final d).1.P.PosDef := fun d => by
    have hd := hf d
    simp only [coverPlan, listen, bind, Except.bind] at hd
    split at hd
    · cases hd
    rename_i s1 h1
    split at hd
    · cases hd
    rename_i s2 h2
    split at hd
    · cases hd
    rename_i s3 h3
    injection hd with hd
    obtain ⟨SI, -, rfl⟩ := update_ok h1
    obtain ⟨v, hv⟩ := readLogLik_state (n := 2) (m := 1) (l := 1) _
    rw [hv] at h2
    obtain ⟨x, rfl⟩ := predict_ok h2
    simp only [KF.update] at h3
    injection h3 with h3
    rw [← hd, ← h3]
    refine predCov_pd zero_le_one ?_ PosDef.one
    exact (PSD.congr PosSemidef.one _).add (PSD.congr (PosSemidef.one.smul (by norm_num : (0 : ℝ) ≤ 3)) _)
  refine ⟨final, hf, fun d => (hpd d).det_pos.ne', fun d w hw => ?_, fun D hD => ?_⟩
  · have := (hpd d).dotProduct_mulVec_pos hw
    simpa using this
  · have := C149_bars cover_planned final hf (Pi.single 0 1) (fun d => by
      have := (hpd d).dotProduct_mulVec_pos (x := Pi.single 0 1) (by simp)
      simpa using this) 2 hD
    simpa using this

/-! ## Smoothed states -/

section smoothed

variable {Ω : Type*} [MeasurableSpace Ω] {μ : Measure Ω} [IsProbabilityMeasure μ] {n m l : ℕ}

/-- The intervals and ellipsoids around `x` with covariance `P` cover `X` as often as normal ones do, among the runs with
measurements of any kind. -/
structure Spec.Covers (μ : Measure Ω) (Z : List (Option (Ω → Vec m))) (X x : Ω → Vec n) (P : Mat n n) : Prop where
  error : ∀ A, MeasurableSet A → ∀ E, MeasurableSet[decidedBy Z] E → μ ({ω | X ω - x ω ∈ A} ∩ E) = normal 0 P A * μ E
  bars : ∀ w : Vec n, 0 < w ⬝ᵥ (P *ᵥ w) → ∀ t E, MeasurableSet[decidedBy Z] E →
    μ ({ω | |w ⬝ᵥ X ω - w ⬝ᵥ x ω| ≤ t * Real.sqrt (w ⬝ᵥ (P *ᵥ w))} ∩ E) = gaussianReal 0 1 (Set.Icc (-t) t) * μ E
  ellipsoid : P.det ≠ 0 → ∀ (t : ℝ) (E : Set Ω), MeasurableSet[decidedBy Z] E →
    μ ({ω | (X ω - x ω) ⬝ᵥ (P⁻¹ *ᵥ (X ω - x ω)) ≤ t ^ 2} ∩ E) = chiSquare n {s | s ≤ t ^ 2} * μ E

omit [IsProbabilityMeasure μ] in
theorem covers_of_error {Z : List (Option (Ω → Vec m))} {X x : Ω → Vec n} {P : Mat n n} (hP : P.PosSemidef)
    (h : ∀ A, MeasurableSet A → ∀ E, MeasurableSet[decidedBy Z] E → μ ({ω | X ω - x ω ∈ A} ∩ E) = normal 0 P A * μ E) :
    Covers μ Z X x P where
  error := h
  bars w hw t E hE := by
    have hms : MeasurableSet {v : Vec n | |w ⬝ᵥ v| ≤ t * Real.sqrt (w ⬝ᵥ (P *ᵥ w))} :=
      measurableSet_le (Continuous.dotProduct continuous_const continuous_id).abs.measurable measurable_const
    have := h _ hms E hE
    rw [normal_bar hP w hw] at this
    rw [← this]
    congr 2
    ext ω
    simp only [Set.mem_ofPred_eq, dotProduct_sub]
  ellipsoid hdet t E hE := by
    have hpd : P.PosDef := hP.posDef_iff_det_ne_zero.2 hdet
    have hms : MeasurableSet {v : Vec n | v ⬝ᵥ (P⁻¹ *ᵥ v) ≤ t ^ 2} := measurableSet_le (quad_measurable _) measurable_const
    have hs : MeasurableSet {s : ℝ | s ≤ t ^ 2} := measurableSet_Iic
    rw [← chi_of_normal hpd, Measure.map_apply (quad_measurable _) hs]
    exact h _ hms E hE

theorem error_of {X0 : Ω → Vec n} {es : List (Leg Ω n m)} (hN : JointlyNormal μ X0 es) {X x : Ω → Vec n} {P : Mat n n}
    (hX : X ∈ truth X0 es) (ha : AffineIn (readings X0 es) x) (hn : NoiseOK (fun ω => X ω - x ω) μ P)
    (hu : ∀ z, some z ∈ readings X0 es → Unc μ (fun ω => X ω - x ω) z) : Covers μ (readings X0 es) X x P := by
  obtain ⟨c1, c2⟩ := combos_world es X0 (fun i => .start i) fun e he => he
  have hP : P.PosSemidef := by rw [← hn.cov]; exact covMat_psd hn.sq
  have cX := c1 X hX
  have cx : Combos X0 es x := combos_affine c2 ha
  have cD := cX.sub cx
  have cS : ∀ i, Combination X0 es fun ω => stack (readings X0 es) ω i := fun i => c2 _ (stack_mem _ i.1) i.2
  have hG := jointly_gaussian hN cD cS
  have hlaw := law_normal hG.fst hn hP
  have hind : IndepFun (fun ω => X ω - x ω) (stack (readings X0 es)) μ := by
    refine HasGaussianLaw.indepFun_of_covariance_eval (X := fun i ω => (X ω - x ω) i) (Y := fun j ω => stack (readings X0 es) ω j) hG fun i j => ?_
    have := (hu _ (stack_mem _ j.1)).cov
    exact congrFun (congrFun this i) j.2
  have mX : Measurable X := measurable_pi_lambda _ fun i => (hN _ (cX i)).1
  have mx : Measurable x := measurable_pi_lambda _ fun i => (hN _ (cx i)).1
  refine covers_of_error hP fun A hA E hE => ?_
  obtain ⟨B, hB, rfl⟩ := decided_stack _ E hE
  have h := hind.measure_inter_preimage_eq_mul A B hA hB
  have hm : Measurable fun ω => X ω - x ω := mX.sub mx
  rw [← hlaw, Measure.map_apply hm hA]
  exact h

/-- **C149, smoothed states.**  The same for what `batch_filter` followed by `rts_smoother` returns, at each time, given all the
measurements of the batch. -/
theorem C149_smoothed (s : KF n m l) (hs : s.alphaSq = 1 ∧ s.B = none) (hi : GoodInv s.inv)
    (f : Mat n n → Option (Mat n n)) (hf : GoodInv f) (X : Ω → Vec n) (es : List (Leg Ω n m)) (hb : Believed μ s X es)
    (hN : JointlyNormal μ X es)
    (r : Ω → List (BatchOut n) × KF n m l) (hr : ∀ ω, s.batchFilter (seen X es ω) (legArgs es) = .ok (r ω))
    (q : Ω → List (RtsOut n)) (hq : ∀ ω, (r ω).2.rtsSmoother ((r ω).1.map (·.mean)) ((r ω).1.map (·.cov))
      (some (es.map (·.F))) (some (es.map (·.Q))) f = .ok (q ω)) :
    ∃ S : List ((Ω → Vec n) × Mat n n), S.length = es.length ∧
      (∀ ω, (q ω).map (fun o => (o.x, o.P)) = S.map fun o => (o.1 ω, o.2)) ∧
      ∀ p ∈ (truth X es).zip S, Covers μ (readings X es) p.1 p.2.1 p.2.2 := by
  obtain ⟨outs, S, g1, k1, hl, k2⟩ := rts_smoo s hs hi f hf X es hb r hr q hq
  refine ⟨S, hl, k2, fun p hp => ?_⟩
  have hX : SqInt X μ := by
    have := hb.start.sq.add (SqInt.const s.x)
    simpa using this
  obtain ⟨h1, h2⟩ := smoothed_ok es g1 k1 hX hb.start (Unc.const hb.start.sq s.x) hb.startUnc
    (fun e he => ⟨(Unc.const (hb.legs e he).w.sq s.x).symm, fun v hv => (Unc.const ((hb.legs e he).v v hv).1.sq s.x).symm⟩)
    hb.legs hb.unc p hp
  exact error_of hN (List.of_mem_zip hp).1
    (affine_smoo es k1 (affine_filt es g1 (AffineIn.const s.x) fun z hz => hz) p.2 (List.of_mem_zip hp).2) h1 h2

/-- The hypotheses are those of C140, whose example meets them. -/
example : ∃ (s : KF 1 1 1) (X : (ℕ → ℝ) → Vec 1) (es : List (Leg (ℕ → ℝ) 1 1)) (r : (ℕ → ℝ) → List (BatchOut 1) × KF 1 1 1)
    (q : (ℕ → ℝ) → List (RtsOut 1)) (S : List (((ℕ → ℝ) → Vec 1) × Mat 1 1)), es.length = 2 ∧ S.length = 2 ∧
    (∀ ω, s.batchFilter (seen X es ω) (legArgs es) = .ok (r ω)) ∧
    (∀ ω, (q ω).map (fun o => (o.x, o.P)) = S.map fun o => (o.1 ω, o.2)) ∧
    ∀ p ∈ (truth X es).zip S, Covers gaussNat (readings X es) p.1 p.2.1 p.2.2 := by
  obtain ⟨f, hf⟩ := isPinv_exists (m := 1)
  obtain ⟨X, es, h1, h2, h3⟩ := C140_exists { walkKF with inv := f } (by simpa [walkKF, KF.fresh] using PosSemidef.one)
    [(1, 0, 1, 1, true), (1, 0, 1, 1, true)] (by simp [PosSemidef.one, PosSemidef.zero])
  obtain ⟨r, q, h4, h5⟩ := C11_pinv_total (l := 1) { walkKF with inv := f } rfl hf f hf X es
  have hlen : es.length = 2 := by simpa using congrArg List.length h1
  obtain ⟨S, h6, h7, h8⟩ := C149_smoothed { walkKF with inv := f } ⟨rfl, rfl⟩ (Or.inr hf) f (Or.inr hf) X es h2 h3 r h4 q h5
  exact ⟨_, X, es, r, q, S, hlen, h6.trans hlen, h4, h7, h8⟩

end smoothed

end Filterpy
