import Verif.Model.Plots
import Verif.Props.Ellipse
import Mathlib.Probability.Distributions.Gaussian.Real
import Mathlib.Analysis.SpecialFunctions.PolarCoord
import Mathlib.MeasureTheory.Integral.IntervalIntegral.FundThmCalculus

/-!
# What the plotted covariance ellipses mean (C117)
-/

namespace Filterpy

open Matrix Stats MeasureTheory ProbabilityTheory

namespace Spec

/-- The outline matplotlib draws for an `Ellipse` patch. -/
def outline (p : EllipsePatch) : Set (Vec 2) :=
  {q | ∃ t, q = p.xy + ellipsePoint (p.angle * (Real.pi / 180)) (p.width / 2) (p.height / 2) t}

/-- The region inside that outline. -/
def inside (p : EllipsePatch) : Set (Vec 2) :=
  {q | ∃ s t : ℝ, 0 ≤ s ∧ s ≤ 1 ∧
    q = p.xy + s • ellipsePoint (p.angle * (Real.pi / 180)) (p.width / 2) (p.height / 2) t}

/-- The numbers of standard deviations asked for: `std` if given, else the quantiles of `interval` if given, else the
roots of `variance`. -/
noncomputable def deviations (interval1 : ℝ → ℝ) (variance : NumArg) : Option NumArg → Option NumArg → List ℝ
  | some s, _ => s.tuple
  | none, some i => i.tuple.map interval1
  | none, none => variance.tuple.map Real.sqrt

/-- Two independent standard normal numbers. -/
noncomputable def twoNormals : Measure (ℝ × ℝ) := (gaussianReal 0 1).prod (gaussianReal 0 1)

/-- `interval1 p` is the number of deviations that a standard normal number stays within with probability `p`. -/
def IsNormInterval (interval1 : ℝ → ℝ) : Prop := ∀ p, 0 < p → p < 1 →
  0 < interval1 p ∧ (gaussianReal 0 1).real (Set.Icc (-interval1 p) (interval1 p)) = p

/-- The contract of `_eigsorted(cov, asc=True)`. -/
structure IsEig (C : Mat 3 3) (val : Vec 3) (vec : Mat 3 3) : Prop where
  orth : vecᵀ * vec = 1
  fact : C = vec * diagonal val * vecᵀ
  sorted : val 0 ≤ val 1 ∧ val 1 ≤ val 2

end Spec

open Spec

/-- Deviations asked for by the three arguments: `std` wins over `interval`, `interval` over `variance`. -/
theorem stdTupleOf_ok (interval1 : ℝ → ℝ) (v : NumArg) (std interval : Option NumArg) :
    stdTupleOf interval1 (some v) std interval =
      .ok (deviations interval1 v std interval) := by
  cases std <;> cases interval <;> rfl

theorem cov_drawn {P U V : Mat 2 2} {s : Vec 2} (hP : P.PosDef) (hU : IsSvd P U V s) (d : ℝ) (hd : 0 < d)
    {θ w h : ℝ} (he : covarianceEllipse U s 1 = .ok (θ, w, h)) (q : Vec 2) :
    q ⬝ᵥ (P⁻¹ *ᵥ q) = d ^ 2 ↔ ∃ t, q = ellipsePoint θ (d * w) (d * h) t := by
  obtain ⟨θ', w', h', e', -, -, H⟩ := C68_covariance_ellipse hP hU d hd
  obtain ⟨θ1, w1, h1, e1, -, -, -⟩ := C68_covariance_ellipse hP hU 1 one_pos
  rw [H]
  have a1 : covarianceEllipse U s d = .ok (θ, d * w, d * h) := by
    rw [e1, Except.ok.injEq] at he
    cases he
    simp only [covarianceEllipse] at e1 e' ⊢
    split_ifs at e1 e' ⊢
    simp only [Except.ok.injEq, Prod.mk.injEq] at e1 ⊢
    obtain ⟨a, b, c⟩ := e1
    exact ⟨a, by rw [← b]; ring, by rw [← c]; ring⟩
  rw [a1, Except.ok.injEq] at e'
  cases e'
  rfl

/-- **C117 (contours).** `plot_covariance(mean, cov, ...)` draws one ellipse for every number of deviations asked for,
in order, and the ellipse for `d` deviations consists of exactly the points at Mahalanobis distance `d` from the mean.
The deviations are the `std` given, or else the normal quantiles of the `interval` given, or else the roots of the
`variance`. -/
theorem C117_contours (svd : Mat 2 2 → Mat 2 2 × Vec 2) (interval1 : ℝ → ℝ) (mean : Vec 2) {P V : Mat 2 2}
    (hP : P.PosDef) (hsvd : IsSvd P (svd P).1 V (svd P).2) (v : NumArg) (std interval : Option NumArg) (semi : Bool) :
    ∃ pic, plotCovariance svd interval1 mean (some P) none (some v) std interval semi = .ok pic ∧
      pic.patches.length = (deviations interval1 v std interval).length ∧
      ∀ (i : ℕ) (d : ℝ) (p : EllipsePatch), (deviations interval1 v std interval)[i]? = some d →
        pic.patches[i]? = some p → 0 < d → ∀ q,
          (q ∈ outline p ↔ (q - mean) ⬝ᵥ (P⁻¹ *ᵥ (q - mean)) = d ^ 2) ∧
          (q ∈ inside p ↔ (q - mean) ⬝ᵥ (P⁻¹ *ᵥ (q - mean)) ≤ d ^ 2) := by
  obtain ⟨θ, w, h, he, -, -, -⟩ := C68_covariance_ellipse hP hsvd 1 one_pos
  refine ⟨_, by
    simp only [plotCovariance, he, plotCovariance.draw, stdTupleOf_ok]
    rfl, by simp, ?_⟩
  intro i d p hd hp hd0 q
  rw [List.getElem?_map, hd, Option.map_some, Option.some.injEq] at hp
  subst hp
  have hpi := Real.pi_pos.ne'
  have e : θ * (180 / Real.pi) * (Real.pi / 180) = θ := by field_simp
  have ew : d * (w * 2) / 2 = d * w := by ring
  have eh : d * (h * 2) / 2 = d * h := by ring
  simp only [outline, inside, Set.mem_ofPred_eq, e, ew, eh]
  refine ⟨?_, ?_⟩
  · rw [cov_drawn hP hsvd d hd0 he]
    constructor
    · rintro ⟨t, rfl⟩; exact ⟨t, by rw [add_sub_cancel_left]⟩
    · rintro ⟨t, ht⟩; exact ⟨t, by rw [← ht, add_sub_cancel]⟩
  · constructor
    · rintro ⟨s, t, h0, h1, rfl⟩
      have hq := (cov_drawn hP hsvd d hd0 he _).2 ⟨t, rfl⟩
      rw [add_sub_cancel_left, mulVec_smul, dotProduct_smul, smul_dotProduct, hq, smul_eq_mul, smul_eq_mul]
      nlinarith [sq_nonneg d, mul_nonneg h0 (sub_nonneg.2 h1), mul_nonneg (sq_nonneg d) (sub_nonneg.2 h1),
        mul_nonneg (mul_nonneg (sq_nonneg d) h0) (sub_nonneg.2 h1)]
    · intro hq
      have hnn : 0 ≤ (q - mean) ⬝ᵥ (P⁻¹ *ᵥ (q - mean)) := PSD.quad hP.inv.posSemidef _
      by_cases h0 : q = mean
      · exact ⟨0, 0, le_rfl, zero_le_one, by simp [h0]⟩
      · have hpos : 0 < (q - mean) ⬝ᵥ (P⁻¹ *ᵥ (q - mean)) := PD.quad hP.inv (sub_ne_zero.2 h0)
        obtain ⟨t, ht⟩ := (cov_drawn hP hsvd _ (Real.sqrt_pos.2 hpos) he _).1 (Real.sq_sqrt hnn).symm
        refine ⟨Real.sqrt ((q - mean) ⬝ᵥ (P⁻¹ *ᵥ (q - mean))) / d, t, by positivity,
          (div_le_one hd0).2 (Real.sqrt_le_iff.2 ⟨hd0.le, hq⟩), ?_⟩
        rw [← sub_eq_iff_eq_add']
        refine ht.trans ?_
        have hdn := hd0.ne'
        generalize Real.sqrt ((q - mean) ⬝ᵥ (P⁻¹ *ᵥ (q - mean))) = a
        ext i
        fin_cases i
        · simp [ellipsePoint]; field_simp
        · simp [ellipsePoint]; field_simp

/-- **C117 (arguments).** For a covariance, and for an ellipse given directly, a plot is refused exactly if not exactly
one of `cov` and `ellipse` is given or no size (`std`, `interval` or `variance`) is; the exception is a `ValueError`. -/
theorem C117_arguments (svd : Mat 2 2 → Mat 2 2 × Vec 2) (interval1 : ℝ → ℝ) (mean : Vec 2) (cov : Option (Mat 2 2))
    (ellipse : Option (ℝ × ℝ × ℝ)) (hcov : ∀ P, cov = some P → P.PosDef ∧ ∃ V, IsSvd P (svd P).1 V (svd P).2)
    (v std interval : Option NumArg) (semi : Bool) :
    ((cov.isSome = ellipse.isSome ∨ v = none ∧ std = none ∧ interval = none) →
      plotCovariance svd interval1 mean cov ellipse v std interval semi = .error .valueError) ∧
    (¬(cov.isSome = ellipse.isSome ∨ v = none ∧ std = none ∧ interval = none) →
      ∃ pic, plotCovariance svd interval1 mean cov ellipse v std interval semi = .ok pic) := by
  cases cov with
  | none =>
    cases ellipse with
    | none => simp [plotCovariance]
    | some e =>
      cases std <;> cases interval <;> cases v <;>
        simp [plotCovariance, plotCovariance.draw, stdTupleOf, bind, Except.bind]
  | some P =>
    cases ellipse with
    | some e => simp [plotCovariance]
    | none =>
      obtain ⟨hP, V, hV⟩ := hcov P rfl
      obtain ⟨θ, w, h, he, -, -, -⟩ := C68_covariance_ellipse hP hV 1 one_pos
      cases std <;> cases interval <;> cases v <;>
        simp [plotCovariance, plotCovariance.draw, stdTupleOf, bind, Except.bind, he]

/-- **C117 (semiaxes) is false.** The segments that `show_semiaxis` draws are not the semiaxes of any of the ellipses
unless `d = 1/2` was asked for: they end at Mahalanobis distance one half. -/
theorem C117_semiaxis_refuted (svd : Mat 2 2 → Mat 2 2 × Vec 2) (interval1 : ℝ → ℝ) (mean : Vec 2) {P V : Mat 2 2}
    (hP : P.PosDef) (hsvd : IsSvd P (svd P).1 V (svd P).2) (v : NumArg) (std interval : Option NumArg) :
    ∃ pic, plotCovariance svd interval1 mean (some P) none (some v) std interval true = .ok pic ∧
      pic.segments.length = 2 ∧ ∀ q ∈ pic.segments, (q - mean) ⬝ᵥ (P⁻¹ *ᵥ (q - mean)) = (1 / 2) ^ 2 := by
  obtain ⟨θ, w, h, he, -, -, -⟩ := C68_covariance_ellipse hP hsvd 1 one_pos
  refine ⟨_, by
    simp only [plotCovariance, he, plotCovariance.draw, stdTupleOf_ok]
    rfl, rfl, fun q hq => ?_⟩
  rw [cov_drawn hP hsvd (1 / 2) (by norm_num) he]
  simp only [if_true, List.mem_cons, List.not_mem_nil, or_false] at hq
  rcases hq with rfl | rfl
  · refine ⟨Real.pi / 2, ?_⟩
    ext i
    fin_cases i
    · simp [ellipsePoint, Real.cos_add]; left; ring
    · simp [ellipsePoint, Real.sin_add]; left; ring
  · refine ⟨0, ?_⟩
    ext i
    fin_cases i
    · simp [ellipsePoint]; left; ring
    · simp [ellipsePoint]; left; ring

/-! ## How much of the distribution an ellipse contains -/

theorem radial (d : ℝ) : ∫ r in (0 : ℝ)..d, r * Real.exp (-r ^ 2 / 2) = 1 - Real.exp (-d ^ 2 / 2) := by
  have h : ∀ x ∈ Set.uIcc 0 d, HasDerivAt (fun r : ℝ => -Real.exp (-r ^ 2 / 2)) (x * Real.exp (-x ^ 2 / 2)) x := by
    intro x _
    have h1 : HasDerivAt (fun r : ℝ => -r ^ 2 / 2) (-x) x := by
      have := ((hasDerivAt_pow 2 x).neg).div_const 2
      refine this.congr_deriv ?_
      simp
      ring
    exact (h1.exp.neg).congr_deriv (by ring)
  rw [intervalIntegral.integral_eq_sub_of_hasDerivAt h (Continuous.intervalIntegrable (by fun_prop) _ _)]
  simp
  ring

/-- Two standard normal numbers lie within distance `d` of the origin with probability `1 - exp (-d²/2)`. -/
theorem disk_prob (d : ℝ) (hd : 0 ≤ d) :
    twoNormals.real {w | w.1 ^ 2 + w.2 ^ 2 ≤ d ^ 2} = 1 - Real.exp (-d ^ 2 / 2) := by
  have key : twoNormals {w | w.1 ^ 2 + w.2 ^ 2 ≤ d ^ 2} = ENNReal.ofReal (1 - Real.exp (-d ^ 2 / 2)) := by
    have hm : MeasurableSet {w : ℝ × ℝ | w.1 ^ 2 + w.2 ^ 2 ≤ d ^ 2} :=
      measurableSet_le (by fun_prop) measurable_const
    rw [twoNormals, gaussianReal_of_var_ne_zero _ one_ne_zero,
      prod_withDensity (measurable_gaussianPDF 0 1) (measurable_gaussianPDF 0 1), withDensity_apply _ hm,
      ← lintegral_indicator hm, ← Measure.volume_eq_prod, ← lintegral_comp_polarCoord_symm]
    have e1 : ∀ p ∈ polarCoord.target, ENNReal.ofReal p.1 • ({w : ℝ × ℝ | w.1 ^ 2 + w.2 ^ 2 ≤ d ^ 2}.indicator
        (fun z => gaussianPDF 0 1 z.1 * gaussianPDF 0 1 z.2) (polarCoord.symm p)) =
        (Set.Ioc 0 d).indicator (fun r => ENNReal.ofReal (r * Real.exp (-r ^ 2 / 2) / (2 * Real.pi))) p.1 := by
      rintro ⟨r, θ⟩ hp
      have hr : 0 < r := hp.1
      have hs : (r * Real.cos θ) ^ 2 + (r * Real.sin θ) ^ 2 = r ^ 2 := by
        linear_combination r ^ 2 * Real.sin_sq_add_cos_sq θ
      simp only [polarCoord_symm_apply, Set.indicator, Set.mem_ofPred_eq, hs, Set.mem_Ioc, hr, true_and,
        sq_le_sq₀ hr.le hd]
      split_ifs
      · rw [smul_eq_mul, gaussianPDF, gaussianPDF, ← ENNReal.ofReal_mul (gaussianPDFReal_nonneg _ _ _),
          ← ENNReal.ofReal_mul hr.le]
        congr 1
        simp only [gaussianPDFReal, NNReal.coe_one, mul_one, sub_zero]
        have h2 : (Real.sqrt (2 * Real.pi))⁻¹ * (Real.sqrt (2 * Real.pi))⁻¹ = (2 * Real.pi)⁻¹ := by
          rw [← mul_inv, Real.mul_self_sqrt (by positivity)]
        have h3 : Real.exp (-(r * Real.cos θ) ^ 2 / 2) * Real.exp (-(r * Real.sin θ) ^ 2 / 2) =
            Real.exp (-r ^ 2 / 2) := by
          rw [← Real.exp_add]; congr 1; rw [← hs]; ring
        rw [← h3, div_eq_mul_inv _ (2 * Real.pi), ← h2]
        ring
      · simp
    rw [setLIntegral_congr_fun polarCoord.open_target.measurableSet e1]
    have ht : polarCoord.target = Set.Ioi (0 : ℝ) ×ˢ Set.Ioo (-Real.pi) Real.pi := rfl
    have hg : Measurable ((Set.Ioc 0 d).indicator
        (fun r : ℝ => ENNReal.ofReal (r * Real.exp (-r ^ 2 / 2) / (2 * Real.pi)))) :=
      Measurable.indicator (by fun_prop) measurableSet_Ioc
    rw [ht, Measure.volume_eq_prod, ← Measure.prod_restrict, 
      lintegral_prod (fun x : ℝ × ℝ => (Set.Ioc 0 d).indicator
        (fun r : ℝ => ENNReal.ofReal (r * Real.exp (-r ^ 2 / 2) / (2 * Real.pi))) x.1)
        (hg.comp measurable_fst).aemeasurable]
    have hv : volume (Set.Ioo (-Real.pi) Real.pi) = ENNReal.ofReal (2 * Real.pi) := by
      rw [Real.volume_Ioo]; congr 1; ring
    simp only [lintegral_const, Measure.restrict_apply MeasurableSet.univ, Set.univ_inter, hv]
    rw [lintegral_mul_const _ hg, lintegral_indicator measurableSet_Ioc,
      Measure.restrict_restrict measurableSet_Ioc, Set.inter_eq_left.2 (fun x hx => hx.1),
      ← lintegral_mul_const _ (by fun_prop), ← radial d, intervalIntegral.integral_of_le hd,
      ofReal_integral_eq_lintegral_ofReal]
    · refine setLIntegral_congr_fun measurableSet_Ioc fun r hr => ?_
      have h0 : 0 ≤ r * Real.exp (-r ^ 2 / 2) / (2 * Real.pi) := by
        have := hr.1; positivity
      rw [← ENNReal.ofReal_mul h0]
      congr 1
      have := Real.pi_pos.ne'
      field_simp
    · exact (Continuous.integrableOn_Icc (by fun_prop)).mono_set Set.Ioc_subset_Icc_self
    · refine (ae_restrict_iff' measurableSet_Ioc).2 (Filter.Eventually.of_forall fun r hr => ?_)
      have := hr.1; positivity
  rw [Measure.real, key, ENNReal.toReal_ofReal]
  have : Real.exp (-d ^ 2 / 2) ≤ 1 := by
    rw [Real.exp_le_one_iff]; nlinarith [sq_nonneg d]
  linarith

theorem mahalanobis_root {n : ℕ} {P L : Mat n n} (hP : P.PosDef) (hL : P = L * Lᵀ) (u : Vec n) :
    (L *ᵥ u) ⬝ᵥ (P⁻¹ *ᵥ (L *ᵥ u)) = u ⬝ᵥ u := by
  have hd : IsUnit L.det := by
    have := hP.det_pos
    rw [hL, det_mul] at this
    exact isUnit_iff_ne_zero.2 (left_ne_zero_of_mul this.ne')
  have hd' : IsUnit Lᵀ.det := by rwa [det_transpose]
  have h : P⁻¹ *ᵥ (L *ᵥ u) = (Lᵀ)⁻¹ *ᵥ u := by
    rw [hL, Matrix.mul_inv_rev, mulVec_mulVec, Matrix.mul_assoc, nonsing_inv_mul _ hd, Matrix.mul_one]
  rw [h, dotProduct_comm, dotProduct_mulVec, ← mulVec_transpose, mulVec_mulVec, mul_nonsing_inv _ hd', one_mulVec]

theorem mahalanobis_disk {P L : Mat 2 2} (hP : P.PosDef) (hL : P = L * Lᵀ) (w : ℝ × ℝ) :
    (L *ᵥ ![w.1, w.2]) ⬝ᵥ (P⁻¹ *ᵥ (L *ᵥ ![w.1, w.2])) = w.1 ^ 2 + w.2 ^ 2 := by
  rw [mahalanobis_root hP hL]
  simp [dotProduct, Fin.sum_univ_two]
  ring

/-- **C117 (coverage).** If the quantity is Gaussian with the plotted mean and covariance, the ellipse drawn for `d`
deviations contains it with probability exactly `1 - exp (-d²/2)`. -/
theorem C117_coverage (svd : Mat 2 2 → Mat 2 2 × Vec 2) (interval1 : ℝ → ℝ) (mean : Vec 2) {P V L : Mat 2 2}
    (hP : P.PosDef) (hsvd : IsSvd P (svd P).1 V (svd P).2) (hL : P = L * Lᵀ) (v : NumArg)
    (std interval : Option NumArg) (semi : Bool) :
    ∃ pic, plotCovariance svd interval1 mean (some P) none (some v) std interval semi = .ok pic ∧
      ∀ (i : ℕ) (d : ℝ) (p : EllipsePatch), (deviations interval1 v std interval)[i]? = some d →
        pic.patches[i]? = some p → 0 < d →
          twoNormals.real {w | mean + L *ᵥ ![w.1, w.2] ∈ inside p} = 1 - Real.exp (-d ^ 2 / 2) := by
  obtain ⟨pic, h1, -, h2⟩ := C117_contours svd interval1 mean hP hsvd v std interval semi
  refine ⟨pic, h1, fun i d p hd hp h0 => ?_⟩
  rw [← disk_prob d h0.le]
  congr 1
  ext w
  rw [Set.mem_ofPred_eq, (h2 i d p hd hp h0 _).2, add_sub_cancel_left, mahalanobis_disk hP hL]
  rfl

/-- **C117 (intervals) is false.** The ellipse drawn for `interval=p` contains the quantity with probability strictly
less than `p`, whatever the covariance is: the deviations are taken from the normal distribution of one variable. -/
theorem C117_interval_refuted (svd : Mat 2 2 → Mat 2 2 × Vec 2) {interval1 : ℝ → ℝ} (hI : IsNormInterval interval1)
    (mean : Vec 2) {P V L : Mat 2 2} (hP : P.PosDef) (hsvd : IsSvd P (svd P).1 V (svd P).2) (hL : P = L * Lᵀ)
    (v : NumArg) (semi : Bool) {p : ℝ} (h0 : 0 < p) (h1 : p < 1) :
    ∃ pic e, plotCovariance svd interval1 mean (some P) none (some v) none (some (.scalar p)) semi = .ok pic ∧
      pic.patches = [e] ∧ twoNormals.real {w | mean + L *ᵥ ![w.1, w.2] ∈ inside e} < p := by
  obtain ⟨pic, a1, a2, a3⟩ := C117_contours svd interval1 mean hP hsvd v none (some (.scalar p)) semi
  obtain ⟨e, he⟩ := List.length_eq_one_iff.1 a2
  refine ⟨pic, e, a1, he, ?_⟩
  obtain ⟨hd, hp⟩ := hI p h0 h1
  set d := interval1 p
  have hset : {w : ℝ × ℝ | mean + L *ᵥ ![w.1, w.2] ∈ inside e} = {w | w.1 ^ 2 + w.2 ^ 2 ≤ d ^ 2} := by
    ext w
    rw [Set.mem_ofPred_eq, (a3 0 d e rfl (by rw [he]; rfl) hd _).2, add_sub_cancel_left, mahalanobis_disk hP hL]
    rfl
  rw [hset]
  have hstrip : twoNormals.real (Set.Icc (-d) d ×ˢ Set.univ) = p := by
    rw [twoNormals, measureReal_prod_prod, hp]
    simp
  have hsub : {w : ℝ × ℝ | w.1 ^ 2 + w.2 ^ 2 ≤ d ^ 2} ⊆ (Set.Icc (-d) d ×ˢ Set.univ) \ (Set.Icc (-d) d ×ˢ Set.Ioi d) := by
    rintro ⟨a, b⟩ hw
    have hw' : a ^ 2 + b ^ 2 ≤ d ^ 2 := hw
    refine ⟨⟨abs_le.1 (abs_le_of_sq_le_sq (by nlinarith [sq_nonneg b]) hd.le), trivial⟩, fun hc => ?_⟩
    have : d < b := hc.2
    nlinarith [sq_nonneg a]
  have hpos : 0 < twoNormals.real (Set.Icc (-d) d ×ˢ Set.Ioi d) := by
    rw [twoNormals, measureReal_prod_prod, hp]
    refine mul_pos h0 (ENNReal.toReal_pos ?_ (measure_ne_top _ _))
    intro hz
    have := gaussianReal_absolutelyContinuous' 0 (one_ne_zero (α := NNReal)) hz
    simp at this
  have hmono := measureReal_mono (μ := twoNormals) hsub (by rw [twoNormals]; exact measure_ne_top _ _)
  rw [measureReal_sdiff (Set.prod_mono_right (Set.subset_univ _)) (measurableSet_Icc.prod measurableSet_Ioi)
    (by rw [twoNormals]; exact measure_ne_top _ _), hstrip] at hmono
  linarith

/-- **C117 (three dimensions).** Every point of the surface that `plot_3d_covariance` draws lies at Mahalanobis
distance `std` from the mean. -/
theorem C117_surface (eigsorted : Mat 3 3 → Vec 3 × Mat 3 3) (mean : Vec 3) {P : Mat 3 3} (hP : P.PosDef)
    (hE : IsEig P (eigsorted P).1 (eigsorted P).2) (std : ℝ) (N : ℕ) :
    ∃ surf, plot3dCovariance eigsorted mean P std N = .ok surf ∧
      ∀ i j, (surf i j - mean) ⬝ᵥ (P⁻¹ *ᵥ (surf i j - mean)) = std ^ 2 := by
  set V := (eigsorted P).2
  set l := (eigsorted P).1
  have hd : diagonal l = Vᵀ * P * V := by
    rw [hE.fact]
    calc diagonal l = (Vᵀ * V) * diagonal l * (Vᵀ * V) := by rw [hE.orth]; simp
      _ = _ := by simp only [Matrix.mul_assoc]
  have hl : ∀ i, 0 ≤ l i := by
    intro i
    have h := (hP.posSemidef.conjTranspose_mul_mul_same V).diag_nonneg (i := i)
    rw [conjTranspose_eq_transpose_of_trivial, ← hd, diagonal_apply_eq] at h
    exact h
  refine ⟨_, by
    rw [plot3dCovariance, if_neg (not_lt.2 (hl 0))], fun i j => ?_⟩
  have hL : P = (V * diagonal fun i => Real.sqrt (l i)) * (V * diagonal fun i => Real.sqrt (l i))ᵀ := by
    rw [transpose_mul, diagonal_transpose, Matrix.mul_assoc, ← Matrix.mul_assoc (diagonal _) (diagonal _),
      diagonal_mul_diagonal, ← Matrix.mul_assoc]
    simp only [Real.mul_self_sqrt (hl _)]
    exact hE.fact
  set a := linspace0 (2 * Real.pi) N i
  set b := linspace0 Real.pi N j
  have hq : (fun c => V c 0 * (Real.cos a * Real.sin b * (std * Real.sqrt (l 0))) +
      V c 1 * (Real.sin a * Real.sin b * (std * Real.sqrt (l 1))) +
      V c 2 * (Real.cos b * (std * Real.sqrt (l 2))) + mean c) - mean =
      (V * diagonal fun i => Real.sqrt (l i)) *ᵥ
        ![std * (Real.cos a * Real.sin b), std * (Real.sin a * Real.sin b), std * Real.cos b] := by
    ext c
    simp only [Pi.sub_apply, mulVec, dotProduct, Fin.sum_univ_three, mul_diagonal]
    simp
    ring
  show ((fun c => V c 0 * (Real.cos a * Real.sin b * (std * Real.sqrt (l 0))) +
      V c 1 * (Real.sin a * Real.sin b * (std * Real.sqrt (l 1))) +
      V c 2 * (Real.cos b * (std * Real.sqrt (l 2))) + mean c) - mean) ⬝ᵥ (P⁻¹ *ᵥ (_ - mean)) = _
  rw [hq, mahalanobis_root hP hL]
  simp only [dotProduct, Fin.sum_univ_three]
  simp
  linear_combination (std ^ 2 * Real.sin b ^ 2) * Real.sin_sq_add_cos_sq a + std ^ 2 * Real.sin_sq_add_cos_sq b

/-- **C117 (three dimensions, refused).** A matrix with a negative eigenvalue is refused. -/
theorem C117_surface_refuses (eigsorted : Mat 3 3 → Vec 3 × Mat 3 3) (mean : Vec 3) {P : Mat 3 3}
    (hE : IsEig P (eigsorted P).1 (eigsorted P).2) (std : ℝ) (N : ℕ) :
    (∃ i, (eigsorted P).1 i < 0) ↔ plot3dCovariance eigsorted mean P std N = .error .valueError := by
  have hs := hE.sorted
  unfold plot3dCovariance
  constructor
  · rintro ⟨i, hi⟩
    rw [if_pos]
    fin_cases i
    · exact hi
    · exact lt_of_le_of_lt hs.1 hi
    · exact lt_of_le_of_lt (hs.1.trans hs.2) hi
  · intro h
    by_contra hc
    rw [if_neg (fun h0 => hc ⟨0, h0⟩)] at h
    cases h

/-! ## The hypotheses can be met -/

/-- The covariance `diag(4, 1)` with its factorisations. -/
example : ∃ (svd : Mat 2 2 → Mat 2 2 × Vec 2) (P V L : Mat 2 2), P.PosDef ∧ IsSvd P (svd P).1 V (svd P).2 ∧
    P = L * Lᵀ ∧ P 0 0 = 4 ∧ P 1 1 = 1 := by
  refine ⟨fun _ => (1, ![4, 1]), diagonal ![4, 1], 1, diagonal ![2, 1], ?_, ?_, ?_, by simp, by simp⟩
  · exact Matrix.PosDef.diagonal (by intro i; fin_cases i <;> simp)
  · refine ⟨by simp, by simp, by simp, by simp, by simp⟩
  · rw [diagonal_transpose, diagonal_mul_diagonal]
    congr 1
    ext i; fin_cases i <;> simp; norm_num

/-- Quantiles of the normal distribution exist. -/
theorem normInterval_exists : ∃ interval1, IsNormInterval interval1 := by
  have key : ∀ p : ℝ, ∃ d : ℝ, 0 < p → p < 1 → 0 < d ∧ (gaussianReal 0 1).real (Set.Icc (-d) d) = p := by
    intro p
    by_cases hp : 0 < p ∧ p < 1
    swap
    · exact ⟨0, fun h0 h1 => absurd ⟨h0, h1⟩ hp⟩
    have hi := integrable_gaussianPDFReal 0 1
    have hc : Continuous fun d : ℝ => ∫ x in (-d)..d, gaussianPDFReal 0 1 x := by
      have h := intervalIntegral.continuous_primitive (fun a b => hi.intervalIntegrable (a := a) (b := b)) 0
      have : (fun d : ℝ => ∫ x in (-d)..d, gaussianPDFReal 0 1 x) =
          fun d => (∫ x in (0 : ℝ)..d, gaussianPDFReal 0 1 x) - ∫ x in (0 : ℝ)..(-d), gaussianPDFReal 0 1 x := by
        ext d
        rw [intervalIntegral.integral_interval_sub_left] <;> exact hi.intervalIntegrable
      rw [this]
      exact h.sub (h.comp continuous_neg)
    have ht : Filter.Tendsto (fun d : ℝ => ∫ x in (-d)..d, gaussianPDFReal 0 1 x) Filter.atTop (nhds 1) := by
      rw [← integral_gaussianPDFReal_eq_one 0 (one_ne_zero (α := NNReal))]
      exact intervalIntegral_tendsto_integral hi Filter.tendsto_neg_atTop_atBot Filter.tendsto_id
    obtain ⟨D, hD, hD0⟩ := ((ht.eventually (lt_mem_nhds hp.2)).and (Filter.eventually_ge_atTop 0)).exists
    obtain ⟨d, hd, he⟩ := intermediate_value_Icc hD0 hc.continuousOn (show p ∈ Set.Icc _ _ from
      ⟨by simpa using hp.1.le, hD.le⟩)
    refine ⟨d, fun _ _ => ⟨lt_of_le_of_ne hd.1 fun h => ?_, ?_⟩⟩
    · rw [← h] at he
      simp at he
      linarith [hp.1]
    · have hd0 : -d ≤ d := by linarith [hd.1]
      simp only at he
      rw [← he, Measure.real, gaussianReal_apply_eq_integral 0 one_ne_zero, ENNReal.toReal_ofReal
        (integral_nonneg fun x => gaussianPDFReal_nonneg _ _ _), integral_Icc_eq_integral_Ioc,
        intervalIntegral.integral_of_le hd0]
  choose f hf using key
  exact ⟨f, hf⟩

/-- Eigenvalues and eigenvectors of a diagonal matrix. -/
example : IsEig (diagonal ![1, 4, 9]) ![1, 4, 9] 1 := ⟨by simp, by simp, by simp; norm_num⟩

end Filterpy
