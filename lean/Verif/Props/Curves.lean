import Verif.Model.Curves
import Mathlib.Probability.Distributions.Gaussian.Real
import Mathlib.Probability.CDF

/-!
# What the plotted probability curves show (C123)
-/

namespace Filterpy

open Stats MeasureTheory ProbabilityTheory

namespace Spec

/-- A normally distributed number with this mean and standard deviation. -/
noncomputable def normalLaw (mean sd : ℝ) : Measure ℝ := gaussianReal mean (sd ^ 2).toNNReal

/-- The contract of scipy's `norm`: `cdf` is the probability of being at most `x`, and `ppf` inverts it. -/
structure IsNorm (lib : NormLib) : Prop where
  cdf : ∀ mean sd x, 0 < sd → lib.cdf mean sd x = (normalLaw mean sd).real (Set.Iic x)
  ppf : ∀ mean sd p, 0 < sd → 0 < p → p < 1 → (normalLaw mean sd).real (Set.Iic (lib.ppf mean sd p)) = p

/-- Point number `i` of 1000 that divide the interval evenly. -/
noncomputable def gridPoint (a b : ℝ) (i : ℕ) : ℝ := a + i * ((b - a) / 1000)

end Spec

open Spec

theorem normal_ne {sd : ℝ} (h : 0 < sd) : (sd ^ 2).toNNReal ≠ 0 := by
  rw [Ne, Real.toNNReal_eq_zero, not_le]; positivity

instance (mean sd : ℝ) : IsProbabilityMeasure (normalLaw mean sd) := by unfold normalLaw; infer_instance

theorem normal_strict {mean sd : ℝ} (h : 0 < sd) {a b : ℝ} (hab : a < b) :
    (normalLaw mean sd).real (Set.Iic a) < (normalLaw mean sd).real (Set.Iic b) := by
  have e : Set.Iic b = Set.Iic a ∪ Set.Ioc a b := (Set.Iic_union_Ioc_eq_Iic hab.le).symm
  rw [e, measureReal_union (by
    rw [Set.disjoint_left]; intro x hx hx2; exact absurd hx2.1 (not_lt.2 hx)) measurableSet_Ioc]
  have : (normalLaw mean sd) (Set.Ioc a b) ≠ 0 := by
    intro h0
    have := gaussianReal_absolutelyContinuous' mean (normal_ne h) h0
    rw [Real.volume_Ioc, ENNReal.ofReal_eq_zero] at this
    linarith
  have := ENNReal.toReal_pos this (measure_ne_top _ _)
  simp only [Measure.real]
  linarith

theorem normal_inj {mean sd : ℝ} (h : 0 < sd) {a b : ℝ}
    (e : (normalLaw mean sd).real (Set.Iic a) = (normalLaw mean sd).real (Set.Iic b)) : a = b := by
  rcases lt_trichotomy a b with hab | hab | hab
  · exact absurd e (normal_strict h hab).ne
  · exact hab
  · exact absurd e (normal_strict h hab).ne'

theorem normal_sym {mean sd : ℝ} (h : 0 < sd) (a : ℝ) :
    (normalLaw mean sd).real (Set.Iic (2 * mean - a)) = 1 - (normalLaw mean sd).real (Set.Iic a) := by
  have hm : (normalLaw mean sd).map (fun x => 2 * mean - x) = normalLaw mean sd := by
    unfold normalLaw
    rw [gaussianReal_map_const_sub]
    ring_nf
  have h1 : (normalLaw mean sd) (Set.Iic (2 * mean - a)) = (normalLaw mean sd) (Set.Ici a) := by
    conv_lhs => rw [← hm]
    rw [Measure.map_apply (by fun_prop) measurableSet_Iic]
    congr 1
    ext x
    simp
  have : NullSingletonClass (normalLaw mean sd) := nullSingletonClass_gaussianReal (normal_ne h)
  rw [Measure.real, h1, ← Measure.real, ← probReal_compl_eq_one_sub measurableSet_Iic, Set.compl_Iic,
    Measure.real, Measure.real, measure_congr Ioi_ae_eq_Ici]

/-- Without limits the curve reaches from the 0.001 to the 0.999 quantile, and these lie symmetrically. -/
theorem default_limits {lib : NormLib} (hlib : IsNorm lib) (mean : ℝ) {sd : ℝ} (h : 0 < sd) :
    lib.ppf mean sd 0.001 < lib.ppf mean sd 0.999 ∧
      gridPoint (lib.ppf mean sd 0.001) (lib.ppf mean sd 0.999) 500 = mean ∧
      (normalLaw mean sd).real (Set.Ioc (lib.ppf mean sd 0.001) (lib.ppf mean sd 0.999)) = 0.998 := by
  have h1 := hlib.ppf mean sd 0.001 h (by norm_num) (by norm_num)
  have h2 := hlib.ppf mean sd 0.999 h (by norm_num) (by norm_num)
  generalize lib.ppf mean sd 0.001 = a at h1 ⊢
  generalize lib.ppf mean sd 0.999 = b at h2 ⊢
  have hb : b = 2 * mean - a := by
    refine normal_inj (mean := mean) h ?_
    rw [normal_sym h, h1, h2]; norm_num
  have hab : a < b := by
    by_contra hn
    have : (normalLaw mean sd).real (Set.Iic b) ≤ (normalLaw mean sd).real (Set.Iic a) :=
      measureReal_mono (Set.Iic_subset_Iic.2 (not_lt.1 hn))
    rw [h1, h2] at this
    norm_num at this
  refine ⟨hab, ?_, ?_⟩
  · rw [gridPoint, hb]; push_cast; ring
  · have e : Set.Iic b = Set.Iic a ∪ Set.Ioc a b := (Set.Iic_union_Ioc_eq_Iic hab.le).symm
    rw [e, measureReal_union (by
      rw [Set.disjoint_left]; intro x hx hx2; exact absurd hx2.1 (not_lt.2 hx)) measurableSet_Ioc, h1] at h2
    linarith

theorem normPdf_eq {mean sd : ℝ} (h : 0 < sd) (x : ℝ) :
    normPdf mean sd x = gaussianPDFReal mean (sd ^ 2).toNNReal x := by
  rw [normPdf, gaussianPDFReal, Real.coe_toNNReal _ (sq_nonneg sd), Real.sqrt_mul (by positivity) (sd ^ 2),
    Real.sqrt_sq h.le]

theorem grid_points {a b : ℝ} (hab : a ≠ b) (f : ℝ → ℝ) : ∃ xs, arange1000 (a, b) = .ok xs ∧
    (xs.map fun x => (x, f x)).length = 1000 ∧
    ∀ i < 1000, (xs.map fun x => (x, f x))[i]? = some (gridPoint a b i, f (gridPoint a b i)) := by
  refine ⟨_, by rw [arange1000, if_neg hab], by rw [List.length_map, List.length_map, List.length_range], fun i hi => ?_⟩
  simp only [List.map_map, List.getElem?_map, List.getElem?_range hi, Option.map_some, Function.comp, gridPoint]

/-- **C123 (density).** `plot_gaussian_pdf` given the variance, or `variance=None` and the standard deviation, joins
1000 evenly spaced points of the density of the normal distribution, between the limits given, and marks the mean if
asked to. -/
theorem C123_pdf (lib : NormLib) (mean : ℝ) {sd : ℝ} (h : 0 < sd) {variance std : PlotArg}
    (hv : variance = .num (sd ^ 2) ∧ std = .none ∨ variance = .none ∧ std = .num sd) {ax : PlotArg}
    (hax : ax = .none ∨ ax = .axes) (line : Bool) {a b : ℝ} (hab : a ≠ b) (ylim : PlotArg) :
    ∃ c, plotGaussianPdf lib mean variance std ax (.bool line) (.pair a b) ylim = .ok c ∧ c.xlim = (a, b) ∧
      c.ylim = ylim ∧ c.line = (if line then some mean else none) ∧ c.points.length = 1000 ∧
      ∀ i < 1000, c.points[i]? =
        some (gridPoint a b i, gaussianPDFReal mean (sd ^ 2).toNNReal (gridPoint a b i)) := by
  have hs : pdfStd variance std = .ok sd := by
    rcases hv with ⟨rfl, rfl⟩ | ⟨rfl, rfl⟩
    · simp [pdfStd, PlotArg.toNum, bind, Except.bind, not_lt.2 (sq_nonneg sd), Real.sqrt_sq h.le]
    · rfl
  have ha : axesOf ax = .ok () := by rcases hax with rfl | rfl <;> rfl
  obtain ⟨xs, e1, e2, e3⟩ := grid_points hab (normPdf mean sd)
  simp only [← normPdf_eq h]
  refine ⟨_, by simp only [plotGaussianPdf, hs, curveLimits, nanLimits, e1, ha, bind, Except.bind, not_le.2 h, if_false]; rfl,
    rfl, rfl, ?_, e2, e3⟩
  cases line <;> rfl

/-- **C123 (default limits).** Without limits the curve covers 99.8 percent of the probability, the middle one of the
points is at the mean and is the highest one. -/
theorem C123_pdf_default {lib : NormLib} (hlib : IsNorm lib) (mean : ℝ) {sd : ℝ} (h : 0 < sd) {variance std : PlotArg}
    (hv : variance = .num (sd ^ 2) ∧ std = .none ∨ variance = .none ∧ std = .num sd) {ax : PlotArg}
    (line : Bool) (ylim : PlotArg) :
    ∃ a b, plotGaussianPdf lib mean variance std ax (.bool line) .none ylim =
        plotGaussianPdf lib mean variance std ax (.bool line) (.pair a b) ylim ∧ a < b ∧
      (normalLaw mean sd).real (Set.Ioc a b) = 0.998 ∧ gridPoint a b 500 = mean ∧
      ∀ x, gaussianPDFReal mean (sd ^ 2).toNNReal x ≤ gaussianPDFReal mean (sd ^ 2).toNNReal mean := by
  have hs : pdfStd variance std = .ok sd := by
    rcases hv with ⟨rfl, rfl⟩ | ⟨rfl, rfl⟩
    · simp [pdfStd, PlotArg.toNum, bind, Except.bind, not_lt.2 (sq_nonneg sd), Real.sqrt_sq h.le]
    · rfl
  obtain ⟨h1, h2, h3⟩ := default_limits hlib mean h
  refine ⟨_, _, ?_, h1, h3, h2, fun x => ?_⟩
  · simp only [plotGaussianPdf, hs, curveLimits, nanLimits, bind, Except.bind, not_le.2 h, if_false]
  · simp only [gaussianPDFReal, sub_self]
    refine mul_le_mul_of_nonneg_left (Real.exp_le_exp.2 ?_) (by positivity)
    have : 0 ≤ (x - mean) ^ 2 / (2 * ((sd ^ 2).toNNReal : ℝ)) := by positivity
    rw [neg_div]
    simpa using this

/-- **C123 (distribution function).** `plot_gaussian_cdf` joins 1000 evenly spaced points of the distribution function:
the heights are the probabilities of being at most there; they increase and lie between 0 and 1. -/
theorem C123_cdf {lib : NormLib} (hlib : IsNorm lib) (mean : ℝ) {variance : ℝ} (h : 0 < variance) {ax : PlotArg}
    (hax : ax = .none ∨ ax = .axes) {a b : ℝ} (hab : a < b) (ylim : PlotArg) :
    ∃ c, plotGaussianCdf lib mean variance ax (.pair a b) ylim = .ok c ∧ c.xlim = (a, b) ∧ c.ylim = ylim ∧
      c.points.length = 1000 ∧
      ∀ i < 1000, ∃ y, c.points[i]? = some (gridPoint a b i, y) ∧
        y = (normalLaw mean (√variance)).real (Set.Iic (gridPoint a b i)) ∧ 0 < y ∧ y < 1 ∧
        ∀ j < i, ∀ p, c.points[j]? = some p → p.2 < y := by
  have hsd : 0 < √variance := Real.sqrt_pos.2 h
  have ha : axesOf ax = .ok () := by rcases hax with rfl | rfl <;> rfl
  obtain ⟨xs, e1, e2, e3⟩ := grid_points hab.ne (lib.cdf mean (√variance))
  refine ⟨_, by
    simp only [plotGaussianCdf, curveLimits, nanLimits, e1, ha, bind, Except.bind, not_le.2 hsd, not_lt.2 h.le, if_false]
    rfl, rfl, rfl, e2, fun i hi => ⟨_, e3 i hi, hlib.cdf _ _ _ hsd, ?_, ?_, fun j hj p hp => ?_⟩⟩
  · rw [hlib.cdf _ _ _ hsd]
    exact measureReal_nonneg.trans_lt (normal_strict hsd (sub_one_lt (gridPoint a b i)))
  · rw [hlib.cdf _ _ _ hsd]
    exact (normal_strict hsd (lt_add_one (gridPoint a b i))).trans_le measureReal_le_one
  · dsimp only at hp
    rw [e3 j (hj.trans hi), Option.some.injEq] at hp
    subst hp
    dsimp only
    rw [hlib.cdf _ _ _ hsd, hlib.cdf _ _ _ hsd]
    refine normal_strict hsd ?_
    unfold gridPoint
    have : 0 < (b - a) / 1000 := by linarith
    have hj' : (j : ℝ) < i := by exact_mod_cast hj
    nlinarith

/-- **C123 (default limits).** Without limits the curve starts at height 0.001, passes one half at its middle point,
which is at the mean, and stays below 0.999. -/
theorem C123_cdf_default {lib : NormLib} (hlib : IsNorm lib) (mean : ℝ) {variance : ℝ} (h : 0 < variance) {ax : PlotArg}
    (ylim : PlotArg) :
    ∃ a b, plotGaussianCdf lib mean variance ax .none ylim = plotGaussianCdf lib mean variance ax (.pair a b) ylim ∧
      a < b ∧ gridPoint a b 0 = a ∧ (normalLaw mean (√variance)).real (Set.Iic a) = 0.001 ∧
      gridPoint a b 500 = mean ∧ (normalLaw mean (√variance)).real (Set.Iic mean) = 1 / 2 ∧
      (normalLaw mean (√variance)).real (Set.Iic b) = 0.999 ∧ ∀ i < 1000, gridPoint a b i < b := by
  have hsd : 0 < √variance := Real.sqrt_pos.2 h
  obtain ⟨h1, h2, h3⟩ := default_limits hlib mean hsd
  refine ⟨_, _, ?_, h1, by simp [gridPoint], hlib.ppf _ _ _ hsd (by norm_num) (by norm_num), h2, ?_,
    hlib.ppf _ _ _ hsd (by norm_num) (by norm_num), fun i hi => ?_⟩
  · simp only [plotGaussianCdf, curveLimits, nanLimits, bind, Except.bind, not_le.2 hsd, if_false]
  · have := normal_sym (mean := mean) hsd mean
    rw [show 2 * mean - mean = mean by ring] at this
    linarith
  · unfold gridPoint
    have hi' : (i : ℝ) < 1000 := by exact_mod_cast hi
    generalize lib.ppf mean (√variance) 0.001 = a at *
    generalize lib.ppf mean (√variance) 0.999 = b at *
    have : 0 < b - a := by linarith
    rw [← sub_pos]
    have e : b - (a + i * ((b - a) / 1000)) = (b - a) * (1000 - i) / 1000 := by ring
    rw [e]
    have : (0 : ℝ) < 1000 - i := by linarith
    positivity

theorem take_sum (ys : List ℝ) (k : ℕ) : (ys.take k).sum = ∑ i ∈ Finset.range k, ys.getD i 0 := by
  induction k with
  | zero => simp
  | succ k ih =>
    rw [Finset.sum_range_succ, ← ih, List.take_add_one, List.sum_append]
    congr 1
    rw [List.getD_eq_getElem?_getD]
    cases ys[k]? <;> simp

/-- **C123 (discrete distributions).** `plot_discrete_cdf(xs, ys)` draws, for the `k`-th value, the probability of the
values up to that one; for a list of probabilities the heights never decrease and end at 1. Lists of different lengths
are refused. -/
theorem C123_discrete (xs : Option (List ℝ)) (ys : List ℝ) :
    (∀ xs', xs = some xs' → xs'.length ≠ ys.length → plotDiscreteCdf xs ys = .error .valueError) ∧
    ((∀ xs', xs = some xs' → xs'.length = ys.length) → ∃ pts, plotDiscreteCdf xs ys = .ok pts ∧
      pts.length = ys.length ∧
      ∀ k < ys.length, ∃ x y, pts[k]? = some (x, y) ∧ (xs = none → x = k) ∧ (∀ xs', xs = some xs' → xs'[k]? = some x) ∧
        y = ∑ i ∈ Finset.range (k + 1), ys.getD i 0 ∧
        ((∀ p ∈ ys, 0 ≤ p) → ys.sum = 1 → 0 ≤ y ∧ y ≤ 1 ∧ (k + 1 = ys.length → y = 1) ∧
          ∀ j q, k < j → pts[j]? = some q → y ≤ q.2)) := by
  refine ⟨?_, fun hlen => ?_⟩
  · rintro xs' rfl hne
    simp [plotDiscreteCdf, hne]
  have hl : (xs.getD ((List.range ys.length).map fun k : ℕ => (k : ℝ))).length = ys.length := by
    cases xs with
    | none => simp
    | some xs => exact hlen xs rfl
  have hc : (cumsum ys).length = ys.length := by simp [cumsum]
  have hck : ∀ k < ys.length, (cumsum ys)[k]? = some (∑ i ∈ Finset.range (k + 1), ys.getD i 0) := by
    intro k hk
    rw [cumsum, List.getElem?_map, List.getElem?_range hk, Option.map_some, take_sum]
  refine ⟨(xs.getD ((List.range ys.length).map fun k : ℕ => (k : ℝ))).zip (cumsum ys),
    by simp only [plotDiscreteCdf, hl, if_true], by rw [List.length_zip, hl, hc, min_self], fun k hk => ?_⟩
  obtain ⟨x, hx⟩ : ∃ x, (xs.getD ((List.range ys.length).map fun k : ℕ => (k : ℝ)))[k]? = some x :=
    ⟨_, List.getElem?_eq_getElem (by rw [hl]; exact hk)⟩
  refine ⟨x, _, by rw [List.getElem?_zip_eq_some]; exact ⟨hx, hck k hk⟩, ?_, ?_, rfl, fun h0 h1 => ?_⟩
  · rintro rfl
    rw [Option.getD_none, List.getElem?_map, List.getElem?_range hk, Option.map_some, Option.some.injEq] at hx
    exact hx.symm
  · rintro xs' rfl
    exact hx
  · have hn : ∀ i, 0 ≤ ys.getD i 0 := by
      intro i
      rw [List.getD_eq_getElem?_getD]
      cases h : ys[i]? with
      | none => simp
      | some p => exact h0 p (List.mem_of_getElem? h)
    have hm : ∀ a b, a ≤ b → ∑ i ∈ Finset.range a, ys.getD i 0 ≤ ∑ i ∈ Finset.range b, ys.getD i 0 := fun a b hab =>
      Finset.sum_le_sum_of_subset_of_nonneg (Finset.range_mono hab) fun i _ _ => hn i
    have hT : ∑ i ∈ Finset.range ys.length, ys.getD i 0 = 1 := by rw [← take_sum, List.take_length, h1]
    refine ⟨Finset.sum_nonneg fun i _ => hn i, hT ▸ hm _ _ hk, fun e => by rw [e, hT], fun j q hkj hq => ?_⟩
    have hj : j < ys.length := by
      by_contra hj
      rw [List.getElem?_eq_none (by rw [List.length_zip, hl, hc, min_self]; omega)] at hq
      cases hq
    rw [List.getElem?_zip_eq_some, hck j hj] at hq
    rw [← Option.some.inj hq.2]
    exact hm _ _ (by omega)

/-- **C123 (arguments).** Giving both of variance and standard deviation, or neither, or a negative variance is
refused, by both functions as far as they have these arguments. -/
theorem C123_refused (lib : NormLib) (mean : ℝ) (variance std ax line xlim ylim : PlotArg) :
    ((variance ≠ .none ∧ std ≠ .none) ∨ (variance = .none ∧ std = .none) ∨
        ((∃ a, a < 0 ∧ variance = .num a) ∧ std = .none) →
      plotGaussianPdf lib mean variance std ax line xlim ylim = .error .valueError) ∧
    ∀ a < 0, plotGaussianCdf lib mean a ax xlim ylim = .error .valueError := by
  refine ⟨?_, fun a ha => by simp [plotGaussianCdf, ha, bind, Except.bind]⟩
  have hs : pdfStd variance std = .error .valueError →
      plotGaussianPdf lib mean variance std ax line xlim ylim = .error .valueError := by
    intro h
    simp [plotGaussianPdf, h, bind, Except.bind]
  rintro (⟨h1, h2⟩ | ⟨rfl, rfl⟩ | ⟨⟨a, ha, rfl⟩, rfl⟩)
  · refine hs ?_
    cases variance <;> cases std <;> first | rfl | exact absurd rfl h1 | exact absurd rfl h2
  · exact hs rfl
  · exact hs (by simp [pdfStd, PlotArg.toNum, bind, Except.bind, ha])

/-- **C123 (the standard deviation) is false.** "Use instead of variance if desired": giving only the standard
deviation is always refused, because the variance has a default. -/
theorem C123_std_refuted (lib : NormLib) (mean sd : ℝ) (ax line xlim ylim : PlotArg) :
    plotGaussianPdf lib mean (std := .num sd) (ax := ax) (meanLine := line) (xlim := xlim) (ylim := ylim) =
      .error .valueError := rfl

/-- **C123 (the deprecated name) is false.** `plot_gaussian` cannot be called: with any of the documented arguments,
or with none, it raises an exception, because it hands its arguments on in the wrong positions. -/
theorem C123_deprecated_refuted (lib : NormLib) (mean variance : ℝ) {ax xlim ylim : PlotArg}
    (hax : ax = .none ∨ ax = .axes) (line : Bool) (xlabel : PlotArg) :
    ∃ e, plotGaussian lib mean (.num variance) ax (.bool line) xlim ylim xlabel = .error e := by
  rcases hax with rfl | rfl
  · have key : ∀ (a : Except Err ℝ) (b : ℝ → Except Err (ℝ × ℝ)) (c : ℝ → Except Err Unit) (g : ℝ → ℝ × ℝ → List ℝ → Except Err Curve),
        ∃ e, (do
          let sd ← a
          let lim ← b sd
          c sd
          let xs ← arange1000 lim
          axesOf (.bool line)
          g sd lim xs) = Except.error e := by
      intro a b c g
      cases a with
      | error e => exact ⟨e, rfl⟩
      | ok sd =>
        cases hb : b sd with
        | error e => exact ⟨e, by simp [bind, Except.bind, hb]⟩
        | ok lim =>
          cases hc : c sd with
          | error e => exact ⟨e, by simp [bind, Except.bind, hb, hc]⟩
          | ok u =>
            cases hd : arange1000 lim with
            | error e => exact ⟨e, by simp [bind, Except.bind, hb, hc, hd]⟩
            | ok xs => exact ⟨.attributeError, by simp [bind, Except.bind, hb, hc, hd, axesOf]⟩
    exact key _ _ _ _
  · exact ⟨_, rfl⟩

/-- The library exists. -/
theorem normLib_exists : ∃ lib, IsNorm lib := by
  have key : ∀ mean sd p : ℝ, ∃ x, 0 < sd → 0 < p → p < 1 → (normalLaw mean sd).real (Set.Iic x) = p := by
    intro mean sd p
    by_cases h : 0 < sd ∧ 0 < p ∧ p < 1
    swap
    · exact ⟨0, fun h0 h1 h2 => absurd ⟨h0, h1, h2⟩ h⟩
    obtain ⟨h0, h1, h2⟩ := h
    have : NullSingletonClass (normalLaw mean sd) := nullSingletonClass_gaussianReal (normal_ne h0)
    have hc : Continuous (cdf (normalLaw mean sd)) := by
      refine continuous_iff_continuousAt.2 fun x => ?_
      rw [(monotone_cdf _).continuousAt_iff_leftLim_eq_rightLim, StieltjesFunction.rightLim_eq]
      have h3 := (cdf (normalLaw mean sd)).measure_singleton x
      rw [measure_cdf, measure_singleton, eq_comm, ENNReal.ofReal_eq_zero] at h3
      exact le_antisymm ((monotone_cdf _).leftLim_le le_rfl) (by linarith)
    obtain ⟨a, ha⟩ := ((tendsto_cdf_atBot (normalLaw mean sd)).eventually (gt_mem_nhds h1)).exists
    obtain ⟨b, hb⟩ := ((tendsto_cdf_atTop (normalLaw mean sd)).eventually (lt_mem_nhds h2)).exists
    obtain ⟨x, hx⟩ := mem_range_of_exists_le_of_exists_ge hc ⟨a, ha.le⟩ ⟨b, hb.le⟩
    exact ⟨x, fun _ _ _ => by rw [← cdf_eq_real]; exact hx⟩
  choose f hf using key
  exact ⟨⟨f, fun mean sd x => (normalLaw mean sd).real (Set.Iic x)⟩, ⟨fun _ _ _ _ => rfl, hf⟩⟩

/-- The hypotheses are met for a standard deviation of 2, given in either way. -/
example : ∃ lib, IsNorm lib ∧ (0 : ℝ) < 2 ∧
    ((PlotArg.num (2 ^ 2) = .num (2 ^ 2) ∧ PlotArg.none = .none) ∧
      (∃ c, plotGaussianPdf lib 1 (.num (2 ^ 2)) .none .none (.bool true) (.pair 0 3) = .ok c) ∧
      ∃ c, plotGaussianPdf lib 1 .none (.num 2) .axes (.bool true) (.pair 0 3) = .ok c) := by
  obtain ⟨lib, h⟩ := normLib_exists
  refine ⟨lib, h, by norm_num, ⟨rfl, rfl⟩, ?_, ?_⟩
  · obtain ⟨c, hc, -⟩ := C123_pdf lib 1 (sd := 2) (by norm_num) (.inl ⟨rfl, rfl⟩) (.inl rfl) true
      (a := 0) (b := 3) (by norm_num) .none
    exact ⟨c, hc⟩
  · obtain ⟨c, hc, -⟩ := C123_pdf lib 1 (sd := 2) (by norm_num) (.inr ⟨rfl, rfl⟩) (.inr rfl) true
      (a := 0) (b := 3) (by norm_num) .none
    exact ⟨c, hc⟩

/-- The hypotheses of `C123_discrete` are met. -/
example : ([0.25, 0.5, 0.25] : List ℝ).sum = 1 ∧ ∀ p ∈ ([0.25, 0.5, 0.25] : List ℝ), 0 ≤ p := by
  refine ⟨by norm_num, fun p hp => ?_⟩
  simp only [List.mem_cons, List.not_mem_nil, or_false] at hp
  rcases hp with rfl | rfl | rfl <;> norm_num

end Filterpy
