import Verif.Props.UKF
import Verif.Props.Cubature
import Verif.Lemmas.Prob
import Verif.Lemmas.Scalar1
import Mathlib.Probability.Distributions.Gaussian.Real
import Mathlib.Probability.Moments.MGFAnalytic

/-!
# C90: the unscented and the cubature transform beyond linear functions

For a quadratic function the transformed mean is the mean of the function of *any* random vector with the
given mean and covariance; for the symmetric point sets the same holds with an odd function of the deviation
added, if the distribution is symmetric.  The transformed variance of a quadratic function is that of a normal
variable for exactly one choice of the parameters.
-/

namespace Filterpy

open Matrix SigmaPts Spec MeasureTheory ProbabilityTheory
open scoped NNReal

/-! ## The first four moments of a normal distribution -/

theorem gauss_deriv (v : ℝ) (p p' : ℝ → ℝ) (hp : ∀ t, HasDerivAt p (p' t) t) (t : ℝ) :
    HasDerivAt (fun t => p t * Real.exp (v * t ^ 2 / 2)) ((p' t + p t * (v * t)) * Real.exp (v * t ^ 2 / 2)) t := by
  have h1 : HasDerivAt (fun t : ℝ => v * t ^ 2 / 2) (v * t) t := by
    have := ((hasDerivAt_pow 2 t).const_mul v).div_const 2
    exact this.congr_deriv (by norm_num; ring)
  exact ((hp t).mul h1.exp).congr_deriv (by ring)

theorem gauss_moments (v : ℝ≥0) :
    (∫ t, t ∂gaussianReal 0 v) = 0 ∧ (∫ t, t ^ 2 ∂gaussianReal 0 v) = v ∧ (∫ t, t ^ 3 ∂gaussianReal 0 v) = 0 ∧
      (∫ t, t ^ 4 ∂gaussianReal 0 v) = 3 * v ^ 2 := by
  have hm : mgf id (gaussianReal 0 v) = fun t => (1 : ℝ) * Real.exp (v * t ^ 2 / 2) := by
    rw [mgf_id_gaussianReal]; simp
  have hi : (0 : ℝ) ∈ interior (integrableExpSet id (gaussianReal 0 v)) := by
    rw [integrableExpSet_id_gaussianReal, interior_univ]; trivial
  have d1 := gauss_deriv v (fun _ => 1) (fun _ => 0) (fun t => hasDerivAt_const t 1)
  have d2 := gauss_deriv v (fun t => v * t) (fun _ => v) (fun t => by simpa using (hasDerivAt_id t).const_mul (v : ℝ))
  have d3 := gauss_deriv v (fun t => v + v ^ 2 * t ^ 2) (fun t => 2 * v ^ 2 * t) (fun t => by
    have := (((hasDerivAt_pow 2 t).const_mul ((v : ℝ) ^ 2)).const_add (v : ℝ))
    exact this.congr_deriv (by norm_num; ring))
  have d4 := gauss_deriv v (fun t => 3 * v ^ 2 * t + v ^ 3 * t ^ 3) (fun t => 3 * v ^ 2 + 3 * v ^ 3 * t ^ 2) (fun t => by
    have := ((hasDerivAt_id t).const_mul (3 * (v : ℝ) ^ 2)).add ((hasDerivAt_pow 3 t).const_mul ((v : ℝ) ^ 3))
    exact this.congr_deriv (by norm_num; ring))
  have e1 : deriv (mgf id (gaussianReal 0 v)) = fun t => (v * t) * Real.exp (v * t ^ 2 / 2) := by
    rw [hm]; funext t; rw [(d1 t).deriv]; ring
  have e2 : deriv (fun t : ℝ => (v * t) * Real.exp (v * t ^ 2 / 2)) = fun t => (v + v ^ 2 * t ^ 2) * Real.exp (v * t ^ 2 / 2) := by
    funext t; rw [(d2 t).deriv]; ring
  have e3 : deriv (fun t : ℝ => (v + v ^ 2 * t ^ 2) * Real.exp (v * t ^ 2 / 2)) =
      fun t => (3 * v ^ 2 * t + v ^ 3 * t ^ 3) * Real.exp (v * t ^ 2 / 2) := by
    funext t; rw [(d3 t).deriv]; ring
  have m1 := iteratedDeriv_mgf_zero hi 1
  have m2 := iteratedDeriv_mgf_zero hi 2
  have m3 := iteratedDeriv_mgf_zero hi 3
  have m4 := iteratedDeriv_mgf_zero hi 4
  simp only [iteratedDeriv_succ', iteratedDeriv_zero, e1, e2, e3, (d4 0).deriv] at m1 m2 m3 m4
  simp only [Pi.pow_apply, id_eq] at m1 m2 m3 m4
  refine ⟨?_, ?_, ?_, ?_⟩
  · simp
  · simpa using m2.symm
  · simpa using m3.symm
  · simpa using m4.symm

theorem gauss_integrable (v : ℝ≥0) (k : ℕ) : Integrable (fun t : ℝ => t ^ k) (gaussianReal 0 v) := by
  have hi : (0 : ℝ) ∈ interior (integrableExpSet id (gaussianReal 0 v)) := by
    rw [integrableExpSet_id_gaussianReal, interior_univ]; trivial
  exact integrable_pow_of_mem_interior_integrableExpSet hi k

theorem gauss_poly (v : ℝ≥0) (c0 c1 c2 c3 c4 : ℝ) :
    (∫ t, (c4 * t ^ 4 + (c3 * t ^ 3 + (c2 * t ^ 2 + (c1 * t + c0)))) ∂gaussianReal 0 v) = 3 * c4 * v ^ 2 + c2 * v + c0 := by
  obtain ⟨i1, i2, i3, i4⟩ := gauss_moments v
  have j1 : Integrable (fun t : ℝ => t) (gaussianReal 0 v) := by simpa using gauss_integrable v 1
  have k1 : Integrable (fun t : ℝ => c1 * t + c0) (gaussianReal 0 v) := (j1.const_mul _).add (integrable_const _)
  have k2 : Integrable (fun t : ℝ => c2 * t ^ 2 + (c1 * t + c0)) (gaussianReal 0 v) :=
    ((gauss_integrable v 2).const_mul _).add k1
  have k3 : Integrable (fun t : ℝ => c3 * t ^ 3 + (c2 * t ^ 2 + (c1 * t + c0))) (gaussianReal 0 v) :=
    ((gauss_integrable v 3).const_mul _).add k2
  rw [integral_add ((gauss_integrable v 4).const_mul _) k3, integral_add ((gauss_integrable v 3).const_mul _) k2,
    integral_add ((gauss_integrable v 2).const_mul _) k1, integral_add (j1.const_mul _) (integrable_const _),
    integral_const_mul, integral_const_mul, integral_const_mul, integral_const_mul, i1, i2, i3, i4]
  simp; ring

/-- The mean and variance of a quadratic function of a normal variable. -/
theorem gauss_quadratic (x : ℝ) (v : ℝ≥0) (a b d : ℝ) :
    (∫ t, (a * t ^ 2 + b * t + d) ∂gaussianReal x v) = a * (x ^ 2 + v) + b * x + d ∧
    Var[fun t => a * t ^ 2 + b * t + d; gaussianReal x v] = (2 * a * x + b) ^ 2 * v + 2 * a ^ 2 * v ^ 2 := by
  have hmap : (gaussianReal 0 v).map (fun t => t + x) = gaussianReal x v := by
    rw [gaussianReal_map_add_const]; simp
  have hmean : (∫ t, (a * t ^ 2 + b * t + d) ∂gaussianReal x v) = a * (x ^ 2 + v) + b * x + d := by
    rw [← hmap, integral_map (by fun_prop) (by fun_prop)]
    have : ∀ t : ℝ, a * (t + x) ^ 2 + b * (t + x) + d =
        0 * t ^ 4 + (0 * t ^ 3 + (a * t ^ 2 + ((2 * a * x + b) * t + (a * x ^ 2 + b * x + d)))) :=
      fun t => by ring
    simp only [this, gauss_poly]
    ring
  refine ⟨hmean, ?_⟩
  rw [variance_eq_integral (by fun_prop), hmean, ← hmap, integral_map (by fun_prop) (by fun_prop)]
  have : ∀ t : ℝ, (a * (t + x) ^ 2 + b * (t + x) + d - (a * (x ^ 2 + v) + b * x + d)) ^ 2 =
      a ^ 2 * t ^ 4 + (2 * a * (2 * a * x + b) * t ^ 3 + (((2 * a * x + b) ^ 2 - 2 * a ^ 2 * v) * t ^ 2 +
        (-2 * a * (2 * a * x + b) * v * t + a ^ 2 * v ^ 2))) := fun t => by ring
  simp only [this, gauss_poly]
  ring

/-! ## Specification -/

/-- A quadratic map: every component is a quadratic polynomial of the arguments. -/
def quadratic {n m : ℕ} (A : Fin m → Mat n n) (B : Mat m n) (c : Vec m) (v : Vec n) : Vec m :=
  fun a => v ⬝ᵥ (A a *ᵥ v) + (B *ᵥ v) a + c a

/-! ## Means -/

variable {n m k : ℕ}

theorem quadratic_eq (A : Fin m → Mat n n) (B : Mat m n) (c : Vec m) (v : Vec n) (a : Fin m) :
    quadratic A B c v a = (∑ i, ∑ j, A a i j * (v i * v j)) + (∑ j, B a j * v j) + c a := by
  simp only [quadratic, dotProduct, mulVec, Finset.mul_sum]
  congr 2
  exact Finset.sum_congr rfl fun i _ => Finset.sum_congr rfl fun j _ => by ring

theorem quadratic_wmean (w : Vec k) (s : Mat k n) {x : Vec n} {P : Mat n n} (hw : ∑ i, w i = 1)
    (hm : WMean w s = x) (hc : WCov w s x = P) (A : Fin m → Mat n n) (B : Mat m n) (c : Vec m) (a : Fin m) :
    WMean w (mapRows (quadratic A B c) s) a =
      (∑ i, ∑ j, A a i j * (P i j + x i * x j)) + (∑ j, B a j * x j) + c a := by
  have h1 : ∀ j, ∑ q, w q * s q j = x j := fun j => by
    rw [← hm]; simp [WMean, Finset.sum_apply]
  have h2 : ∀ i j, ∑ q, w q * (s q i * s q j) = P i j + x i * x j := by
    intro i j
    have e : P i j = ∑ q, w q * ((s q i - x i) * (s q j - x j)) := by rw [← hc]; rfl
    have e2 : ∀ q, w q * ((s q i - x i) * (s q j - x j)) =
        w q * (s q i * s q j) - x j * (w q * s q i) - x i * (w q * s q j) + x i * x j * w q := fun q => by ring
    rw [e]
    simp only [e2, Finset.sum_add_distrib, Finset.sum_sub_distrib, ← Finset.mul_sum, h1, hw]
    ring
  simp only [WMean, mapRows, Finset.sum_apply, Pi.smul_apply, smul_eq_mul, quadratic_eq, mul_add,
    Finset.sum_add_distrib, ← Finset.sum_mul, hw, one_mul]
  congr 2
  · rw [← Finset.sum_add_distrib]
    simp only [Finset.mul_sum]
    rw [Finset.sum_comm]
    refine Finset.sum_congr rfl fun i _ => ?_
    rw [Finset.sum_comm, ← Finset.sum_add_distrib]
    refine Finset.sum_congr rfl fun j _ => ?_
    rw [← mul_add, ← h2, Finset.mul_sum]
    exact Finset.sum_congr rfl fun q _ => by ring
  · simp only [Finset.mul_sum]
    rw [Finset.sum_comm]
    refine Finset.sum_congr rfl fun j _ => ?_
    rw [← h1, Finset.mul_sum]
    exact Finset.sum_congr rfl fun q _ => by ring

section

variable {Ω : Type*} [MeasurableSpace Ω] {μ : Measure Ω} [IsProbabilityMeasure μ]

theorem quadratic_integrable {X : Ω → Vec n} (hX : SqInt X μ) (A : Fin m → Mat n n) (B : Mat m n) (c : Vec m) (a : Fin m) :
    Integrable (fun ω => quadratic A B c (X ω) a) μ := by
  simp only [quadratic_eq]
  refine ((integrable_finsetSum _ fun i _ => integrable_finsetSum _ fun j _ => ?_).add
    (integrable_finsetSum _ fun j _ => (hX.integrable j).const_mul _)).add (integrable_const _)
  exact ((hX i).integrable_mul (hX j)).const_mul _

theorem quadratic_mean {X : Ω → Vec n} (hX : SqInt X μ) (A : Fin m → Mat n n) (B : Mat m n) (c : Vec m) (a : Fin m) :
    meanVec (fun ω => quadratic A B c (X ω)) μ a =
      (∑ i, ∑ j, A a i j * (covMat X X μ i j + meanVec X μ i * meanVec X μ j)) + (∑ j, B a j * meanVec X μ j) + c a := by
  have hij : ∀ i j, Integrable (fun ω => A a i j * (X ω i * X ω j)) μ := fun i j =>
    ((hX i).integrable_mul (hX j)).const_mul _
  have h1 : Integrable (fun ω => ∑ i, ∑ j, A a i j * (X ω i * X ω j)) μ :=
    integrable_finsetSum _ fun i _ => integrable_finsetSum _ fun j _ => hij i j
  have h2 : Integrable (fun ω => ∑ j, B a j * X ω j) μ :=
    integrable_finsetSum _ fun j _ => (hX.integrable j).const_mul _
  have h3 : Integrable (fun ω => (∑ i, ∑ j, A a i j * (X ω i * X ω j)) + ∑ j, B a j * X ω j) μ := h1.add h2
  simp only [meanVec, quadratic_eq]
  rw [integral_add h3 (integrable_const _), integral_add h1 h2, integral_finsetSum _ fun i _ => integrable_finsetSum _ fun j _ => hij i j,
    integral_finsetSum _ fun j _ => (hX.integrable j).const_mul _]
  congr 2
  · refine Finset.sum_congr rfl fun i _ => ?_
    rw [integral_finsetSum _ fun j _ => hij i j]
    refine Finset.sum_congr rfl fun j _ => ?_
    rw [integral_const_mul]
    congr 1
    have := covariance_eq_sub (hX i) (hX j)
    simp only [covMat, Matrix.of_apply, this]
    simp
  · exact Finset.sum_congr rfl fun j _ => integral_const_mul _ _
  · simp

end

/-- The mean weights of a sigma point object also reproduce the covariance: the two sets of weights differ
at most in the centre. -/
theorem ValidPoints.mean_weights {p : SigmaPts n} (h : ValidPoints p) (x : Vec n) (P : Mat n n) (hP : P.PosDef) :
    ∃ s, p.points x P = .ok s ∧ WMean p.Wm s = x ∧ WCov p.Wm s x = P := by
  cases h with
  | merwe alpha beta kappa sqrt _ hpos hs hp =>
    have e : (n : ℝ) + (alpha ^ 2 * (n + kappa) - n) = alpha ^ 2 * (n + kappa) := by ring
    have e' : (alpha ^ 2 * (n + kappa) - n) + (n : ℝ) = alpha ^ 2 * (n + kappa) := by ring
    have h2 := (encodes_symmetric (alpha ^ 2 * (n + kappa))
      ((alpha ^ 2 * (n + kappa) - n) / (alpha ^ 2 * (n + kappa)))
      ((alpha ^ 2 * (n + kappa) - n) / (alpha ^ 2 * (n + kappa))) hpos (by
        have := hpos.ne'
        generalize alpha ^ 2 * (n + kappa) = c at this ⊢
        field_simp
        ring) sqrt hs).pts x P hP
    unfold SigmaPts.merwe at hp
    simp only [e, e', hpos.ne', if_false] at hp
    obtain rfl := Except.ok.inj hp
    exact h2
  | julier kappa sqrt _ hpos hs hp =>
    obtain ⟨q, hq, -, he⟩ := encodes_julier kappa hpos sqrt hs
    obtain rfl : p = q := Except.ok.inj (hp.symm.trans hq)
    have h2 := he.pts x P hP
    unfold SigmaPts.julier at hp
    simp only [hpos.ne', if_false] at hp
    obtain rfl := Except.ok.inj hp
    exact h2
  | simplex sqrt hn hs => exact (encodes_simplex hn sqrt hs).2.pts x P hP

section

variable {Ω : Type*} [MeasurableSpace Ω] {μ : Measure Ω} [IsProbabilityMeasure μ]

/-- **C90 (mean).**  For every quadratic map and every random vector with mean `x` and covariance `P`, of
whatever distribution, the unscented transform of the sigma points of `(x, P)` gives the mean of the map. -/
theorem C90_mean {p : SigmaPts n} (hp : ValidPoints p) {X : Ω → Vec n} (hX : SqInt X μ)
    (hP : (covMat X X μ).PosDef) (A : Fin m → Mat n n) (B : Mat m n) (c : Vec m) (N : Option (Mat m m)) :
    ∃ s, p.points (meanVec X μ) (covMat X X μ) = .ok s ∧
      (unscentedTransform (mapRows (quadratic A B c) s) p.Wm p.Wc N none none).1 =
        meanVec (fun ω => quadratic A B c (X ω)) μ := by
  obtain ⟨s, h1, h2, h3⟩ := hp.mean_weights _ _ hP
  refine ⟨s, h1, ?_⟩
  rw [ut_spec]
  funext a
  rw [quadratic_mean hX]
  exact quadratic_wmean _ _ hp.encodes.sum h2 h3 A B c a

/-- **C90 (mean, cubature).** -/
theorem C90_cubature_mean (hn : 0 < n) (chol : Mat n n → Except Err (Mat n n)) (hc : IsCholUpper chol)
    {X : Ω → Vec n} (hX : SqInt X μ) (hP : (covMat X X μ).PosDef) (A : Fin m → Mat n n) (B : Mat m n) (c : Vec m)
    (N : Mat m m) :
    ∃ s, sphericalRadialSigmas chol (meanVec X μ) (covMat X X μ) = .ok s ∧
      (ckfTransform (mapRows (quadratic A B c) s) N).1 = meanVec (fun ω => quadratic A B c (X ω)) μ := by
  obtain ⟨s, h1, h2, h3, -⟩ := C25_points hn chol hc (meanVec X μ) _ hP
  refine ⟨s, h1, ?_⟩
  rw [C25_transform (by omega)]
  funext a
  rw [quadratic_mean hX]
  exact quadratic_wmean _ _ (sum_eqW (by omega)) h2 h3 A B c a

/-- **C90 (in the filter).**  `predict()` of an unscented filter whose process function is quadratic for the
given time step moves `x` to the mean of the process function of the state. -/
theorem C90_predict {p : SigmaPts n} (hp : ValidPoints p) (u u' : UKF n m p) (hmean : u.xMean = none) (dt : Option ℝ)
    {X : Ω → Vec n} (hX : SqInt X μ) (hx : u.x = meanVec X μ) (hcov : u.P = covMat X X μ) (hP : u.P.PosDef)
    (A : Fin n → Mat n n) (B : Mat n n) (c : Vec n) (hf : ∀ v, u.fx v (dt.getD u.dt) = quadratic A B c v)
    (h : u.predict dt = .ok u') : u'.x = meanVec (fun ω => u.fx (X ω) (dt.getD u.dt)) μ := by
  obtain ⟨s, h1, h2⟩ := C90_mean (n := n) (m := n) hp hX (hcov ▸ hP) A B c (some u.Q)
  rw [← hx, ← hcov] at h1
  simp only [UKF.predict, UKF.computeProcessSigmas, h1, UKF.predictUT, Option.getD_none] at h
  split at h
  · cases h
  · obtain rfl := Except.ok.inj h
    simp only [hf, ← h2, hmean]
    rfl

end

/-! ## Symmetric distributions -/

/-- The symmetric point sets: the weighted sum of an odd function of the deviations is zero. -/
theorem symmetric_odd (x : Vec n) (U : Mat n n) (w0 c : ℝ) (g : Vec n → Vec m) (hg : ∀ d, g (-d) = -g d) :
    WMean (fun i : Fin (2 * n + 1) => if (i : ℕ) = 0 then w0 else c)
      (mapRows (fun v => g (v - x)) (symmetricSet (fun a b => a - b) x U)) = 0 := by
  unfold WMean mapRows
  simp only [symmetricSet_row]
  rw [sum_sym (fun i => (if i = 0 then w0 else c) • g (symRow x U i - x))]
  have h0 : g 0 = 0 := by
    have := hg 0
    rw [neg_zero] at this
    exact self_eq_neg.1 this
  simp only [symRow_zero, symRow_up, symRow_down, sub_self, h0, smul_zero, zero_add, add_sub_cancel_left,
    sub_sub_cancel_left, hg, if_true, Nat.add_eq_zero_iff, one_ne_zero, and_false, if_false, smul_neg, add_neg_cancel,
    Finset.sum_const_zero]

section

variable {Ω : Type*} [MeasurableSpace Ω] {μ : Measure Ω} [IsProbabilityMeasure μ]

omit [IsProbabilityMeasure μ] in
/-- An odd function of a symmetric deviation has mean zero. -/
theorem odd_mean_zero {D : Ω → Vec n} (hD : Measurable D) (hsym : μ.map D = μ.map fun ω => -D ω) (g : Vec n → Vec m)
    (hgm : Measurable g) (hg : ∀ d, g (-d) = -g d) (a : Fin m) : ∫ ω, g (D ω) a ∂μ = 0 := by
  have hm : AEStronglyMeasurable (fun d => g d a) (μ.map D) :=
    ((measurable_pi_apply a).comp hgm).aestronglyMeasurable
  have hm' : AEStronglyMeasurable (fun d => g d a) (μ.map fun ω => -D ω) :=
    ((measurable_pi_apply a).comp hgm).aestronglyMeasurable
  have h1 : ∫ ω, g (D ω) a ∂μ = ∫ ω, g (-D ω) a ∂μ := by
    rw [← integral_map hD.aemeasurable hm, hsym, integral_map (φ := fun ω => -D ω) hD.neg.aemeasurable hm']
  simp only [hg, Pi.neg_apply, integral_neg] at h1
  linarith

/-- **C90 (third order).**  If the distribution is symmetric about its mean, the mean stays exact when any odd
function of the deviation from the mean (all cubic terms, say) is added to the quadratic map, for the scaled
and the Julier points. -/
theorem C90_symmetric {p : SigmaPts n} (hp : (∃ (alpha beta kappa : ℝ) (sqrt : _), 0 < alpha ^ 2 * (n + kappa) ∧
      IsCholUpper sqrt ∧ SigmaPts.merwe n alpha beta kappa sqrt = .ok p) ∨
      ∃ (kappa : ℝ) (sqrt : _), 0 < n + kappa ∧ IsCholUpper sqrt ∧ SigmaPts.julier n kappa sqrt = .ok p)
    {X : Ω → Vec n} (hX : SqInt X μ) (hXm : Measurable X)
    (hP : (covMat X X μ).PosDef) (A : Fin m → Mat n n) (B : Mat m n) (c : Vec m) (N : Option (Mat m m))
    (hsym : (μ.map fun ω => X ω - meanVec X μ) = μ.map fun ω => -(X ω - meanVec X μ))
    (g : Vec n → Vec m) (hgm : Measurable g) (hg : ∀ d, g (-d) = -g d)
    (hgi : ∀ a, Integrable (fun ω => g (X ω - meanVec X μ) a) μ) :
    ∃ s, p.points (meanVec X μ) (covMat X X μ) = .ok s ∧
      (unscentedTransform (mapRows (fun v => quadratic A B c v + g (v - meanVec X μ)) s) p.Wm p.Wc N none none).1 =
        meanVec (fun ω => quadratic A B c (X ω) + g (X ω - meanVec X μ)) μ := by
  have hv : ValidPoints p := by
    rcases hp with ⟨al, be, ka, sq, h1, h2, h3⟩ | ⟨ka, sq, h1, h2, h3⟩
    · exact .merwe al be ka sq p h1 h2 h3
    · exact .julier ka sq p h1 h2 h3
  obtain ⟨s, h1, h2⟩ := C90_mean hv hX hP A B c N
  refine ⟨s, h1, ?_⟩
  have hodd : WMean p.Wm (mapRows (fun v => g (v - meanVec X μ)) s) = 0 := by
    rcases hp with ⟨al, be, ka, sq, h3, h4, h5⟩ | ⟨ka, sq, h3, h4, h5⟩
    · unfold SigmaPts.merwe at h5
      simp only at h5
      split_ifs at h5
      obtain rfl := Except.ok.inj h5
      simp only at h1
      split at h1
      · cases h1
      · obtain rfl := Except.ok.inj h1
        exact symmetric_odd _ _ _ _ g hg
    · unfold SigmaPts.julier at h5
      split_ifs at h5
      obtain rfl := Except.ok.inj h5
      simp only at h1
      split at h1
      · cases h1
      · obtain rfl := Except.ok.inj h1
        exact symmetric_odd _ _ _ _ g hg
  rw [ut_spec] at h2 ⊢
  have e : WMean p.Wm (mapRows (fun v => quadratic A B c v + g (v - meanVec X μ)) s) =
      WMean p.Wm (mapRows (quadratic A B c) s) + WMean p.Wm (mapRows (fun v => g (v - meanVec X μ)) s) := by
    simp only [WMean, mapRows, smul_add, Finset.sum_add_distrib]
  simp only [e, hodd, add_zero]
  have h2' : WMean p.Wm (mapRows (quadratic A B c) s) = meanVec (fun ω => quadratic A B c (X ω)) μ := h2
  rw [h2']
  funext a
  have h3 : ∫ ω, g (X ω - meanVec X μ) a ∂μ = 0 :=
    odd_mean_zero (D := fun ω => X ω - meanVec X μ) (hXm.sub_const _) hsym g hgm hg a
  change ∫ ω, quadratic A B c (X ω) a ∂μ = ∫ ω, (quadratic A B c (X ω) a + g (X ω - meanVec X μ) a) ∂μ
  rw [integral_add (quadratic_integrable hX A B c a) (hgi a), h3, add_zero]

end

/-- The hypotheses are met, by one normal variable and the cube of its deviation. -/
example (x : ℝ) (P : ℝ≥0) (hP : 0 < P) : SqInt (fun t : ℝ => vc t) (gaussianReal x P) ∧
    meanVec (fun t : ℝ => vc t) (gaussianReal x P) = vc x ∧
    (covMat (fun t : ℝ => vc t) (fun t : ℝ => vc t) (gaussianReal x P)) = sc P ∧ (sc P).PosDef ∧
    ((gaussianReal x P).map fun t => vc t - vc x) = (gaussianReal x P).map fun t => -(vc t - vc x) := by
  refine ⟨fun i => memLp_id_gaussianReal 2, ?_, ?_, sc_posDef _ hP, ?_⟩
  · funext i; exact integral_id_gaussianReal
  · ext i j
    simp only [covMat, Matrix.of_apply, vc, sc]
    rw [covariance_self (by fun_prop)]
    exact variance_fun_id_gaussianReal
  · have hm : Measurable fun t : ℝ => vc t := measurable_pi_lambda _ fun _ => measurable_id
    have e1 : (fun t => vc t - vc x) = (fun t : ℝ => vc t) ∘ fun t => t - x := rfl
    have e2 : (fun t => -(vc t - vc x)) = (fun t : ℝ => vc t) ∘ fun t => x - t := by
      funext t i; simp [vc]
    rw [e1, e2, ← Measure.map_map hm (by fun_prop), ← Measure.map_map hm (by fun_prop),
      gaussianReal_map_sub_const, gaussianReal_map_const_sub, sub_self]

/-! ## The variance of a quadratic function of one normal variable -/

theorem ut_variance1 (w0 w c' : ℝ) (x u P a b d : ℝ) (hu : u * u = c' * P) (hw : 2 * w * c' = 1)
    (w0m : ℝ) (hw0 : w0m + 2 * w = 1) :
    (unscentedTransform (mapRows (fun v => vc (a * (v 0) ^ 2 + b * v 0 + d))
        (symmetricSet (fun a b => a - b) (vc x) (sc u)))
      (fun i : Fin (2 * 1 + 1) => if (i : ℕ) = 0 then w0m else w)
      (fun i : Fin (2 * 1 + 1) => if (i : ℕ) = 0 then w0 else w) none none none).2 0 0 =
      (2 * a * x + b) ^ 2 * P + a ^ 2 * P ^ 2 * (w0 + 2 * w * (c' - 1) ^ 2) := by
  rw [ut_spec]
  have hm : WMean (fun i : Fin (2 * 1 + 1) => if (i : ℕ) = 0 then w0m else w)
      (mapRows (fun v => vc (a * (v 0) ^ 2 + b * v 0 + d)) (symmetricSet (fun a b => a - b) (vc x) (sc u))) =
        vc (a * (x ^ 2 + P) + b * x + d) := by
    funext i
    unfold WMean mapRows
    simp only [symmetricSet_row]
    rw [sum_sym (fun i => (if i = 0 then w0m else w) • vc (a * (symRow (vc x) (sc u) i 0) ^ 2 + b * symRow (vc x) (sc u) i 0 + d))]
    simp only [symRow_zero, symRow_up, symRow_down]
    simp [vc, sc]
    have : w0m = 1 - 2 * w := by linarith
    subst this
    linear_combination (2 * w * a) * hu + a * P * hw
  simp only [hm, Option.getD_none, add_zero]
  unfold WCov mapRows
  simp only [symmetricSet_row]
  rw [sum_sym (fun i => (if i = 0 then w0 else w) * ((vc (a * (symRow (vc x) (sc u) i 0) ^ 2 + b * symRow (vc x) (sc u) i 0 + d) 0 -
    vc (a * (x ^ 2 + P) + b * x + d) 0) * (vc (a * (symRow (vc x) (sc u) i 0) ^ 2 + b * symRow (vc x) (sc u) i 0 + d) 0 -
    vc (a * (x ^ 2 + P) + b * x + d) 0)))]
  simp only [symRow_zero, symRow_up, symRow_down]
  simp only [vc, sc, Pi.add_apply, Pi.sub_apply, Finset.univ_unique, Finset.sum_singleton, Nat.add_eq_zero_iff, one_ne_zero, and_false, if_true, if_false]
  have hu2 : u ^ 2 = c' * P := by rw [sq, hu]
  have e1 : (a * (x + u) ^ 2 + b * (x + u) + d - (a * (x ^ 2 + P) + b * x + d)) = (2 * a * x + b) * u + a * (c' - 1) * P := by
    linear_combination a * hu2
  have e2 : (a * (x - u) ^ 2 + b * (x - u) + d - (a * (x ^ 2 + P) + b * x + d)) = -(2 * a * x + b) * u + a * (c' - 1) * P := by
    linear_combination a * hu2
  rw [e1, e2]
  linear_combination (2 * w * (2 * a * x + b) ^ 2) * hu2 + (2 * a * x + b) ^ 2 * P * hw

/-- The function of the following theorems. -/
noncomputable def parabola (a b d : ℝ) (v : Vec 1) : Vec 1 := vc (a * (v 0) ^ 2 + b * v 0 + d)

theorem variance_iff {P a b x c V : ℝ} (hP : 0 < P) (hV : V = (2 * a * x + b) ^ 2 * P + a ^ 2 * P ^ 2 * c) :
    V = (2 * a * x + b) ^ 2 * P + 2 * a ^ 2 * P ^ 2 ↔ a = 0 ∨ c = 2 := by
  rw [hV]
  constructor
  · intro h
    have : a ^ 2 * P ^ 2 * (c - 2) = 0 := by linarith
    rcases mul_eq_zero.1 this with h | h
    · rcases mul_eq_zero.1 h with h | h
      · exact Or.inl (pow_eq_zero_iff two_ne_zero |>.1 h)
      · exact absurd h (by positivity)
    · exact Or.inr (by linarith)
  · rintro (rfl | rfl) <;> ring

theorem sc_factor {A : ℝ} {U : Mat 1 1} (h : Uᵀ * U = sc A) : U = sc (U 0 0) ∧ U 0 0 * U 0 0 = A := by
  have hU1 : U = sc (U 0 0) := by ext i j; rw [Subsingleton.elim i 0, Subsingleton.elim j 0]; rfl
  refine ⟨hU1, ?_⟩
  rw [hU1, sc_transpose, sc_mul, sc_inj] at h
  exact h

/-- **C90 (variance, scaled points).**  For one normal variable and a quadratic function, the unscented
transform with the scaled points gives the variance up to the term `a² P² (α² κ + β)`, whose true value is
`2 a² P²`; so the variance is exact if and only if the function is linear or `α² κ + β = 2`. -/
theorem C90_variance_merwe (alpha beta kappa : ℝ) (h : 0 < alpha ^ 2 * (1 + kappa)) (sqrt : Mat 1 1 → Except Err (Mat 1 1))
    (hs : IsCholUpper sqrt) (p : SigmaPts 1) (hp : merwe 1 alpha beta kappa sqrt = .ok p) (x : ℝ) (P : ℝ≥0) (hP : 0 < P)
    (a b d : ℝ) :
    ∃ s, p.points (vc x) (sc P) = .ok s ∧
      (unscentedTransform (mapRows (parabola a b d) s) p.Wm p.Wc none none none).2 0 0 =
        (2 * a * x + b) ^ 2 * P + a ^ 2 * P ^ 2 * (alpha ^ 2 * kappa + beta) ∧
      ((unscentedTransform (mapRows (parabola a b d) s) p.Wm p.Wc none none none).2 0 0 =
        Var[fun t => a * t ^ 2 + b * t + d; gaussianReal x P] ↔ a = 0 ∨ alpha ^ 2 * kappa + beta = 2) := by
  have hP' : (0 : ℝ) < P := hP
  have e : ((1 : ℕ) : ℝ) + (alpha ^ 2 * ((1 : ℕ) + kappa) - (1 : ℕ)) = alpha ^ 2 * (1 + kappa) := by push_cast; ring
  have e' : (alpha ^ 2 * ((1 : ℕ) + kappa) - (1 : ℕ)) + ((1 : ℕ) : ℝ) = alpha ^ 2 * (1 + kappa) := by push_cast; ring
  obtain ⟨U, hU, hUU⟩ := hs ((alpha ^ 2 * (1 + kappa)) • sc P) ((sc_posDef P hP').smul h)
  rw [sc_smul] at hUU
  obtain ⟨hU1, hu⟩ := sc_factor hUU
  unfold merwe at hp
  simp only [e, e', h.ne', if_false] at hp
  obtain rfl := Except.ok.inj hp
  refine ⟨symmetricSet (fun a b => a - b) (vc x) U, by simp only [hU], ?_⟩
  rw [hU1, (gauss_quadratic x P a b d).2]
  have key := ut_variance1 ((alpha ^ 2 * ((1 : ℕ) + kappa) - (1 : ℕ)) / (alpha ^ 2 * (1 + kappa)) + (1 - alpha ^ 2 + beta))
    (0.5 / (alpha ^ 2 * (1 + kappa))) (alpha ^ 2 * (1 + kappa)) x (U 0 0) P a b d hu
    (by
      have h0 := h.ne'
      generalize alpha ^ 2 * (1 + kappa) = c at h0 ⊢
      field_simp; norm_num)
    ((alpha ^ 2 * ((1 : ℕ) + kappa) - (1 : ℕ)) / (alpha ^ 2 * (1 + kappa)))
    (by
      have h0 := h.ne'
      push_cast
      generalize alpha ^ 2 * (1 + kappa) = c at h0 ⊢
      field_simp; ring)
  have hco : (alpha ^ 2 * ((1 : ℕ) + kappa) - (1 : ℕ)) / (alpha ^ 2 * (1 + kappa)) + (1 - alpha ^ 2 + beta) +
      2 * (0.5 / (alpha ^ 2 * (1 + kappa))) * (alpha ^ 2 * (1 + kappa) - 1) ^ 2 = alpha ^ 2 * kappa + beta := by
    have h0 := h.ne'
    have h1 : alpha ^ 2 * kappa = alpha ^ 2 * (1 + kappa) - alpha ^ 2 := by ring
    rw [h1]
    push_cast
    generalize alpha ^ 2 * (1 + kappa) = c at h0 ⊢
    field_simp
    ring
  rw [hco] at key
  exact ⟨key, variance_iff hP' key⟩

/-- **C90 (variance, Julier points).**  The same with `κ` in place of `α² κ + β`: exact if and only if the
function is linear or `κ = 2`, which is the documented choice `κ = 3 - n`. -/
theorem C90_variance_julier (kappa : ℝ) (h : 0 < 1 + kappa) (sqrt : Mat 1 1 → Except Err (Mat 1 1))
    (hs : IsCholUpper sqrt) (p : SigmaPts 1) (hp : julier 1 kappa sqrt = .ok p) (x : ℝ) (P : ℝ≥0) (hP : 0 < P)
    (a b d : ℝ) :
    ∃ s, p.points (vc x) (sc P) = .ok s ∧
      (unscentedTransform (mapRows (parabola a b d) s) p.Wm p.Wc none none none).2 0 0 =
        (2 * a * x + b) ^ 2 * P + a ^ 2 * P ^ 2 * kappa ∧
      ((unscentedTransform (mapRows (parabola a b d) s) p.Wm p.Wc none none none).2 0 0 =
        Var[fun t => a * t ^ 2 + b * t + d; gaussianReal x P] ↔ a = 0 ∨ kappa = 2) := by
  have hP' : (0 : ℝ) < P := hP
  have e : ((1 : ℕ) : ℝ) + kappa = 1 + kappa := by push_cast; ring
  obtain ⟨U, hU, hUU⟩ := hs ((1 + kappa) • sc P) ((sc_posDef P hP').smul h)
  rw [sc_smul] at hUU
  obtain ⟨hU1, hu⟩ := sc_factor hUU
  unfold julier at hp
  simp only [e, h.ne', if_false] at hp
  obtain rfl := Except.ok.inj hp
  refine ⟨symmetricSet (fun a b => a - b) (vc x) U, by simp only [hU], ?_⟩
  rw [hU1, (gauss_quadratic x P a b d).2]
  have key := ut_variance1 (kappa / (1 + kappa)) (0.5 / (1 + kappa)) (1 + kappa) x (U 0 0) P a b d hu
    (by field_simp; norm_num) (kappa / (1 + kappa)) (by field_simp; ring)
  have hco : kappa / (1 + kappa) + 2 * (0.5 / (1 + kappa)) * ((1 + kappa) - 1) ^ 2 = kappa := by
    field_simp; ring
  rw [hco] at key
  exact ⟨key, variance_iff hP' key⟩

/-- With `β = 2` and `κ = 0` the variance is exact for every spread `α`; with the documented `κ = 3 - n` it is
not, whatever `α`. -/
example (alpha : ℝ) (h : alpha ≠ 0) : (0 < alpha ^ 2 * (1 + (0 : ℝ)) ∧ alpha ^ 2 * 0 + 2 = (2 : ℝ)) ∧
    0 < alpha ^ 2 * (1 + (2 : ℝ)) ∧ alpha ^ 2 * 2 + 2 ≠ (2 : ℝ) := by
  have : 0 < alpha ^ 2 := by positivity
  refine ⟨⟨by linarith, by ring⟩, by linarith, fun h => ?_⟩
  linarith

end Filterpy
