import Verif.Lemmas.GaussInt
import Verif.Lemmas.Gauss
import Verif.Lemmas.QR
import Verif.Spec.GaussWorld

/-!
# The normal law on `Vec n`, also with a singular covariance
-/

namespace Filterpy

open MeasureTheory ProbabilityTheory Matrix WithLp

open Spec Complex

variable {n m k : ℕ}

instance (x : Vec n) (P : Mat n n) : IsProbabilityMeasure (normal x P) :=
  Measure.isProbabilityMeasure_map (MeasurableEquiv.measurable _).aemeasurable

/-- Measures are determined by the means of `exp (i x·t)`. -/
theorem vec_ext {μ ν : Measure (Vec n)} [IsFiniteMeasure μ] [IsFiniteMeasure ν]
    (h : ∀ t : Vec n, ∫ x, cexp ((x ⬝ᵥ t : ℝ) * I) ∂μ = ∫ x, cexp ((x ⬝ᵥ t : ℝ) * I) ∂ν) : μ = ν := by
  apply (MeasurableEquiv.toLp 2 (Fin n → ℝ)).map_measurableEquiv_injective
  have h1 : IsFiniteMeasure (μ.map (MeasurableEquiv.toLp 2 (Fin n → ℝ))) := inferInstance
  have h2 : IsFiniteMeasure (ν.map (MeasurableEquiv.toLp 2 (Fin n → ℝ))) := inferInstance
  apply Measure.ext_of_charFun
  funext t
  simp only [charFun_apply]
  rw [integral_map_equiv, integral_map_equiv]
  have e : ∀ x : Vec n, inner ℝ (MeasurableEquiv.toLp 2 (Fin n → ℝ) x) t = x ⬝ᵥ (ofLp t) := fun x => by
    simp [PiLp.inner_apply, dotProduct, mul_comm]
  simp only [e]
  exact h _

theorem normal_char (x : Vec n) {P : Mat n n} (hP : P.PosSemidef) (t : Vec n) :
    ∫ v, cexp ((v ⬝ᵥ t : ℝ) * I) ∂(normal x P) = cexp ((x ⬝ᵥ t : ℝ) * I - (t ⬝ᵥ (P *ᵥ t) : ℝ) / 2) := by
  have h := charFun_multivariateGaussian (μ := toLp 2 x) hP (toLp 2 t)
  rw [charFun_apply] at h
  rw [normal, integral_map_equiv]
  have e : ∀ v : EuclideanSpace ℝ (Fin n), ((MeasurableEquiv.toLp 2 (Fin n → ℝ)).symm v) ⬝ᵥ t = inner ℝ v (toLp 2 t) := fun v => by
    simp [PiLp.inner_apply, dotProduct, mul_comm]
  simp only [e]
  rw [h]
  simp [PiLp.inner_apply, dotProduct]

theorem affine_measurable (A : Mat k n) (b : Vec k) : Measurable fun v : Vec n => A *ᵥ v + b :=
  (Continuous.add (Continuous.matrix_mulVec continuous_const continuous_id) continuous_const).measurable

/-- Affine images. -/
theorem normal_affine (x : Vec n) {P : Mat n n} (hP : P.PosSemidef) (A : Mat k n) (b : Vec k) :
    (normal x P).map (fun v => A *ᵥ v + b) = normal (A *ᵥ x + b) (A * P * Aᵀ) := by
  have := Measure.isProbabilityMeasure_map (μ := normal x P) (affine_measurable A b).aemeasurable
  apply vec_ext
  intro t
  rw [normal_char _ (PSD.congr hP A), integral_map (affine_measurable A b).aemeasurable (by fun_prop)]
  have e : ∀ v : Vec n, cexp (((A *ᵥ v + b) ⬝ᵥ t : ℝ) * I) = cexp ((b ⬝ᵥ t : ℝ) * I) * cexp ((v ⬝ᵥ (Aᵀ *ᵥ t) : ℝ) * I) := fun v => by
    rw [← Complex.exp_add, ← add_mul, ← ofReal_add]
    congr 3
    rw [add_dotProduct, mulVec_transpose, dotProduct_comm v, ← dotProduct_mulVec, dotProduct_comm t]
    ring
  simp only [e]
  rw [integral_const_mul, normal_char _ hP, ← Complex.exp_add]
  congr 1
  have e1 : (A *ᵥ x + b) ⬝ᵥ t = b ⬝ᵥ t + x ⬝ᵥ (Aᵀ *ᵥ t) := by
    rw [add_dotProduct, mulVec_transpose, dotProduct_comm x, ← dotProduct_mulVec, dotProduct_comm t]
    ring
  have e2 : t ⬝ᵥ ((A * P * Aᵀ) *ᵥ t) = (Aᵀ *ᵥ t) ⬝ᵥ (P *ᵥ (Aᵀ *ᵥ t)) := by
    rw [← mulVec_mulVec, ← mulVec_mulVec, mulVec_transpose, dotProduct_mulVec]
  rw [e1, e2]
  push_cast
  ring

/-- Sums of independent normal variables. -/
theorem normal_conv (x y : Vec n) {P Q : Mat n n} (hP : P.PosSemidef) (hQ : Q.PosSemidef) :
    (normal x P) ∗ (normal y Q) = normal (x + y) (P + Q) := by
  apply vec_ext
  intro t
  rw [normal_char _ (hP.add hQ)]
  have hm : Measurable fun p : Vec n × Vec n => p.1 + p.2 := measurable_add
  rw [Measure.conv, integral_map hm.aemeasurable (by fun_prop)]
  have e : ∀ p : Vec n × Vec n, cexp (((p.1 + p.2) ⬝ᵥ t : ℝ) * I) = cexp ((p.1 ⬝ᵥ t : ℝ) * I) * cexp ((p.2 ⬝ᵥ t : ℝ) * I) := fun p => by
    rw [← Complex.exp_add, ← add_mul, ← ofReal_add, add_dotProduct]
  simp only [e]
  rw [integral_prod_mul (fun a : Vec n => cexp ((a ⬝ᵥ t : ℝ) * I)) fun a : Vec n => cexp ((a ⬝ᵥ t : ℝ) * I),
    normal_char _ hP, normal_char _ hQ, ← Complex.exp_add]
  congr 1
  rw [add_dotProduct, add_mulVec, dotProduct_add]
  push_cast
  ring

/-- The standard normal law. -/
theorem normal_std : normal (0 : Vec n) 1 = Measure.pi fun _ => gaussianReal 0 1 := by
  unfold normal
  rw [toLp_zero, multivariateGaussian_zero_one, ← map_pi_eq_stdGaussian, Measure.map_map (MeasurableEquiv.measurable _) (measurable_toLp 2 _)]
  exact Measure.map_id

theorem gaussDensity_std (X : Vec n) : gaussDensity 0 1 X = ∏ i, gaussianPDFReal 0 1 (X i) := by
  unfold gaussDensity gaussianPDFReal
  rw [Finset.prod_mul_distrib, Finset.prod_const, ← Real.exp_sum, Finset.card_univ, Fintype.card_fin]
  congr 1
  · rw [det_one, mul_one, inv_pow, NNReal.coe_one, mul_one, Real.sqrt_eq_rpow, Real.sqrt_eq_rpow, ← Real.rpow_natCast,
      ← Real.rpow_natCast, ← Real.rpow_mul (by positivity), ← Real.rpow_mul (by positivity), mul_comm (n : ℝ)]
  · congr 1
    simp only [sub_zero, inv_one, one_mulVec, dotProduct, NNReal.coe_one, mul_one, Finset.mul_sum]
    exact Finset.sum_congr rfl fun i _ => by ring

theorem normal_std_density : normal (0 : Vec n) 1 = volume.withDensity fun X => ENNReal.ofReal (gaussDensity 0 1 X) := by
  rw [normal_std]
  apply Measure.pi_eq
  intro s hs
  rw [withDensity_apply _ (MeasurableSet.univ_pi hs)]
  simp only [gaussDensity_std]
  have hint : Integrable (fun X : Vec n => ∏ i, gaussianPDFReal 0 1 (X i)) := by
    exact Integrable.fintype_prod fun i => integrable_gaussianPDFReal 0 1
  rw [← ofReal_integral_eq_lintegral_ofReal hint.integrableOn (Filter.Eventually.of_forall fun X => Finset.prod_nonneg fun i _ => gaussianPDFReal_nonneg _ _ _),
    volume_pi, Measure.restrict_pi_pi, integral_fintype_prod_eq_prod (f := fun _ a => gaussianPDFReal 0 1 a),
    ENNReal.ofReal_prod_of_nonneg fun i _ => integral_nonneg fun a => gaussianPDFReal_nonneg _ _ _]
  exact Finset.prod_congr rfl fun i _ => (gaussianReal_apply_eq_integral 0 one_ne_zero (s i)).symm

theorem gaussDensity_affine {A C : Mat n n} (hA : A * Aᵀ = C) (hd : A.det ≠ 0) (mean y : Vec n) :
    |A.det| * gaussDensity mean C (A *ᵥ y + mean) = gaussDensity 0 1 y := by
  have hu : IsUnit A.det := isUnit_iff_ne_zero.2 hd
  have hdet : C.det = A.det * A.det := by rw [← hA, det_mul, det_transpose]
  have hq : (A *ᵥ y) ⬝ᵥ (C⁻¹ *ᵥ (A *ᵥ y)) = y ⬝ᵥ y := by
    have e : C⁻¹ *ᵥ (A *ᵥ y) = (A⁻¹)ᵀ *ᵥ y := by
      rw [← hA, Matrix.mul_inv_rev, mulVec_mulVec, Matrix.mul_assoc, nonsing_inv_mul _ hu, Matrix.mul_one, transpose_nonsing_inv]
    rw [e, dotProduct_mulVec, vecMul_transpose, mulVec_mulVec, nonsing_inv_mul _ hu, one_mulVec]
  unfold gaussDensity
  rw [add_sub_cancel_right, hq, sub_zero, inv_one, one_mulVec, det_one, mul_one, hdet,
    Real.sqrt_mul (by positivity), Real.sqrt_mul_self_eq_abs, mul_inv]
  have : |A.det| ≠ 0 := abs_ne_zero.2 hd
  field_simp

/-- A normal law with a regular covariance has the usual density. -/
theorem normal_density (mean : Vec n) {C : Mat n n} (hC : C.PosDef) :
    normal mean C = volume.withDensity fun X => ENNReal.ofReal (gaussDensity mean C X) := by
  obtain ⟨A, hA, hd⟩ := exists_sqrt hC
  have h1 : normal mean C = (normal (0 : Vec n) 1).map fun v => A *ᵥ v + mean := by
    rw [normal_affine _ PosSemidef.one, mulVec_zero, zero_add, Matrix.mul_one, hA]
  have hvol : (volume : Measure (Vec n)).map (fun v => A *ᵥ v + mean) = ENNReal.ofReal |A.det⁻¹| • volume := by
    have h2 := Real.map_matrix_volume_pi_eq_smul_volume_pi hd
    have h3 : (fun v : Vec n => A *ᵥ v + mean) = (fun v => v + mean) ∘ (toLin' A) := by
      funext v; simp
    have hc : Measurable (toLin' A) := (LinearMap.continuous_of_finiteDimensional _).measurable
    rw [h3, ← Measure.map_map (measurable_add_const mean) hc, h2, Measure.map_smul, map_add_right_eq_self]
  rw [h1, normal_std_density]
  have hf := affine_measurable A mean
  have hg : Measurable fun X : Vec n => ENNReal.ofReal (gaussDensity mean C X) := by
    unfold gaussDensity
    fun_prop
  ext s hs
  rw [Measure.map_apply hf hs, withDensity_apply _ (hf hs), withDensity_apply _ hs]
  have h4 : (volume : Measure (Vec n)) = ENNReal.ofReal |A.det| • volume.map fun v => A *ᵥ v + mean := by
    rw [hvol, smul_smul, ← ENNReal.ofReal_mul (abs_nonneg _), ← abs_mul, mul_inv_cancel₀ hd, abs_one, ENNReal.ofReal_one, one_smul]
  conv_rhs => rw [h4]
  rw [Measure.restrict_smul, lintegral_smul_measure, setLIntegral_map hs hg hf, smul_eq_mul,
    ← lintegral_const_mul _ (f := fun y => ENNReal.ofReal (gaussDensity mean C (A *ᵥ y + mean))) (hg.comp hf)]
  refine lintegral_congr fun y => ?_
  rw [← ENNReal.ofReal_mul (abs_nonneg _), gaussDensity_affine hA hd]

theorem gaussDensity_measurable (C : Mat n n) : Measurable fun q : Vec n × Vec n => gaussDensity q.1 C q.2 := by
  unfold gaussDensity
  apply Continuous.measurable
  refine continuous_const.mul (Real.continuous_exp.comp ?_)
  refine continuous_const.mul ?_
  have h : Continuous fun q : Vec n × Vec n => q.2 - q.1 := continuous_snd.sub continuous_fst
  exact h.dotProduct (Continuous.matrix_mulVec continuous_const h)

theorem gaussDensity_shift (a b : Vec n) (C : Mat n n) (X : Vec n) : gaussDensity (a + b) C X = gaussDensity a C (X - b) := by
  unfold gaussDensity
  rw [sub_sub, add_comm a b]

/-- Prior times likelihood. -/
theorem gauss_product {P : Mat n n} {R : Mat m m} (hP : P.PosDef) (hR : R.PosDef) (H : Mat m n) (x X : Vec n) (z : Vec m) :
    gaussDensity x P X * gaussDensity (H *ᵥ X) R z
      = gaussDensity (H *ᵥ x) (H * (P * Hᵀ) + R) z
        * gaussDensity (x + (P * Hᵀ * (H * (P * Hᵀ) + R)⁻¹) *ᵥ (z - H *ᵥ x)) ((1 - P * Hᵀ * (H * (P * Hᵀ) + R)⁻¹ * H) * P) X := by
  have hSpd : (H * (P * Hᵀ) + R).PosDef := S_pd hP.posSemidef hR
  have hP'pd := post_pd (H := H) hP hR
  have hdet := det_balance (H := H) hP hR
  have hexp := complete_square (H := H) hP hR (X - x) (z - H *ᵥ x)
  have e1 : z - H *ᵥ x - H *ᵥ (X - x) = z - H *ᵥ X := by
    rw [mulVec_sub]; abel
  rw [e1, sub_sub] at hexp
  have hsq : ∀ {k j : ℕ} {A : Mat k k} {B : Mat j j}, A.PosDef → B.PosDef →
      (Real.sqrt ((2 * Real.pi) ^ k * A.det))⁻¹ * (Real.sqrt ((2 * Real.pi) ^ j * B.det))⁻¹
      = (Real.sqrt ((2 * Real.pi) ^ (k + j) * (A.det * B.det)))⁻¹ := by
    intro k j A B hA hB
    have := hA.det_pos
    have := hB.det_pos
    rw [← mul_inv, ← Real.sqrt_mul (by positivity)]
    congr 2; ring
  unfold gaussDensity
  have comm : ∀ a b c d : ℝ, a * b * (c * d) = (a * c) * (b * d) := fun _ _ _ _ => by ring
  conv_lhs => rw [comm]
  conv_rhs => rw [mul_comm, comm]
  rw [hsq hP hR, hsq hP'pd hSpd, hdet, ← Real.exp_add, ← Real.exp_add]
  congr 2
  linarith

/-- Bayes' rule for a normal prior, which may be singular, and a normal measurement. -/
theorem normal_bayes {P : Mat n n} {R : Mat m m} (hP : P.PosSemidef) (hR : R.PosDef) (H : Mat m n) (x : Vec n) (z : Vec m)
    {g : Vec n → ENNReal} (hg : Measurable g) :
    ∫⁻ X, ENNReal.ofReal (gaussDensity (H *ᵥ X) R z) * g X ∂(normal x P)
      = ENNReal.ofReal (gaussDensity (H *ᵥ x) (H * (P * Hᵀ) + R) z)
        * ∫⁻ X, g X ∂(normal (x + (P * Hᵀ * (H * (P * Hᵀ) + R)⁻¹) *ᵥ (z - H *ᵥ x)) ((1 - P * Hᵀ * (H * (P * Hᵀ) + R)⁻¹ * H) * P)) := by
  obtain ⟨A, hA⟩ : ∃ A : Mat n n, A * Aᵀ = P := by
    obtain ⟨L, hL, -⟩ := chol_exists hP
    exact ⟨L, hL⟩
  have hd : ∀ {k : ℕ} (B : Mat m k) (b : Vec m), Measurable fun X : Vec k => ENNReal.ofReal (gaussDensity (B *ᵥ X + b) R z) := fun B b =>
    ((gaussDensity_measurable R).comp ((affine_measurable B b).prodMk measurable_const)).ennreal_ofReal
  have hd0 : Measurable fun X : Vec n => ENNReal.ofReal (gaussDensity (H *ᵥ X) R z) := by simpa using hd H 0
  have hf := affine_measurable A x
  have hprior : normal x P = (normal (0 : Vec n) 1).map fun v => A *ᵥ v + x := by
    rw [normal_affine _ PosSemidef.one, mulVec_zero, zero_add, Matrix.mul_one, hA]
  have hS : H * A * ((1 : Mat n n) * (H * A)ᵀ) + R = H * (P * Hᵀ) + R := by
    rw [← hA, transpose_mul]; simp only [Matrix.one_mul, Matrix.mul_assoc]
  have hpost : normal (x + (P * Hᵀ * (H * (P * Hᵀ) + R)⁻¹) *ᵥ (z - H *ᵥ x)) ((1 - P * Hᵀ * (H * (P * Hᵀ) + R)⁻¹ * H) * P)
      = (normal ((0 : Vec n) + ((1 : Mat n n) * (H * A)ᵀ * (H * A * ((1 : Mat n n) * (H * A)ᵀ) + R)⁻¹) *ᵥ (z - H *ᵥ x - (H * A) *ᵥ (0 : Vec n)))
          (((1 : Mat n n) - (1 : Mat n n) * (H * A)ᵀ * (H * A * ((1 : Mat n n) * (H * A)ᵀ) + R)⁻¹ * (H * A)) * (1 : Mat n n))).map fun v => A *ᵥ v + x := by
    rw [normal_affine _ (post_pd PosDef.one hR).posSemidef, hS]
    congr 1
    · rw [mulVec_zero, sub_zero, zero_add, mulVec_mulVec, add_comm, ← hA, transpose_mul]
      simp only [Matrix.one_mul, Matrix.mul_assoc]
    · rw [Matrix.mul_one, Matrix.one_mul, Matrix.mul_sub, Matrix.sub_mul, Matrix.sub_mul, Matrix.mul_one, Matrix.one_mul, hA, transpose_mul]
      congr 1
      rw [← hA]
      simp only [Matrix.mul_assoc]
  have hdg : Measurable fun X : Vec n => ENNReal.ofReal (gaussDensity (H *ᵥ X) R z) * g X := hd0.mul hg
  have hdf : Measurable fun v : Vec n => ENNReal.ofReal (gaussDensity (H *ᵥ (A *ᵥ v + x)) R z) * g (A *ᵥ v + x) := hdg.comp hf
  rw [hprior, lintegral_map hdg hf, hpost, lintegral_map hg hf, normal_density _ (post_pd PosDef.one hR), normal_std_density]
  have hgf : Measurable fun v : Vec n => g (A *ᵥ v + x) := hg.comp hf
  have hm : ∀ (a : Vec n) (C : Mat n n), Measurable fun X : Vec n => ENNReal.ofReal (gaussDensity a C X) := fun a C =>
    ((gaussDensity_measurable C).comp (measurable_const.prodMk measurable_id)).ennreal_ofReal
  rw [lintegral_withDensity_eq_lintegral_mul _ (hm _ _) hgf,
    lintegral_withDensity_eq_lintegral_mul _ (hm _ _) hdf, ← lintegral_const_mul' _ _ ENNReal.ofReal_ne_top]
  refine lintegral_congr fun v => ?_
  simp only [Pi.mul_apply]
  have h := gauss_product PosDef.one hR (H * A) 0 v (z - H *ᵥ x)
  rw [hS, mulVec_zero] at h
  rw [hS, mulVec_zero, mulVec_add, mulVec_mulVec, gaussDensity_shift, ← mul_assoc, ← mul_assoc,
    ← ENNReal.ofReal_mul (by unfold gaussDensity; positivity), ← ENNReal.ofReal_mul (by unfold gaussDensity; positivity), h, ← gaussDensity_shift 0, zero_add (H *ᵥ x)]

end Filterpy
