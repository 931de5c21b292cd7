import Verif.Lemmas.NormalLaw
import Verif.Lemmas.GaussInt
import Verif.Lemmas.Cholesky
import Mathlib.Analysis.Matrix.PosDef
import Mathlib.Analysis.Matrix.Spectrum
import Mathlib.Analysis.MeanInequalities

/-!
# Determinants of covariances

Inequalities between the determinants of ordered covariances, and the mean squared Mahalanobis distance of a normal
vector.
-/

namespace Filterpy

open Matrix MeasureTheory ProbabilityTheory Spec

variable {n : ℕ}

/-- Eigenvalues of a symmetric matrix that dominates a multiple of the identity. -/
theorem eig_ge {k : ℕ} {A : Mat k k} (hA : A.IsHermitian) {c : ℝ} (h : (A - c • 1).PosSemidef) (i : Fin k) :
    c ≤ hA.eigenvalues i := by
  have hv := hA.mulVec_eigenvectorBasis i
  set v : Vec k := ⇑(hA.eigenvectorBasis i) with hvd
  have hvv : v ⬝ᵥ v = 1 := by
    have := hA.eigenvectorBasis.orthonormal.1 i
    have h2 : ‖hA.eigenvectorBasis i‖ ^ 2 = 1 := by rw [this]; norm_num
    rw [EuclideanSpace.norm_sq_eq] at h2
    simp only [dotProduct, ← sq]
    simpa [Real.norm_eq_abs, sq_abs] using h2
  have hq := PSD.quad h v
  rw [sub_mulVec, smul_mulVec, one_mulVec, hv, dotProduct_sub] at hq
  simp only [dotProduct_smul, smul_eq_mul, hvv] at hq
  linarith

/-- Weierstrass' product inequality. -/
theorem one_add_sum_le_prod {ι : Type*} (s : Finset ι) (f : ι → ℝ) (h : ∀ i ∈ s, 0 ≤ f i) :
    1 + ∑ i ∈ s, f i ≤ ∏ i ∈ s, (1 + f i) := by
  classical
  induction s using Finset.induction_on with
  | empty => simp
  | insert a s ha ih =>
    rw [Finset.sum_insert ha, Finset.prod_insert ha]
    have h1 := ih fun i hi => h i (Finset.mem_insert_of_mem hi)
    have h2 := h a (Finset.mem_insert_self a s)
    have h3 : 0 ≤ ∑ i ∈ s, f i := Finset.sum_nonneg fun i hi => h i (Finset.mem_insert_of_mem hi)
    nlinarith

/-- `det (1 + X) ≥ 1 + tr X` for positive semidefinite `X`. -/
theorem det_one_add_ge {k : ℕ} {X : Mat k k} (hX : X.PosSemidef) : 1 + X.trace ≤ (1 + X).det := by
  have hA : (1 + X).IsHermitian := PosSemidef.isHermitian (PosSemidef.one.add hX)
  have hd : (1 + X).det = ∏ i, hA.eigenvalues i := by simpa using hA.det_eq_prod_eigenvalues
  have ht : (1 + X).trace = ∑ i, hA.eigenvalues i := by simpa using hA.trace_eq_sum_eigenvalues
  have hge : ∀ i, 1 ≤ hA.eigenvalues i := fun i => eig_ge hA (by simpa using hX) i
  have := one_add_sum_le_prod Finset.univ (fun i => hA.eigenvalues i - 1) fun i _ => by linarith [hge i]
  simp only [add_sub_cancel] at this
  rw [← hd, Finset.sum_sub_distrib, ← ht, trace_add, trace_one] at this
  simpa using this

/-- `det (A + D) = det A · det (1 + X)` with a positive semidefinite `X` that vanishes only with `D`. -/
theorem det_add_split {k : ℕ} {A D : Mat k k} (hA : A.PosDef) (hD : D.PosSemidef) :
    ∃ X : Mat k k, X.PosSemidef ∧ (A + D).det = A.det * (1 + X).det ∧ (X = 0 → D = 0) := by
  obtain ⟨C, rfl, hC⟩ := exists_sqrt hA
  have hu : IsUnit C.det := hC.isUnit
  have h1 : C * C⁻¹ = 1 := mul_nonsing_inv _ hu
  have h2 : (C⁻¹)ᵀ * Cᵀ = 1 := by rw [← transpose_mul, h1, transpose_one]
  have e : C * (C⁻¹ * D * (C⁻¹)ᵀ) * Cᵀ = D := by
    calc C * (C⁻¹ * D * (C⁻¹)ᵀ) * Cᵀ = (C * C⁻¹) * D * ((C⁻¹)ᵀ * Cᵀ) := by simp only [Matrix.mul_assoc]
      _ = D := by rw [h1, h2, Matrix.one_mul, Matrix.mul_one]
  refine ⟨C⁻¹ * D * (C⁻¹)ᵀ, PSD.congr hD _, ?_, fun h => ?_⟩
  · have : C * Cᵀ + D = C * (1 + C⁻¹ * D * (C⁻¹)ᵀ) * Cᵀ := by
      rw [Matrix.mul_add, Matrix.add_mul, e, Matrix.mul_one]
    rw [this, det_mul, det_mul, det_mul]
    ring
  · rw [← e, h]; simp

/-- Determinants grow with the covariance. -/
theorem det_add_ge {k : ℕ} {A D : Mat k k} (hA : A.PosDef) (hD : D.PosSemidef) : A.det ≤ (A + D).det := by
  obtain ⟨X, hX, e, -⟩ := det_add_split hA hD
  rw [e]
  nlinarith [det_one_add_ge hX, hX.trace_nonneg, hA.det_pos]

/-- …strictly, unless nothing is added. -/
theorem det_add_gt {k : ℕ} {A D : Mat k k} (hA : A.PosDef) (hD : D.PosSemidef) (h0 : D ≠ 0) :
    A.det < (A + D).det := by
  obtain ⟨X, hX, e, h⟩ := det_add_split hA hD
  rw [e]
  have ht : 0 < X.trace := lt_of_le_of_ne hX.trace_nonneg fun h1 => h0 (h (hX.trace_eq_zero_iff.1 h1.symm))
  nlinarith [det_one_add_ge hX, hA.det_pos]

/-- The determinant of a positive semidefinite matrix is at most the power of its mean diagonal entry. -/
theorem det_le_trace_pow {k : ℕ} (hk : 0 < k) {A : Mat k k} (hA : A.PosSemidef) : A.det ≤ (A.trace / k) ^ k := by
  have hH := hA.isHermitian
  have hd : A.det = ∏ i, hH.eigenvalues i := by simpa using hH.det_eq_prod_eigenvalues
  have ht : A.trace = ∑ i, hH.eigenvalues i := by simpa using hH.trace_eq_sum_eigenvalues
  have h0 : ∀ i, 0 ≤ hH.eigenvalues i := fun i => hA.eigenvalues_nonneg i
  have hk' : (0 : ℝ) < k := by exact_mod_cast hk
  have h := Real.geom_mean_le_arith_mean Finset.univ (fun _ => 1) hH.eigenvalues (fun _ _ => zero_le_one)
    (by simpa using hk) fun i _ => h0 i
  simp only [Real.rpow_one, Finset.sum_const, Finset.card_univ, Fintype.card_fin, nsmul_eq_mul, mul_one, one_mul,
    ← hd, ← ht] at h
  have hdet : 0 ≤ A.det := by rw [hd]; exact Finset.prod_nonneg fun i _ => h0 i
  calc A.det = (A.det ^ ((k : ℝ)⁻¹)) ^ k := by
        rw [← Real.rpow_natCast, ← Real.rpow_mul hdet, inv_mul_cancel₀ hk'.ne', Real.rpow_one]
    _ ≤ _ := pow_le_pow_left₀ (Real.rpow_nonneg hdet _) h _

/-- The squared length of a standard normal vector is `n` on average. -/
theorem std_moments : Integrable (fun y : Vec n => y ⬝ᵥ y) (normal 0 1) ∧
    ∫ y : Vec n, y ⬝ᵥ y ∂(normal 0 1) = n := by
  rw [normal_std]
  have hint : ∀ i : Fin n, Integrable (fun y : Vec n => y i * y i) (Measure.pi fun _ => gaussianReal 0 1) := by
    intro i
    have h1 : Integrable (fun t : ℝ => t * t) (gaussianReal 0 1) := by
      have := (memLp_id_gaussianReal (μ := 0) (v := 1) 2).integrable_sq
      simpa [sq] using this
    exact (measurePreserving_eval (fun _ : Fin n => gaussianReal 0 1) i).integrable_comp_of_integrable h1
  have hone : ∀ i : Fin n, ∫ y : Vec n, y i * y i ∂(Measure.pi fun _ => gaussianReal 0 1) = 1 := by
    intro i
    have h1 : ∫ t : ℝ, t * t ∂(gaussianReal 0 1) = 1 := by
      have h2 := variance_id_gaussianReal (μ := 0) (v := 1)
      rw [variance_of_integral_eq_zero aemeasurable_id (by simp)] at h2
      simpa [sq] using h2
    have h3 := integral_map (μ := Measure.pi fun _ : Fin n => gaussianReal 0 1) (φ := Function.eval i)
      (measurable_pi_apply i).aemeasurable (f := fun t : ℝ => t * t) (by fun_prop)
    rw [(measurePreserving_eval (fun _ : Fin n => gaussianReal 0 1) i).map_eq, h1] at h3
    exact h3.symm
  simp only [dotProduct]
  refine ⟨integrable_finsetSum _ fun i _ => hint i, ?_⟩
  rw [integral_finsetSum _ fun i _ => hint i]
  simp [hone]

/-- The squared Mahalanobis distance of a normal vector from its mean is `n` on average. -/
theorem normal_sq (x : Vec n) {P : Mat n n} (hP : P.PosDef) :
    Integrable (fun X : Vec n => (X - x) ⬝ᵥ (P⁻¹ *ᵥ (X - x))) (normal x P) ∧
    ∫ X : Vec n, (X - x) ⬝ᵥ (P⁻¹ *ᵥ (X - x)) ∂(normal x P) = n := by
  obtain ⟨A, hA, hd⟩ := exists_sqrt hP
  have hu : IsUnit A.det := isUnit_iff_ne_zero.2 hd
  have h1 : normal x P = (normal (0 : Vec n) 1).map fun v => A *ᵥ v + x := by
    rw [normal_affine _ PosSemidef.one, mulVec_zero, zero_add, Matrix.mul_one, hA]
  have hq : ∀ y : Vec n, (A *ᵥ y + x - x) ⬝ᵥ (P⁻¹ *ᵥ (A *ᵥ y + x - x)) = y ⬝ᵥ y := by
    intro y
    rw [add_sub_cancel_right, ← hA, Matrix.mul_inv_rev, mulVec_mulVec, Matrix.mul_assoc, nonsing_inv_mul _ hu,
      Matrix.mul_one, dotProduct_mulVec, ← mulVec_transpose, mulVec_mulVec, transpose_nonsing_inv, transpose_transpose,
      nonsing_inv_mul _ hu, one_mulVec]
  have hm : AEMeasurable (fun v : Vec n => A *ᵥ v + x) (normal 0 1) := (affine_measurable A x).aemeasurable
  have hf : Continuous fun X : Vec n => (X - x) ⬝ᵥ (P⁻¹ *ᵥ (X - x)) := by
    have : Continuous fun X : Vec n => X - x := by fun_prop
    exact Continuous.dotProduct this (Continuous.matrix_mulVec continuous_const this)
  constructor
  · rw [h1, integrable_map_measure hf.aestronglyMeasurable hm]
    refine (integrable_congr (Filter.Eventually.of_forall fun y => ?_)).2 std_moments.1
    exact hq y
  · rw [h1, integral_map hm hf.aestronglyMeasurable]
    simp only [hq]
    exact std_moments.2

end Filterpy
