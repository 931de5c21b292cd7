import Verif.Spec.Prob
import Verif.Lemmas.Mat

/-! # Bilinearity of the covariance matrix (helper lemmas) -/

namespace Filterpy.Spec

open MeasureTheory ProbabilityTheory Matrix

variable {Ω : Type*} [MeasurableSpace Ω] {μ : Measure Ω} [IsProbabilityMeasure μ]
variable {n m k : ℕ} {X X' : Ω → Vec n} {Y Y' : Ω → Vec m}

omit [IsProbabilityMeasure μ] in
theorem SqInt.add (hX : SqInt X μ) (hX' : SqInt X' μ) : SqInt (fun ω => X ω + X' ω) μ :=
  fun i => (hX i).add (hX' i)

omit [IsProbabilityMeasure μ] in
theorem SqInt.sub (hX : SqInt X μ) (hX' : SqInt X' μ) : SqInt (fun ω => X ω - X' ω) μ :=
  fun i => (hX i).sub (hX' i)

omit [IsProbabilityMeasure μ] in
theorem SqInt.mulVec (hX : SqInt X μ) (A : Mat k n) : SqInt (fun ω => A *ᵥ X ω) μ := by
  intro i
  simp only [Matrix.mulVec, dotProduct]
  exact memLp_finsetSum _ fun j _ => (hX j).const_mul (A i j)

theorem SqInt.const (c : Vec n) : SqInt (fun _ : Ω => c) μ := fun _ => memLp_const _

omit [IsProbabilityMeasure μ] in
theorem SqInt.zero0 (X : Ω → Vec 0) : SqInt X μ := fun i => i.elim0

theorem SqInt.integrable (hX : SqInt X μ) (i : Fin n) : Integrable (fun ω => X ω i) μ :=
  (hX i).integrable (by norm_num)

omit [IsProbabilityMeasure μ] in
theorem covMat_transpose : covMat Y X μ = (covMat X Y μ)ᵀ := by
  ext i j; simp [covMat, covariance_comm]

theorem covMat_add_left (hX : SqInt X μ) (hX' : SqInt X' μ) (hY : SqInt Y μ) :
    covMat (fun ω => X ω + X' ω) Y μ = covMat X Y μ + covMat X' Y μ := by
  ext i j
  exact covariance_add_left (hX i) (hX' i) (hY j)

theorem covMat_sub_left (hX : SqInt X μ) (hX' : SqInt X' μ) (hY : SqInt Y μ) :
    covMat (fun ω => X ω - X' ω) Y μ = covMat X Y μ - covMat X' Y μ := by
  ext i j
  exact covariance_sub_left (hX i) (hX' i) (hY j)

theorem covMat_mulVec_left (hX : SqInt X μ) (hY : SqInt Y μ) (A : Mat k n) :
    covMat (fun ω => A *ᵥ X ω) Y μ = A * covMat X Y μ := by
  ext i j
  simp only [covMat, Matrix.of_apply, Matrix.mul_apply, Matrix.mulVec, dotProduct]
  rw [covariance_fun_sum_left (fun a => (hX a).const_mul (A i a)) (hY j)]
  exact Finset.sum_congr rfl fun a _ => covariance_const_mul_left _

theorem covMat_add_right (hX : SqInt X μ) (hY : SqInt Y μ) (hY' : SqInt Y' μ) :
    covMat X (fun ω => Y ω + Y' ω) μ = covMat X Y μ + covMat X Y' μ := by
  rw [covMat_transpose, covMat_add_left hY hY' hX, transpose_add, ← covMat_transpose,
    ← covMat_transpose]

theorem covMat_sub_right (hX : SqInt X μ) (hY : SqInt Y μ) (hY' : SqInt Y' μ) :
    covMat X (fun ω => Y ω - Y' ω) μ = covMat X Y μ - covMat X Y' μ := by
  rw [covMat_transpose, covMat_sub_left hY hY' hX, transpose_sub, ← covMat_transpose,
    ← covMat_transpose]

theorem covMat_mulVec_right (hX : SqInt X μ) (hY : SqInt Y μ) (A : Mat k m) :
    covMat X (fun ω => A *ᵥ Y ω) μ = covMat X Y μ * Aᵀ := by
  rw [covMat_transpose, covMat_mulVec_left hY hX, transpose_mul, ← covMat_transpose]

theorem meanVec_add (hX : SqInt X μ) (hX' : SqInt X' μ) :
    meanVec (fun ω => X ω + X' ω) μ = meanVec X μ + meanVec X' μ := by
  ext i; exact integral_add (hX.integrable i) (hX'.integrable i)

theorem meanVec_sub (hX : SqInt X μ) (hX' : SqInt X' μ) :
    meanVec (fun ω => X ω - X' ω) μ = meanVec X μ - meanVec X' μ := by
  ext i; exact integral_sub (hX.integrable i) (hX'.integrable i)

theorem meanVec_mulVec (hX : SqInt X μ) (A : Mat k n) :
    meanVec (fun ω => A *ᵥ X ω) μ = A *ᵥ meanVec X μ := by
  ext i
  simp only [meanVec, Matrix.mulVec, dotProduct]
  rw [integral_finsetSum _ fun a _ => (hX.integrable a).const_mul _]
  exact Finset.sum_congr rfl fun a _ => integral_const_mul _ _

theorem meanVec_const (c : Vec n) : meanVec (fun _ : Ω => c) μ = c := by
  ext i; simp [meanVec]

/-- Covariance matrices are positive semidefinite. -/
theorem covMat_psd (hX : SqInt X μ) : (covMat X X μ).PosSemidef := by
  refine PSD.of_quad (covMat_transpose).symm fun v => ?_
  let A : Mat 1 n := Matrix.of fun _ j => v j
  have h : v ⬝ᵥ (covMat X X μ *ᵥ v) = covMat (fun ω => A *ᵥ X ω) (fun ω => A *ᵥ X ω) μ 0 0 := by
    rw [covMat_mulVec_left hX (hX.mulVec A), covMat_mulVec_right hX hX]
    rw [dotProduct_mulVec]
    simp [A, Matrix.mul_apply, dotProduct, vecMul, Finset.sum_mul, Finset.mul_sum]
    rw [Finset.sum_comm]
    refine Finset.sum_congr rfl fun a _ => Finset.sum_congr rfl fun b _ => by ring
  rw [h]
  simp only [covMat, Matrix.of_apply, covariance]
  exact integral_nonneg fun ω => mul_self_nonneg _

end Filterpy.Spec
