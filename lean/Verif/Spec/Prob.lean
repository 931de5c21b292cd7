import Verif.Model.Basic
import Mathlib.Probability.Moments.Covariance

/-!
# Specification vocabulary: second-order random vectors

Nothing here mentions the model of filterpy.
-/

namespace Filterpy.Spec

open MeasureTheory ProbabilityTheory

variable {Ω : Type*} [MeasurableSpace Ω]

/-- Every component of the random vector is square integrable. -/
def SqInt {n : ℕ} (X : Ω → Vec n) (μ : Measure Ω) : Prop := ∀ i, MemLp (fun ω => X ω i) 2 μ

/-- The mean vector `E[X]`. -/
noncomputable def meanVec {n : ℕ} (X : Ω → Vec n) (μ : Measure Ω) : Vec n :=
  fun i => ∫ ω, X ω i ∂μ

/-- The cross-covariance matrix `cov(X, Y)`; `covMat X X μ` is the covariance of `X`. -/
noncomputable def covMat {n m : ℕ} (X : Ω → Vec n) (Y : Ω → Vec m) (μ : Measure Ω) : Mat n m :=
  Matrix.of fun i j => cov[fun ω => X ω i, fun ω => Y ω j; μ]

/-- White measurement noise: square integrable, variance `σ2`, pairwise uncorrelated. -/
structure WhiteNoise (v : ℕ → Ω → ℝ) (σ2 : ℝ) (μ : Measure Ω) : Prop where
  memLp : ∀ k, MemLp (v k) 2 μ
  var : ∀ k, cov[v k, v k; μ] = σ2
  uncorr : ∀ j k, j ≠ k → cov[v j, v k; μ] = 0

end Filterpy.Spec
