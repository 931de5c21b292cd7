import Verif.Model.Basic
import Mathlib.Analysis.SpecialFunctions.Exp
import Mathlib.Analysis.Real.Pi.Bounds

/-! # Specification: the multivariate normal density -/

namespace Filterpy.Spec

open Matrix

/-- Density at `X` of the normal distribution with the given mean and (invertible)
covariance. -/
noncomputable def gaussDensity {n : ℕ} (mean : Vec n) (C : Mat n n) (X : Vec n) : ℝ :=
  (Real.sqrt ((2 * Real.pi) ^ n * C.det))⁻¹ *
    Real.exp (-(1/2) * ((X - mean) ⬝ᵥ (C⁻¹ *ᵥ (X - mean))))

end Filterpy.Spec
