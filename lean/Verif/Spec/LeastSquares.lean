import Verif.Model.Basic
import Mathlib.Data.Nat.Factorial.Basic
import Mathlib.LinearAlgebra.Matrix.NonsingularInverse

/-!
# Specification of polynomial least squares

Samples `z 0, …, z (n-1)` are taken at intervals `dt`; time is measured from the last sample, so
sample `i` has time `(i - (n-1)) dt`.
-/

namespace Filterpy.Spec
open Finset

/-- The polynomial with value `c 0` and derivatives `c 1, c 2, …` at time 0. -/
noncomputable def poly {m : ℕ} (c : Fin (m + 1) → ℝ) (t : ℝ) : ℝ :=
  ∑ j, c j * (t ^ (j : ℕ) / (Nat.factorial j : ℝ))

/-- Time of sample `i` of `n`, relative to the last one. -/
def sampleTime (dt : ℝ) (n i : ℕ) : ℝ := ((i : ℝ) - ((n : ℝ) - 1)) * dt

/-- Sum of squared residuals. -/
noncomputable def sse {m : ℕ} (dt : ℝ) (z : ℕ → ℝ) (n : ℕ) (c : Fin (m + 1) → ℝ) : ℝ :=
  ∑ i ∈ range n, (z i - poly c (sampleTime dt n i)) ^ 2

/-- `c` is a least squares fit of degree `m` to the `n` samples. -/
def IsFit {m : ℕ} (dt : ℝ) (z : ℕ → ℝ) (n : ℕ) (c : Fin (m + 1) → ℝ) : Prop :=
  ∀ c' : Fin (m + 1) → ℝ, sse dt z n c ≤ sse dt z n c'

/-- The normal matrix of the fit. -/
noncomputable def normalMat (m : ℕ) (dt : ℝ) (n : ℕ) : Mat (m + 1) (m + 1) :=
  .of fun j k => ∑ i ∈ range n, sampleTime dt n i ^ (j : ℕ) / (Nat.factorial j : ℝ)
    * (sampleTime dt n i ^ (k : ℕ) / (Nat.factorial k : ℝ))

end Filterpy.Spec
