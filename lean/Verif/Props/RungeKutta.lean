import Verif.Model.Discretization
import Mathlib.Analysis.SpecialFunctions.Integrals.Basic
import Mathlib.Tactic.Module
import Mathlib.Tactic.Linarith
import Mathlib.Tactic.NormNum
import Mathlib.Tactic.Ring

/-!
# `runge_kutta4`: C55
-/

namespace Filterpy

variable {E : Type*} [AddCommGroup E] [Module ℝ E]

/-- **C55.** A zero step changes nothing. -/
theorem C55_zero_step (y : E) (x : ℝ) (f : E → ℝ → E) : rungeKutta4 y x 0 f = y := by
  simp [rungeKutta4]

/-- **C55.** For `y' = g(x)` with `g` a cubic the step is exact: it adds the integral of `g`. -/
theorem C55_cubic (y x dx a b c d : ℝ) :
    rungeKutta4 y x dx (fun _ t => a + b * t + c * t ^ 2 + d * t ^ 3) =
      y + ∫ t in x..(x + dx), (a + b * t + c * t ^ 2 + d * t ^ 3) := by
  have h : ∀ k : ℕ, ∀ e : ℝ, IntervalIntegrable (fun t => e * t ^ k) MeasureTheory.volume x (x + dx) :=
    fun k e => (by fun_prop : Continuous fun t : ℝ => e * t ^ k).intervalIntegrable _ _
  have e : (fun t : ℝ => a + b * t + c * t ^ 2 + d * t ^ 3) =
      fun t => a * t ^ 0 + b * t ^ 1 + c * t ^ 2 + d * t ^ 3 := by funext t; simp
  have hint : ∫ t in x..(x + dx), (a + b * t + c * t ^ 2 + d * t ^ 3) =
      a * dx + b * ((x + dx) ^ 2 - x ^ 2) / 2 + c * ((x + dx) ^ 3 - x ^ 3) / 3 +
        d * ((x + dx) ^ 4 - x ^ 4) / 4 := by
    rw [e, intervalIntegral.integral_add (((h 0 a).add (h 1 b)).add (h 2 c)) (h 3 d),
      intervalIntegral.integral_add ((h 0 a).add (h 1 b)) (h 2 c),
      intervalIntegral.integral_add (h 0 a) (h 1 b)]
    simp only [intervalIntegral.integral_const_mul, integral_pow]
    norm_num
    ring
  rw [hint]
  simp only [rungeKutta4, smul_eq_mul]
  ring

/-- **C55.** For a linear equation `y' = A y` the step applies the degree-four Taylor polynomial of
`exp(dx A)`. -/
theorem C55_linear (A : E →ₗ[ℝ] E) (y : E) (x dx : ℝ) :
    rungeKutta4 y x dx (fun v _ => A v) =
      ∑ k ∈ Finset.range 5, (dx ^ k / (Nat.factorial k : ℝ)) • (A ^ k) y := by
  simp only [Finset.sum_range_succ, Finset.sum_range_zero, rungeKutta4, map_add, map_smul,
    Nat.factorial, pow_succ, pow_zero, Module.End.mul_apply, Module.End.one_apply]
  norm_num
  module

/-- Equations `y' = A y + b(x)` with a *constant* right-hand side are also covered: the step for
`f = const` moves by `dx • const`. -/
theorem C55_constant (y c : E) (x dx : ℝ) : rungeKutta4 y x dx (fun _ _ => c) = y + dx • c := by
  simp only [rungeKutta4]
  module

example : rungeKutta4 (1 : ℝ) 0 1 (fun v _ => v) = 65 / 24 := by
  have := C55_linear (LinearMap.id : ℝ →ₗ[ℝ] ℝ) 1 0 1
  simp only [LinearMap.id_apply] at this
  rw [this]
  simp [Finset.sum_range_succ, Nat.factorial, LinearMap.id_apply, ← Module.End.one_eq_id]
  norm_num

end Filterpy
