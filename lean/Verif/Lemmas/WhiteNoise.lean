import Verif.Spec.Prob
import Mathlib.Probability.Distributions.Gaussian.Real
import Mathlib.Probability.Independence.InfinitePi

/-! # White noise exists (non-vacuity of the statements that quantify over it) -/

namespace Filterpy.Spec
open MeasureTheory ProbabilityTheory

/-- Independent standard normal variables are white noise of variance one. -/
theorem whiteNoise_exists : ∃ (v : ℕ → (ℕ → ℝ) → ℝ),
    WhiteNoise v 1 (Measure.infinitePi fun _ : ℕ => gaussianReal 0 1) := by
  let μ : ℕ → Measure ℝ := fun _ => gaussianReal 0 1
  have hm : ∀ k, MemLp (fun ω : ℕ → ℝ => ω k) 2 (Measure.infinitePi μ) := fun k => by
    have h : MemLp (id : ℝ → ℝ) 2 (gaussianReal 0 1) := memLp_id_gaussianReal 2
    exact h.comp_measurePreserving (measurePreserving_eval_infinitePi μ k)
  refine ⟨fun k ω => ω k, hm, fun k => ?_, fun j k hjk => ?_⟩
  · rw [covariance_self (hm k).aemeasurable]
    have := (measurePreserving_eval_infinitePi μ k).variance_fun_comp (f := id) aemeasurable_id
    simp only [id] at this
    rw [this]
    have h := variance_id_gaussianReal (μ := 0) (v := 1)
    exact h.trans (by simp)
  · have hi : iIndepFun (fun (i : ℕ) (ω : ℕ → ℝ) => ω i) (Measure.infinitePi μ) :=
      iIndepFun_infinitePi (X := fun _ ω => ω) (by fun_prop)
    exact (hi.indepFun hjk).covariance_eq_zero (hm j) (hm k)

end Filterpy.Spec
