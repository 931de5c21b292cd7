import Verif.Props.KalmanBayes
import Verif.Lemmas.Scalar1

/-!
# Previews and `log_likelihood_of` of KalmanFilter: C09, C17
-/

namespace Filterpy


open Matrix KF

variable {n m l : ℕ}

/-- **C09.** `residual_of(z)` is the residual against the prediction: between `predict` and
`update(z)` it is the `y` that `update` is about to store, and afterwards it still is. -/
theorem C09_residual_of (s s1 s2 : KF n m l) (u : UArg l) (B : Option (Mat n l)) (F : Option (Mat n n))
    (Q : MatArg n) (z : Vec m) (R : MatArg m) (h1 : s.predict u B F Q = .ok s1)
    (h2 : s1.update (some z) R = .ok s2) :
    s1.residualOf z = s2.y ∧ s2.residualOf z = s2.y := by
  obtain ⟨x, rfl⟩ := predict_ok h1
  obtain ⟨SI, -, rfl⟩ := update_ok h2
  exact ⟨rfl, rfl⟩

/-- **C09.** `measurement_of_state(x)` of the prediction is what `update(z)` compares `z` with. -/
theorem C09_measurement_of_state (s s' : KF n m l) (z : Vec m) (R : MatArg m)
    (h : s.update (some z) R = .ok s') : s.measurementOfState s.x = z - s'.y := by
  obtain ⟨SI, -, rfl⟩ := update_ok h
  show s.H *ᵥ s.x = z - (z - s.H *ᵥ s.x)
  abel

example : ∃ s1 s2, cvKF.predict (.vec 1) = .ok s1 ∧ s1.update (some ![3]) = .ok s2 ∧
    s1.residualOf ![3] = s2.y ∧ s2.residualOf ![3] = s2.y := by
  obtain ⟨s1, h1⟩ : ∃ s1, cvKF.predict (.vec 1) = .ok s1 := ⟨_, rfl⟩
  have hs : s1.inv = npInv ∧ s1.P = (1 : ℝ) • (cvKF.F * 1 * cvKF.Fᵀ) + 1 ∧ s1.R = 1 := by
    obtain ⟨x, rfl⟩ := predict_ok h1
    exact ⟨rfl, rfl, rfl⟩
  obtain ⟨s2, h2, -⟩ := update_pd s1 ![3] .none none hs.1
    (by rw [hs.2.1, one_smul]; exact PosDef.posSemidef_add (PSD.congr PosSemidef.one cvKF.F) PosDef.one)
    (by rw [MatArg.resolve, hs.2.2]; exact PosDef.one)
  obtain ⟨g1, g2⟩ := C09_residual_of _ s1 s2 _ _ _ _ ![3] .none h1 h2
  exact ⟨s1, s2, h1, h2, g1, g2⟩

/-- **C17.** `log_likelihood_of(z)` is the Gaussian log density of the difference between `z` and
the measurement of the current state, with the covariance of the last innovation; for a missing
measurement it is the smallest representable likelihood.  It changes nothing. -/
theorem C17_log_likelihood_of (s : KF n m l) (z : Vec m) :
    s.logLikelihoodOf (some z) = logpdf (z - s.measurementOfState s.x) s.S ∧
    s.logLikelihoodOf none = Real.log floatMin := ⟨rfl, rfl⟩

/-- **C17 refuted** for `log_likelihood_of`: called after `update(z)`, as its documentation asks, with
the same `z`, it does not return the `log_likelihood` of that measurement, because it compares `z`
with the already updated state. -/
theorem C17_log_likelihood_of_refuted : ∃ (s s' : KF 1 1 0) (z : Vec 1),
    s.update (some z) = .ok s' ∧ s'.logLikelihoodOf (some z) ≠ (s'.readLogLik).1 := by
  refine ⟨{ KF.fresh 1 1 0 with x := vc 0, P := sc 1, H := sc 1, R := sc 1 }, _, vc 1, by
    simp only [KF.update, KF.fresh, MatArg.resolve, Option.getD_none, sc_transpose, sc_mul, sc_add, mul_one,
      sc_npInv (1 + 1) (by norm_num)]; rfl, ?_⟩
  simp only [KF.logLikelihoodOf, KF.readLogLik, logpdfMean, logpdf, sc_mulVec, vc_sub, vc_add,
    sc_inv ((1 : ℝ) + 1) (by norm_num), vc_dot]
  norm_num

end Filterpy
