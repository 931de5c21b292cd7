import Verif.Model.Basic

/-!
# Specification: discrete distributions and mixtures

A mixture gives weight `w i` to a component with mean `x i` and covariance `P i`.
-/

namespace Filterpy.Spec

open Matrix

/-- A probability distribution on `Fin N`. -/
def IsDist {N : ℕ} (w : Vec N) : Prop := (∀ i, 0 ≤ w i) ∧ ∑ i, w i = 1

/-- A matrix of transition probabilities: row `i` is the distribution of the next mode given mode `i`. -/
def IsStochastic {N : ℕ} (M : Mat N N) : Prop := ∀ i, IsDist (M i)

/-- The mean of a mixture. -/
def MixMean {N n : ℕ} (w : Vec N) (x : Fin N → Vec n) : Vec n := ∑ i, w i • x i

/-- The covariance of a mixture: the expected second moment of the components about the mixture's mean. -/
def MixCov {N n : ℕ} (w : Vec N) (x : Fin N → Vec n) (P : Fin N → Mat n n) : Mat n n :=
  ∑ i, w i • (P i + vecMulVec (x i - MixMean w x) (x i - MixMean w x))

/-- Bayes' rule: prior `w`, likelihoods `L`. -/
noncomputable def BayesRule {N : ℕ} (w L : Vec N) : Vec N := fun i => w i * L i / ∑ j, w j * L j

end Filterpy.Spec
