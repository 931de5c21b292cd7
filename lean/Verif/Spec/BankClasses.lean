import Verif.Model.IMM
import Verif.Model.MMAE

/-!
# What is compared between two banks, and what may be called on them
-/

namespace Filterpy.Spec

variable {n m N : ℕ}

/-- The two interacting multiple model estimators report the same: mode probabilities, mixing weights,
likelihoods, estimate, prior and posterior. -/
structure SameIMM {σ τ : Type} (s : IMM σ n N) (t : IMM τ n N) : Prop where
  mu : s.mu = t.mu
  M : s.M = t.M
  x : s.x = t.x
  P : s.P = t.P
  likelihood : s.likelihood = t.likelihood
  cbar : s.cbar = t.cbar
  omega : s.omega = t.omega
  xPrior : s.xPrior = t.xPrior
  PPrior : s.PPrior = t.PPrior
  xPost : s.xPost = t.xPost
  PPost : s.PPost = t.PPost

/-- The two multiple model banks report the same: probabilities, measurement, estimate, prior and posterior. -/
structure SameMMAE {σ τ ζ η : Type} (s : MMAE σ n N ζ η) (t : MMAE τ n N ζ η) : Prop where
  p : s.p = t.p
  H : s.H = t.H
  z : s.z = t.z
  x : s.x = t.x
  P : s.P = t.P
  xPrior : s.xPrior = t.xPrior
  PPrior : s.PPrior = t.PPrior
  xPost : s.xPost = t.xPost
  PPost : s.PPost = t.PPost

/-- A call on a bank of sigma point filters: `predict(dt)` or `predict()`, or `update` with a measurement. -/
inductive BankOp (α : Type)
  | predict (dt : Option ℝ)
  | update (a : α)

/-- At most one measurement between two predictions, and (unless `ready`) a prediction before the first. -/
def BankOp.Alternating {α : Type} : Bool → List (BankOp α) → Prop
  | _, [] => True
  | _, .predict _ :: ops => Alternating true ops
  | ready, .update _ :: ops => ready = true ∧ Alternating false ops

end Filterpy.Spec
