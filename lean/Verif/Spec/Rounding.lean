import Verif.Model.KalmanOps

/-!
# A filter computed with rounding errors
-/

namespace Filterpy.Spec

open Filterpy Matrix

variable {n m l : ℕ}

/-- What rounding may do to the result `a` of a call: the estimate and the covariance are stored with an error of
at most `τ` in every entry, the stored covariance is symmetric, and the matrices the user assigned (and the inverse
routine) are untouched. Nothing is said about any other attribute. -/
structure Rounds (τ : ℝ) (a b : KF n m l) : Prop where
  estimate : ∀ i, |b.x i - a.x i| ≤ τ
  covariance : ∀ i j, |b.P i j - a.P i j| ≤ τ
  symmetric : b.Pᵀ = b.P
  F : b.F = a.F
  Q : b.Q = a.Q
  B : b.B = a.B
  H : b.H = a.H
  R : b.R = a.R
  alphaSq : b.alphaSq = a.alphaSq
  inv : b.inv = a.inv

/-- A history of calls in which the result of the `j`-th call is replaced by `rnd j` of it. -/
noncomputable def roundedRun (expf : ℝ → ℝ) (rnd : ℕ → KF n m l → KF n m l) :
    ℕ → KF n m l → List (KFOp n m l) → Exec (KF n m l)
  | _, s, [] => .ok s
  | j, s, op :: ops => match s.step expf op with
    | .ok s' => roundedRun expf rnd (j + 1) (rnd j s') ops
    | .error e => .error e

end Filterpy.Spec
