import Verif.Spec.Gauss
import Mathlib.MeasureTheory.Integral.Bochner.Basic
import Mathlib.MeasureTheory.Constructions.Pi
import Mathlib.MeasureTheory.Measure.Lebesgue.Basic

/-!
# Specification: the joint distribution of a linear Gaussian hidden Markov chain

States `X₀, X₁, …`; step `k` moves `X_{k-1}` to `X_k ~ N(F X_{k-1} + b, Q)` and then observes
`z ~ N(H X_k, R)` (or nothing).  `p0` is the density of the state before the first step.
-/

namespace Filterpy.Spec

open Matrix MeasureTheory

/-- One step of the chain: transition `F, b, Q` (`b` is the known control effect), observation `H, R` and the observed value. -/
structure Step (n m : ℕ) where
  F : Mat n n
  b : Vec n
  Q : Mat n n
  H : Mat m n
  R : Mat m m
  z : Option (Vec m)

variable {n m : ℕ}

/-- Density of the observation of a step given the state (1 if nothing was observed). -/
noncomputable def Step.obs (e : Step n m) (X : Vec n) : ℝ :=
  match e.z with
  | none => 1
  | some z => gaussDensity (e.H *ᵥ X) e.R z

/-- Transition density of a step. -/
noncomputable def Step.trans (e : Step n m) (X Y : Vec n) : ℝ := gaussDensity (e.F *ᵥ X + e.b) e.Q Y

/-- Density of the future states `Ys` and their observations given the present state `X`. -/
noncomputable def tailDensity : Vec n → List (Step n m) → List (Vec n) → ℝ
  | _, [], _ => 1
  | _, _ :: _, [] => 0
  | X, e :: es, Y :: Ys => e.trans X Y * e.obs Y * tailDensity Y es Ys

/-- Joint density of the states `Xs` (one per step) and all observations. -/
noncomputable def jointDensity (p0 : Vec n → ℝ) : List (Step n m) → List (Vec n) → ℝ
  | [], _ => 1
  | _ :: _, [] => 0
  | e :: es, X :: Xs => (∫ X₀, p0 X₀ * e.trans X₀ X) * e.obs X * tailDensity X es Xs

/-- Joint density of the last state and the observations of the steps so far: all earlier
states integrated out. -/
noncomputable def fwd (p0 : Vec n → ℝ) : List (Step n m) → Vec n → ℝ
  | [] => p0
  | e :: es => fwd (fun Y => (∫ X, p0 X * e.trans X Y) * e.obs Y) es

/-- Density of all observations of the coming steps given the present state: all coming states
integrated out. -/
noncomputable def bwd : List (Step n m) → Vec n → ℝ
  | [], _ => 1
  | e :: es, X => ∫ Y, e.trans X Y * e.obs Y * bwd es Y

end Filterpy.Spec
