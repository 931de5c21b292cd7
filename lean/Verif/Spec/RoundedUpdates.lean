import Verif.Model.PolyFilters

/-!
# Runs in which every result is rounded (C146)
-/

namespace Filterpy.Spec

/-- The object after the measurements `z 0, …, z (k-1)` when the object left by the `j`-th update is replaced by
`rnd j` of it: each update computes with the rounded numbers its predecessors have stored. -/
def roundedUpdates {σ : Type*} (upd : σ → ℝ → Exec σ) (rnd : ℕ → σ → σ) (z : ℕ → ℝ) (s : σ) : ℕ → Exec σ
  | 0 => .ok s
  | k + 1 =>
    match roundedUpdates upd rnd z s k with
    | .error e => .error e
    | .ok t =>
      match upd t (z k) with
      | .error e => .error e
      | .ok t => .ok (rnd k t)

/-- The position and the rate have been changed by at most `τ`, and nothing else has been changed. -/
def GhRounds (τ : ℝ) (t t' : GH ℝ) : Prop :=
  ∃ x dx, t' = { t with x := x, dx := dx } ∧ |x - t.x| ≤ τ ∧ |dx - t.dx| ≤ τ

/-- Position, rate and acceleration have been changed by at most `τ`, and nothing else has been changed. -/
def GhkRounds (τ : ℝ) (t t' : GHK ℝ) : Prop :=
  ∃ x dx ddx, t' = { t with x := x, dx := dx, ddx := ddx } ∧ |x - t.x| ≤ τ ∧ |dx - t.dx| ≤ τ ∧ |ddx - t.ddx| ≤ τ

/-- Two lists of the same length agree up to `τ` in every entry. -/
def ListWithin (τ : ℝ) : List ℝ → List ℝ → Prop := List.Forall₂ fun a b => |a - b| ≤ τ

/-- The entries of the state have been changed by at most `τ`, and nothing else has been changed. -/
def FadingRounds (τ : ℝ) (t t' : FadingMemory) : Prop := ∃ x, t' = { t with x := x } ∧ ListWithin τ x t.x

/-- The entries of the state have been changed by at most `τ`, and nothing else has been changed. -/
def LsqRounds (τ : ℝ) (t t' : LSQ) : Prop := ∃ x, t' = { t with x := x } ∧ ListWithin τ x t.x

end Filterpy.Spec
