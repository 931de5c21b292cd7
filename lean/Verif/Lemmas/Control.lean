import Verif.Model.FadingKF

/-! # Control inputs: `dot(B, u)` with the scalar default `u = 0` -/

namespace Filterpy

open Matrix

variable {n m l : ℕ}

/-- `predict(u)` / `predict()` with the scalar default `u = 0`. -/
def uZero : Option (Vec l) → UArg l
  | none => .scalar 0
  | some u => .vec u

/-- `predict(u)` / `predict()` with the default `u = None`. -/
def uNone : Option (Vec l) → UArg l
  | none => .none
  | some u => .vec u

/-- Control arguments for which numpy keeps the state a vector: `predict()` with no `B` or one
control input, `predict(u)` with a matrix `B` or a broadcastable `u`. -/
def CtrlShaped (B : Option (Mat n l)) : Option (Vec l) → Prop
  | none => B = none ∨ l = 1
  | some _ => B ≠ none ∨ l = n ∨ l = 1

theorem control_agree {B : Option (Mat n l)} {u : Option (Vec l)} (h : CtrlShaped B u) :
    ∃ bu, FKF.control B (uZero u) = .ok bu ∧
      ((KF.control B (uNone u) = .ok none ∧ bu = 0) ∨ KF.control B (uNone u) = .ok (some bu)) := by
  cases u with
  | none =>
    cases B with
    | none => exact ⟨0, rfl, Or.inl ⟨rfl, rfl⟩⟩
    | some B =>
      have hl : l = 1 := by simpa [CtrlShaped] using h
      refine ⟨0, ?_, Or.inl ⟨rfl, rfl⟩⟩
      simp only [FKF.control, uZero, dif_pos hl, zero_mul]; rfl
  | some u =>
    cases B with
    | none =>
      have hl : l = n ∨ l = 1 := by simpa [CtrlShaped] using h
      exact ⟨0, by simp only [FKF.control, uZero, if_pos hl], Or.inl ⟨rfl, rfl⟩⟩
    | some B => exact ⟨B *ᵥ u, rfl, Or.inr rfl⟩

/-- `KalmanFilter.predict` in terms of the added control vector. -/
theorem kf_predict_control {b : KF n m l} {v : UArg l} {bu : Vec n}
    (h : (KF.control b.B v = .ok none ∧ bu = 0) ∨ KF.control b.B v = .ok (some bu)) :
    b.predict v = .ok { b with
      x := b.F *ᵥ b.x + bu, P := b.alphaSq • (b.F * b.P * b.Fᵀ) + b.Q
      xPrior := b.F *ᵥ b.x + bu, PPrior := b.alphaSq • (b.F * b.P * b.Fᵀ) + b.Q } := by
  rcases h with ⟨h, rfl⟩ | h
  · simp only [KF.predict, Option.none_or, h, Option.getD_none, MatArg.resolve, add_zero]
  · simp only [KF.predict, Option.none_or, h, Option.getD_none, MatArg.resolve]

end Filterpy
