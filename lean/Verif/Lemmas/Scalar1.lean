import Verif.Lemmas.Mat

/-! 1 × 1 matrices as scalars: a calculus for concrete one-dimensional filters, used in the
examples and the counterexamples. -/

namespace Filterpy
open Matrix

/-- The 1 × 1 matrix with entry `a`. -/
def sc (a : ℝ) : Mat 1 1 := fun _ _ => a
/-- The vector of length 1 with entry `a`. -/
def vc (a : ℝ) : Vec 1 := fun _ => a

variable (a b : ℝ)

theorem sc_mul : sc a * sc b = sc (a * b) := by
  ext i j; simp [sc, Matrix.mul_apply]
theorem sc_add : sc a + sc b = sc (a + b) := rfl
theorem sc_sub : sc a - sc b = sc (a - b) := rfl
theorem sc_neg : -sc a = sc (-a) := rfl
theorem sc_smul : a • sc b = sc (a * b) := rfl
theorem sc_transpose : (sc a)ᵀ = sc a := rfl
theorem sc_one : (1 : Mat 1 1) = sc 1 := by
  ext i j; rw [Subsingleton.elim i j]; simp [sc]
theorem sc_zero : (0 : Mat 1 1) = sc 0 := rfl
theorem sc_mulVec : sc a *ᵥ vc b = vc (a * b) := by
  ext i; simp [sc, vc, Matrix.mulVec, dotProduct]
theorem vc_add : vc a + vc b = vc (a + b) := rfl
theorem vc_sub : vc a - vc b = vc (a - b) := rfl
theorem vc_neg : -vc a = vc (-a) := rfl
theorem vc_smul : a • vc b = vc (a * b) := rfl
theorem vc_zero : (0 : Vec 1) = vc 0 := rfl
theorem vc_dot : vc a ⬝ᵥ vc b = a * b := by simp [vc, dotProduct]
theorem sc_det : (sc a).det = a := by simp [sc]
theorem sc_inj : sc a = sc b ↔ a = b := ⟨fun h => congrFun (congrFun h 0) 0, fun h => by rw [h]⟩
theorem vc_inj : vc a = vc b ↔ a = b := ⟨fun h => congrFun h 0, fun h => by rw [h]⟩
theorem sc_inv (h : a ≠ 0) : (sc a)⁻¹ = sc a⁻¹ := by
  apply inv_eq_right_inv; rw [sc_mul, mul_inv_cancel₀ h, sc_one]
theorem sc_npInv (h : a ≠ 0) : npInv (sc a) = some (sc a⁻¹) := by
  rw [npInv_of_det_ne (by rw [sc_det]; exact h), sc_inv a h]
theorem sc_npInv_zero : npInv (sc 0) = none :=
  npInv_eq_none.2 (sc_det 0)
theorem sc_eq_smul : sc a = a • (1 : Mat 1 1) := by rw [sc_one, sc_smul, mul_one]
theorem sc_posDef (h : 0 < a) : (sc a).PosDef := by
  rw [sc_eq_smul]; exact PosDef.one.smul h
theorem sc_posSemidef (h : 0 ≤ a) : (sc a).PosSemidef := by
  rw [sc_eq_smul]; exact PosSemidef.one.smul h
/-- Every 1 × 1 matrix is `sc` of its entry. -/
theorem eq_sc (A : Mat 1 1) : A = sc (A 0 0) := by
  ext i j; rw [Subsingleton.elim i 0, Subsingleton.elim j 0]; rfl
theorem eq_vc (v : Vec 1) : v = vc (v 0) := by
  ext i; rw [Subsingleton.elim i 0]; rfl

end Filterpy
