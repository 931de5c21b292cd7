import Verif.Model.Discretization
import Mathlib.Tactic.Ring

/-! # Block matrices of the discretisation functions -/

namespace Filterpy

open Discretization

theorem blockDiag_apply {d b : ℕ} (Q : Mat d d) (p q : Fin b) (i j : Fin d) :
    blockDiag b Q (finProdFinEquiv (p, i)) (finProdFinEquiv (q, j)) =
      if p = q then Q i j else 0 := by
  have h1 := finProdFinEquiv.symm_apply_apply (p, i)
  have h2 := finProdFinEquiv.symm_apply_apply (q, j)
  rw [finProdFinEquiv_symm_apply, Prod.ext_iff] at h1 h2
  simp only at h1 h2
  rw [blockDiag, Matrix.of_apply, h1.1, h1.2, h2.1, h2.2]

theorem scatter_apply {d b : ℕ} (q : ℕ → ℝ) (k r c : ℕ) (hb : 0 < b) (hc : c / b < d) :
    scatter d b q k r c = if r / b * d + c / b < k then
      (if r % b = c % b then 1 else 0) * q (r / b * d + c / b) else 0 := by
  have hd : 0 < d := Nat.lt_of_le_of_lt (Nat.zero_le _) hc
  induction k with
  | zero => simp [scatter]
  | succ k ih =>
    rw [scatter, assignBlock, ih]
    by_cases h : r / b * d + c / b = k
    · have e1 : k / d = r / b := by
        rw [← h, Nat.mul_comm, Nat.mul_add_div hd, Nat.div_eq_of_lt hc, add_zero]
      have e2 : k % d = c / b := by
        rw [← h, Nat.mul_comm, Nat.mul_add_mod, Nat.mod_eq_of_lt hc]
      rw [e1, e2]
      have r1 := Nat.div_add_mod r b
      have r2 := Nat.mod_lt r hb
      have c1 := Nat.div_add_mod c b
      have c2 := Nat.mod_lt c hb
      rw [Nat.mul_comm b] at r1 c1
      have cnd : r / b * b ≤ r ∧ r < r / b * b + b ∧ c / b * b ≤ c ∧ c < c / b * b + b := by omega
      rw [if_pos cnd, if_pos (show r / b * d + c / b < k + 1 by omega), h]
      have g1 : r - r / b * b = r % b := by omega
      have g2 : c - c / b * b = c % b := by omega
      rw [g1, g2]
    · rw [if_neg]
      · by_cases h2 : r / b * d + c / b < k
        · rw [if_pos h2, if_pos (show r / b * d + c / b < k + 1 by omega)]
        · rw [if_neg h2, if_neg (show ¬ r / b * d + c / b < k + 1 by omega)]
      · rintro ⟨a1, a2, a3, a4⟩
        apply h
        have e1 : r / b = k / d := by
          rw [Nat.div_eq_iff hb]; omega
        have e2 : c / b = k % d := by
          rw [Nat.div_eq_iff hb]; omega
        rw [e1, e2, Nat.mul_comm, Nat.div_add_mod]

theorem scatter_index {d b : ℕ} (Q : Mat d d) (i j : Fin d) (p q : Fin b) :
    scatter d b (ravel Q) (d * d) (i * b + p) (j * b + q) = if p = q then Q i j else 0 := by
  have hp := p.2; have hq := q.2; have hi := i.2; have hj := j.2
  have hb : 0 < b := by omega
  have e1 : ((i : ℕ) * b + p) / b = i := by
    rw [Nat.mul_comm, Nat.mul_add_div hb, Nat.div_eq_of_lt hp, add_zero]
  have e2 : ((j : ℕ) * b + q) / b = j := by
    rw [Nat.mul_comm, Nat.mul_add_div hb, Nat.div_eq_of_lt hq, add_zero]
  have e3 : ((i : ℕ) * b + p) % b = p := by
    rw [Nat.mul_comm, Nat.mul_add_mod, Nat.mod_eq_of_lt hp]
  have e4 : ((j : ℕ) * b + q) % b = q := by
    rw [Nat.mul_comm, Nat.mul_add_mod, Nat.mod_eq_of_lt hq]
  rw [scatter_apply _ _ _ _ hb (by rw [e2]; exact hj), e1, e2, e3, e4]
  have hlt : (i : ℕ) * d + j < d * d := by
    calc (i : ℕ) * d + j < i * d + d := by omega
      _ = (i + 1) * d := by ring
      _ ≤ d * d := Nat.mul_le_mul_right _ (by omega)
  have hr : ravel Q (i * d + j) = Q i j := by
    have e : (⟨(i : ℕ) * d + j, hlt⟩ : Fin (d * d)) = finProdFinEquiv (i, j) := by
      apply Fin.ext; simp [finProdFinEquiv]; ring
    have h1 := finProdFinEquiv.symm_apply_apply (i, j)
    rw [finProdFinEquiv_symm_apply, Prod.ext_iff] at h1
    simp only at h1
    rw [ravel, dif_pos hlt, e, h1.1, h1.2]
  rw [if_pos hlt, hr]
  by_cases h : p = q
  · rw [if_pos (by rw [h]), if_pos h, one_mul]
  · rw [if_neg (fun h' => h (Fin.ext h')), if_neg h, zero_mul]

theorem orderByDerivative_apply {d b : ℕ} (Q : Mat d d) (i j : Fin d) (p q : Fin b) :
    orderByDerivative b Q (finProdFinEquiv (i, p)) (finProdFinEquiv (j, q)) =
      if p = q then Q i j else 0 := by
  have e : ∀ (i : Fin d) (p : Fin b), ((finProdFinEquiv (i, p) : Fin (d * b)) : ℕ) = i * b + p := by
    intro i p; simp [finProdFinEquiv]; ring
  rw [orderByDerivative, Matrix.of_apply, e, e, scatter_index]

end Filterpy
