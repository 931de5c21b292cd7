import Verif.Model.Discretization
import Verif.Lemmas.Mat
import Mathlib.Analysis.SpecialFunctions.Exponential
import Mathlib.Analysis.Calculus.MeanValue
import Mathlib.MeasureTheory.Integral.IntervalIntegral.FundThmCalculus
import Mathlib.Topology.Algebra.Module.FiniteDimension
import Mathlib.Analysis.Normed.Module.FiniteDimension

/-!
# Van Loan's discretisation: C54, and `linear_ode_discretation`: C67
-/

namespace Filterpy

open Matrix Discretization NormedSpace

variable {n l : ℕ}

namespace Spec

/-- Covariance accumulated over `[0, dt]` by `x' = F x + w` with `w` white noise of covariance
density `W`: entry `(i, j)` of `∫₀^dt exp(F s) W exp(F s)ᵀ ds`. -/
noncomputable def accCov (F W : Mat n n) (dt : ℝ) : Mat n n :=
  Matrix.of fun i j => ∫ s in (0 : ℝ)..dt, (exp (s • F) * W * (exp (s • F))ᵀ) i j

end Spec

open Spec

section

attribute [local instance] Matrix.linftyOpNormedRing Matrix.linftyOpNormedAlgebra
  Matrix.linftyOpNormedAddCommGroup Matrix.linftyOpNormedSpace

theorem hasDerivAt_of_entries {a b : Type*} [Fintype a] [Fintype b] [DecidableEq a] [DecidableEq b]
    {f : ℝ → Matrix a b ℝ} {f' : Matrix a b ℝ} {t : ℝ}
    (h : ∀ i j, HasDerivAt (fun s => f s i j) (f' i j) t) : HasDerivAt f f' t := by
  have e : ∀ M : Matrix a b ℝ, M = ∑ i, ∑ j, M i j • Matrix.single i j (1 : ℝ) := by
    intro M
    conv_lhs => rw [Matrix.matrix_eq_sum_single M]
    simp
  have e1 : f = fun s => ∑ i, ∑ j, f s i j • Matrix.single i j (1 : ℝ) := by
    funext s; exact e (f s)
  rw [e1, e f']
  apply HasDerivAt.fun_sum
  intro i _
  apply HasDerivAt.fun_sum
  intro j _
  exact (h i j).smul_const _

theorem entry_hasDerivAt {a b : Type*} [Fintype a] [Fintype b] [DecidableEq a] [DecidableEq b]
    {f : ℝ → Matrix a b ℝ} {f' : Matrix a b ℝ} {t : ℝ} (h : HasDerivAt f f' t) (i : a) (j : b) :
    HasDerivAt (fun s => f s i j) (f' i j) t := by
  let L : Matrix a b ℝ →ₗ[ℝ] ℝ := Matrix.entryLinearMap ℝ ℝ i j
  exact (LinearMap.toContinuousLinearMap L).hasFDerivAt.comp_hasDerivAt t h

theorem exp_smul_continuous {a : Type*} [Fintype a] [DecidableEq a] (F : Matrix a a ℝ) :
    Continuous fun s : ℝ => exp (s • F) := by
  have : Differentiable ℝ fun s : ℝ => exp (s • F) := fun s =>
    (hasDerivAt_exp_smul_const (𝕂 := ℝ) F s).differentiableAt
  exact this.continuous

/-- A solution of the linear matrix equation `C' = A C`, `C(0) = 1` is the exponential. -/
theorem eq_exp_of_ode {a : Type*} [Fintype a] [DecidableEq a] (A : Matrix a a ℝ)
    (C : ℝ → Matrix a a ℝ) (h0 : C 0 = 1) (hC : ∀ t, HasDerivAt C (A * C t) t) (t : ℝ) :
    exp (t • A) = C t := by
  have hd : ∀ t, HasDerivAt (fun t => exp (t • (-A)) * C t) 0 t := by
    intro t
    have h1 := (hasDerivAt_exp_smul_const (𝕂 := ℝ) (-A) t).mul (hC t)
    have e : exp (t • -A) * -A * C t + exp (t • -A) * (A * C t) = 0 := by
      rw [mul_neg, neg_mul, mul_assoc, neg_add_cancel]
    exact HasDerivAt.congr_deriv h1 e
  have hconst := is_const_of_deriv_eq_zero (f := fun t => exp (t • (-A)) * C t)
    (fun t => (hd t).differentiableAt) (fun t => (hd t).deriv) t 0
  simp only [zero_smul, exp_zero, h0, mul_one] at hconst
  have hinv : exp (t • A) * exp (t • (-A)) = 1 := by
    rw [← Matrix.exp_add_of_commute]
    · simp
    · rw [smul_neg]; exact (Commute.refl _).neg_right
  calc exp (t • A) = exp (t • A) * (exp (t • (-A)) * C t) := by rw [hconst, mul_one]
    _ = C t := by rw [← mul_assoc, hinv, one_mul]

/-- The same for `C' = C A`. -/
theorem eq_exp_of_ode' {a : Type*} [Fintype a] [DecidableEq a] (A : Matrix a a ℝ)
    (C : ℝ → Matrix a a ℝ) (h0 : C 0 = 1) (hC : ∀ t, HasDerivAt C (C t * A) t) (t : ℝ) :
    exp (t • A) = C t := by
  have hd : ∀ t, HasDerivAt (fun t => C t * exp (t • (-A))) 0 t := by
    intro t
    have h1 := (hC t).mul (hasDerivAt_exp_smul_const' (𝕂 := ℝ) (-A) t)
    have e : C t * A * exp (t • -A) + C t * (-A * exp (t • -A)) = 0 := by
      rw [neg_mul, mul_neg, mul_assoc, add_neg_cancel]
    exact HasDerivAt.congr_deriv h1 e
  have hconst := is_const_of_deriv_eq_zero (f := fun t => C t * exp (t • (-A)))
    (fun t => (hd t).differentiableAt) (fun t => (hd t).deriv) t 0
  simp only [zero_smul, exp_zero, h0, mul_one] at hconst
  have hinv : exp (t • (-A)) * exp (t • A) = 1 := by
    rw [← Matrix.exp_add_of_commute]
    · simp
    · rw [smul_neg]; exact (Commute.refl _).neg_left
  calc exp (t • A) = C t * exp (t • (-A)) * exp (t • A) := by rw [hconst, one_mul]
    _ = C t := by rw [mul_assoc, hinv, mul_one]

theorem accCov_hasDerivAt (F W : Mat n n) (t : ℝ) :
    HasDerivAt (accCov F W) (exp (t • F) * W * (exp (t • F))ᵀ) t := by
  apply hasDerivAt_of_entries
  intro i j
  have hc : Continuous fun s : ℝ => (exp (s • F) * W * (exp (s • F))ᵀ) i j := by
    have h := exp_smul_continuous F
    exact (((h.matrix_mul continuous_const).matrix_mul h.matrix_transpose).matrix_elem i j)
  exact (hc.integral_hasStrictDerivAt 0 t).hasDerivAt

/-- Exponential of a block upper triangular matrix. -/
theorem exp_blocks (F W : Mat n n) (t : ℝ) :
    exp (t • fromBlocks (-F) W 0 Fᵀ) =
      fromBlocks (exp (t • (-F))) (exp (t • (-F)) * accCov F W t) 0 (exp (t • Fᵀ)) := by
  apply eq_exp_of_ode (fromBlocks (-F) W 0 Fᵀ)
    (fun t => fromBlocks (exp (t • (-F))) (exp (t • (-F)) * accCov F W t) 0 (exp (t • Fᵀ)))
  · have h0 : accCov F W 0 = 0 := by ext i j; simp [accCov]
    simp [h0]
  · intro t
    have d1 : HasDerivAt (fun t : ℝ => exp (t • (-F))) (-F * exp (t • (-F))) t :=
      hasDerivAt_exp_smul_const' (𝕂 := ℝ) (-F) t
    have d2 : HasDerivAt (fun t : ℝ => exp (t • Fᵀ)) (Fᵀ * exp (t • Fᵀ)) t :=
      hasDerivAt_exp_smul_const' (𝕂 := ℝ) Fᵀ t
    have hinv : exp (t • (-F)) * exp (t • F) = 1 := by
      rw [← Matrix.exp_add_of_commute]
      · simp
      · rw [smul_neg]; exact (Commute.refl _).neg_left
    have d3 : HasDerivAt (fun t : ℝ => exp (t • (-F)) * accCov F W t)
        (-F * (exp (t • (-F)) * accCov F W t) + W * exp (t • Fᵀ)) t := by
      have := d1.mul (accCov_hasDerivAt F W t)
      have e : (exp (t • F))ᵀ = exp (t • Fᵀ) := by
        rw [← Matrix.exp_transpose, Matrix.transpose_smul]
      have e2 : -F * exp (t • -F) * accCov F W t +
          exp (t • -F) * (exp (t • F) * W * (exp (t • F))ᵀ) =
          -F * (exp (t • (-F)) * accCov F W t) + W * exp (t • Fᵀ) := by
        rw [e, ← mul_assoc (exp (t • (-F))), ← mul_assoc (exp (t • (-F))), hinv, one_mul, mul_assoc]
      rw [e2] at this
      exact this
    apply hasDerivAt_of_entries
    rw [fromBlocks_multiply]
    rintro (i | i) (j | j)
    · have := entry_hasDerivAt d1 i j
      simpa using this
    · have := entry_hasDerivAt d3 i j
      simpa using this
    · simpa using hasDerivAt_const t (0 : ℝ)
    · have := entry_hasDerivAt d2 i j
      simpa using this

/-- Exponential of the block matrix of `linear_ode_discretation`. -/
theorem exp_blocks' (F W : Mat n n) (t : ℝ) :
    exp (t • fromBlocks F W 0 (-Fᵀ)) =
      fromBlocks (exp (t • F)) (accCov F W t * exp (t • (-Fᵀ))) 0 (exp (t • (-Fᵀ))) := by
  apply eq_exp_of_ode' (fromBlocks F W 0 (-Fᵀ))
    (fun t => fromBlocks (exp (t • F)) (accCov F W t * exp (t • (-Fᵀ))) 0 (exp (t • (-Fᵀ))))
  · have h0 : accCov F W 0 = 0 := by ext i j; simp [accCov]
    simp [h0]
  · intro t
    have d1 : HasDerivAt (fun t : ℝ => exp (t • F)) (exp (t • F) * F) t :=
      hasDerivAt_exp_smul_const (𝕂 := ℝ) F t
    have d2 : HasDerivAt (fun t : ℝ => exp (t • (-Fᵀ))) (exp (t • (-Fᵀ)) * (-Fᵀ)) t :=
      hasDerivAt_exp_smul_const (𝕂 := ℝ) (-Fᵀ) t
    have hinv : exp (t • Fᵀ) * exp (t • (-Fᵀ)) = 1 := by
      rw [← Matrix.exp_add_of_commute]
      · simp
      · rw [smul_neg]; exact (Commute.refl _).neg_right
    have d3 : HasDerivAt (fun t : ℝ => accCov F W t * exp (t • (-Fᵀ)))
        (exp (t • F) * W + accCov F W t * exp (t • (-Fᵀ)) * (-Fᵀ)) t := by
      have := (accCov_hasDerivAt F W t).mul d2
      have e : (exp (t • F))ᵀ = exp (t • Fᵀ) := by
        rw [← Matrix.exp_transpose, Matrix.transpose_smul]
      have e2 : exp (t • F) * W * (exp (t • F))ᵀ * exp (t • (-Fᵀ)) +
          accCov F W t * (exp (t • (-Fᵀ)) * (-Fᵀ)) =
          exp (t • F) * W + accCov F W t * exp (t • (-Fᵀ)) * (-Fᵀ) := by
        rw [e, mul_assoc (exp (t • F) * W), hinv, mul_one, mul_assoc (accCov F W t)]
      exact HasDerivAt.congr_deriv this e2
    apply hasDerivAt_of_entries
    rw [fromBlocks_multiply]
    rintro (i | i) (j | j)
    · have := entry_hasDerivAt d1 i j
      simpa using this
    · have := entry_hasDerivAt d3 i j
      simpa using this
    · simpa using hasDerivAt_const t (0 : ℝ)
    · have := entry_hasDerivAt d2 i j
      simpa using this

end

/-- **C54.** `van_loan_discretization(F, G, dt)` returns the transition matrix `exp(F dt)` and the
covariance `∫₀^dt exp(F s) G Gᵀ exp(F s)ᵀ ds` of the noise accumulated over the step. -/
theorem C54_van_loan (F : Mat n n) (G : Mat n l) (dt : ℝ) :
    vanLoan F G dt = (exp (dt • F), accCov F (G * Gᵀ) dt) := by
  have e : vanLoanA F G dt = dt • fromBlocks (-F) (G * Gᵀ) 0 Fᵀ := by
    rw [vanLoanA, fromBlocks_smul, smul_neg, smul_zero]
  have e2 : (exp (dt • Fᵀ))ᵀ = exp (dt • F) := by
    rw [← Matrix.exp_transpose, Matrix.transpose_smul, Matrix.transpose_transpose]
  have hinv : exp (dt • F) * exp (dt • (-F)) = 1 := by
    rw [← Matrix.exp_add_of_commute]
    · simp
    · rw [smul_neg]; exact (Commute.refl _).neg_right
  unfold vanLoan
  simp only [e, exp_blocks, toBlocks_fromBlocks₂₂, toBlocks_fromBlocks₁₂, e2]
  rw [← Matrix.mul_assoc, hinv, Matrix.one_mul]

/-- **C54.** Discretising over `a + b` is discretising over `a` and then over `b`. -/
theorem C54_compose (F : Mat n n) (G : Mat n l) (a b : ℝ) :
    (vanLoan F G (a + b)).1 = (vanLoan F G b).1 * (vanLoan F G a).1 ∧
    (vanLoan F G (a + b)).2 =
      (vanLoan F G b).1 * (vanLoan F G a).2 * (vanLoan F G b).1ᵀ + (vanLoan F G b).2 := by
  have hexp : ∀ (M : Matrix (Fin n) (Fin n) ℝ) (a b : ℝ),
      exp ((a + b) • M) = exp (a • M) * exp (b • M) := by
    intro M a b
    rw [add_smul, Matrix.exp_add_of_commute]
    exact ((Commute.refl M).smul_left a).smul_right b
  have hexp2 : ∀ (M : Matrix (Fin n ⊕ Fin n) (Fin n ⊕ Fin n) ℝ) (a b : ℝ),
      exp ((a + b) • M) = exp (a • M) * exp (b • M) := by
    intro M a b
    rw [add_smul, Matrix.exp_add_of_commute]
    exact ((Commute.refl M).smul_left a).smul_right b
  have hinv : ∀ t : ℝ, exp (t • F) * exp (t • (-F)) = 1 := by
    intro t
    rw [← Matrix.exp_add_of_commute]
    · simp
    · rw [smul_neg]; exact (Commute.refl _).neg_right
  rw [C54_van_loan, C54_van_loan, C54_van_loan]
  simp only
  refine ⟨by rw [add_comm, hexp], ?_⟩
  have h := hexp2 (fromBlocks (-F) (G * Gᵀ) 0 Fᵀ) a b
  rw [exp_blocks, exp_blocks, exp_blocks, fromBlocks_multiply, fromBlocks_inj] at h
  have h2 := h.2.1
  have e : (exp (b • F))ᵀ = exp (b • Fᵀ) := by
    rw [← Matrix.exp_transpose, Matrix.transpose_smul]
  have h3 := congrArg (fun X => exp ((a + b) • F) * X) h2
  rw [← Matrix.mul_assoc, hinv, Matrix.one_mul] at h3
  rw [h3, e, add_comm a b, hexp F b a, Matrix.mul_add]
  rw [add_comm]
  congr 1
  · have : exp (b • F) * exp (a • F) * (exp (a • (-F)) * accCov F (G * Gᵀ) a * exp (b • Fᵀ)) =
      exp (b • F) * (exp (a • F) * exp (a • (-F))) * accCov F (G * Gᵀ) a * exp (b • Fᵀ) := by
      simp only [Matrix.mul_assoc]
    rw [this, hinv, Matrix.mul_one]
  · have : exp (b • F) * exp (a • F) * (exp (a • (-F)) * (exp (b • (-F)) * accCov F (G * Gᵀ) b)) =
      exp (b • F) * (exp (a • F) * exp (a • (-F))) * exp (b • (-F)) * accCov F (G * Gᵀ) b := by
      simp only [Matrix.mul_assoc]
    rw [this, hinv, Matrix.mul_one, hinv, Matrix.one_mul]

/-- **C67.** `linear_ode_discretation(F, L, Q, dt)` never fails and returns the transition matrix
`exp(F dt)` and the covariance `∫₀^dt exp(F s) L Q Lᵀ exp(F s)ᵀ ds`; absent `L` and `Q` count as the
identity and zero. -/
theorem C67_linear_ode (F : Mat n n) (L Q : Option (Mat n n)) (dt : ℝ) :
    linearOde F L Q dt =
      .ok (exp (dt • F), accCov F (L.getD 1 * Q.getD 0 * (L.getD 1)ᵀ) dt) := by
  set W := L.getD 1 * Q.getD 0 * (L.getD 1)ᵀ with hW
  have hinv : ∀ M : Mat n n, exp (dt • M) * exp (dt • (-M)) = 1 := by
    intro M
    rw [← Matrix.exp_add_of_commute]
    · simp
    · rw [smul_neg]; exact (Commute.refl _).neg_right
  have hT : (exp (dt • F))ᵀ = exp (dt • Fᵀ) := by
    rw [← Matrix.exp_transpose, Matrix.transpose_smul]
  -- the exponential of `[F W; 0 -Fᵀ]`
  have hB : exp (dt • fromBlocks F W 0 (-Fᵀ)) = fromBlocks (exp (dt • F))
      (accCov F W dt * exp (dt • (-Fᵀ))) 0 (exp (dt • (-Fᵀ))) :=
    exp_blocks' F W dt
  have hCD : exp (dt • fromBlocks F W 0 (-Fᵀ)) * fromRows (0 : Mat n n) (1 : Mat n n) =
      fromRows (accCov F W dt * exp (dt • (-Fᵀ))) (exp (dt • (-Fᵀ))) := by
    rw [hB, fromBlocks_mul_fromRows]
    simp
  have hdet : (exp (dt • (-Fᵀ))).det ≠ 0 := by
    have := congrArg Matrix.det (hinv Fᵀ)
    rw [Matrix.det_mul, Matrix.det_one] at this
    exact right_ne_zero_of_mul (this ▸ one_ne_zero)
  have hI : (exp (dt • (-Fᵀ)))⁻¹ = exp (dt • Fᵀ) := by
    apply Matrix.inv_eq_left_inv
    exact hinv Fᵀ
  have hlast : accCov F W dt * exp (dt • (-Fᵀ)) * exp (dt • Fᵀ) = accCov F W dt := by
    have := hinv (-Fᵀ)
    rw [neg_neg] at this
    rw [Matrix.mul_assoc, this, Matrix.mul_one]
  unfold linearOde
  simp only [← hW, hCD, toRows₁_fromRows, toRows₂_fromRows]
  rw [npInv, if_neg hdet]
  simp only [hI, hlast]

/-- The two discretisation functions agree (`W = G Gᵀ`). -/
theorem C67_agree (F G : Mat n n) (dt : ℝ) :
    linearOde F (some G) (some 1) dt = .ok (vanLoan F G dt) := by
  rw [C67_linear_ode, C54_van_loan]
  simp

/-- One dimension, `x' = u`: the transition is `1` and a unit white noise accumulates variance
`dt`. -/
example (dt : ℝ) : vanLoan (0 : Mat 1 1) (1 : Mat 1 1) dt = (1, dt • (1 : Mat 1 1)) := by
  rw [C54_van_loan]
  refine Prod.ext (by simp) ?_
  ext i j
  fin_cases i; fin_cases j
  simp [accCov]

end Filterpy
