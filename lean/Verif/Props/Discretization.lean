import Verif.Props.Kinematic
import Mathlib.Analysis.Matrix.Order
import Mathlib.Analysis.SpecialFunctions.Integrals.Basic

/-!
# Process noise matrices: C50, C51
-/

namespace Filterpy

open Matrix Kinematic Discretization

namespace Spec

/-- The gain of piecewise constant white noise: what one unit of noise (an acceleration for
`d = 2`, an increment of the highest derivative otherwise) adds to each state component over a
step `dt`. -/
noncomputable def pieceGain (d : ℕ) (dt : ℝ) (i : Fin d) : ℝ :=
  if d = 2 then dt ^ (2 - (i : ℕ)) / (Nat.factorial (2 - (i : ℕ)) : ℝ)
  else dt ^ (d - 1 - (i : ℕ)) / (Nat.factorial (d - 1 - (i : ℕ)) : ℝ)

/-- Effect on derivative `i`, after time `s`, of a unit impulse in the derivative of order `o`. -/
noncomputable def impulse (o : ℕ) (s : ℝ) (i : Fin (o + 1)) : ℝ :=
  s ^ (o - (i : ℕ)) / (Nat.factorial (o - (i : ℕ)) : ℝ)

/-- Covariance accumulated over `[0, dt]` by unit continuous white noise entering the highest
derivative: `∫₀^dt r(s) r(s)ᵀ ds`. -/
noncomputable def noiseCov (o : ℕ) (dt : ℝ) : Mat (o + 1) (o + 1) :=
  Matrix.of fun i j => ∫ s in (0 : ℝ)..dt, impulse o s i * impulse o s j

end Spec

open Spec

/-- How the two orderings of the state arrange `b` independent copies of a matrix. -/
theorem assemble_spec {d : ℕ} (Q : Mat d d) (c : ℝ) (b : ℕ) :
    (∃ M : Mat (b * d) (b * d), assemble (.ok ⟨d, Q⟩) c b true = .ok ⟨_, M⟩ ∧
      (∀ p q i j, M (finProdFinEquiv (p, i)) (finProdFinEquiv (q, j)) =
        if p = q then c * Q i j else 0) ∧ (Q.PosSemidef → 0 ≤ c → M.PosSemidef)) ∧
    (∃ M : Mat (d * b) (d * b), assemble (.ok ⟨d, Q⟩) c b false = .ok ⟨_, M⟩ ∧
      (∀ p q i j, M (finProdFinEquiv (i, p)) (finProdFinEquiv (j, q)) =
        if p = q then c * Q i j else 0) ∧ (Q.PosSemidef → 0 ≤ c → M.PosSemidef)) := by
  refine ⟨⟨_, rfl, ?_, ?_⟩, ⟨_, rfl, ?_, ?_⟩⟩
  · intro p q i j
    rw [Matrix.smul_apply, blockDiag_apply]
    split_ifs <;> simp
  · intro hQ hc
    have e : blockDiag b Q = (Matrix.kronecker (1 : Mat b b) Q).submatrix
        finProdFinEquiv.symm finProdFinEquiv.symm := by
      ext k l
      obtain ⟨⟨p, i⟩, rfl⟩ := finProdFinEquiv.surjective k
      obtain ⟨⟨q, j⟩, rfl⟩ := finProdFinEquiv.surjective l
      rw [blockDiag_apply, Matrix.submatrix_apply, Equiv.symm_apply_apply, Equiv.symm_apply_apply]
      show _ = (1 : Mat b b) p q * Q i j
      rw [Matrix.one_apply]
      split_ifs <;> simp
    rw [e]
    exact PSD.smul ((Matrix.PosSemidef.one.kronecker hQ).submatrix _) hc
  · intro p q i j
    rw [Matrix.smul_apply, orderByDerivative_apply]
    split_ifs <;> simp
  · intro hQ hc
    have e : orderByDerivative b Q = (Matrix.kronecker Q (1 : Mat b b)).submatrix
        finProdFinEquiv.symm finProdFinEquiv.symm := by
      ext k l
      obtain ⟨⟨i, p⟩, rfl⟩ := finProdFinEquiv.surjective k
      obtain ⟨⟨j, q⟩, rfl⟩ := finProdFinEquiv.surjective l
      rw [orderByDerivative_apply, Matrix.submatrix_apply, Equiv.symm_apply_apply,
        Equiv.symm_apply_apply]
      show _ = Q i j * (1 : Mat b b) p q
      rw [Matrix.one_apply]
      split_ifs <;> simp
    rw [e]
    exact PSD.smul ((hQ.kronecker Matrix.PosSemidef.one).submatrix _) hc

/-! ## C50 -/

theorem qDiscrete_spec (d : ℕ) (hd : d = 2 ∨ d = 3 ∨ d = 4) (dt : ℝ) :
    qDiscrete d dt = .ok ⟨d, vecMulVec (pieceGain d dt) (pieceGain d dt)⟩ := by
  rcases hd with rfl | rfl | rfl
  · have e : (!![0.25 * dt ^ 4, 0.5 * dt ^ 3; 0.5 * dt ^ 3, dt ^ 2] : Mat 2 2) =
        vecMulVec (pieceGain 2 dt) (pieceGain 2 dt) := by
      ext i j
      fin_cases i <;> fin_cases j <;> simp [vecMulVec_apply, pieceGain, Nat.factorial] <;> ring
    simp [qDiscrete, e]
  · have e : (!![0.25 * dt ^ 4, 0.5 * dt ^ 3, 0.5 * dt ^ 2; 0.5 * dt ^ 3, dt ^ 2, dt;
        0.5 * dt ^ 2, dt, 1] : Mat 3 3) = vecMulVec (pieceGain 3 dt) (pieceGain 3 dt) := by
      ext i j
      fin_cases i <;> fin_cases j <;> simp [vecMulVec_apply, pieceGain, Nat.factorial] <;> ring
    simp [qDiscrete, e]
  · have e : (!![dt ^ 6 / 36, dt ^ 5 / 12, dt ^ 4 / 6, dt ^ 3 / 6;
        dt ^ 5 / 12, dt ^ 4 / 4, dt ^ 3 / 2, dt ^ 2 / 2;
        dt ^ 4 / 6, dt ^ 3 / 2, dt ^ 2, dt;
        dt ^ 3 / 6, dt ^ 2 / 2, dt, 1] : Mat 4 4) =
          vecMulVec (pieceGain 4 dt) (pieceGain 4 dt) := by
      ext i j
      fin_cases i <;> fin_cases j <;> simp [vecMulVec_apply, pieceGain, Nat.factorial] <;> ring
    simp [qDiscrete, e]

theorem vecMulVec_psd {n : ℕ} (g : Vec n) : (vecMulVec g g).PosSemidef := by
  apply PSD.of_quad
  · ext i j; simp [vecMulVec_apply, mul_comm]
  · intro v
    have : v ⬝ᵥ (vecMulVec g g *ᵥ v) = (g ⬝ᵥ v) ^ 2 := by
      rw [vecMulVec_mulVec]
      simp [dotProduct_smul, dotProduct_comm v g, pow_two]
    rw [this]; positivity

/-- **C50.** For `dim ∈ {2, 3, 4}` the result is `block_size` independent copies of
`var · G Gᵀ`, arranged by coordinate or by derivative as asked, and positive semidefinite for
`var ≥ 0`. -/
theorem C50_discrete (d : ℕ) (hd : d = 2 ∨ d = 3 ∨ d = 4) (dt var : ℝ) (b : ℕ) :
    ∃ (M : Mat (b * d) (b * d)) (M' : Mat (d * b) (d * b)),
      QDiscreteWhiteNoise d dt var b true = .ok ⟨_, M⟩ ∧
      QDiscreteWhiteNoise d dt var b false = .ok ⟨_, M'⟩ ∧
      (∀ p q i j, M (finProdFinEquiv (p, i)) (finProdFinEquiv (q, j)) =
        if p = q then var * (pieceGain d dt i * pieceGain d dt j) else 0) ∧
      (∀ p q i j, M' (finProdFinEquiv (i, p)) (finProdFinEquiv (j, q)) =
        M (finProdFinEquiv (p, i)) (finProdFinEquiv (q, j))) ∧
      (0 ≤ var → M.PosSemidef ∧ M'.PosSemidef) := by
  obtain ⟨⟨M, h1, h2, h3⟩, M', h1', h2', h3'⟩ :=
    assemble_spec (vecMulVec (pieceGain d dt) (pieceGain d dt)) var b
  refine ⟨M, M', ?_, ?_, h2, ?_, fun hv => ⟨h3 (vecMulVec_psd _) hv, h3' (vecMulVec_psd _) hv⟩⟩
  · rw [QDiscreteWhiteNoise, qDiscrete_spec d hd]; exact h1
  · rw [QDiscreteWhiteNoise, qDiscrete_spec d hd]; exact h1'
  · intro p q i j; rw [h2, h2']

/-- **C50.** Every other `dim` raises `ValueError`. -/
theorem C50_dim (dim : ℤ) (h : dim ≠ 2 ∧ dim ≠ 3 ∧ dim ≠ 4) (dt var : ℝ) (b : ℕ) (ob : Bool) :
    QDiscreteWhiteNoise dim dt var b ob = .error .valueError := by
  simp [QDiscreteWhiteNoise, qDiscrete, h.1, h.2.1, h.2.2, assemble]

/-! ## C51 -/

theorem impulse_shift (o : ℕ) (a s : ℝ) :
    impulse o (s + a) = transitionNat o a *ᵥ impulse o s := by
  have key : ∀ t, impulse o t = fun i => transitionNat o t i (Fin.last o) := by
    intro t; funext i
    rw [transitionNat_apply, if_pos (by simp; omega)]; simp [impulse]
  rw [key (s + a), key s, add_comm s a, ← (C52_semigroup o a s).1]
  rfl

theorem impulse_continuous (o : ℕ) (i : Fin (o + 1)) : Continuous fun s => impulse o s i := by
  unfold impulse; fun_prop

theorem noiseCov_quad (o : ℕ) (dt : ℝ) (v : Vec (o + 1)) :
    v ⬝ᵥ (noiseCov o dt *ᵥ v) = ∫ s in (0 : ℝ)..dt, (impulse o s ⬝ᵥ v) ^ 2 := by
  have e : ∀ s, (impulse o s ⬝ᵥ v) ^ 2 =
      ∑ i, ∑ j, v i * ((impulse o s i * impulse o s j) * v j) := by
    intro s
    rw [pow_two, dotProduct, Finset.sum_mul_sum]
    apply Finset.sum_congr rfl; intro i _
    apply Finset.sum_congr rfl; intro j _
    ring
  have hc : ∀ i j, Continuous fun s => v i * ((impulse o s i * impulse o s j) * v j) := by
    intro i j
    have h1 := impulse_continuous o i
    have h2 := impulse_continuous o j
    fun_prop
  simp only [e]
  rw [intervalIntegral.integral_finset_sum]
  · simp only [dotProduct, mulVec, Finset.mul_sum]
    apply Finset.sum_congr rfl; intro i _
    rw [intervalIntegral.integral_finset_sum]
    · apply Finset.sum_congr rfl; intro j _
      rw [intervalIntegral.integral_const_mul, intervalIntegral.integral_mul_const]
      rfl
    · intro j _; exact (hc i j).intervalIntegrable _ _
  · intro i _
    exact (continuous_finset_sum _ fun j _ => hc i j).intervalIntegrable _ _

theorem noiseCov_psd (o : ℕ) {dt : ℝ} (h : 0 ≤ dt) : (noiseCov o dt).PosSemidef := by
  apply PSD.of_quad
  · ext i j
    simp only [noiseCov, Matrix.transpose_apply, Matrix.of_apply, mul_comm]
  · intro v
    rw [noiseCov_quad]
    exact intervalIntegral.integral_nonneg h fun s _ => by positivity

theorem noiseCov_add (o : ℕ) (a b : ℝ) :
    noiseCov o (a + b) =
      transitionNat o b * noiseCov o a * (transitionNat o b)ᵀ + noiseCov o b := by
  have hc : ∀ i j, Continuous fun s => impulse o s i * impulse o s j := fun i j =>
    (impulse_continuous o i).mul (impulse_continuous o j)
  ext i j
  rw [Matrix.add_apply]
  have h1 : noiseCov o (a + b) i j = noiseCov o b i j +
      ∫ s in (0 : ℝ)..a, impulse o (s + b) i * impulse o (s + b) j := by
    have h2 := intervalIntegral.integral_comp_add_right (a := 0) (b := a)
      (fun s => impulse o s i * impulse o s j) b
    simp only [zero_add] at h2
    rw [h2]
    simp only [noiseCov, Matrix.of_apply]
    rw [intervalIntegral.integral_add_adjacent_intervals ((hc i j).intervalIntegrable _ _)
      ((hc i j).intervalIntegrable _ _)]
  rw [h1, add_comm]
  congr 1
  have h3 : ∀ s, impulse o (s + b) i * impulse o (s + b) j =
      ∑ l, ∑ k, transitionNat o b i k * (impulse o s k * impulse o s l) * transitionNat o b j l := by
    intro s
    rw [impulse_shift]
    simp only [mulVec, dotProduct]
    rw [Finset.sum_mul_sum, Finset.sum_comm]
    apply Finset.sum_congr rfl; intro k _
    apply Finset.sum_congr rfl; intro l _
    ring
  have hc2 : ∀ l k, Continuous fun s =>
      transitionNat o b i k * (impulse o s k * impulse o s l) * transitionNat o b j l := by
    intro l k
    have := hc k l
    fun_prop
  simp only [h3]
  rw [intervalIntegral.integral_finset_sum]
  · rw [Matrix.mul_apply]
    apply Finset.sum_congr rfl; intro l _
    rw [intervalIntegral.integral_finset_sum]
    · rw [Matrix.mul_apply, Finset.sum_mul]
      apply Finset.sum_congr rfl; intro k _
      rw [intervalIntegral.integral_mul_const, intervalIntegral.integral_const_mul]
      rfl
    · intro k _; exact (hc2 l k).intervalIntegrable _ _
  · intro l _
    exact (continuous_finset_sum _ fun k _ => hc2 l k).intervalIntegrable _ _

theorem noiseCov_apply (o : ℕ) (dt : ℝ) (i j : Fin (o + 1)) :
    noiseCov o dt i j = dt ^ ((o - (i : ℕ)) + (o - (j : ℕ)) + 1) /
      (((o - (i : ℕ)) + (o - (j : ℕ)) + 1 : ℕ) * (Nat.factorial (o - (i : ℕ)) : ℝ) *
        (Nat.factorial (o - (j : ℕ)) : ℝ)) := by
  have e : ∀ s, impulse o s i * impulse o s j = s ^ ((o - (i : ℕ)) + (o - (j : ℕ))) *
      ((Nat.factorial (o - (i : ℕ)) : ℝ) * (Nat.factorial (o - (j : ℕ)) : ℝ))⁻¹ := by
    intro s
    rw [pow_add, impulse, impulse, div_mul_div_comm, div_eq_mul_inv]
  simp only [noiseCov, Matrix.of_apply, e]
  rw [intervalIntegral.integral_mul_const, integral_pow]
  simp only [zero_pow (Nat.succ_ne_zero _), sub_zero]
  push_cast
  rw [div_mul_eq_mul_div, div_eq_div_iff]
  · have h1 : (Nat.factorial (o - (i : ℕ)) : ℝ) ≠ 0 := by exact_mod_cast Nat.factorial_ne_zero _
    have h2 : (Nat.factorial (o - (j : ℕ)) : ℝ) ≠ 0 := by exact_mod_cast Nat.factorial_ne_zero _
    field_simp
  · positivity
  · positivity

theorem qContinuous_spec (o : ℕ) (ho : o = 1 ∨ o = 2 ∨ o = 3) (dt : ℝ) :
    qContinuous ((o : ℤ) + 1) dt = .ok ⟨o + 1, noiseCov o dt⟩ := by
  rcases ho with rfl | rfl | rfl
  · have e : (!![dt ^ 3 / 3, dt ^ 2 / 2; dt ^ 2 / 2, dt] : Mat 2 2) = noiseCov 1 dt := by
      ext i j
      rw [noiseCov_apply]
      fin_cases i <;> fin_cases j <;> norm_num [Nat.factorial]
    simp only [qContinuous, e]; rfl
  · have e : (!![dt ^ 5 / 20, dt ^ 4 / 8, dt ^ 3 / 6; dt ^ 4 / 8, dt ^ 3 / 3, dt ^ 2 / 2;
        dt ^ 3 / 6, dt ^ 2 / 2, dt] : Mat 3 3) = noiseCov 2 dt := by
      ext i j
      rw [noiseCov_apply]
      fin_cases i <;> fin_cases j <;> norm_num [Nat.factorial]
    simp only [qContinuous, e]; rfl
  · have e : (!![dt ^ 7 / 252, dt ^ 6 / 72, dt ^ 5 / 30, dt ^ 4 / 24;
        dt ^ 6 / 72, dt ^ 5 / 20, dt ^ 4 / 8, dt ^ 3 / 6;
        dt ^ 5 / 30, dt ^ 4 / 8, dt ^ 3 / 3, dt ^ 2 / 2;
        dt ^ 4 / 24, dt ^ 3 / 6, dt ^ 2 / 2, dt] : Mat 4 4) = noiseCov 3 dt := by
      ext i j
      rw [noiseCov_apply]
      fin_cases i <;> fin_cases j <;> norm_num [Nat.factorial]
    simp only [qContinuous, e]; rfl

/-- **C51.** For `dim = order + 1 ∈ {2, 3, 4}` the result is `block_size` independent copies of
`spectral_density · ∫₀^dt r(s) r(s)ᵀ ds`, arranged as asked; it is positive semidefinite for
`dt, spectral_density ≥ 0`. -/
theorem C51_continuous (o : ℕ) (ho : o = 1 ∨ o = 2 ∨ o = 3) (dt sd : ℝ) (b : ℕ) :
    ∃ (M : Mat (b * (o + 1)) (b * (o + 1))) (M' : Mat ((o + 1) * b) ((o + 1) * b)),
      QContinuousWhiteNoise (o + 1) dt sd b true = .ok ⟨_, M⟩ ∧
      QContinuousWhiteNoise (o + 1) dt sd b false = .ok ⟨_, M'⟩ ∧
      (∀ p q i j, M (finProdFinEquiv (p, i)) (finProdFinEquiv (q, j)) =
        if p = q then sd * noiseCov o dt i j else 0) ∧
      (∀ p q i j, M' (finProdFinEquiv (i, p)) (finProdFinEquiv (j, q)) =
        M (finProdFinEquiv (p, i)) (finProdFinEquiv (q, j))) ∧
      (0 ≤ sd → 0 ≤ dt → M.PosSemidef ∧ M'.PosSemidef) := by
  obtain ⟨⟨M, h1, h2, h3⟩, M', h1', h2', h3'⟩ := assemble_spec (noiseCov o dt) sd b
  refine ⟨M, M', ?_, ?_, h2, ?_, fun hv ht =>
    ⟨h3 (noiseCov_psd o ht) hv, h3' (noiseCov_psd o ht) hv⟩⟩
  · rw [QContinuousWhiteNoise, qContinuous_spec o ho]; exact h1
  · rw [QContinuousWhiteNoise, qContinuous_spec o ho]; exact h1'
  · intro p q i j; rw [h2, h2']

/-- **C51.** The covariance integrated over `a + b` is that of `a`, transported over `b` by the
kinematic transition matrix, plus that of `b`. -/
theorem C51_split (o : ℕ) (ho : o = 1 ∨ o = 2 ∨ o = 3) (a b : ℝ) :
    ∃ Qab Qa Qb : Mat (o + 1) (o + 1),
      qContinuous ((o : ℤ) + 1) (a + b) = .ok ⟨_, Qab⟩ ∧ qContinuous ((o : ℤ) + 1) a = .ok ⟨_, Qa⟩ ∧
      qContinuous ((o : ℤ) + 1) b = .ok ⟨_, Qb⟩ ∧
      Qab = transitionNat o b * Qa * (transitionNat o b)ᵀ + Qb :=
  ⟨_, _, _, qContinuous_spec o ho _, qContinuous_spec o ho _, qContinuous_spec o ho _,
    noiseCov_add o a b⟩

/-- **C51.** Every other `dim` raises `ValueError`. -/
theorem C51_dim (dim : ℤ) (h : dim ≠ 2 ∧ dim ≠ 3 ∧ dim ≠ 4) (dt sd : ℝ) (b : ℕ) (ob : Bool) :
    QContinuousWhiteNoise dim dt sd b ob = .error .valueError := by
  simp [QContinuousWhiteNoise, qContinuous, h.1, h.2.1, h.2.2, assemble]

example : noiseCov 1 2 0 0 = 8 / 3 := by
  rw [noiseCov_apply]; norm_num [Nat.factorial]

end Filterpy
