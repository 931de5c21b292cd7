import Verif.Model.Stats
import Verif.Lemmas.Mat
import Mathlib.Analysis.Matrix.PosDef

/-!
# `covariance_ellipse` and `rand_student_t`: C68, C69
-/

namespace Filterpy

open Matrix Stats

/-- Positive semidefinite square roots are unique. -/
theorem psd_sq_unique {n : ℕ} {A B : Mat n n} (hA : A.PosSemidef) (hB : B.PosDef)
    (h : A * A = B * B) : A = B := by
  set D := A - B with hD
  have hDs : Dᵀ = D := by rw [hD, transpose_sub, PSD.symm hA, PD.symm hB]
  have h0 : A * D + D * B = 0 := by
    rw [hD, Matrix.mul_sub, Matrix.sub_mul, h]; abel
  have h1 : D * A * Dᵀ + D * (D * B) = 0 := by
    rw [hDs, Matrix.mul_assoc, ← Matrix.mul_add, h0, Matrix.mul_zero]
  have h2 : (D * A * Dᵀ).trace + (D * B * Dᵀ).trace = 0 := by
    have := congrArg trace h1
    rw [trace_add, trace_zero, trace_mul_comm D (D * B)] at this
    rwa [hDs] at this ⊢
  have p1 := (PSD.congr hA D).trace_nonneg
  have p2 := (PSD.congr hB.posSemidef D).trace_nonneg
  have h3 : D * B * Dᵀ = 0 := (PSD.congr hB.posSemidef D).trace_eq_zero_iff.1 (by linarith)
  have h4 : ∀ v, Dᵀ *ᵥ v = 0 := by
    intro v
    by_contra hv
    have := PD.quad hB hv
    have e : (Dᵀ *ᵥ v) ⬝ᵥ (B *ᵥ (Dᵀ *ᵥ v)) = v ⬝ᵥ ((D * B * Dᵀ) *ᵥ v) := by
      rw [← mulVec_mulVec, ← mulVec_mulVec, dotProduct_mulVec v, ← mulVec_transpose]
    rw [e, h3, zero_mulVec, dotProduct_zero] at this
    exact lt_irrefl _ this
  have h5 : D = 0 := by
    rw [← hDs]
    ext i j
    have := congrFun (h4 (Pi.single j 1)) i
    simpa using this
  exact sub_eq_zero.1 h5

namespace Spec

/-- The contract of `scipy.linalg.svd` for a 2 × 2 matrix. -/
structure IsSvd (P U V : Mat 2 2) (s : Vec 2) : Prop where
  left : Uᵀ * U = 1
  right : Vᵀ * V = 1
  fact : P = U * diagonal s * Vᵀ
  nonneg : 0 ≤ s 1
  sorted : s 1 ≤ s 0

/-- The point at parameter `t` of the ellipse centred at the origin whose first semi-axis, of length
`w`, makes the angle `θ` with the x axis and whose second semi-axis has length `h`. -/
noncomputable def ellipsePoint (θ w h t : ℝ) : Vec 2 :=
  ![w * Real.cos t * Real.cos θ - h * Real.sin t * Real.sin θ,
    w * Real.cos t * Real.sin θ + h * Real.sin t * Real.cos θ]

end Spec

open Spec

theorem cos_sin_atan2 {x y : ℝ} (h : x ^ 2 + y ^ 2 = 1) :
    Real.cos (atan2 y x) = x ∧ Real.sin (atan2 y x) = y := by
  have hn : ‖(⟨x, y⟩ : ℂ)‖ = 1 := by
    rw [Complex.norm_def, Complex.normSq_mk, ← pow_two, ← pow_two, h, Real.sqrt_one]
  have h0 : (⟨x, y⟩ : ℂ) ≠ 0 := by
    intro e; rw [e, norm_zero] at hn; exact zero_ne_one hn
  constructor
  · rw [atan2, Complex.cos_arg h0, hn, div_one]
  · rw [atan2, Complex.sin_arg, hn, div_one]

theorem svd_posDef {P U V : Mat 2 2} {s : Vec 2} (hP : P.PosDef) (h : IsSvd P U V s) :
    P = U * diagonal s * Uᵀ ∧ 0 < s 1 := by
  have hUU : U * Uᵀ = 1 := mul_eq_one_comm.1 h.left
  have hVV : V * Vᵀ = 1 := mul_eq_one_comm.1 h.right
  have hs : ∀ i, 0 ≤ s i := by
    intro i; fin_cases i
    · exact h.nonneg.trans h.sorted
    · exact h.nonneg
  have hd : (diagonal s).PosSemidef := posSemidef_diagonal_iff.2 hs
  have e : (U * diagonal s * Uᵀ) * (U * diagonal s * Uᵀ) = P * P := by
    nth_rewrite 2 [← PD.symm hP]
    rw [h.fact, transpose_mul, transpose_mul, transpose_transpose, diagonal_transpose]
    calc U * diagonal s * Uᵀ * (U * diagonal s * Uᵀ)
        = U * diagonal s * (Uᵀ * U) * diagonal s * Uᵀ := by simp only [Matrix.mul_assoc]
      _ = U * diagonal s * (Vᵀ * V) * diagonal s * Uᵀ := by rw [h.left, h.right]
      _ = _ := by simp only [Matrix.mul_assoc]
  refine ⟨(psd_sq_unique (PSD.congr hd U) hP e).symm, ?_⟩
  rcases lt_or_eq_of_le h.nonneg with h1 | h1
  · exact h1
  · exfalso
    apply PD.det_ne hP
    rw [h.fact, det_mul, det_mul, det_diagonal, Fin.prod_univ_two, ← h1]
    ring

/-- **C68.**  For every positive definite `P` and every number of deviations `d > 0`, the ellipse
returned by `covariance_ellipse` (major radius first) is exactly the set of points at Mahalanobis
distance `d` from the centre, whichever singular value decomposition the library returns. -/
theorem C68_covariance_ellipse {P U V : Mat 2 2} {s : Vec 2} (hP : P.PosDef) (hU : IsSvd P U V s)
    (d : ℝ) (hd : 0 < d) :
    ∃ θ w h, covarianceEllipse U s d = .ok (θ, w, h) ∧ 0 < h ∧ h ≤ w ∧
      ∀ q : Vec 2, q ⬝ᵥ (P⁻¹ *ᵥ q) = d ^ 2 ↔ ∃ t, q = ellipsePoint θ w h t := by
  obtain ⟨hPU, hs1⟩ := svd_posDef hP hU
  have hs0 : 0 < s 0 := lt_of_lt_of_le hs1 hU.sorted
  have hle : d * Real.sqrt (s 1) ≤ d * Real.sqrt (s 0) :=
    mul_le_mul_of_nonneg_left (Real.sqrt_le_sqrt hU.sorted) hd.le
  set r0 := Real.sqrt (s 0) with hr0
  set r1 := Real.sqrt (s 1) with hr1
  have q0 : r0 ^ 2 = s 0 := Real.sq_sqrt hs0.le
  have q1 : r1 ^ 2 = s 1 := Real.sq_sqrt hs1.le
  have p0 : 0 < r0 := Real.sqrt_pos.2 hs0
  have p1 : 0 < r1 := Real.sqrt_pos.2 hs1
  refine ⟨atan2 (U 1 0) (U 0 0), d * r0, d * r1, by
    simp only [covarianceEllipse, ← hr0, ← hr1]; rw [if_neg (not_lt.2 hle)], by positivity, hle, ?_⟩
  -- the columns of `U`
  have hUU : U * Uᵀ = 1 := mul_eq_one_comm.1 hU.left
  have c00 : U 0 0 ^ 2 + U 1 0 ^ 2 = 1 := by
    have := congrFun (congrFun hU.left 0) 0
    simp [mul_apply, Fin.sum_univ_two] at this
    linarith
  have c11 : U 0 1 ^ 2 + U 1 1 ^ 2 = 1 := by
    have := congrFun (congrFun hU.left 1) 1
    simp [mul_apply, Fin.sum_univ_two] at this
    linarith
  have c01 : U 0 0 * U 0 1 + U 1 0 * U 1 1 = 0 := by
    have := congrFun (congrFun hU.left 0) 1
    simpa [mul_apply, Fin.sum_univ_two] using this
  obtain ⟨hc, hsn⟩ := cos_sin_atan2 c00
  set c := U 0 0
  set σ := U 1 0
  -- the inverse
  have hinv : P⁻¹ = U * diagonal (fun i => (s i)⁻¹) * Uᵀ := by
    apply inv_eq_left_inv
    rw [hPU]
    calc U * diagonal (fun i => (s i)⁻¹) * Uᵀ * (U * diagonal s * Uᵀ)
        = U * (diagonal (fun i => (s i)⁻¹) * (Uᵀ * U) * diagonal s) * Uᵀ := by
          simp only [Matrix.mul_assoc]
      _ = 1 := by
          rw [hU.left, Matrix.mul_one, diagonal_mul_diagonal]
          have : (fun i => (s i)⁻¹ * s i) = fun _ => (1 : ℝ) := by
            funext i
            fin_cases i
            · exact inv_mul_cancel₀ hs0.ne'
            · exact inv_mul_cancel₀ hs1.ne'
          rw [this, diagonal_one, Matrix.mul_one, hUU]
  have hquad : ∀ q : Vec 2, q ⬝ᵥ (P⁻¹ *ᵥ q)
      = (c * q 0 + σ * q 1) ^ 2 / s 0 + (U 0 1 * q 0 + U 1 1 * q 1) ^ 2 / s 1 := by
    intro q
    rw [hinv, ← mulVec_mulVec, ← mulVec_mulVec, dotProduct_mulVec, ← mulVec_transpose]
    simp only [dotProduct, Fin.sum_univ_two, mulVec, diagonal_apply, transpose_apply]
    simp
    ring
  -- the second column is the first one turned by a right angle, up to sign
  have hsq : (U 0 1) ^ 2 = σ ^ 2 ∧ (U 1 1) ^ 2 = c ^ 2 ∧ U 0 1 * U 1 1 = - (c * σ) := by
    have r00 := congrFun (congrFun hUU 0) 0
    have r01 := congrFun (congrFun hUU 0) 1
    have r11 := congrFun (congrFun hUU 1) 1
    simp [mul_apply, Fin.sum_univ_two] at r00 r01 r11
    refine ⟨?_, ?_, ?_⟩
    · nlinarith
    · nlinarith
    · linarith
  have hquad' : ∀ q : Vec 2, q ⬝ᵥ (P⁻¹ *ᵥ q)
      = (c * q 0 + σ * q 1) ^ 2 / s 0 + (-σ * q 0 + c * q 1) ^ 2 / s 1 := by
    intro q
    rw [hquad]
    congr 2
    obtain ⟨a1, a2, a3⟩ := hsq
    calc (U 0 1 * q 0 + U 1 1 * q 1) ^ 2
        = U 0 1 ^ 2 * q 0 ^ 2 + U 1 1 ^ 2 * q 1 ^ 2 + 2 * (U 0 1 * U 1 1) * (q 0 * q 1) := by ring
      _ = _ := by rw [a1, a2, a3]; ring
  intro q
  rw [hquad']
  constructor
  · intro hq
    obtain ⟨h1, h2⟩ := cos_sin_atan2 (x := (c * q 0 + σ * q 1) / (d * r0))
      (y := (-σ * q 0 + c * q 1) / (d * r1)) (by
        rw [div_pow, div_pow, mul_pow, mul_pow, q0, q1]
        have hd2 : d ^ 2 ≠ 0 := by positivity
        have e : (c * q 0 + σ * q 1) ^ 2 / (d ^ 2 * s 0) + (-σ * q 0 + c * q 1) ^ 2 / (d ^ 2 * s 1)
            = ((c * q 0 + σ * q 1) ^ 2 / s 0 + (-σ * q 0 + c * q 1) ^ 2 / s 1) / d ^ 2 := by
          have := hs0.ne'; have := hs1.ne'
          field_simp
        rw [e, hq, div_self hd2])
    refine ⟨atan2 ((-σ * q 0 + c * q 1) / (d * r1)) ((c * q 0 + σ * q 1) / (d * r0)), ?_⟩
    · funext i
      unfold ellipsePoint
      rw [h1, h2, hc, hsn]
      have w0 : d * r0 * ((c * q 0 + σ * q 1) / (d * r0)) = c * q 0 + σ * q 1 := by
        have := hd.ne'; have := p0.ne'; field_simp
      have w1 : d * r1 * ((-σ * q 0 + c * q 1) / (d * r1)) = -σ * q 0 + c * q 1 := by
        have := hd.ne'; have := p1.ne'; field_simp
      rw [w0, w1]
      fin_cases i
      · simp only [Fin.zero_eta, cons_val_zero]
        linear_combination -(q 0) * c00
      · simp only [Fin.mk_one, cons_val_one, cons_val_zero]
        linear_combination -(q 1) * c00
  · rintro ⟨t, rfl⟩
    have e0 : ellipsePoint (atan2 σ c) (d * r0) (d * r1) t 0
        = d * r0 * Real.cos t * c - d * r1 * Real.sin t * σ := by
      simp only [ellipsePoint, hc, hsn]; rfl
    have e1 : ellipsePoint (atan2 σ c) (d * r0) (d * r1) t 1
        = d * r0 * Real.cos t * σ + d * r1 * Real.sin t * c := by
      simp only [ellipsePoint, hc, hsn]; rfl
    rw [e0, e1]
    have f0 : c * (d * r0 * Real.cos t * c - d * r1 * Real.sin t * σ)
        + σ * (d * r0 * Real.cos t * σ + d * r1 * Real.sin t * c) = d * r0 * Real.cos t := by
      linear_combination (d * r0 * Real.cos t) * c00
    have f1 : -σ * (d * r0 * Real.cos t * c - d * r1 * Real.sin t * σ)
        + c * (d * r0 * Real.cos t * σ + d * r1 * Real.sin t * c) = d * r1 * Real.sin t := by
      linear_combination (d * r1 * Real.sin t) * c00
    rw [f0, f1, mul_pow, mul_pow, mul_pow, mul_pow, q0, q1]
    have g : ∀ a u : ℝ, a ≠ 0 → d ^ 2 * a * u / a = d ^ 2 * u := by
      intro a u ha; field_simp
    rw [g _ _ hs0.ne', g _ _ hs1.ne', ← mul_add, Real.cos_sq_add_sin_sq, mul_one]

example : ∃ (P U V : Mat 2 2) (s : Vec 2), P.PosDef ∧ IsSvd P U V s ∧ s 0 = 9 ∧ s 1 = 4 := by
  refine ⟨diagonal ![9, 4], 1, 1, ![9, 4], ?_, ⟨by simp, by simp, by simp, ?_, ?_⟩, rfl, rfl⟩
  · rw [posDef_diagonal_iff]
    intro i; fin_cases i <;> norm_num
  · norm_num
  · norm_num

/-- What `rand_student_t` should compute from its two draws: `g = std·N` with `N` standard normal
and `c` chi-squared with `df` degrees of freedom (a gamma variable with shape `df/2` and scale 2);
by definition a scaled Student t is `mu + std·N / √(c / df)`. -/
noncomputable def Spec.studentT (df mu g c : ℝ) : ℝ := mu + g / Real.sqrt (c / df)

/-- **C69 is false.**  The gamma draw is doubled, so every sample is shrunk towards `mu` by the
factor `1/√2`: the samples are not Student t with the scale asked for. -/
theorem C69_student_t_refuted (df mu g c : ℝ) (hdf : 0 < df) (hc : 0 < c) :
    randStudentT df mu g c - mu = (Spec.studentT df mu g c - mu) / Real.sqrt 2 ∧
    (g ≠ 0 → randStudentT df mu g c ≠ Spec.studentT df mu g c) := by
  have hcd : 0 < c / df := by positivity
  have e : Real.sqrt (2 * c / df) = Real.sqrt 2 * Real.sqrt (c / df) := by
    rw [mul_div_assoc, Real.sqrt_mul (by norm_num)]
  have key : randStudentT df mu g c - mu = (Spec.studentT df mu g c - mu) / Real.sqrt 2 := by
    unfold randStudentT Spec.studentT
    rw [e]
    have := (Real.sqrt_pos.2 hcd).ne'
    have h2 : Real.sqrt 2 ≠ 0 := by positivity
    rw [add_sub_cancel_right, add_sub_cancel_left, div_div, mul_comm]
  refine ⟨key, fun hg heq => ?_⟩
  rw [heq] at key
  have hx : Spec.studentT df mu g c - mu ≠ 0 := by
    unfold Spec.studentT
    rw [add_sub_cancel_left]
    exact div_ne_zero hg (Real.sqrt_pos.2 hcd).ne'
  have h2 : Real.sqrt 2 ≠ 0 := by positivity
  rw [eq_div_iff h2] at key
  have : Real.sqrt 2 = 1 := mul_left_cancel₀ hx (by rw [key, mul_one])
  have h3 := Real.sq_sqrt (show (0 : ℝ) ≤ 2 by norm_num)
  rw [this] at h3
  norm_num at h3

end Filterpy
