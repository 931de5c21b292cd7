import Verif.Model.Stats
import Verif.Props.KalmanBayes
import Verif.Lemmas.Scalar1
import Verif.Lemmas.Prob
import Mathlib.Probability.Distributions.Gaussian.Real
import Mathlib.Probability.CDF

/-!
# Gaussian helper functions: C59, C60, C61
-/

namespace Filterpy

open Matrix Spec Stats MeasureTheory ProbabilityTheory

/-! ## C59: products of one-dimensional Gaussians -/

theorem mul_ok {v1 v2 : ℝ} (m1 m2 : ℝ) (h1 : 0 < v1) (h2 : 0 < v2) :
    Stats.mul m1 v1 m2 v2 = .ok ((v1 * m2 + v2 * m1) / (v1 + v2), 1 / (1 / v1 + 1 / v2)) := by
  have a : v1 + v2 ≠ 0 := by positivity
  have b : 1 / v1 + 1 / v2 ≠ 0 := by positivity
  simp only [Stats.mul, if_neg a, if_neg b, h1.ne', h2.ne', or_self, if_false]

/-- **C59, precisions.**  For positive variances `mul` succeeds, the result's variance is positive,
precisions add, and the mean is the precision-weighted mean. -/
theorem C59_mul_precision (m1 v1 m2 v2 : ℝ) (h1 : 0 < v1) (h2 : 0 < v2) :
    ∃ m v, Stats.mul m1 v1 m2 v2 = .ok (m, v) ∧ 0 < v ∧ v⁻¹ = v1⁻¹ + v2⁻¹ ∧
      m = (v1⁻¹ * m1 + v2⁻¹ * m2) / (v1⁻¹ + v2⁻¹) := by
  refine ⟨_, _, mul_ok m1 m2 h1 h2, by positivity, ?_, ?_⟩
  · rw [one_div, inv_inv, one_div, one_div]
  · have := h1.ne'; have := h2.ne'
    have : v1 + v2 ≠ 0 := by positivity
    field_simp
    ring

/-- **C59, commutative.** -/
theorem C59_mul_comm (m1 v1 m2 v2 : ℝ) : Stats.mul m1 v1 m2 v2 = Stats.mul m2 v2 m1 v1 := by
  unfold Stats.mul
  rw [add_comm v1 v2, add_comm (1 / v1), add_comm (v1 * m2)]
  simp only [or_comm]

/-- **C59, associative.**  Multiplying three Gaussians in either order gives the same result. -/
theorem C59_mul_assoc (m1 v1 m2 v2 m3 v3 : ℝ) (h1 : 0 < v1) (h2 : 0 < v2) (h3 : 0 < v3) :
    ∃ a va b vb r, Stats.mul m1 v1 m2 v2 = .ok (a, va) ∧ Stats.mul m2 v2 m3 v3 = .ok (b, vb) ∧
      Stats.mul a va m3 v3 = .ok r ∧ Stats.mul m1 v1 b vb = .ok r := by
  have k1 : 0 < 1 / (1 / v1 + 1 / v2) := by positivity
  have k2 : 0 < 1 / (1 / v2 + 1 / v3) := by positivity
  refine ⟨_, _, _, _, _, mul_ok m1 m2 h1 h2, mul_ok m2 m3 h2 h3, mul_ok _ m3 k1 h3, ?_⟩
  rw [mul_ok m1 _ h1 k2]
  have := h1.ne'; have := h2.ne'; have := h3.ne'
  have : v1 + v2 ≠ 0 := by positivity
  have : v2 + v3 ≠ 0 := by positivity
  have n1 : v1 * v2 + v3 * (v1 + v2) ≠ 0 := by positivity
  have n2 : v1 * (v2 + v3) + v2 * v3 ≠ 0 := by positivity
  have e1 : 1 / (1 / v1 + 1 / v2) = v1 * v2 / (v1 + v2) := by field_simp; ring
  have e2 : 1 / (1 / v2 + 1 / v3) = v2 * v3 / (v2 + v3) := by field_simp; ring
  have s1 : v1 * v2 / (v1 + v2) + v3 = (v1 * v2 + v3 * (v1 + v2)) / (v1 + v2) := by field_simp
  have s2 : v1 + v2 * v3 / (v2 + v3) = (v1 * (v2 + v3) + v2 * v3) / (v2 + v3) := by field_simp
  rw [e1, e2, s1, s2]
  congr 2
  · field_simp
    ring
  · congr 1
    field_simp
    ring

theorem gaussian_ok (x mean : ℝ) {var : ℝ} (h : 0 < var) :
    gaussian x mean var = .ok (gaussianPDFReal mean var.toNNReal x) := by
  have hp : 0 ≤ 2 * Real.pi * var := by positivity
  simp only [gaussian, if_neg h.ne', if_neg (not_lt.2 h.le), gaussianPDFReal,
    Real.coe_toNNReal _ h.le]
  congr 2
  · rw [Real.rpow_neg hp, Real.sqrt_eq_rpow]
  · congr 1
    field_simp

/-- **C59, `mul_pdf`.**  At every point `x` the product of the two densities `gaussian(x, m1, v1)`,
`gaussian(x, m2, v2)` is the scale factor times `gaussian(x, mean, var)`; mean and variance are those
of `mul`, and the scale factor is the density of `m1` under `N(m2, v1 + v2)`. -/
theorem C59_mul_pdf (m1 v1 m2 v2 : ℝ) (h1 : 0 < v1) (h2 : 0 < v2) :
    ∃ m v S, mulPdf m1 v1 m2 v2 = .ok (m, v, S) ∧ Stats.mul m1 v1 m2 v2 = .ok (m, v) ∧
      gaussian m1 m2 (v1 + v2) = .ok S ∧
      ∀ x, ∃ p1 p2 p, gaussian x m1 v1 = .ok p1 ∧ gaussian x m2 v2 = .ok p2 ∧
        gaussian x m v = .ok p ∧ p1 * p2 = S * p := by
  have h12 : 0 < v1 + v2 := by positivity
  have hv : 0 < 1 / (1 / v1 + 1 / v2) := by positivity
  have hM : mulPdf m1 v1 m2 v2 = .ok ((v1 * m2 + v2 * m1) / (v1 + v2), 1 / (1 / v1 + 1 / v2),
      Real.exp (-(m1 - m2) ^ 2 / (2 * (v1 + v2))) / Real.sqrt (2 * Real.pi * (v1 + v2))) := by
    simp only [mulPdf, mul_ok m1 m2 h1 h2, if_neg (not_lt.2 h12.le)]
  refine ⟨_, _, _, hM,
    mul_ok m1 m2 h1 h2, ?_, fun x => ⟨_, _, _, gaussian_ok _ _ h1, gaussian_ok _ _ h2,
      gaussian_ok _ _ hv, ?_⟩⟩
  · rw [gaussian_ok _ _ h12]
    simp only [gaussianPDFReal, Real.coe_toNNReal _ h12.le]
    congr 1
    rw [mul_comm, ← div_eq_mul_inv]
  · simp only [gaussianPDFReal, Real.coe_toNNReal _ h1.le, Real.coe_toNNReal _ h2.le,
      Real.coe_toNNReal _ hv.le]
    have e1 : 1 / (1 / v1 + 1 / v2) = v1 * v2 / (v1 + v2) := by
      have := h1.ne'; have := h2.ne'
      field_simp
      ring
    rw [e1]
    have hs : (√(2 * Real.pi * v1))⁻¹ * (√(2 * Real.pi * v2))⁻¹
        = (√(2 * Real.pi * (v1 + v2)))⁻¹ * (√(2 * Real.pi * (v1 * v2 / (v1 + v2))))⁻¹ := by
      rw [← mul_inv, ← mul_inv, ← Real.sqrt_mul (by positivity), ← Real.sqrt_mul (by positivity)]
      congr 2
      field_simp
    have he : -(x - m1) ^ 2 / (2 * v1) + -(x - m2) ^ 2 / (2 * v2)
        = -(m1 - m2) ^ 2 / (2 * (v1 + v2)) +
          -(x - (v1 * m2 + v2 * m1) / (v1 + v2)) ^ 2 / (2 * (v1 * v2 / (v1 + v2))) := by
      have := h1.ne'; have := h2.ne'; have := h12.ne'
      field_simp
      ring
    have hE := congrArg Real.exp he
    rw [Real.exp_add, Real.exp_add] at hE
    calc _ = ((√(2 * Real.pi * v1))⁻¹ * (√(2 * Real.pi * v2))⁻¹) *
          (Real.exp (-(x - m1) ^ 2 / (2 * v1)) * Real.exp (-(x - m2) ^ 2 / (2 * v2))) := by ring
      _ = _ := by rw [hs, hE]; ring

/-- **C59, Kalman.**  `mul(x, P, z, R)` is the state and variance after a scalar Kalman update of
`(x, P)` with the measurement `z` of variance `R` (and `H = 1`). -/
theorem C59_mul_kalman {l : ℕ} (s : KF 1 1 l) (x P z R : ℝ) (hP : 0 < P) (hR : 0 < R)
    (hinv : s.inv = npInv) (hx : s.x = vc x) (hPs : s.P = sc P) (hRs : s.R = sc R)
    (hH : s.H = sc 1) :
    ∃ s' m v, s.update (some (vc z)) = .ok s' ∧ Stats.mul x P z R = .ok (m, v) ∧
      s'.x = vc m ∧ s'.P = sc v := by
  obtain ⟨s', hs', hS, -, -, hx', hP', -⟩ := update_pd s (vc z) .none none hinv
    (by rw [hPs]; exact sc_posDef _ hP) (by simp only [MatArg.resolve]; rw [hRs]; exact sc_posDef _ hR)
  have hPR : P + R ≠ 0 := by positivity
  refine ⟨s', _, _, hs', mul_ok x z hP hR, ?_, ?_⟩
  · simp only [hS, MatArg.resolve, Option.getD_none, hx, hPs, hRs, hH, sc_transpose, sc_mul,
      one_mul, mul_one, sc_add] at hx'
    rw [hx', sc_inv _ hPR, sc_mul, sc_mulVec, vc_sub, sc_mulVec, vc_add, vc_inj]
    field_simp
    ring
  · simp only [hS, MatArg.resolve, Option.getD_none, hPs, hRs, hH, sc_transpose, sc_mul,
      one_mul, mul_one, sc_add] at hP'
    rw [hP', sc_inv _ hPR, sc_mul, sc_mul, sc_one, sc_sub, sc_mul, sc_inj]
    have := hP.ne'; have := hR.ne'
    have h3 : R + P ≠ 0 := by positivity
    field_simp
    ring

example : ∃ m v, Stats.mul 1 2 3 4 = .ok (m, v) ∧ m = 5 / 3 ∧ v = 4 / 3 := by
  obtain ⟨m, v, h1, h2, h3, h4⟩ := C59_mul_precision 1 2 3 4 (by norm_num) (by norm_num)
  refine ⟨m, v, h1, by rw [h4]; norm_num, ?_⟩
  rw [← _root_.inv_inj, h3]; norm_num

/-- Outside the domain: with a zero variance (a perfectly known value) `mul` raises
`ZeroDivisionError`. -/
theorem C59_mul_zero (m1 v1 m2 v2 : ℝ) (h : v1 = 0 ∨ v2 = 0) :
    Stats.mul m1 v1 m2 v2 = .error .zeroDivision := by
  unfold Stats.mul
  by_cases h1 : v1 + v2 = 0
  · rw [if_pos h1]
  · rw [if_neg h1, if_pos h]

/-! ## C60: products of multivariate Gaussians -/

variable {n : ℕ}

theorem mm_ok (m1 m2 : Vec n) {C1 C2 : Mat n n} (h1 : C1.PosDef) (h2 : C2.PosDef) :
    multivariateMultiply m1 C1 m2 C2 = .ok ((C2 * (C1 + C2)⁻¹) *ᵥ m1 + (C1 * (C1 + C2)⁻¹) *ᵥ m2,
      C1 * (C1 + C2)⁻¹ * C2) := by
  have := PD.det_ne (h1.add h2)
  simp only [multivariateMultiply, npInv_of_det_ne this]

theorem harmonic_inv {C1 C2 : Mat n n} (h1 : C1.PosDef) (h2 : C2.PosDef) :
    (C1 * (C1 + C2)⁻¹ * C2) * (C1⁻¹ + C2⁻¹) = 1 ∧ (C1⁻¹ + C2⁻¹) * (C1 * (C1 + C2)⁻¹ * C2) = 1 := by
  have u1 := PD.isUnit_det h1
  have u2 := PD.isUnit_det h2
  have u := PD.isUnit_det (h1.add h2)
  have key : (C1⁻¹ + C2⁻¹) * (C1 * (C1 + C2)⁻¹ * C2) = 1 := by
    have e : C1⁻¹ + C2⁻¹ = C2⁻¹ * (C1 + C2) * C1⁻¹ := by
      rw [Matrix.mul_add, Matrix.add_mul, nonsing_inv_mul _ u2, Matrix.one_mul, Matrix.mul_assoc,
        mul_nonsing_inv _ u1, Matrix.mul_one, add_comm]
    rw [e]
    calc C2⁻¹ * (C1 + C2) * C1⁻¹ * (C1 * (C1 + C2)⁻¹ * C2)
        = C2⁻¹ * (C1 + C2) * (C1⁻¹ * C1) * (C1 + C2)⁻¹ * C2 := by simp only [Matrix.mul_assoc]
      _ = C2⁻¹ * ((C1 + C2) * (C1 + C2)⁻¹) * C2 := by
        rw [nonsing_inv_mul _ u1, Matrix.mul_one]; simp only [Matrix.mul_assoc]
      _ = 1 := by rw [mul_nonsing_inv _ u, Matrix.mul_one, nonsing_inv_mul _ u2]
  exact ⟨mul_eq_one_comm.1 key, key⟩

/-- **C60, covariance and mean.**  The covariance of the product is the inverse of the sum of the
inverse covariances, and it is positive definite; the mean is the precision-weighted mean. -/
theorem C60_precision (m1 m2 : Vec n) {C1 C2 : Mat n n} (h1 : C1.PosDef) (h2 : C2.PosDef) :
    ∃ m C, multivariateMultiply m1 C1 m2 C2 = .ok (m, C) ∧ C = (C1⁻¹ + C2⁻¹)⁻¹ ∧ C.PosDef ∧
      (C1⁻¹ + C2⁻¹) *ᵥ m = C1⁻¹ *ᵥ m1 + C2⁻¹ *ᵥ m2 := by
  have u1 := PD.isUnit_det h1
  have u2 := PD.isUnit_det h2
  have u := PD.isUnit_det (h1.add h2)
  have e := inv_eq_left_inv (harmonic_inv h1 h2).1
  refine ⟨_, _, mm_ok m1 m2 h1 h2, e.symm, ?_, ?_⟩
  · rw [← e]; exact (h1.inv.add h2.inv).inv
  · have f1 : (C1⁻¹ + C2⁻¹) * (C2 * (C1 + C2)⁻¹) = C1⁻¹ := by
      have e : C1⁻¹ + C2⁻¹ = C1⁻¹ * (C1 + C2) * C2⁻¹ := by
        rw [Matrix.mul_add, Matrix.add_mul, nonsing_inv_mul _ u1, Matrix.one_mul, Matrix.mul_assoc,
          mul_nonsing_inv _ u2, Matrix.mul_one, add_comm]
      calc (C1⁻¹ + C2⁻¹) * (C2 * (C1 + C2)⁻¹)
          = C1⁻¹ * (C1 + C2) * (C2⁻¹ * C2) * (C1 + C2)⁻¹ := by
            rw [e]; simp only [Matrix.mul_assoc]
        _ = C1⁻¹ := by
            rw [nonsing_inv_mul _ u2, Matrix.mul_one, Matrix.mul_assoc, mul_nonsing_inv _ u,
              Matrix.mul_one]
    have f2 : (C1⁻¹ + C2⁻¹) * (C1 * (C1 + C2)⁻¹) = C2⁻¹ := by
      have e : C1⁻¹ + C2⁻¹ = C2⁻¹ * (C1 + C2) * C1⁻¹ := by
        rw [Matrix.mul_add, Matrix.add_mul, nonsing_inv_mul _ u2, Matrix.one_mul, Matrix.mul_assoc,
          mul_nonsing_inv _ u1, Matrix.mul_one, add_comm]
      calc (C1⁻¹ + C2⁻¹) * (C1 * (C1 + C2)⁻¹)
          = C2⁻¹ * (C1 + C2) * (C1⁻¹ * C1) * (C1 + C2)⁻¹ := by
            rw [e]; simp only [Matrix.mul_assoc]
        _ = C2⁻¹ := by
            rw [nonsing_inv_mul _ u1, Matrix.mul_one, Matrix.mul_assoc, mul_nonsing_inv _ u,
              Matrix.mul_one]
    rw [mulVec_add, mulVec_mulVec, mulVec_mulVec, f1, f2]

/-- **C60, commutative.** -/
theorem C60_comm (m1 m2 : Vec n) {C1 C2 : Mat n n} (h1 : C1.PosDef) (h2 : C2.PosDef) :
    multivariateMultiply m1 C1 m2 C2 = multivariateMultiply m2 C2 m1 C1 := by
  rw [mm_ok m1 m2 h1 h2, mm_ok m2 m1 h2 h1]
  have e1 := inv_eq_left_inv (harmonic_inv h1 h2).1
  have e2 := inv_eq_left_inv (harmonic_inv h2 h1).1
  rw [← e1, ← e2, add_comm C2 C1, add_comm C2⁻¹, add_comm ((C2 * (C1 + C2)⁻¹) *ᵥ m1)]

/-- **C60, Kalman and Bayes.**  The product is the Kalman update of `(m1, C1)` by a measurement `m2`
of the whole state (`H = I`, `R = C2`), and as functions of the point `X` the product of the two
densities is the density of the result times a constant. -/
theorem C60_kalman {l : ℕ} (s : KF n n l) (m2 : Vec n) (hinv : s.inv = npInv) (hP : s.P.PosDef)
    (hR : s.R.PosDef) (hH : s.H = 1) :
    ∃ s' , s.update (some m2) = .ok s' ∧
      multivariateMultiply s.x s.P m2 s.R = .ok (s'.x, s'.P) ∧
      ∀ X, gaussDensity s.x s.P X * gaussDensity m2 s.R X
        = gaussDensity s'.x s'.P X * gaussDensity s.x (s.P + s.R) m2 := by
  obtain ⟨s1, hs1, -, -, hB⟩ := C02_bayes_product s m2 .none none hinv hP
    (by simpa [MatArg.resolve] using hR)
  obtain ⟨s', hs', hS, -, -, hx, hP', -⟩ := update_pd s m2 .none none hinv hP
    (by simpa [MatArg.resolve] using hR)
  rw [hs1] at hs'
  obtain rfl : s1 = s' := by simpa using hs'
  have hS' : s1.S = s.P + s.R := by simpa [MatArg.resolve, hH] using hS
  have u := PD.isUnit_det (hP.add hR)
  refine ⟨s1, hs1, ?_, fun X => ?_⟩
  · rw [mm_ok _ _ hP hR]
    have eR : 1 - s.P * (s.P + s.R)⁻¹ = s.R * (s.P + s.R)⁻¹ := by
      nth_rewrite 1 [← mul_nonsing_inv _ u]
      rw [← Matrix.sub_mul, add_sub_cancel_left]
    simp only [hS', Option.getD_none, hH, Matrix.transpose_one, Matrix.mul_one,
      Matrix.one_mulVec] at hx hP'
    rw [hx, hP']
    congr 2
    · rw [← eR, mulVec_sub, sub_mulVec, one_mulVec]; abel
    · rw [eR]
      have e1 := inv_eq_left_inv (harmonic_inv hP hR).1
      have e2 := inv_eq_left_inv (harmonic_inv hR hP).1
      rw [← e1, add_comm, e2, add_comm]
  · have := hB X
    simp only [MatArg.resolve, Option.getD_none, hH, one_mulVec, hS'] at this
    rw [← this]
    congr 1
    unfold gaussDensity
    have e : m2 - X = -(X - m2) := by abel
    rw [e, mulVec_neg, dotProduct_neg, neg_dotProduct, neg_neg]

example : ∃ m C, multivariateMultiply (![1, 2] : Vec 2) 1 ![3, 0] 1 = .ok (m, C) ∧ C.PosDef := by
  obtain ⟨m, C, h, -, h', -⟩ := C60_precision (![1, 2] : Vec 2) ![3, 0] PosDef.one PosDef.one
  exact ⟨m, C, h, h'⟩

/-! ## C61: densities -/

/-- **C61, `gaussian`.**  For a positive variance `gaussian(·, mean, var)` is the normal density:
it is positive, symmetric about the mean, integrates to one, and is the density of the normal
distribution `N(mean, var)`. -/
theorem C61_gaussian (mean var : ℝ) (h : 0 < var) :
    ∃ f : ℝ → ℝ, (∀ x, gaussian x mean var = .ok (f x)) ∧ (∀ x, 0 < f x) ∧
      (∀ d, f (mean + d) = f (mean - d)) ∧ ∫ x, f x = 1 ∧
      gaussianReal mean var.toNNReal = volume.withDensity fun x => ENNReal.ofReal (f x) := by
  have hv : var.toNNReal ≠ 0 := by simpa using h
  refine ⟨gaussianPDFReal mean var.toNNReal, fun x => gaussian_ok x mean h,
    fun x => gaussianPDFReal_pos _ _ _ hv, fun d => ?_, integral_gaussianPDFReal_eq_one _ hv, ?_⟩
  · simp only [gaussianPDFReal]; congr 2; ring
  · rw [gaussianReal_of_var_ne_zero _ hv]; rfl

/-- **C61, array form.**  With `normed=True` (the default) the values sum to one and are
proportional to the densities; with `normed=False` they are the densities. -/
theorem C61_gaussian_array {k : ℕ} (xs : Vec k) (mean var : ℝ) (h : 0 < var) (hk : 0 < k) :
    ∃ w p, gaussianArr xs mean var true = .ok w ∧ gaussianArr xs mean var false = .ok p ∧
      (∀ i, gaussian (xs i) mean var = .ok (p i)) ∧ ∑ i, w i = 1 ∧ (∀ i, 0 < w i) ∧
      ∀ i j, w i * p j = w j * p i := by
  set p : Vec k := fun i => gaussianPDFReal mean var.toNNReal (xs i) with hp
  have hv : var.toNNReal ≠ 0 := by simpa using h
  have hpos : ∀ i, 0 < p i := fun i => gaussianPDFReal_pos _ _ _ hv
  have hs : 0 < ∑ j, p j := Finset.sum_pos (fun i _ => hpos i) ⟨⟨0, hk⟩, Finset.mem_univ _⟩
  have he : (fun i => (2 * Real.pi * var) ^ (-(1/2) : ℝ) *
      Real.exp ((-(1/2) * (xs i - mean) ^ 2) / var)) = p := by
    funext i
    have := gaussian_ok (xs i) mean h
    simp only [gaussian, if_neg h.ne', if_neg (not_lt.2 h.le), Except.ok.injEq] at this
    exact this
  refine ⟨fun i => p i / ∑ j, p j, p, ?_, ?_, fun i => gaussian_ok _ _ h, ?_, fun i => ?_,
    fun i j => ?_⟩
  · simp only [gaussianArr, if_neg h.ne', if_neg (not_lt.2 h.le), if_true]
    congr 1
    funext i
    rw [← he]
  · simp only [gaussianArr, if_neg h.ne', if_neg (not_lt.2 h.le)]
    rw [← he]; rfl
  · simp only [div_eq_mul_inv]
    rw [← Finset.sum_mul, mul_inv_cancel₀ hs.ne']
  · exact div_pos (hpos i) hs
  · ring

/-- **C61, `add`.**  The sum of two independent normal variables is normal with the mean and
variance returned by `add`. -/
theorem C61_add {Ω : Type*} [MeasurableSpace Ω] {μ : Measure Ω} {X Y : Ω → ℝ} (m1 v1 m2 v2 : ℝ)
    (h1 : 0 ≤ v1) (h2 : 0 ≤ v2) (hXY : IndepFun X Y μ)
    (hX : μ.map X = gaussianReal m1 v1.toNNReal) (hY : μ.map Y = gaussianReal m2 v2.toNNReal) :
    μ.map (X + Y) =
      gaussianReal (Stats.add m1 v1 m2 v2).1 (Stats.add m1 v1 m2 v2).2.toNNReal := by
  rw [gaussianReal_add_gaussianReal_of_indepFun hXY hX hY]
  simp only [Stats.add]
  rw [Real.toNNReal_add h1 h2]

/-- `scipy.stats.norm.cdf`. -/
def Spec.IsNormCdf (cdf : ℝ → ℝ → ℝ → ℝ) : Prop :=
  ∀ mu s x, 0 < s → cdf mu s x = (gaussianReal mu (s ^ 2).toNNReal).real (Set.Iic x)

/-- **C61, `norm_cdf`.**  Whatever the order of the end points, the result is the probability that
the normal variable lies between them; `std`, when given, overrides `var`. -/
theorem C61_norm_cdf (cdf : ℝ → ℝ → ℝ → ℝ) (hc : IsNormCdf cdf) (a b mu var : ℝ)
    (std : Option ℝ) (h : (∃ s, std = some s ∧ 0 < s) ∨ (std = none ∧ 0 < var)) :
    normCdf cdf a b mu var std = .ok ((gaussianReal mu
      ((std.map (· ^ 2)).getD var).toNNReal).real (Set.Icc (min a b) (max a b))) := by
  have main : ∀ s : ℝ, 0 < s → |cdf mu s a - cdf mu s b|
      = (gaussianReal mu (s ^ 2).toNNReal).real (Set.Icc (min a b) (max a b)) := by
    intro s hs
    have hv : (s ^ 2).toNNReal ≠ 0 := by
      simpa using hs.ne'
    rw [hc mu s a hs, hc mu s b hs]
    set ν := gaussianReal mu (s ^ 2).toNNReal with hν
    haveI : NullSingletonClass ν := nullSingletonClass_gaussianReal hv
    have key : ∀ c d : ℝ, c ≤ d → ν.real (Set.Iic d) - ν.real (Set.Iic c)
        = ν.real (Set.Icc c d) := by
      intro c d hcd
      have e1 : ν.real (Set.Icc c d) = ν.real (Set.Ioc c d) :=
        congrArg ENNReal.toReal (measure_congr Ioc_ae_eq_Icc).symm
      have e2 : Set.Ioc c d = Set.Iic d \ Set.Iic c := by ext x; simp [and_comm]
      rw [e1, e2, measureReal_diff (Set.Iic_subset_Iic.2 hcd) measurableSet_Iic]
    rcases le_total a b with hab | hab
    · rw [min_eq_left hab, max_eq_right hab, ← key a b hab, abs_sub_comm, abs_of_nonneg]
      rw [key a b hab]; exact measureReal_nonneg
    · rw [min_eq_right hab, max_eq_left hab, ← key b a hab, abs_of_nonneg]
      rw [key b a hab]; exact measureReal_nonneg
  rcases h with ⟨s, rfl, hs⟩ | ⟨rfl, hv⟩
  · simp only [normCdf, Option.getD_some, Option.map_some, if_neg (not_le.2 hs), main s hs]
    simp
  · have hs : 0 < Real.sqrt var := Real.sqrt_pos.2 hv
    simp only [normCdf, Option.getD_none, Option.map_none, if_neg (not_le.2 hs), true_and,
      if_neg (not_lt.2 hv.le), main _ hs, Real.sq_sqrt hv.le]

example : ∃ cdf, IsNormCdf cdf := ⟨fun mu s x => (gaussianReal mu (s ^ 2).toNNReal).real (Set.Iic x),
  fun _ _ _ _ => rfl⟩

theorem exp_logpdf {m : ℕ} (z mean : Vec m) {S : Mat m m} (hS : S.PosDef) :
    Real.exp (logpdfMean z mean S) = gaussDensity mean S z := by
  have hd := hS.det_pos
  have h2 : 0 < (2 * Real.pi) ^ m * S.det := by positivity
  unfold logpdfMean logpdf gaussDensity
  have e : -(1/2) * (m * Real.log (2 * Real.pi) + Real.log S.det
      + (z - mean) ⬝ᵥ (S⁻¹ *ᵥ (z - mean)))
      = -Real.log (Real.sqrt ((2 * Real.pi) ^ m * S.det))
        + -(1/2) * ((z - mean) ⬝ᵥ (S⁻¹ *ᵥ (z - mean))) := by
    rw [Real.log_sqrt h2.le, Real.log_mul (by positivity) hd.ne', Real.log_pow]
    ring
  rw [e, Real.exp_add, Real.exp_neg, Real.exp_log (Real.sqrt_pos.2 h2)]

theorem mahalanobis_ok {m : ℕ} (z mean : Vec m) {S : Mat m m} (hS : S.PosDef) :
    mahalanobis z mean S = .ok (Real.sqrt ((z - mean) ⬝ᵥ (S⁻¹ *ᵥ (z - mean)))) := by
  have e : ((z - mean) ᵥ* S⁻¹) ⬝ᵥ (z - mean) = (z - mean) ⬝ᵥ (S⁻¹ *ᵥ (z - mean)) :=
    (dotProduct_mulVec _ _ _).symm
  simp only [mahalanobis, npInv_of_det_ne (PD.det_ne hS), e]
  rw [if_neg (not_lt.2 (PSD.quad hS.inv.posSemidef _))]

/-- **C61, likelihoods.**  For positive definite `P`, `R` the likelihood is the density
`N(z; H x, H P Hᵀ + R)`, the log-likelihood is its logarithm, and it is the function
`-(m log 2π + log det S + d²) / 2` of the Mahalanobis distance `d` of `z`. -/
theorem C61_likelihood {m : ℕ} (z : Vec m) (x : Vec n) {P : Mat n n} (H : Mat m n) {R : Mat m m}
    (hP : P.PosSemidef) (hR : R.PosDef) :
    likelihood z x P H R = gaussDensity (H *ᵥ x) (H * P * Hᵀ + R) z ∧
    logLikelihood z x P H R = Real.log (gaussDensity (H *ᵥ x) (H * P * Hᵀ + R) z) ∧
    ∃ d, mahalanobis z (H *ᵥ x) (H * P * Hᵀ + R) = .ok d ∧ 0 ≤ d ∧
      d ^ 2 = (z - H *ᵥ x) ⬝ᵥ ((H * P * Hᵀ + R)⁻¹ *ᵥ (z - H *ᵥ x)) ∧
      logLikelihood z x P H R
        = -(m * Real.log (2 * Real.pi) + Real.log (H * P * Hᵀ + R).det + d ^ 2) / 2 := by
  have hS : (H * P * Hᵀ + R).PosDef := by
    rw [Matrix.mul_assoc]; exact S_pd hP hR
  have e : likelihood z x P H R = gaussDensity (H *ᵥ x) (H * P * Hᵀ + R) z := by
    unfold likelihood logLikelihood
    rw [← Matrix.mul_assoc, exp_logpdf _ _ hS]
  have hq := PSD.quad hS.inv.posSemidef (z - H *ᵥ x)
  refine ⟨e, by rw [← e, likelihood, Real.log_exp], _, mahalanobis_ok _ _ hS, Real.sqrt_nonneg _,
    Real.sq_sqrt hq, ?_⟩
  rw [Real.sq_sqrt hq]
  unfold logLikelihood logpdfMean logpdf
  rw [← Matrix.mul_assoc]
  ring

/-- **C61, the filter's properties.**  After `update(z)` the filter's `log_likelihood` is
`stats.log_likelihood` of the prior and its `mahalanobis` is `stats.mahalanobis` of the residual. -/
theorem C61_filter_likelihood {m l : ℕ} (s : KF n m l) (z : Vec m) (hinv : s.inv = npInv)
    (hP : s.P.PosDef) (hR : s.R.PosDef) :
    ∃ s', s.update (some z) = .ok s' ∧
      s'.readLogLik.1 = logLikelihood z s.x s.P s.H s.R ∧
      s'.readMahal.map Prod.fst
        = mahalanobis z (s.H *ᵥ s.x) (s.H * s.P * s.Hᵀ + s.R) := by
  obtain ⟨s', h1, h2, -, s'', h3⟩ := C17_values_after_update Real.exp s z .none none hinv hP
    (by simpa [MatArg.resolve] using hR)
  refine ⟨s', h1, ?_, ?_⟩
  · rw [h2, (C61_likelihood z s.x s.H hP.posSemidef hR).2.1]; rfl
  · rw [h3, mahalanobis_ok _ _ (by rw [Matrix.mul_assoc]; exact S_pd hP.posSemidef hR)]; rfl

theorem lowerSym_of_symm {A : Mat n n} (h : Aᵀ = A) : lowerSym A = A := by
  ext i j
  simp only [lowerSym, of_apply]
  split_ifs
  · rfl
  · exact congrFun (congrFun h i) j

theorem smul_one_posDef {c : ℝ} (h : 0 < c) : (c • (1 : Mat n n)).PosDef :=
  PosDef.smul PosDef.one h

theorem mg_ok (x mu : Vec n) {C : Mat n n} (hC : C.PosDef) (c : MatArg n) (h : toCov c = .ok C) :
    multivariateGaussian x mu c = .ok (gaussDensity mu C x) := by
  simp only [multivariateGaussian, h, npInv_of_det_ne (PD.det_ne hC)]
  rw [← exp_logpdf x mu hC]
  simp only [logpdfMean, logpdf]
  rw [abs_of_pos hC.det_pos, dotProduct_comm (C⁻¹ *ᵥ (x - mu))]

/-- **C61, `multivariate_gaussian`.**  It is the multivariate normal density for a positive definite
covariance, a scalar covariance `c > 0` means `c·I`; a symmetric matrix that is not positive
definite and a negative scalar raise `ValueError`. -/
theorem C61_multivariate_gaussian (x mu : Vec n) :
    (∀ C : Mat n n, C.PosDef → multivariateGaussian x mu (.mat C) = .ok (gaussDensity mu C x)) ∧
    (∀ c : ℝ, 0 < c → multivariateGaussian x mu (.scalar c)
      = .ok (gaussDensity mu (c • (1 : Mat n n)) x)) ∧
    (∀ C : Mat n n, Cᵀ = C → ¬ C.PosDef →
      multivariateGaussian x mu (.mat C) = .error .valueError) ∧
    (∀ c : ℝ, c < 0 → multivariateGaussian x mu (.scalar c) = .error .valueError) := by
  refine ⟨fun C hC => mg_ok x mu hC _ ?_, fun c hc => mg_ok x mu (smul_one_posDef hc) _ ?_,
    fun C hs hC => ?_, fun c hc => ?_⟩
  · have : (lowerSym C).PosDef := by rw [lowerSym_of_symm (PD.symm hC)]; exact hC
    simp only [toCov, if_pos this]
  · simp only [toCov, if_neg (not_lt.2 hc.le)]
  · have : ¬ (lowerSym C).PosDef := by rw [lowerSym_of_symm hs]; exact hC
    simp only [multivariateGaussian, toCov, if_neg this]
  · simp only [multivariateGaussian, toCov, if_pos hc]

/-- **C61, one dimension.**  `multivariate_gaussian` and `gaussian` agree on scalars. -/
theorem C61_univariate (x mu var : ℝ) (h : 0 < var) :
    multivariateGaussian (vc x) (vc mu) (.scalar var) = gaussian x mu var := by
  rw [(C61_multivariate_gaussian (vc x) (vc mu)).2.1 var h, gaussian_ok _ _ h]
  unfold gaussDensity gaussianPDFReal
  rw [Real.coe_toNNReal _ h.le, ← sc_eq_smul, sc_det, sc_inv _ h.ne', vc_sub, sc_mulVec, vc_dot,
    pow_one]
  congr 3
  field_simp

/-- A zero scalar covariance passes the check ("covariance must be > 0") and then fails in the
solver. -/
theorem C61_zero_covariance (x mu : Vec (n + 1)) :
    multivariateGaussian x mu (.scalar 0) = .error .linAlgError := by
  have : (0 : Mat (n + 1) (n + 1)).det = 0 := det_zero
  simp [multivariateGaussian, toCov, npInv, this]

theorem neesLoop_ok (l : List (Vec n × Mat n n)) (h : ∀ p ∈ l, p.2.PosDef) :
    neesLoop l = .ok (l.map fun p => p.1 ⬝ᵥ (p.2⁻¹ *ᵥ p.1)) := by
  induction l with
  | nil => rfl
  | cons p l ih =>
    obtain ⟨x, C⟩ := p
    have hC : C.PosDef := h _ List.mem_cons_self
    simp only [neesLoop, npInv_of_det_ne (PD.det_ne hC),
      ih fun q hq => h q (List.mem_cons_of_mem _ hq), List.map_cons]
    rw [← dotProduct_mulVec]

/-- **C61, `NEES`.**  The k-th value is the squared Mahalanobis distance of the k-th error under the
k-th reported covariance; and if an estimate's error has mean zero and exactly the reported
covariance, the expected value of its NEES is the dimension of the state. -/
theorem C61_nees (xs est : List (Vec n)) (ps : List (Mat n n)) (hl : xs.length = est.length)
    (hlp : xs.length = ps.length) (hp : ∀ p ∈ ps, p.PosDef) :
    ∃ errs, nees xs est ps = .ok errs ∧ errs.length = xs.length ∧
      ∀ k (h1 : k < xs.length) (h2 : k < est.length) (h3 : k < ps.length) (h4 : k < errs.length),
        ∃ d, mahalanobis xs[k] est[k] ps[k] = .ok d ∧ errs[k] = d ^ 2 := by
  have hq : ∀ q ∈ (List.zipWith (· - ·) xs est).zip ps, q.2.PosDef := by
    rintro ⟨a, b⟩ h
    exact hp b (List.of_mem_zip h).2
  refine ⟨_, by simp only [nees, if_neg (not_not.2 hl)]; exact neesLoop_ok _ hq, ?_, ?_⟩
  · simp; omega
  · intro k h1 h2 h3 h4
    have hC := hp _ (List.getElem_mem h3)
    refine ⟨_, mahalanobis_ok _ _ hC, ?_⟩
    rw [Real.sq_sqrt (PSD.quad hC.inv.posSemidef _)]
    simp [List.getElem_zip, List.getElem_zipWith]

theorem C61_nees_expected {Ω : Type*} [MeasurableSpace Ω] {μ : Measure Ω} [IsProbabilityMeasure μ]
    (X Xhat : Ω → Vec n) {P : Mat n n} (hP : P.PosDef) (hE : SqInt (fun ω => X ω - Xhat ω) μ)
    (h0 : meanVec (fun ω => X ω - Xhat ω) μ = 0)
    (hcov : covMat (fun ω => X ω - Xhat ω) (fun ω => X ω - Xhat ω) μ = P) :
    (∀ ω, nees [X ω] [Xhat ω] [P] = .ok [(X ω - Xhat ω) ⬝ᵥ (P⁻¹ *ᵥ (X ω - Xhat ω))]) ∧
    ∫ ω, (X ω - Xhat ω) ⬝ᵥ (P⁻¹ *ᵥ (X ω - Xhat ω)) ∂μ = n := by
  constructor
  · intro ω
    simp only [nees, List.length_singleton, ne_eq, not_true_eq_false, if_false,
      List.zipWith_cons_cons, List.zipWith_nil_left, List.zip_cons_cons, List.zip_nil_left]
    rw [neesLoop_ok _ (by simpa using hP)]
    rfl
  · set E : Ω → Vec n := fun ω => X ω - Xhat ω with hEd
    have hmul : ∀ i j, Integrable (fun ω => E ω i * E ω j) μ := fun i j =>
      (hE i).integrable_mul (hE j)
    have hexp : ∀ i j, ∫ ω, E ω i * E ω j ∂μ = P i j := by
      intro i j
      have hc : P i j = cov[fun ω => E ω i, fun ω => E ω j; μ] := by rw [← hcov]; rfl
      have m0 : ∀ i, ∫ ω, E ω i ∂μ = 0 := fun i => congrFun h0 i
      rw [hc, covariance_eq_sub (hE i) (hE j), m0 i, m0 j]
      simp
    obtain ⟨G, hG⟩ : ∃ G : Fin n → Fin n → ℝ, ∀ i j, P⁻¹ i j = G i j :=
      ⟨fun i j => P⁻¹ i j, fun _ _ => rfl⟩
    have e : ∀ ω, E ω ⬝ᵥ (P⁻¹ *ᵥ E ω) = ∑ i, ∑ j, G i j * (E ω i * E ω j) := by
      intro ω
      simp only [dotProduct, mulVec, Finset.mul_sum, hG]
      exact Finset.sum_congr rfl fun i _ => Finset.sum_congr rfl fun j _ => by ring
    show ∫ ω, E ω ⬝ᵥ (P⁻¹ *ᵥ E ω) ∂μ = n
    simp only [e]
    rw [integral_finsetSum _ fun i _ => integrable_finsetSum _ fun j _ => (hmul i j).const_mul _]
    have e2 : ∀ i, ∫ ω, ∑ j, G i j * (E ω i * E ω j) ∂μ = ∑ j, G i j * P i j := by
      intro i
      rw [integral_finsetSum _ fun j _ => (hmul i j).const_mul _]
      exact Finset.sum_congr rfl fun j _ => by rw [integral_const_mul, hexp]
    simp only [e2]
    have e3 : ∀ i, ∑ j, G i j * P i j = (P⁻¹ * P) i i := by
      intro i
      rw [mul_apply]
      simp only [hG]
      exact Finset.sum_congr rfl fun j _ => by
        rw [show P i j = P j i from congrFun (congrFun (PD.symm hP) j) i]
    simp only [e3, nonsing_inv_mul _ (PD.isUnit_det hP), one_apply_eq]
    simp

end Filterpy
