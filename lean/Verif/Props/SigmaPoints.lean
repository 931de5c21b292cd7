import Verif.Model.SigmaPoints
import Verif.Lemmas.SigmaPoints
import Verif.Spec.Moments
import Verif.Lemmas.QR

/-!
# C23, C24: sigma points and the unscented transform
-/

namespace Filterpy

open Matrix SigmaPts Spec

variable {n : ℕ}

theorem wcov_eq {k n : ℕ} (w : Vec k) (s : Mat k n) (c : Vec n) :
    WCov w s c = ∑ i, w i • vecMulVec (s i - c) (s i - c) := by
  ext a b
  simp [WCov, Matrix.sum_apply, vecMulVec_apply]

/-- What a sigma point object is for: its weights sum to one, and for every mean and every positive
definite covariance the points it draws have that mean and that covariance. -/
structure Encodes (p : SigmaPts n) : Prop where
  sum : ∑ i, p.Wm i = 1
  pts : ∀ (x : Vec n) (P : Mat n n), P.PosDef → ∃ s, p.points x P = .ok s ∧
    WMean p.Wm s = x ∧ WCov p.Wc s x = P

theorem cholUpper_exists : ∃ sqrt : Mat n n → Except Err (Mat n n), IsCholUpper sqrt := by
  classical
  refine ⟨fun A => if h : A.PosSemidef then .ok (chol_exists h).choose ᵀ else .error .linAlgError, ?_⟩
  intro A hA
  refine ⟨_, dif_pos hA.posSemidef, ?_⟩
  rw [transpose_transpose]
  exact (chol_exists hA.posSemidef).choose_spec.1

/-- Shared by the two symmetric point sets. -/
theorem encodes_symmetric (c w0 w0' : ℝ) (hc : 0 < c) (hw : w0 + 2 * n * (0.5 / c) = 1)
    (sqrt : Mat n n → Except Err (Mat n n)) (hs : IsCholUpper sqrt) :
    Encodes (n := n)
      { num := 2 * n + 1
        Wm := fun i => if (i : ℕ) = 0 then w0 else 0.5 / c
        Wc := fun i => if (i : ℕ) = 0 then w0' else 0.5 / c
        points := fun x P => match sqrt (c • P) with
          | .error e => .error e
          | .ok U => .ok (symmetricSet (fun a b => a - b) x U) } := by
  constructor
  · exact (sym_moments 0 0 w0 w0' _ hw).1
  · intro x P hP
    obtain ⟨U, hU, hUU⟩ := hs (c • P) (hP.smul hc)
    refine ⟨symmetricSet (fun a b => a - b) x U, by simp only [hU], ?_, ?_⟩
    · unfold WMean
      simp only [symmetricSet_row]
      exact (sym_moments x U w0 w0' _ hw).2.1
    · rw [wcov_eq]
      simp only [symmetricSet_row]
      rw [(sym_moments x U w0 w0' _ hw).2.2, hUU, smul_smul]
      have : 2 * (0.5 / c) * c = 1 := by field_simp; norm_num
      rw [this, one_smul]

theorem encodes_merwe (alpha beta kappa : ℝ) (h : 0 < alpha ^ 2 * (n + kappa))
    (sqrt : Mat n n → Except Err (Mat n n)) (hs : IsCholUpper sqrt) :
    ∃ p, merwe n alpha beta kappa sqrt = .ok p ∧ p.num = 2 * n + 1 ∧ Encodes p := by
  have e : (n : ℝ) + (alpha ^ 2 * (n + kappa) - n) = alpha ^ 2 * (n + kappa) := by ring
  have e' : (alpha ^ 2 * (n + kappa) - n) + (n : ℝ) = alpha ^ 2 * (n + kappa) := by ring
  refine ⟨_, ?_, ?_, encodes_symmetric (alpha ^ 2 * (n + kappa))
    ((alpha ^ 2 * (n + kappa) - n) / (alpha ^ 2 * (n + kappa)))
    ((alpha ^ 2 * (n + kappa) - n) / (alpha ^ 2 * (n + kappa)) + (1 - alpha ^ 2 + beta)) h ?_ sqrt hs⟩
  · unfold merwe
    simp only [e, e', h.ne', if_false]
    rfl
  · rfl
  · have := h.ne'
    generalize alpha ^ 2 * (n + kappa) = c at this ⊢
    field_simp
    ring

theorem encodes_julier (kappa : ℝ) (h : 0 < n + kappa)
    (sqrt : Mat n n → Except Err (Mat n n)) (hs : IsCholUpper sqrt) :
    ∃ p, julier n kappa sqrt = .ok p ∧ p.num = 2 * n + 1 ∧ Encodes p := by
  refine ⟨_, ?_, ?_, encodes_symmetric (n + kappa) (kappa / (n + kappa)) (kappa / (n + kappa)) h ?_
    sqrt hs⟩
  · unfold julier
    simp only [h.ne', if_false]
    rfl
  · rfl
  · have := h.ne'
    field_simp
    ring

theorem encodes_simplex (hn : 0 < n)
    (sqrt : Mat n n → Except Err (Mat n n)) (hs : IsCholUpper sqrt) :
    (simplex n sqrt).num = n + 1 ∧ Encodes (simplex n sqrt) := by
  obtain ⟨h0, h1⟩ := simplexI_moments hn
  have hne : (n : ℝ) + 1 ≠ 0 := by positivity
  refine ⟨rfl, ?_, ?_⟩
  · show ∑ _ : Fin (n + 1), (1 : ℝ) / (n + 1) = 1
    simp [Finset.sum_const]
    field_simp
  · intro x P hP
    obtain ⟨U, hU, hUU⟩ := hs P hP
    refine ⟨fun i => x - -(fun a => (Uᵀ * simplexI n) a i), by simp only [simplex, hU], ?_, ?_⟩
    · funext a
      show (∑ i : Fin (n + 1), ((1 : ℝ) / (n + 1)) •
        (x - -(fun a => (Uᵀ * simplexI n) a i))) a = x a
      have e : ∑ i, (Uᵀ * simplexI n) a i = 0 := by
        simp only [mul_apply]
        rw [Finset.sum_comm]
        simp only [← Finset.mul_sum, h0, mul_zero, Finset.sum_const_zero]
      simp only [Finset.sum_apply, Pi.smul_apply, Pi.sub_apply, Pi.neg_apply, Pi.add_apply,
        sub_neg_eq_add, smul_eq_mul, ← Finset.mul_sum, Finset.sum_add_distrib, e, add_zero, Finset.sum_const,
        Finset.card_univ, Fintype.card_fin, nsmul_eq_mul]
      push_cast
      field_simp
    · ext a b
      show ∑ i : Fin (n + 1), (1 : ℝ) / (n + 1) *
        (((x - -(fun a => (Uᵀ * simplexI n) a i)) a - x a) *
          ((x - -(fun a => (Uᵀ * simplexI n) a i)) b - x b)) = P a b
      simp only [Pi.sub_apply, Pi.neg_apply, sub_neg_eq_add, add_sub_cancel_left, ← Finset.mul_sum]
      have e : (Uᵀ * simplexI n) * (Uᵀ * simplexI n)ᵀ = ((n : ℝ) + 1) • P := by
        rw [transpose_mul, transpose_transpose, Matrix.mul_assoc, ← Matrix.mul_assoc (simplexI n),
          h1, smul_mul, Matrix.one_mul, mul_smul_comm, hUU]
      have e' := congrFun (congrFun e a) b
      rw [mul_apply] at e'
      simp only [transpose_apply, Matrix.smul_apply, smul_eq_mul] at e'
      rw [e']
      field_simp

/-- The unscented transform returns the weighted mean and covariance plus noise. -/
theorem ut_spec {k n : ℕ} (s : Mat k n) (Wm Wc : Vec k) (N : Option (Mat n n)) :
    unscentedTransform s Wm Wc N none none
      = (WMean Wm s, WCov Wc s (WMean Wm s) + N.getD 0) := by
  rw [ut_default, wcov_eq]; rfl

theorem encodes_ut (p : SigmaPts n) (h : Encodes p) (x : Vec n) (P : Mat n n) (hP : P.PosDef) :
    ∃ s, p.points x P = .ok s ∧ unscentedTransform s p.Wm p.Wc none none none = (x, P) := by
  obtain ⟨s, hs, hm, hc⟩ := h.pts x P hP
  refine ⟨s, hs, ?_⟩
  rw [ut_spec, hm, hc]
  simp

/-- **C23 (Merwe).** -/
theorem C23_merwe (alpha beta kappa : ℝ) (h : 0 < alpha ^ 2 * (n + kappa))
    (sqrt : Mat n n → Except Err (Mat n n)) (hs : IsCholUpper sqrt) :
    ∃ p, merwe n alpha beta kappa sqrt = .ok p ∧ p.num = 2 * n + 1 ∧ ∑ i, p.Wm i = 1 ∧
      ∀ (x : Vec n) (P : Mat n n), P.PosDef → ∃ s, p.points x P = .ok s ∧
        WMean p.Wm s = x ∧ WCov p.Wc s x = P ∧
        unscentedTransform s p.Wm p.Wc none none none = (x, P) := by
  obtain ⟨p, hp, hn, he⟩ := encodes_merwe alpha beta kappa h sqrt hs
  refine ⟨p, hp, hn, he.sum, fun x P hP => ?_⟩
  obtain ⟨s, h1, h2, h3⟩ := he.pts x P hP
  obtain ⟨s', h1', h4⟩ := encodes_ut p he x P hP
  obtain rfl : s = s' := Except.ok.inj (h1.symm.trans h1')
  exact ⟨s, h1, h2, h3, h4⟩

/-- **C23 (Julier).** -/
theorem C23_julier (kappa : ℝ) (h : 0 < n + kappa)
    (sqrt : Mat n n → Except Err (Mat n n)) (hs : IsCholUpper sqrt) :
    ∃ p, julier n kappa sqrt = .ok p ∧ p.num = 2 * n + 1 ∧ ∑ i, p.Wm i = 1 ∧
      ∀ (x : Vec n) (P : Mat n n), P.PosDef → ∃ s, p.points x P = .ok s ∧
        WMean p.Wm s = x ∧ WCov p.Wc s x = P ∧
        unscentedTransform s p.Wm p.Wc none none none = (x, P) := by
  obtain ⟨p, hp, hn, he⟩ := encodes_julier kappa h sqrt hs
  refine ⟨p, hp, hn, he.sum, fun x P hP => ?_⟩
  obtain ⟨s, h1, h2, h3⟩ := he.pts x P hP
  obtain ⟨s', h1', h4⟩ := encodes_ut p he x P hP
  obtain rfl : s = s' := Except.ok.inj (h1.symm.trans h1')
  exact ⟨s, h1, h2, h3, h4⟩

/-- **C23 (simplex).** -/
theorem C23_simplex (hn : 0 < n)
    (sqrt : Mat n n → Except Err (Mat n n)) (hs : IsCholUpper sqrt) :
    (simplex n sqrt).num = n + 1 ∧ ∑ i, (simplex n sqrt).Wm i = 1 ∧
      ∀ (x : Vec n) (P : Mat n n), P.PosDef → ∃ s, (simplex n sqrt).points x P = .ok s ∧
        WMean (simplex n sqrt).Wm s = x ∧ WCov (simplex n sqrt).Wc s x = P ∧
        unscentedTransform s (simplex n sqrt).Wm (simplex n sqrt).Wc none none none = (x, P) := by
  obtain ⟨hn, he⟩ := encodes_simplex hn sqrt hs
  refine ⟨hn, he.sum, fun x P hP => ?_⟩
  obtain ⟨s, h1, h2, h3⟩ := he.pts x P hP
  obtain ⟨s', h1', h4⟩ := encodes_ut _ he x P hP
  obtain rfl : s = s' := Except.ok.inj (h1.symm.trans h1')
  exact ⟨s, h1, h2, h3, h4⟩

/-- The parameters are inhabited: the usual choice `alpha = 0.1, beta = 2, kappa = 3 - n` is covered
for every dimension, and a square root routine meeting the contract exists. -/
example : ∃ sqrt : Mat 2 2 → Except Err (Mat 2 2), IsCholUpper sqrt ∧
    (0 : ℝ) < 0.1 ^ 2 * ((2 : ℕ) + 1) ∧ (0 : ℝ) < (2 : ℕ) + 1 ∧ (1 : Mat 2 2).PosDef := by
  obtain ⟨s, hs⟩ := cholUpper_exists (n := 2)
  exact ⟨s, hs, by norm_num, by norm_num, PosDef.one⟩

/-! ### C24 -/

theorem slow_eq {k n : ℕ} (s : Mat k n) (Wc : Vec k) (res : Vec n → Vec n → Vec n) (x : Vec n) :
    (List.finRange k).foldl (utStep s Wc res x) 0
      = ∑ i, Wc i • vecMulVec (res (s i) x) (res (s i) x) := by
  have h : ∀ (l : List (Fin k)) (A : Mat n n), l.foldl (utStep s Wc res x) A
      = A + (l.map fun i => Wc i • vecMulVec (res (s i) x) (res (s i) x)).sum := by
    intro l
    induction l with
    | nil => intro A; simp
    | cons a l ih =>
      intro A
      rw [List.foldl_cons, ih, List.map_cons, List.sum_cons]
      unfold utStep
      abel
  rw [h, zero_add, ← List.ofFn_eq_map, List.sum_ofFn]

/-- **C24 (two code paths).**  Passing an explicit residual function that subtracts gives the same
result as the vectorised default path, whatever the mean function and the noise. -/
theorem C24_fast_path {k n : ℕ} (s : Mat k n) (Wm Wc : Vec k) (N : Option (Mat n n))
    (meanFn : Option (Mat k n → Vec k → Vec n)) :
    unscentedTransform s Wm Wc N meanFn (some fun a b => a - b)
      = unscentedTransform s Wm Wc N meanFn none := by
  unfold unscentedTransform
  simp only [slow_eq]
  have h : ∀ x : Vec n, (∑ i, Wc i • vecMulVec (s i - x) (s i - x))
      = (mapRows (fun v => v - x) s)ᵀ * (diagonal Wc * mapRows (fun v => v - x) s) :=
    fun x => (fast_cov (mapRows (fun v => v - x) s) Wc).symm
  simp only [h]
  rfl

/-- **C24 (custom functions).**  With custom mean and residual functions, the result is the custom
mean and the weighted sum of the outer products of the custom residuals. -/
theorem C24_custom {k n : ℕ} (s : Mat k n) (Wm Wc : Vec k) (N : Option (Mat n n))
    (meanFn : Mat k n → Vec k → Vec n) (res : Vec n → Vec n → Vec n) :
    unscentedTransform s Wm Wc N (some meanFn) (some res)
      = (meanFn s Wm, WCov Wc (mapRows (fun v => res v (meanFn s Wm)) s) 0 + N.getD 0) := by
  unfold unscentedTransform
  simp only [slow_eq]
  rw [wcov_eq]
  simp only [mapRows, sub_zero]
  cases N <;> simp

theorem wmean_affine {k n m : ℕ} (s : Mat k n) (w : Vec k) (hw : ∑ i, w i = 1) (A : Mat m n)
    (b : Vec m) : WMean w (mapRows (fun v => A *ᵥ v + b) s) = A *ᵥ WMean w s + b := by
  unfold WMean mapRows
  simp only [smul_add, Finset.sum_add_distrib, ← Finset.sum_smul, hw, one_smul, mulVec_sum,
    mulVec_smul]

theorem wcov_affine {k n m : ℕ} (s : Mat k n) (w : Vec k) (c : Vec n) (A : Mat m n)
    (b : Vec m) : WCov w (mapRows (fun v => A *ᵥ v + b) s) (A *ᵥ c + b) = A * WCov w s c * Aᵀ := by
  rw [wcov_eq, wcov_eq, Matrix.mul_sum, Matrix.sum_mul]
  unfold mapRows
  refine Finset.sum_congr rfl fun i _ => ?_
  have : A *ᵥ s i + b - (A *ᵥ c + b) = A *ᵥ (s i - c) := by rw [mulVec_sub]; abel
  rw [this, Matrix.mul_smul, Matrix.smul_mul, mul_vecMulVec, vecMulVec_mul, vecMul_transpose]

/-- **C24 (affine maps).**  Pushing any point set whose weights sum to one through an affine map maps
the transform's mean by that map and its covariance by congruence, plus the noise. -/
theorem C24_affine {k n m : ℕ} (s : Mat k n) (Wm Wc : Vec k) (hw : ∑ i, Wm i = 1) (A : Mat m n)
    (b : Vec m) (N : Option (Mat m m)) :
    unscentedTransform (mapRows (fun v => A *ᵥ v + b) s) Wm Wc N none none
      = (A *ᵥ (unscentedTransform s Wm Wc none none none).1 + b,
         A * (unscentedTransform s Wm Wc none none none).2 * Aᵀ + N.getD 0) := by
  simp only [ut_spec, wmean_affine s Wm hw, wcov_affine, Option.getD_none, add_zero]

/-- **C24, used with a sigma point object.**  For an affine map, sigma points drawn from `(x, P)` give
exactly the mean and covariance of the affine image. -/
theorem C24_affine_exact {m : ℕ} (p : SigmaPts n) (h : Encodes p) (x : Vec n) (P : Mat n n)
    (hP : P.PosDef) (A : Mat m n) (b : Vec m) (N : Mat m m) :
    ∃ s, p.points x P = .ok s ∧
      unscentedTransform (mapRows (fun v => A *ᵥ v + b) s) p.Wm p.Wc (some N) none none
        = (A *ᵥ x + b, A * P * Aᵀ + N) := by
  obtain ⟨s, hs, hu⟩ := encodes_ut p h x P hP
  refine ⟨s, hs, ?_⟩
  rw [C24_affine s _ _ h.sum, hu]
  rfl

/-- Weights summing to one are necessary: a single point of weight 2, shifted by 1. -/
example : WMean (fun _ => 2 : Vec 1) (mapRows (fun v => (1 : Mat 1 1) *ᵥ v + 1) (0 : Mat 1 1))
    ≠ (1 : Mat 1 1) *ᵥ WMean (fun _ => 2 : Vec 1) (0 : Mat 1 1) + 1 := by
  intro h
  have := congrFun h 0
  simp [WMean, mapRows] at this

end Filterpy
