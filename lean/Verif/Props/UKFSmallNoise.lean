import Verif.Props.UKF
import Verif.Props.EnKFLimit
import Verif.Props.KalmanWrongStart
import Mathlib.Analysis.Calculus.FDeriv.Basic
import Mathlib.Analysis.Asymptotics.Lemmas
import Mathlib.Analysis.Calculus.FDeriv.Pi
import Mathlib.Analysis.SpecialFunctions.Trigonometric.Deriv

/-!
# C112: with small uncertainties the unscented filter is the linearised Kalman filter

The sigma points of a distribution with covariance of size `ε²` stay within a multiple of `ε` of its mean
(`points_bounded`), so a differentiable function acts on them as its Jacobian up to `o(ε)` (`push_limit`).
This carries through predictions and updates, hence through whole histories.
-/

namespace Filterpy

open Matrix SigmaPts Spec Filter Topology Asymptotics

variable {n m l k : ℕ} {p : SigmaPts n} {L : Filter ℝ}

theorem sq_col_le {U A : Mat n n} (h : Uᵀ * U = A) (i a : Fin n) : U i a ^ 2 ≤ A a a := by
  rw [← h, mul_apply]
  simp only [transpose_apply, ← sq]
  exact Finset.single_le_sum (f := fun j => U j a ^ 2) (fun j _ => sq_nonneg _) (Finset.mem_univ i)

theorem sym_bounded (c : ℝ) (x : Vec n) {U P : Mat n n} (h : Uᵀ * U = c • P) (hc : 0 ≤ c) (hP : P.PosDef)
    (i : Fin (2 * n + 1)) (a : Fin n) :
    (symmetricSet (fun a b => a - b) x U i a - x a) ^ 2 ≤ c * P a a := by
  have e : c * P a a = (c • P) a a := rfl
  have h0 : 0 ≤ c * P a a := mul_nonneg hc hP.posSemidef.diag_nonneg
  unfold symmetricSet
  split_ifs with h1 h2
  · simpa using h0
  · have := sq_col_le h ⟨i - 1, by omega⟩ a
    rw [e]
    simpa using this
  · have := sq_col_le h ⟨i - 1 - n, by omega⟩ a
    rw [e]
    simpa using this

/-- Sigma points stay within a fixed number of standard deviations of the mean. -/
theorem points_bounded (hp : ValidPoints p) : ∃ C : ℝ, 0 ≤ C ∧ ∀ x P, P.PosDef → ∀ s, p.points x P = .ok s →
    ∀ i a, (s i a - x a) ^ 2 ≤ C * P a a := by
  cases hp with
  | merwe alpha beta kappa sqrt _ hpos hs hp =>
    have e : (alpha ^ 2 * (n + kappa) - n) + (n : ℝ) = alpha ^ 2 * (n + kappa) := by ring
    refine ⟨_, hpos.le, ?_⟩
    unfold merwe at hp
    simp only [e] at hp
    split_ifs at hp
    obtain rfl := Except.ok.inj hp
    intro x P hP s hs' i a
    obtain ⟨U, hU, hUU⟩ := hs _ (hP.smul hpos)
    simp only [hU] at hs'
    obtain rfl := Except.ok.inj hs'
    exact sym_bounded _ x hUU hpos.le hP i a
  | julier kappa sqrt _ hpos hs hp =>
    refine ⟨_, hpos.le, ?_⟩
    unfold julier at hp
    split_ifs at hp
    obtain rfl := Except.ok.inj hp
    intro x P hP s hs' i a
    obtain ⟨U, hU, hUU⟩ := hs _ (hP.smul hpos)
    simp only [hU] at hs'
    obtain rfl := Except.ok.inj hs'
    exact sym_bounded _ x hUU hpos.le hP i a
  | simplex sqrt hn hs =>
    refine ⟨∑ i, ∑ j, simplexI n j i ^ 2, Finset.sum_nonneg fun _ _ => Finset.sum_nonneg fun _ _ => sq_nonneg _, ?_⟩
    intro x P hP s hs' i a
    obtain ⟨U, hU, hUU⟩ := hs _ hP
    simp only [simplex, hU] at hs'
    obtain rfl := Except.ok.inj hs'
    have e : ((x - -(fun a => (Uᵀ * simplexI n) a i)) a - x a) = ∑ j, U j a * simplexI n j i := by
      simp only [Pi.sub_apply, Pi.neg_apply, sub_neg_eq_add, add_sub_cancel_left]
      exact Matrix.mul_apply
    show ((x - -(fun a => (Uᵀ * simplexI n) a i)) a - x a) ^ 2 ≤ _
    rw [e]
    refine (Finset.sum_mul_sq_le_sq_mul_sq _ _ _).trans ?_
    have h1 : ∑ j, U j a ^ 2 = P a a := by
      rw [← hUU, mul_apply]; simp only [transpose_apply, ← sq]
    rw [h1, mul_comm]
    refine mul_le_mul_of_nonneg_right ?_ hP.posSemidef.diag_nonneg
    exact Finset.single_le_sum (f := fun i => ∑ j, simplexI n j i ^ 2)
      (fun j _ => Finset.sum_nonneg fun _ _ => sq_nonneg _) (Finset.mem_univ i)

/-- Symmetric matrices close to a positive definite one are positive definite. -/
theorem eventually_posDef {ι : Type*} {L : Filter ι} {A : ι → Mat n n} {B : Mat n n} (hB : B.PosDef) (hA : Tendsto A L (𝓝 B))
    (hs : ∀ᶠ e in L, (A e)ᵀ = A e) : ∀ᶠ e in L, (A e).PosDef := by
  obtain ⟨c, hc, h⟩ := PD.dominates (D := B) (P := (1 : Mat n n)) hB
  have h1 : Tendsto (fun e => ∑ a, ∑ b, |A e a b - B a b|) L (𝓝 0) := by
    have : (0 : ℝ) = ∑ a : Fin n, ∑ b : Fin n, |B a b - B a b| := by simp
    rw [this]
    refine tendsto_finsetSum _ fun a _ => tendsto_finsetSum _ fun b _ => ?_
    exact ((((continuous_apply_apply a b).tendsto B).comp hA).sub_const _).abs
  filter_upwards [hs, h1.eventually (gt_mem_nhds hc)] with e he1 he2
  refine Matrix.PosDef.of_dotProduct_mulVec_pos (by rwa [IsHermitian, conjTranspose_eq_transpose_of_trivial]) fun v hv => ?_
  have hvv : 0 < v ⬝ᵥ v := by
    rcases (dot_self_nonneg v).lt_or_eq with h | h
    · exact h
    · exact absurd (dotProduct_self_eq_zero.1 h.symm) hv
  have h2 := h v
  rw [one_mulVec] at h2
  have h3 : v ⬝ᵥ (A e *ᵥ v) = v ⬝ᵥ (B *ᵥ v) + ∑ a, ∑ b, (A e a b - B a b) * (v a * v b) := by
    simp only [dotProduct, mulVec, Finset.mul_sum, ← Finset.sum_add_distrib]
    refine Finset.sum_congr rfl fun a _ => Finset.sum_congr rfl fun b _ => ?_
    ring
  have h4 : -((∑ a, ∑ b, |A e a b - B a b|) * (v ⬝ᵥ v)) ≤ ∑ a, ∑ b, (A e a b - B a b) * (v a * v b) := by
    rw [Finset.sum_mul, ← Finset.sum_neg_distrib]
    refine Finset.sum_le_sum fun a _ => ?_
    rw [Finset.sum_mul, ← Finset.sum_neg_distrib]
    refine Finset.sum_le_sum fun b _ => ?_
    have h5 : |v a * v b| ≤ v ⬝ᵥ v := by
      have ha : v a ^ 2 ≤ v ⬝ᵥ v := by
        simp only [dotProduct, ← sq]
        exact Finset.single_le_sum (f := fun j => v j ^ 2) (fun j _ => sq_nonneg _) (Finset.mem_univ a)
      have hb : v b ^ 2 ≤ v ⬝ᵥ v := by
        simp only [dotProduct, ← sq]
        exact Finset.single_le_sum (f := fun j => v j ^ 2) (fun j _ => sq_nonneg _) (Finset.mem_univ b)
      rw [abs_le]; constructor <;> nlinarith [sq_nonneg (v a + v b), sq_nonneg (v a - v b)]
    have h6 : |(A e a b - B a b) * (v a * v b)| ≤ |A e a b - B a b| * (v ⬝ᵥ v) := by
      rw [abs_mul]
      exact mul_le_mul_of_nonneg_left h5 (abs_nonneg _)
    exact (abs_le.1 h6).1
  have h7 : star v = v := rfl
  rw [h7, h3]
  nlinarith

/-- A family of points whose differences from a linear image of a bounded family vanish: mean, covariance
and cross covariance tend to those of the linear image. -/
theorem ut_limit {Wm Wc : Vec k} {δ : ℝ → Mat k n} {g : ℝ → Mat k m} {A : Mat m n}
    (hb : ∀ i a, (fun e => δ e i a) =O[L] (fun _ => (1 : ℝ)))
    (hg : ∀ i b, Tendsto (fun e => g e i b - (A *ᵥ δ e i) b) L (𝓝 0))
    {c : Vec n} {P : Mat n n} (hm : Tendsto (fun e => WMean Wm (δ e)) L (𝓝 c))
    (hc : Tendsto (fun e => WCov Wc (δ e) (WMean Wm (δ e))) L (𝓝 P)) :
    Tendsto (fun e => WMean Wm (g e)) L (𝓝 (A *ᵥ c)) ∧
    Tendsto (fun e => WCov Wc (g e) (WMean Wm (g e))) L (𝓝 (A * P * Aᵀ)) ∧
    Tendsto (fun e => ∑ i, Wc i • vecMulVec (δ e i - WMean Wm (δ e)) (g e i - WMean Wm (g e))) L (𝓝 (P * Aᵀ)) := by
  -- the remainder of the mean
  have hr : ∀ b, Tendsto (fun e => WMean Wm (g e) b - (A *ᵥ WMean Wm (δ e)) b) L (𝓝 0) := by
    intro b
    have e1 : ∀ e, WMean Wm (g e) b - (A *ᵥ WMean Wm (δ e)) b = ∑ i, Wm i * (g e i b - (A *ᵥ δ e i) b) := by
      intro e
      unfold WMean
      rw [mulVec_sum, Finset.sum_apply, Finset.sum_apply, ← Finset.sum_sub_distrib]
      refine Finset.sum_congr rfl fun i _ => ?_
      rw [mulVec_smul]
      simp only [Pi.smul_apply, smul_eq_mul]
      ring
    simp only [e1]
    have : (0 : ℝ) = ∑ i, Wm i * 0 := by simp
    rw [this]
    exact tendsto_finsetSum _ fun i _ => (hg i b).const_mul _
  have hA : Tendsto (fun e => A *ᵥ WMean Wm (δ e)) L (𝓝 (A *ᵥ c)) :=
    ((continuous_const.matrix_mulVec continuous_id).tendsto c).comp hm
  -- deviations from the mean
  set d : Fin k → ℝ → Vec n := fun i e => δ e i - WMean Wm (δ e) with hd
  set r : Fin k → ℝ → Vec m := fun i e => (g e i - WMean Wm (g e)) - A *ᵥ d i e with hrdef
  have hr0 : ∀ i b, (fun e => r i e b) =o[L] (fun _ => (1 : ℝ)) := by
    intro i b
    rw [isLittleO_one_iff]
    have : (fun e => r i e b) = fun e => (g e i b - (A *ᵥ δ e i) b) - (WMean Wm (g e) b - (A *ᵥ WMean Wm (δ e)) b) := by
      funext e
      simp only [hrdef, hd, mulVec_sub, Pi.sub_apply]
      ring
    rw [this]
    simpa using (hg i b).sub (hr b)
  have hd1 : ∀ i a, (fun e => d i e a) =O[L] (fun _ => (1 : ℝ)) := by
    intro i a
    refine (hb i a).sub ?_
    exact (((continuous_apply a).tendsto c).comp hm).isBigO_one ℝ
  have hAd : ∀ i b, (fun e => (A *ᵥ d i e) b) =O[L] (fun _ => (1 : ℝ)) := by
    intro i b
    simp only [mulVec, dotProduct]
    have h : ∀ a ∈ Finset.univ, (fun e => A b a * d i e a) =O[L] (fun _ => (1 : ℝ)) :=
      fun a _ => (hd1 i a).const_mul_left _
    exact IsBigO.fun_sum h
  have hsplit : ∀ i e, g e i - WMean Wm (g e) = A *ᵥ d i e + r i e := by
    intro i e; simp only [hrdef]; abel
  have mulz : ∀ {f q : ℝ → ℝ}, f =O[L] (fun _ => (1 : ℝ)) → q =o[L] (fun _ => (1 : ℝ)) →
      Tendsto (fun e => f e * q e) L (𝓝 0) := by
    intro f q hf hq
    have := hf.mul_isLittleO hq
    simpa [isLittleO_one_iff] using this
  refine ⟨?_, ?_, ?_⟩
  · refine tendsto_pi_nhds.2 fun b => ?_
    have := (hr b).add (((continuous_apply b).tendsto _).comp hA)
    simpa using this
  · refine tendsto_pi_nhds.2 fun a => tendsto_pi_nhds.2 fun b => ?_
    have hlin : Tendsto (fun e => (A * WCov Wc (δ e) (WMean Wm (δ e)) * Aᵀ) a b) L (𝓝 ((A * P * Aᵀ) a b)) :=
      ((continuous_apply_apply a b).tendsto _).comp
        ((((continuous_const.matrix_mul continuous_id).matrix_mul continuous_const).tendsto P).comp hc)
    have hrem : Tendsto (fun e => ∑ i, Wc i * ((A *ᵥ d i e) a * r i e b + (A *ᵥ d i e) b * r i e a + r i e a * r i e b))
        L (𝓝 0) := by
      have : (0 : ℝ) = ∑ i, Wc i * (0 + 0 + 0) := by simp
      rw [this]
      exact tendsto_finsetSum _ fun i _ => (((mulz (hAd i a) (hr0 i b)).add (mulz (hAd i b) (hr0 i a))).add
        (mulz (hr0 i a).isBigO (hr0 i b))).const_mul _
    have := hlin.add hrem
    rw [add_zero] at this
    refine this.congr fun e => ?_
    have e1 : A * WCov Wc (δ e) (WMean Wm (δ e)) * Aᵀ
        = ∑ i, Wc i • vecMulVec (A *ᵥ d i e) (A *ᵥ d i e) := by
      rw [wcov_eq, Matrix.mul_sum, Matrix.sum_mul]
      refine Finset.sum_congr rfl fun i _ => ?_
      rw [Matrix.mul_smul, Matrix.smul_mul, mul_vecMulVec, vecMulVec_mul, vecMul_transpose]
    rw [e1, Matrix.sum_apply, ← Finset.sum_add_distrib]
    unfold WCov
    refine Finset.sum_congr rfl fun i _ => ?_
    have h1 := congrFun (hsplit i e) a
    have h2 := congrFun (hsplit i e) b
    simp only [Pi.sub_apply, Pi.add_apply] at h1 h2
    rw [h1, h2]
    simp only [Matrix.smul_apply, vecMulVec_apply, smul_eq_mul]
    ring
  · refine tendsto_pi_nhds.2 fun a => tendsto_pi_nhds.2 fun b => ?_
    have hlin : Tendsto (fun e => (WCov Wc (δ e) (WMean Wm (δ e)) * Aᵀ) a b) L (𝓝 ((P * Aᵀ) a b)) :=
      ((continuous_apply_apply a b).tendsto _).comp
        (((continuous_id.matrix_mul continuous_const).tendsto P).comp hc)
    have hrem : Tendsto (fun e => ∑ i, Wc i * (d i e a * r i e b)) L (𝓝 0) := by
      have : (0 : ℝ) = ∑ i, Wc i * 0 := by simp
      rw [this]
      exact tendsto_finsetSum _ fun i _ => (mulz (hd1 i a) (hr0 i b)).const_mul _
    have := hlin.add hrem
    rw [add_zero] at this
    refine this.congr fun e => ?_
    have e1 : WCov Wc (δ e) (WMean Wm (δ e)) * Aᵀ = ∑ i, Wc i • vecMulVec (d i e) (A *ᵥ d i e) := by
      rw [wcov_eq, Matrix.sum_mul]
      refine Finset.sum_congr rfl fun i _ => ?_
      rw [Matrix.smul_mul, vecMulVec_mul, vecMul_transpose]
    rw [e1, Matrix.sum_apply, Matrix.sum_apply, ← Finset.sum_add_distrib]
    refine Finset.sum_congr rfl fun i _ => ?_
    rw [hsplit i e]
    simp only [Matrix.smul_apply, vecMulVec_apply, smul_eq_mul, Pi.add_apply]
    show Wc i * (d i e a * _) + _ = Wc i * (d i e a * _)
    ring

/-- The Jacobian of `f` at `x` is the matrix `A`. -/
def HasJacobian (f : Vec n → Vec m) (A : Mat m n) (x : Vec n) : Prop :=
  HasFDerivAt f (LinearMap.toContinuousLinearMap (Matrix.mulVecLin A)) x

theorem jac_limit {f : Vec n → Vec m} {A : Mat m n} {x : Vec n} (hf : HasJacobian f A x)
    (h0 : Tendsto (fun e : ℝ => e) L (𝓝 0)) (hpos : ∀ᶠ e in L, 0 < e) {d : ℝ → Vec n}
    (hb : ∀ a, (fun e => d e a) =O[L] (fun _ => (1 : ℝ))) (b : Fin m) :
    Tendsto (fun e => (e⁻¹ • (f (x + e • d e) - f x)) b - (A *ᵥ d e) b) L (𝓝 0) := by
  have hd : d =O[L] (fun _ => (1 : ℝ)) := isBigO_pi.2 hb
  have he : (fun e : ℝ => e • d e) =O[L] (fun e : ℝ => e) := by
    have := (isBigO_refl (fun e : ℝ => e) L).smul hd
    simpa using this
  have hv : Tendsto (fun e => x + e • d e) L (𝓝 x) := by
    have : Tendsto (fun e : ℝ => e • d e) L (𝓝 0) := he.trans_tendsto h0
    simpa using this.const_add x
  have h1 := (hf.isLittleO.comp_tendsto hv)
  have h2 : (fun e => f (x + e • d e) - f x - A *ᵥ (e • d e)) =o[L] (fun e : ℝ => e) := by
    refine IsLittleO.trans_isBigO ?_ he
    refine h1.congr' (Eventually.of_forall fun e => ?_) (Eventually.of_forall fun e => ?_)
    · simp [Function.comp, mulVec_smul]
    · simp [Function.comp]
  have h3 := h2.tendsto_inv_smul_nhds_zero
  have h4 := (((continuous_apply b).tendsto _).comp h3)
  refine Tendsto.congr' ?_ h4
  filter_upwards [hpos] with e hep
  simp only [Function.comp, Pi.smul_apply, Pi.sub_apply, mulVec_smul, smul_eq_mul]
  field_simp

/-- The sigma points of `(x, P)`. -/
def drawn (p : SigmaPts n) (x : Vec n) (P : Mat n n) : Mat p.num n :=
  match p.points x P with
  | .ok s => s
  | .error _ => 0

theorem drawn_ok (he : Encodes p) {x : Vec n} {P : Mat n n} (hP : P.PosDef) :
    p.points x P = .ok (drawn p x P) ∧ WMean p.Wm (drawn p x P) = x ∧ WCov p.Wc (drawn p x P) x = P := by
  obtain ⟨s, hs, h1, h2⟩ := he.pts x P hP
  have : drawn p x P = s := by simp only [drawn, hs]
  rw [this]
  exact ⟨hs, h1, h2⟩

theorem wmean_scale {Wm : Vec k} (hw : ∑ i, Wm i = 1) (s : Mat k n) (c : Vec n) (t : ℝ) :
    WMean Wm (fun i => t • (s i - c)) = t • (WMean Wm s - c) := by
  unfold WMean
  have e : c = ∑ i, Wm i • c := by rw [← Finset.sum_smul, hw, one_smul]
  conv_rhs => rw [e, ← Finset.sum_sub_distrib, Finset.smul_sum]
  refine Finset.sum_congr rfl fun i _ => ?_
  rw [smul_comm, smul_sub (Wm i)]

theorem wcov_scale {Wc : Vec k} (s : Mat k n) (c d : Vec n) (t : ℝ) :
    WCov Wc (fun i => t • (s i - c)) (t • (d - c)) = t ^ 2 • WCov Wc s d := by
  ext a b
  show ∑ i, Wc i * ((t * (s i a - c a) - t * (d a - c a)) * (t * (s i b - c b) - t * (d b - c b)))
    = t ^ 2 * ∑ i, Wc i * ((s i a - d a) * (s i b - d b))
  rw [Finset.mul_sum]
  refine Finset.sum_congr rfl fun i _ => ?_
  ring

/-- Sigma points of a shrinking distribution, pushed through a differentiable function. -/
theorem push_limit (hp : ValidPoints p) (h0 : Tendsto (fun e : ℝ => e) L (𝓝 0)) (hpos : ∀ᶠ e in L, 0 < e)
    {x : ℝ → Vec n} {P : ℝ → Mat n n} {xb ξ : Vec n} {P0 : Mat n n}
    (hx : Tendsto (fun e => e⁻¹ • (x e - xb)) L (𝓝 ξ)) (hP : Tendsto (fun e => (e⁻¹) ^ 2 • P e) L (𝓝 P0))
    (hpd : ∀ᶠ e in L, (P e).PosDef) {f : Vec n → Vec m} {A : Mat m n} (hf : HasJacobian f A xb) :
    Tendsto (fun e => e⁻¹ • (WMean p.Wm (UKF.pushRows f (drawn p (x e) (P e))) - f xb)) L (𝓝 (A *ᵥ ξ)) ∧
    Tendsto (fun e => (e⁻¹) ^ 2 • WCov p.Wc (UKF.pushRows f (drawn p (x e) (P e)))
      (WMean p.Wm (UKF.pushRows f (drawn p (x e) (P e))))) L (𝓝 (A * P0 * Aᵀ)) ∧
    Tendsto (fun e => (e⁻¹) ^ 2 • ∑ i, p.Wc i • vecMulVec (drawn p (x e) (P e) i - x e)
      (f (drawn p (x e) (P e) i) - WMean p.Wm (UKF.pushRows f (drawn p (x e) (P e))))) L (𝓝 (P0 * Aᵀ)) := by
  have he := hp.encodes
  obtain ⟨C, hC, hbd⟩ := points_bounded hp
  set s : ℝ → Mat p.num n := fun e => drawn p (x e) (P e) with hs
  set δ : ℝ → Mat p.num n := fun e i => e⁻¹ • (s e i - xb) with hδ
  set g : ℝ → Mat p.num m := fun e i => e⁻¹ • (f (s e i) - f xb) with hg
  have hmean : ∀ᶠ e in L, WMean p.Wm (δ e) = e⁻¹ • (x e - xb) := by
    filter_upwards [hpd] with e h
    rw [hδ, wmean_scale he.sum, (drawn_ok he h).2.1]
  have hcov : ∀ᶠ e in L, WCov p.Wc (δ e) (WMean p.Wm (δ e)) = (e⁻¹) ^ 2 • P e := by
    filter_upwards [hpd, hmean] with e h h'
    rw [h', hδ, wcov_scale, (drawn_ok he h).2.2]
  have hb : ∀ i a, (fun e => δ e i a) =O[L] (fun _ => (1 : ℝ)) := by
    intro i a
    have h1 : (fun e => e⁻¹ * (s e i a - x e a)) =O[L] (fun _ => (1 : ℝ)) := by
      have h2 : (fun e => C * ((e⁻¹) ^ 2 • P e) a a) =O[L] (fun _ => (1 : ℝ)) :=
        ((((continuous_apply_apply a a).tendsto P0).comp hP).const_mul C).isBigO_one ℝ
      have h3 : (fun e => (e⁻¹ * (s e i a - x e a)) ^ 2) =O[L] (fun _ => (1 : ℝ)) := by
        refine IsBigO.trans (IsBigO.of_bound 1 ?_) h2
        filter_upwards [hpd] with e h
        have := hbd (x e) _ h _ (drawn_ok he h).1 i a
        rw [one_mul, Real.norm_of_nonneg (sq_nonneg _)]
        refine le_trans ?_ (le_abs_self _)
        rw [mul_pow]
        simp only [Matrix.smul_apply, smul_eq_mul]
        have h5 := mul_le_mul_of_nonneg_left this (sq_nonneg e⁻¹)
        simp only [hs]
        linarith
      have h4 : (fun e => (e⁻¹ * (s e i a - x e a)) ^ 2) =O[L] (fun _ => (1 : ℝ) ^ 2) := by simpa using h3
      exact h4.of_pow two_ne_zero
    have h2 : (fun e => (e⁻¹ • (x e - xb)) a) =O[L] (fun _ => (1 : ℝ)) :=
      (((continuous_apply a).tendsto ξ).comp hx).isBigO_one ℝ
    refine (h1.add h2).congr_left fun e => ?_
    simp only [hδ, Pi.smul_apply, Pi.sub_apply, smul_eq_mul]
    ring
  have hgl : ∀ i b, Tendsto (fun e => g e i b - (A *ᵥ δ e i) b) L (𝓝 0) := by
    intro i b
    refine (jac_limit hf h0 hpos (d := fun e => δ e i) (hb i) b).congr' ?_
    filter_upwards [hpos] with e h
    have : xb + e • δ e i = s e i := by
      simp only [hδ, smul_smul, mul_inv_cancel₀ h.ne', one_smul]
      abel
    rw [this]
  obtain ⟨r1, r2, r3⟩ := ut_limit (Wm := p.Wm) (Wc := p.Wc) hb hgl
    (hx.congr' (hmean.mono fun e h => h.symm)) (hP.congr' (hcov.mono fun e h => h.symm))
  have gm : ∀ e, WMean p.Wm (g e) = e⁻¹ • (WMean p.Wm (UKF.pushRows f (s e)) - f xb) :=
    fun e => wmean_scale he.sum (UKF.pushRows f (s e)) (f xb) e⁻¹
  refine ⟨r1.congr gm, r2.congr fun e => ?_, r3.congr' ?_⟩
  · rw [gm]
    exact wcov_scale (UKF.pushRows f (s e)) (f xb) _ e⁻¹
  · filter_upwards [hmean] with e h
    rw [gm, h, Finset.smul_sum]
    refine Finset.sum_congr rfl fun i _ => ?_
    have e1 : δ e i - e⁻¹ • (x e - xb) = e⁻¹ • (s e i - x e) := by
      simp only [hδ, ← smul_sub]; congr 1; abel
    have e2 : g e i - e⁻¹ • (WMean p.Wm (UKF.pushRows f (s e)) - f xb)
        = e⁻¹ • (f (s e i) - WMean p.Wm (UKF.pushRows f (s e))) := by
      simp only [hg, ← smul_sub]; congr 1; abel
    rw [e1, e2, smul_vecMulVec, vecMulVec_smul]
    simp only [smul_smul]
    congr 1
    ring

/-- The unscented filters `u ε` follow, at scale `ε`, the Kalman filter `k` around the point `xb`: their
noises are `ε²` times those of `k`, `(x - xb)/ε` tends to the state of `k`, `P/ε²` to its covariance, and
likewise for the gain and the innovation covariance. -/
structure Follows (L : Filter ℝ) (u0 : UKF n m p) (u : ℝ → UKF n m p) (xb : Vec n) (k : KF n m l) : Prop where
  fx : ∀ᶠ e in L, (u e).fx = u0.fx
  hx : ∀ᶠ e in L, (u e).hx = u0.hx
  dt : ∀ᶠ e in L, (u e).dt = u0.dt
  plain : ∀ᶠ e in L, (u e).xMean = none ∧ (u e).zMean = none ∧ (u e).residualX = none ∧
    (u e).residualZ = none ∧ (u e).stateAdd = none ∧ ∀ {j : ℕ} (A : Mat j j), (u e).inv A = npInv A
  Q : ∀ᶠ e in L, (u e).Q = e ^ 2 • k.Q
  R : ∀ᶠ e in L, (u e).R = e ^ 2 • k.R
  symm : ∀ᶠ e in L, (u e).Pᵀ = (u e).P
  x : Tendsto (fun e => e⁻¹ • ((u e).x - xb)) L (𝓝 k.x)
  P : Tendsto (fun e => (e⁻¹) ^ 2 • (u e).P) L (𝓝 k.P)
  K : Tendsto (fun e => (u e).K) L (𝓝 k.K)
  S : Tendsto (fun e => (e⁻¹) ^ 2 • (u e).S) L (𝓝 k.S)

/-- A Kalman filter with positive definite covariances and the standard inverse. -/
structure Proper (k : KF n m l) : Prop where
  inv : k.inv = npInv
  alpha : k.alphaSq = 1
  P : k.P.PosDef
  Q : k.Q.PosDef
  R : k.R.PosDef

theorem scale_pd {e : ℝ} (he : 0 < e) {A : Mat n n} : (((e⁻¹) ^ 2 • A).PosDef ↔ A.PosDef) := by
  constructor
  · intro h
    have := h.smul (show 0 < e ^ 2 by positivity)
    rwa [smul_smul, ← mul_pow, mul_inv_cancel₀ he.ne', one_pow, one_smul] at this
  · intro h
    exact h.smul (by positivity)

theorem wcov_symm (w : Vec k) (s : Mat k n) (c : Vec n) : (WCov w s c)ᵀ = WCov w s c := by
  ext a b
  show ∑ i, w i * ((s i b - c b) * (s i a - c a)) = ∑ i, w i * ((s i a - c a) * (s i b - c b))
  refine Finset.sum_congr rfl fun i _ => ?_
  ring

theorem follows_pd (hpos : ∀ᶠ e in L, 0 < e) {u : ℝ → UKF n m p} {P0 : Mat n n} (hP : P0.PosDef)
    (hs : ∀ᶠ e in L, (u e).Pᵀ = (u e).P) (ht : Tendsto (fun e => (e⁻¹) ^ 2 • (u e).P) L (𝓝 P0)) :
    ∀ᶠ e in L, (u e).P.PosDef := by
  have := eventually_posDef hP ht (by filter_upwards [hs] with e h; rw [transpose_smul, h])
  filter_upwards [this, hpos] with e h1 h2
  exact (scale_pd h2).1 h1

theorem follows_predict (hp : ValidPoints p) (h0 : Tendsto (fun e : ℝ => e) L (𝓝 0)) (hpos : ∀ᶠ e in L, 0 < e)
    {u0 : UKF n m p} {u : ℝ → UKF n m p} {xb : Vec n} {k : KF n m l} (h : Follows L u0 u xb k) (hk : Proper k)
    {F : Mat n n} (hF : HasJacobian (fun v => u0.fx v u0.dt) F xb) :
    ∃ k' u', k.predict .none none (some F) = .ok k' ∧ (∀ᶠ e in L, (u e).predict = .ok (u' e)) ∧
      Follows L u0 u' (u0.fx xb u0.dt) k' ∧ Proper k' ∧ k'.H = k.H ∧
      ∀ᶠ e in L, (u' e).sigmasF = drawn p (u' e).x (u' e).P := by
  have he := hp.encodes
  have hpd := follows_pd hpos hk.P h.symm h.P
  obtain ⟨r1, r2, -⟩ := push_limit hp h0 hpos h.x h.P hpd hF
  set f : Vec n → Vec n := fun v => u0.fx v u0.dt with hf
  set x1 : ℝ → Vec n := fun e => WMean p.Wm (UKF.pushRows f (drawn p (u e).x (u e).P)) with hx1
  set P1 : ℝ → Mat n n := fun e => WCov p.Wc (UKF.pushRows f (drawn p (u e).x (u e).P)) (x1 e) + (u e).Q with hP1
  have hPd' : (F * k.P * Fᵀ + k.Q).PosDef := Matrix.PosDef.posSemidef_add (PSD.congr hk.P.posSemidef _) hk.Q
  have hP1t : Tendsto (fun e => (e⁻¹) ^ 2 • P1 e) L (𝓝 (F * k.P * Fᵀ + k.Q)) := by
    have := r2.add (tendsto_const_nhds (x := k.Q))
    refine this.congr' ?_
    filter_upwards [h.Q, hpos] with e hq hp'
    rw [hP1]
    simp only [smul_add, hq, smul_smul, ← mul_pow, inv_mul_cancel₀ hp'.ne', one_pow, one_smul]
    rfl
  have hP1s : ∀ᶠ e in L, (P1 e)ᵀ = P1 e := by
    filter_upwards [h.Q] with e hq
    simp only [hP1, transpose_add, wcov_symm, hq, transpose_smul, PD.symm hk.Q]
  have hP1d : ∀ᶠ e in L, (P1 e).PosDef := by
    have := eventually_posDef hPd' hP1t (by filter_upwards [hP1s] with e h; rw [transpose_smul, h])
    filter_upwards [this, hpos] with e h1 h2
    exact (scale_pd h2).1 h1
  refine ⟨{ k with
      x := F *ᵥ k.x
      P := F * k.P * Fᵀ + k.Q
      xPrior := F *ᵥ k.x
      PPrior := F * k.P * Fᵀ + k.Q }, fun e => { u e with
      x := x1 e, P := P1 e, sigmasF := drawn p (x1 e) (P1 e), xPrior := x1 e, PPrior := P1 e },
    ?_, ?_, ?_, ⟨hk.inv, hk.alpha, hPd', hk.Q, hk.R⟩, rfl, Eventually.of_forall fun e => rfl⟩
  · simp only [KF.predict, KF.control, MatArg.resolve, hk.alpha, one_smul, Option.getD_some, Option.or]
    cases k.B <;> rfl
  · filter_upwards [hpd, hP1d, h.fx, h.dt, h.plain] with e g1 g2 g3 g4 g5
    obtain ⟨q1, -, q3, -⟩ := g5
    simp only [UKF.predict, UKF.computeProcessSigmas, (drawn_ok he g1).1, UKF.predictUT, Option.getD_none,
      g3, g4, q1, q3, ut_spec, Option.getD_some]
    have := (drawn_ok he (x := x1 e) g2).1
    simp only [hP1, hx1, hf] at this
    rw [this]
  · exact { h with symm := hP1s, x := r1, P := hP1t }

theorem follows_none {u0 : UKF n m p} {u : ℝ → UKF n m p} {xb : Vec n} {k : KF n m l} (h : Follows L u0 u xb k)
    (hk : Proper k) (H : Option (Mat m n)) :
    ∃ k' u', k.update none .none H = .ok k' ∧ (∀ᶠ e in L, (u e).update none = .ok (u' e)) ∧
      Follows L u0 u' xb k' ∧ Proper k' := by
  refine ⟨_, fun e => _, rfl, Eventually.of_forall fun e => rfl, ?_, ⟨hk.inv, hk.alpha, hk.P, hk.Q, hk.R⟩⟩
  exact { h with }

/-- `update` with the default helpers, written with the weighted moments of the points. -/
theorem ukf_update_plain (u : UKF n m p) (h2 : u.zMean = none) (h3 : u.residualX = none)
    (h4 : u.residualZ = none) (h5 : u.stateAdd = none) (h6 : ∀ {j : ℕ} (A : Mat j j), u.inv A = npInv A)
    (z : Vec m) {SI : Mat m m}
    (hi : npInv (WCov p.Wc (UKF.pushRows u.hx u.sigmasF) (WMean p.Wm (UKF.pushRows u.hx u.sigmasF)) + u.R) = some SI) :
    u.update (some z) = .ok { u with
      hx := u.hx, sigmasF := u.sigmasF
      sigmasH := UKF.pushRows u.hx u.sigmasF
      S := WCov p.Wc (UKF.pushRows u.hx u.sigmasF) (WMean p.Wm (UKF.pushRows u.hx u.sigmasF)) + u.R
      SI := SI
      K := (∑ i, p.Wc i • vecMulVec (u.sigmasF i - u.x)
        (u.hx (u.sigmasF i) - WMean p.Wm (UKF.pushRows u.hx u.sigmasF))) * SI
      y := z - WMean p.Wm (UKF.pushRows u.hx u.sigmasF)
      x := u.x + ((∑ i, p.Wc i • vecMulVec (u.sigmasF i - u.x)
        (u.hx (u.sigmasF i) - WMean p.Wm (UKF.pushRows u.hx u.sigmasF))) * SI) *ᵥ
          (z - WMean p.Wm (UKF.pushRows u.hx u.sigmasF))
      P := u.P - (∑ i, p.Wc i • vecMulVec (u.sigmasF i - u.x)
        (u.hx (u.sigmasF i) - WMean p.Wm (UKF.pushRows u.hx u.sigmasF))) * SI *
          ((WCov p.Wc (UKF.pushRows u.hx u.sigmasF) (WMean p.Wm (UKF.pushRows u.hx u.sigmasF)) + u.R) *
          ((∑ i, p.Wc i • vecMulVec (u.sigmasF i - u.x)
        (u.hx (u.sigmasF i) - WMean p.Wm (UKF.pushRows u.hx u.sigmasF))) * SI)ᵀ)
      z := fun i => some (z i)
      xPost := u.x + ((∑ i, p.Wc i • vecMulVec (u.sigmasF i - u.x)
        (u.hx (u.sigmasF i) - WMean p.Wm (UKF.pushRows u.hx u.sigmasF))) * SI) *ᵥ
          (z - WMean p.Wm (UKF.pushRows u.hx u.sigmasF))
      PPost := u.P - (∑ i, p.Wc i • vecMulVec (u.sigmasF i - u.x)
        (u.hx (u.sigmasF i) - WMean p.Wm (UKF.pushRows u.hx u.sigmasF))) * SI *
          ((WCov p.Wc (UKF.pushRows u.hx u.sigmasF) (WMean p.Wm (UKF.pushRows u.hx u.sigmasF)) + u.R) *
          ((∑ i, p.Wc i • vecMulVec (u.sigmasF i - u.x)
        (u.hx (u.sigmasF i) - WMean p.Wm (UKF.pushRows u.hx u.sigmasF))) * SI)ᵀ)
      logLik := none, lik := none, mahal := none } := by
  have hc : UKF.crossVariance p.Wc (resFn none) (resFn none) u.x (WMean p.Wm (UKF.pushRows u.hx u.sigmasF)) u.sigmasF
        (UKF.pushRows u.hx u.sigmasF) = ∑ i, p.Wc i • vecMulVec (u.sigmasF i - u.x)
        (u.hx (u.sigmasF i) - WMean p.Wm (UKF.pushRows u.hx u.sigmasF)) := crossVariance_eq _ _ _ _ _ _ _
  simp only [UKF.update, Option.getD_none, h2, h3, h4, h5, h6, ut_spec, MatArg.resolve, Option.getD_some, hi, hc]
  simp only [resFn, Option.getD_none]

theorem follows_update (hp : ValidPoints p) (h0 : Tendsto (fun e : ℝ => e) L (𝓝 0)) (hpos : ∀ᶠ e in L, 0 < e)
    {u0 : UKF n m p} {u : ℝ → UKF n m p} {xb : Vec n} {k : KF n m l} (h : Follows L u0 u xb k) (hk : Proper k)
    (hr : ∀ᶠ e in L, (u e).sigmasF = drawn p (u e).x (u e).P)
    {H : Mat m n} (hH : HasJacobian u0.hx H xb) (ζ : Vec m) :
    ∃ k' u', k.update (some ζ) .none (some H) = .ok k' ∧
      (∀ᶠ e in L, (u e).update (some (u0.hx xb + e • ζ)) = .ok (u' e)) ∧
      Follows L u0 u' xb k' ∧ Proper k' ∧ Tendsto (fun e => e⁻¹ • (u' e).y) L (𝓝 k'.y) := by
  have he := hp.encodes
  have hpd := follows_pd hpos hk.P h.symm h.P
  obtain ⟨r1, r2, r3⟩ := push_limit hp h0 hpos h.x h.P hpd hH
  set sg : ℝ → Mat p.num n := fun e => drawn p (u e).x (u e).P with hsg
  set zp : ℝ → Vec m := fun e => WMean p.Wm (UKF.pushRows u0.hx (sg e)) with hzp
  set S1 : ℝ → Mat m m := fun e => WCov p.Wc (UKF.pushRows u0.hx (sg e)) (zp e) + (u e).R with hS1
  set X1 : ℝ → Mat n m := fun e => ∑ i, p.Wc i • vecMulVec (sg e i - (u e).x) (u0.hx (sg e i) - zp e) with hX1
  set y1 : ℝ → Vec m := fun e => u0.hx xb + e • ζ - zp e with hy1
  set S0 : Mat m m := H * (k.P * Hᵀ) + k.R with hS0
  have hSpd : S0.PosDef := S_pd hk.P.posSemidef hk.R
  have hS1t : Tendsto (fun e => (e⁻¹) ^ 2 • S1 e) L (𝓝 S0) := by
    have := r2.add (tendsto_const_nhds (x := k.R))
    rw [Matrix.mul_assoc] at this
    refine this.congr' ?_
    filter_upwards [h.R, hpos] with e hq hp'
    rw [hS1]
    simp only [smul_add, hq, smul_smul, ← mul_pow, inv_mul_cancel₀ hp'.ne', one_pow, one_smul]
    rfl
  have hS1s : ∀ᶠ e in L, (S1 e)ᵀ = S1 e := by
    filter_upwards [h.R] with e hq
    simp only [hS1, transpose_add, wcov_symm, hq, transpose_smul, PD.symm hk.R]
  have hS1d : ∀ᶠ e in L, (S1 e).PosDef := by
    have := eventually_posDef hSpd hS1t (by filter_upwards [hS1s] with e h; rw [transpose_smul, h])
    filter_upwards [this, hpos] with e h1 h2
    exact (scale_pd h2).1 h1
  have hKt : Tendsto (fun e => X1 e * (S1 e)⁻¹) L (𝓝 (k.P * Hᵀ * S0⁻¹)) := by
    have := tendsto_mmul r3 (tendsto_minv hS1t (PD.det_ne hSpd))
    refine this.congr' ?_
    filter_upwards [hS1d, hpos] with e g1 g2
    have hne : (e⁻¹) ^ 2 ≠ 0 := by positivity
    have e1 : ((e⁻¹) ^ 2 • S1 e)⁻¹ = ((e⁻¹) ^ 2)⁻¹ • (S1 e)⁻¹ := by
      refine Matrix.inv_eq_left_inv ?_
      rw [Matrix.smul_mul, Matrix.mul_smul, smul_smul, inv_mul_cancel₀ hne, one_smul,
        nonsing_inv_mul _ (PD.isUnit_det g1)]
    rw [e1, Matrix.smul_mul, Matrix.mul_smul, smul_smul, mul_inv_cancel₀ hne, one_smul]
  have hyt : Tendsto (fun e => e⁻¹ • y1 e) L (𝓝 (ζ - H *ᵥ k.x)) := by
    have := (tendsto_const_nhds (x := ζ)).sub r1
    refine this.congr' ?_
    filter_upwards [hpos] with e g
    have e1 : y1 e = e • ζ - (zp e - u0.hx xb) := by simp only [hy1]; abel
    rw [e1, smul_sub e⁻¹ (e • ζ), smul_smul, inv_mul_cancel₀ g.ne', one_smul]
  obtain ⟨k', hk', hpd', hS', -⟩ := C02_bayes_product k ζ .none (some H) hk.inv hk.P hk.R
  obtain ⟨SI, h1, rfl⟩ := KF.update_ok hk'
  have hSi : npInv S0 = some S0⁻¹ := npInv_of_det_ne (PD.det_ne hSpd)
  simp only [Option.getD_some, MatArg.resolve, hk.inv] at h1
  have h2 : SI = S0⁻¹ := (Option.some.inj (hSi.symm.trans h1)).symm
  subst h2
  have hJ := joseph_opt (P := k.P) (H := H) (R := k.R) (PD.symm hk.P) rfl
    (nonsing_inv_mul _ (PD.isUnit_det hSpd)) (inv_symm (PD.symm hSpd)) rfl
  refine ⟨_, fun e => { u e with
      hx := u0.hx, sigmasF := sg e, sigmasH := UKF.pushRows u0.hx (sg e), S := S1 e, SI := (S1 e)⁻¹, K := X1 e * (S1 e)⁻¹, y := y1 e
      x := (u e).x + (X1 e * (S1 e)⁻¹) *ᵥ y1 e
      P := (u e).P - X1 e * (S1 e)⁻¹ * (S1 e * (X1 e * (S1 e)⁻¹)ᵀ)
      z := fun i => some ((u0.hx xb + e • ζ) i)
      xPost := (u e).x + (X1 e * (S1 e)⁻¹) *ᵥ y1 e
      PPost := (u e).P - X1 e * (S1 e)⁻¹ * (S1 e * (X1 e * (S1 e)⁻¹)ᵀ)
      logLik := none, lik := none, mahal := none }, hk', ?_, ?_, ⟨hk.inv, hk.alpha, hpd', hk.Q, hk.R⟩, hyt⟩
  · filter_upwards [hS1d, h.hx, h.plain, hr] with e g1 g2 g3 g4
    obtain ⟨q1, q2, q3, q4, q5, q6⟩ := g3
    have hi : npInv (S1 e) = some (S1 e)⁻¹ := npInv_of_det_ne (PD.det_ne g1)
    have := ukf_update_plain (u e) q2 q3 q4 q5 q6 (u0.hx xb + e • ζ) (SI := (S1 e)⁻¹) (by rw [g2, g4]; exact hi)
    rw [g2, g4] at this
    exact this
  · exact
      { fx := h.fx, hx := Eventually.of_forall fun _ => rfl, dt := h.dt, plain := h.plain, Q := h.Q, R := h.R
        symm := by
          filter_upwards [h.symm, hS1s] with e g1 g2
          simp only [transpose_sub, g1, transpose_mul, transpose_transpose, g2, Matrix.mul_assoc]
        x := by
          have := h.x.add (tendsto_mulVec hKt hyt)
          refine this.congr fun e => ?_
          rw [mulVec_smul, ← smul_add]
          congr 1
          simp only
          abel
        P := by
          have := h.P.sub (tendsto_mmul hKt (tendsto_mmul hS1t (tendsto_transpose hKt)))
          rw [← Matrix.mul_assoc, ← hJ] at this
          refine this.congr fun e => ?_
          simp only [Matrix.smul_mul, Matrix.mul_smul, ← smul_sub]
        K := hKt
        S := hS1t }

/-! ## Whole histories -/

/-- One cycle: `predict()` and then `update(z)`. -/
noncomputable def ukfCycle (u : UKF n m p) (z : Option (Vec m)) : Exec (UKF n m p) :=
  match u.predict with
  | .error e => .error e
  | .ok u1 => u1.update z

/-- The measurements: along the noise-free trajectory from `x`, each measurement is what `h` gives there
plus `ε ζ`; `none` is a missing measurement. -/
def nearData (f : Vec n → Vec n) (h : Vec n → Vec m) (ε : ℝ) : Vec n → List (Option (Vec m)) → List (Option (Vec m))
  | _, [] => []
  | x, ζ :: r => (ζ.map fun ζ => h (f x) + ε • ζ) :: nearData f h ε (f x) r

/-- The calls on a Kalman filter of the linearised system: Jacobians along the noise-free trajectory, and
the deviations `ζ` as measurements. -/
def linearCalls (f : Vec n → Vec n) (F : Vec n → Mat n n) (H : Vec n → Mat m n) :
    Vec n → List (Option (Vec m)) → List (KFOp n m l)
  | _, [] => []
  | x, ζ :: r => .predict .none none (some (F x)) .none :: .update ζ .none (some (H (f x))) :: linearCalls f F H (f x) r

/-- The unscented filter started near its own `x`, with all uncertainties scaled down by `ε`. -/
def shrunk (u : UKF n m p) (k : KF n m l) (ε : ℝ) : UKF n m p :=
  { u with x := u.x + ε • k.x, P := ε ^ 2 • k.P, Q := ε ^ 2 • k.Q, R := ε ^ 2 • k.R }

/-- The default helpers of the unscented filter. -/
structure PlainUKF (u : UKF n m p) : Prop where
  xMean : u.xMean = none
  zMean : u.zMean = none
  resX : u.residualX = none
  resZ : u.residualZ = none
  add : u.stateAdd = none
  inv : ∀ {j : ℕ} (A : Mat j j), u.inv A = npInv A

theorem follows_start (hpos : ∀ᶠ e in L, (0 : ℝ) < e) (u : UKF n m p) (k : KF n m l) (hu : PlainUKF u) (hk : Proper k)
    (hK : u.K = k.K) (hS : u.S = 0) (hS' : k.S = 0) : Follows L u (shrunk u k) u.x k where
  fx := Eventually.of_forall fun _ => rfl
  hx := Eventually.of_forall fun _ => rfl
  dt := Eventually.of_forall fun _ => rfl
  plain := Eventually.of_forall fun _ => ⟨hu.xMean, hu.zMean, hu.resX, hu.resZ, hu.add, hu.inv⟩
  Q := Eventually.of_forall fun _ => rfl
  R := Eventually.of_forall fun _ => rfl
  symm := Eventually.of_forall fun e => by simp only [shrunk, transpose_smul, PD.symm hk.P]
  x := by
    refine Tendsto.congr' ?_ tendsto_const_nhds
    filter_upwards [hpos] with e h
    simp only [shrunk, add_sub_cancel_left, smul_smul, inv_mul_cancel₀ h.ne', one_smul]
  P := by
    refine Tendsto.congr' ?_ tendsto_const_nhds
    filter_upwards [hpos] with e h
    simp only [shrunk, smul_smul, ← mul_pow, inv_mul_cancel₀ h.ne', one_pow, one_smul]
  K := by rw [← hK]; exact tendsto_const_nhds
  S := by
    rw [hS']
    simp only [shrunk, hS, smul_zero]
    exact tendsto_const_nhds

theorem follows_cycle (hp : ValidPoints p) (h0 : Tendsto (fun e : ℝ => e) L (𝓝 0)) (hpos : ∀ᶠ e in L, 0 < e)
    {u0 : UKF n m p} {u : ℝ → UKF n m p} {xb : Vec n} {k : KF n m l} (h : Follows L u0 u xb k) (hk : Proper k)
    {F : Mat n n} (hF : HasJacobian (fun v => u0.fx v u0.dt) F xb)
    {H : Mat m n} (hH : HasJacobian u0.hx H (u0.fx xb u0.dt)) (ζ : Option (Vec m)) (expf : ℝ → ℝ) :
    ∃ k' u', k.run expf [.predict .none none (some F) .none, .update ζ .none (some H)] = .ok k' ∧
      (∀ᶠ e in L, ukfCycle (u e) (ζ.map fun ζ => u0.hx (u0.fx xb u0.dt) + e • ζ) = .ok (u' e)) ∧
      Follows L u0 u' (u0.fx xb u0.dt) k' ∧ Proper k' ∧
      (ζ.isSome → Tendsto (fun e => e⁻¹ • (u' e).y) L (𝓝 k'.y)) := by
  obtain ⟨k1, u1, a1, a2, a3, a4, -, a6⟩ := follows_predict hp h0 hpos h hk hF
  cases ζ with
  | none =>
    obtain ⟨k2, u2, b1, b2, b3, b4⟩ := follows_none a3 a4 (some H)
    refine ⟨k2, u2, by simp only [KF.run, KF.step, a1, b1], ?_, b3, b4, by simp⟩
    filter_upwards [a2, b2] with e g1 g2
    simp only [ukfCycle, g1, Option.map_none, g2]
  | some ζ =>
    obtain ⟨k2, u2, b1, b2, b3, b4, b5⟩ := follows_update hp h0 hpos a3 a4 a6 hH ζ
    refine ⟨k2, u2, by simp only [KF.run, KF.step, a1, b1], ?_, b3, b4, fun _ => b5⟩
    filter_upwards [a2, b2] with e g1 g2
    simp only [ukfCycle, g1, Option.map_some, g2]

theorem follows_run (hp : ValidPoints p) (h0 : Tendsto (fun e : ℝ => e) L (𝓝 0)) (hpos : ∀ᶠ e in L, 0 < e)
    {u0 : UKF n m p} {F : Vec n → Mat n n} (hF : ∀ v, HasJacobian (fun v => u0.fx v u0.dt) (F v) v)
    {H : Vec n → Mat m n} (hH : ∀ v, HasJacobian u0.hx (H v) v) (expf : ℝ → ℝ) (ζs : List (Option (Vec m))) :
    ∀ (u : ℝ → UKF n m p) (xb : Vec n) (k : KF n m l), Follows L u0 u xb k → Proper k →
    ∃ k' u', k.run expf (linearCalls (fun v => u0.fx v u0.dt) F H xb ζs) = .ok k' ∧
      (∀ᶠ e in L, runList ukfCycle (u e) (nearData (fun v => u0.fx v u0.dt) u0.hx e xb ζs) = .ok (u' e)) ∧
      Follows L u0 u' ((fun v => u0.fx v u0.dt)^[ζs.length] xb) k' ∧ Proper k' ∧
      ((∃ r ζ, ζs = r ++ [some ζ]) → Tendsto (fun e => e⁻¹ • (u' e).y) L (𝓝 k'.y)) := by
  induction ζs with
  | nil =>
    intro u xb k h hk
    exact ⟨k, u, rfl, Eventually.of_forall fun _ => rfl, h, hk, by simp⟩
  | cons ζ r ih =>
    intro u xb k h hk
    obtain ⟨k1, u1, a1, a2, a3, a4, a5⟩ := follows_cycle hp h0 hpos h hk (hF xb) (hH _) ζ expf
    obtain ⟨k2, u2, b1, b2, b3, b4, b5⟩ := ih u1 _ k1 a3 a4
    refine ⟨k2, u2, ?_, ?_, b3, b4, ?_⟩
    · have : linearCalls (l := l) (fun v => u0.fx v u0.dt) F H xb (ζ :: r)
          = [.predict .none none (some (F xb)) .none, .update ζ .none (some (H (u0.fx xb u0.dt)))]
            ++ linearCalls (fun v => u0.fx v u0.dt) F H (u0.fx xb u0.dt) r := rfl
      rw [this]
      rw [KF.run_append, a1]
      exact b1
    · filter_upwards [a2, b2] with e g1 g2
      simp only [nearData, runList, g1, g2]
    · rintro ⟨r', ζ', hr⟩
      cases r with
      | nil =>
        have hz : ζ = some ζ' := by
          cases r' with
          | nil => simpa using hr
          | cons a t => simp at hr
        have e1 : k2 = k1 := by
          simp only [linearCalls, KF.run, Except.ok.injEq] at b1
          exact b1.symm
        subst e1
        refine (a5 (by simp [hz])).congr' ?_
        filter_upwards [b2] with e g
        simp only [nearData, runList, Except.ok.injEq] at g
        rw [g]
      | cons a t =>
        refine b5 ?_
        cases r' with
        | nil => simp at hr
        | cons b s =>
          simp only [List.cons_append, List.cons.injEq] at hr
          exact ⟨s, ζ', hr.2⟩

/-- **C112.**  An unscented filter (any of the three sigma point families) whose `fx` and `hx` are
differentiable but otherwise arbitrary, started at `x + ε ξ` with covariance and noises `ε²P, ε²Q, ε²R`, and
given measurements that deviate by `ε ζ` from those of the noise-free trajectory, some possibly missing.  For
all small enough `ε` the run succeeds, and as `ε → 0` its estimate, covariance, gain and innovation covariance
are, in units of `ε`, those of the Kalman filter of the system linearised along that trajectory, started at
`ξ, P` and given the `ζ`. -/
theorem C112_small_uncertainty (hp : ValidPoints p) (u : UKF n m p) (hu : PlainUKF u) (k : KF n m l) (hk : Proper k)
    (hK : u.K = k.K) (hS : u.S = 0) (hS' : k.S = 0)
    (F : Vec n → Mat n n) (hF : ∀ v, HasJacobian (fun v => u.fx v u.dt) (F v) v)
    (H : Vec n → Mat m n) (hH : ∀ v, HasJacobian u.hx (H v) v) (expf : ℝ → ℝ) (ζs : List (Option (Vec m))) :
    ∃ (k' : KF n m l) (u' : ℝ → UKF n m p),
      k.run expf (linearCalls (fun v => u.fx v u.dt) F H u.x ζs) = .ok k' ∧
      (∀ᶠ ε in 𝓝[>] (0 : ℝ), runList ukfCycle (shrunk u k ε) (nearData (fun v => u.fx v u.dt) u.hx ε u.x ζs)
        = .ok (u' ε)) ∧
      Tendsto (fun ε => ε⁻¹ • ((u' ε).x - (fun v => u.fx v u.dt)^[ζs.length] u.x)) (𝓝[>] 0) (𝓝 k'.x) ∧
      Tendsto (fun ε => (ε⁻¹) ^ 2 • (u' ε).P) (𝓝[>] 0) (𝓝 k'.P) ∧
      Tendsto (fun ε => (u' ε).K) (𝓝[>] 0) (𝓝 k'.K) ∧
      Tendsto (fun ε => (ε⁻¹) ^ 2 • (u' ε).S) (𝓝[>] 0) (𝓝 k'.S) ∧
      ((∃ r ζ, ζs = r ++ [some ζ]) → Tendsto (fun ε => ε⁻¹ • (u' ε).y) (𝓝[>] 0) (𝓝 k'.y)) := by
  have h0 : Tendsto (fun e : ℝ => e) (𝓝[>] 0) (𝓝 0) := tendsto_id.mono_left nhdsWithin_le_nhds
  have hpos : ∀ᶠ e in 𝓝[>] (0 : ℝ), 0 < e := self_mem_nhdsWithin
  obtain ⟨k', u', a1, a2, a3, -, a5⟩ := follows_run hp h0 hpos hF hH expf ζs _ _ _
    (follows_start hpos u k hu hk hK hS hS') hk
  exact ⟨k', u', a1, a2, a3.x, a3.P, a3.K, a3.S, a5⟩

/-! ### A concrete case: a pendulum -/

/-- Angle and angular velocity after a step `t` of Euler's method. -/
noncomputable def pendulum (v : Vec 2) (t : ℝ) : Vec 2 := ![v 0 + t * v 1, v 1 - t * Real.sin (v 0)]

/-- The horizontal position of the bob is measured. -/
noncomputable def bob (v : Vec 2) : Vec 1 := ![Real.sin (v 0)]

theorem pendulum_jacobian (t : ℝ) (v : Vec 2) :
    HasJacobian (fun v => pendulum v t) !![1, t; -(t * Real.cos (v 0)), 1] v := by
  unfold HasJacobian
  rw [hasFDerivAt_pi']
  have h0 : HasFDerivAt (fun v : Vec 2 => v 0) _ v := hasFDerivAt_apply (𝕜 := ℝ) 0 v
  have h1 : HasFDerivAt (fun v : Vec 2 => v 1) _ v := hasFDerivAt_apply (𝕜 := ℝ) 1 v
  intro i
  fin_cases i
  · refine (h0.add (h1.const_mul t)).congr_fderiv ?_
    ext w
    simp [dotProduct, Fin.sum_univ_two]
  · refine (h1.sub (h0.sin.const_mul t)).congr_fderiv ?_
    ext w
    simp [dotProduct, Fin.sum_univ_two]
    ring

theorem bob_jacobian (v : Vec 2) : HasJacobian bob !![Real.cos (v 0), 0] v := by
  unfold HasJacobian
  rw [hasFDerivAt_pi']
  have h0 : HasFDerivAt (fun v : Vec 2 => v 0) _ v := hasFDerivAt_apply (𝕜 := ℝ) 0 v
  intro i
  fin_cases i
  refine h0.sin.congr_fderiv ?_
  ext w
  simp [dotProduct, Fin.sum_univ_two]

example : ∃ (p : SigmaPts 2) (u : UKF 2 1 p) (k : KF 2 1 1), ValidPoints p ∧ PlainUKF u ∧ Proper k ∧ u.K = k.K ∧
    u.S = 0 ∧ k.S = 0 ∧ u.fx = pendulum ∧ u.hx = bob ∧ u.x = ![1, 0] := by
  obtain ⟨sqrt, hs⟩ := cholUpper_exists (n := 2)
  have h : 0 < (1 / 2 : ℝ) ^ 2 * ((2 : ℕ) + 1) := by norm_num
  obtain ⟨p, hp, -⟩ := encodes_merwe (1 / 2) 2 1 h sqrt hs
  refine ⟨p, { UKF.fresh 1 p 0.1 bob pendulum with x := ![1, 0] }, KF.fresh 2 1 1, .merwe _ _ _ sqrt p h hs hp,
    ⟨rfl, rfl, rfl, rfl, rfl, fun _ => rfl⟩, ⟨rfl, rfl, PosDef.one, PosDef.one, PosDef.one⟩, rfl, rfl, rfl, rfl,
    rfl, rfl⟩

end Filterpy
