import Verif.Props.GHK
import Mathlib.Analysis.Matrix.Normed
import Mathlib.Topology.Instances.Matrix

/-!
# Which gains make a g-h or g-h-k filter work (C116)
-/

namespace Filterpy

open Matrix Filter Topology

variable {n : ℕ}

/-! ## Matrices whose powers vanish -/

/-- A matrix with vanishing powers has no eigenvalue of modulus 1 or more; in particular `1 - A` has positive
determinant. -/
theorem det_one_sub_pos {A : Mat n n} (hA : Tendsto (fun k => A ^ k) atTop (𝓝 0)) : 0 < (1 - A).det := by
  have hne : ∀ t ∈ Set.Icc (0 : ℝ) 1, (1 - t • A).det ≠ 0 := by
    rintro t ⟨h0, h1⟩ hd
    obtain ⟨v, hv, hz⟩ := exists_mulVec_eq_zero_iff.2 hd
    have e : t • (A *ᵥ v) = v := by
      rw [sub_mulVec, one_mulVec, smul_mulVec, sub_eq_zero] at hz
      exact hz.symm
    have ek : ∀ k : ℕ, t ^ k • (A ^ k *ᵥ v) = v := by
      intro k
      induction k with
      | zero => simp
      | succ k ih =>
        rw [pow_succ (M := Mat n n), ← mulVec_mulVec, pow_succ, mul_smul, ← mulVec_smul, e, ih]
    have hlim : Tendsto (fun k => t ^ k • (A ^ k *ᵥ v)) atTop (𝓝 0) := by
      have h2 : Tendsto (fun k => A ^ k *ᵥ v) atTop (𝓝 0) := by
        have : Continuous fun M : Mat n n => M *ᵥ v := by fun_prop
        have := (this.tendsto 0).comp hA
        rwa [zero_mulVec] at this
      refine tendsto_pi_nhds.2 fun i => squeeze_zero_norm (fun k => ?_)
        (tendsto_norm_zero.comp (tendsto_pi_nhds.1 h2 i))
      have : |t ^ k| ≤ 1 := by rw [abs_of_nonneg (by positivity)]; exact pow_le_one₀ h0 h1
      simp only [Pi.smul_apply, smul_eq_mul, norm_mul, Function.comp, Real.norm_eq_abs]
      exact mul_le_of_le_one_left (abs_nonneg _) this
    exact hv (tendsto_nhds_unique ((tendsto_const_nhds (x := v)).congr fun k => (ek k).symm) hlim)
  have hcont : ContinuousOn (fun t : ℝ => (1 - t • A).det) (Set.Icc 0 1) := by
    refine Continuous.continuousOn ?_
    exact Continuous.matrix_det (by fun_prop)
  by_contra hneg
  push Not at hneg
  have h0 : (0 : ℝ) ≤ 1 := zero_le_one
  have him := intermediate_value_Icc' h0 hcont
  obtain ⟨t, ht, h⟩ := him (show (0 : ℝ) ∈ Set.Icc _ _ from ⟨by simpa using hneg, by simp⟩)
  exact hne t ht h

theorem pow_neg_tendsto {A : Mat n n} (hA : Tendsto (fun k => A ^ k) atTop (𝓝 0)) :
    Tendsto (fun k => (-A) ^ k) atTop (𝓝 0) := by
  refine tendsto_pi_nhds.2 fun i => tendsto_pi_nhds.2 fun j => ?_
  refine squeeze_zero_norm (fun k => ?_) (tendsto_norm_zero.comp (tendsto_pi_nhds.1 (tendsto_pi_nhds.1 hA i) j))
  rw [neg_pow]
  rcases neg_one_pow_eq_or (Mat n n) k with h | h <;> simp [h]

theorem abs_det_lt_one {A : Mat n n} (hA : Tendsto (fun k => A ^ k) atTop (𝓝 0)) (hn : 0 < n) : |A.det| < 1 := by
  have : Nonempty (Fin n) := ⟨⟨0, hn⟩⟩
  have h := ((continuous_id (X := Mat n n)).matrix_det.tendsto 0).comp hA
  have e : ((fun x : Mat n n => (id x).det) ∘ fun k => A ^ k) = fun k => A.det ^ k := by
    funext k; simp [det_pow]
  rw [e] at h
  have e0 : (id (0 : Mat n n)).det = 0 := by simp
  rw [e0] at h
  exact tendsto_pow_atTop_nhds_zero_iff.1 h

theorem pow_adjugate_tendsto {A : Mat (n + 2) (n + 2)} (hA : Tendsto (fun k => A ^ k) atTop (𝓝 0)) :
    Tendsto (fun k => A.adjugate ^ k) atTop (𝓝 0) := by
  have h := ((continuous_id (X := Mat (n + 2) (n + 2))).matrix_adjugate.tendsto 0).comp hA
  have e : ((fun x : Mat (n + 2) (n + 2) => (id x).adjugate) ∘ fun k => A ^ k) = fun k => A.adjugate ^ k := by
    funext k; simp [adjugate_pow]
  rw [e] at h
  have e0 : (id (0 : Mat (n + 2) (n + 2))).adjugate = 0 := by simp
  rwa [e0] at h

section norms

attribute [local instance] Matrix.linftyOpNormedRing Matrix.linftyOpNormedAddCommGroup

/-- A matrix with vanishing powers turns bounded disturbances into bounded errors. -/
theorem bounded_of_pow {A : Mat n n} (hA : Tendsto (fun k => A ^ k) atTop (𝓝 0)) (b : Vec n) :
    ∃ C : ℝ, 0 ≤ C ∧ ∀ (e : ℕ → Vec n) (w : ℕ → ℝ) (ε : ℝ), (∀ k, |w k| ≤ ε) →
      (∀ k, e (k + 1) = A *ᵥ e k + w k • b) → ∀ k, ‖e k‖ ≤ C * (‖e 0‖ + ε) := by
  have hnorm : Tendsto (fun k => ‖A ^ k‖) atTop (𝓝 0) := tendsto_norm_zero.comp hA
  obtain ⟨N, hN⟩ : ∃ N, ∀ k, ‖A ^ k‖ ≤ N := by
    obtain ⟨N, hN⟩ := hnorm.bddAbove_range
    exact ⟨N, fun k => hN ⟨k, rfl⟩⟩
  have hN0 : 0 ≤ N := (norm_nonneg _).trans (hN 0)
  obtain ⟨M, hM⟩ := (hnorm.eventually (gt_mem_nhds (by norm_num : (0 : ℝ) < 1 / 2))).exists_forall_of_atTop
  set p := M + 1 with hp
  have hhalf : ‖A ^ p‖ ≤ 1 / 2 := (hM p (by omega)).le
  set G : ℝ := p * (N * ‖b‖) with hG
  have hG0 : 0 ≤ G := by positivity
  refine ⟨(N + 1) * (2 * G + 1) + G, by positivity, fun e w ε hw he => ?_⟩
  have hε : 0 ≤ ε := (abs_nonneg _).trans (hw 0)
  have block : ∀ k j, ‖e (k + j) - A ^ j *ᵥ e k‖ ≤ j * (N * ‖b‖) * ε := by
    intro k j
    have hsum : e (k + j) - A ^ j *ᵥ e k = ∑ i ∈ Finset.range j, w (k + i) • (A ^ (j - 1 - i) *ᵥ b) := by
      induction j with
      | zero => simp
      | succ j ih =>
        rw [Finset.sum_range_succ, ← Nat.add_assoc, he, pow_succ', ← mulVec_mulVec]
        have : A *ᵥ e (k + j) + w (k + j) • b - A *ᵥ (A ^ j *ᵥ e k)
            = A *ᵥ (e (k + j) - A ^ j *ᵥ e k) + w (k + j) • b := by rw [mulVec_sub]; abel
        rw [this, ih, mulVec_sum]
        congr 1
        · refine Finset.sum_congr rfl fun i hi => ?_
          have hi' := Finset.mem_range.1 hi
          rw [mulVec_smul, mulVec_mulVec, ← pow_succ', show j - 1 - i + 1 = j + 1 - 1 - i by omega]
        · simp
    rw [hsum]
    refine (norm_sum_le _ _).trans ?_
    have : ∀ i ∈ Finset.range j, ‖w (k + i) • (A ^ (j - 1 - i) *ᵥ b)‖ ≤ ε * (N * ‖b‖) := fun i _ => by
      rw [norm_smul]
      refine mul_le_mul (hw _) ((linfty_opNorm_mulVec _ _).trans ?_) (norm_nonneg _) hε
      exact mul_le_mul_of_nonneg_right (hN _) (norm_nonneg _)
    refine (Finset.sum_le_sum this).trans (le_of_eq ?_)
    rw [Finset.sum_const, Finset.card_range, nsmul_eq_mul]
    ring
  have hstep : ∀ k j, ‖e (k + j)‖ ≤ ‖A ^ j‖ * ‖e k‖ + j * (N * ‖b‖) * ε := fun k j => by
    have h1 := block k j
    have h2 := linfty_opNorm_mulVec (A ^ j) (e k)
    have h3 := norm_add_le (e (k + j) - A ^ j *ᵥ e k) (A ^ j *ᵥ e k)
    rw [sub_add_cancel] at h3
    linarith
  have hblocks : ∀ q : ℕ, ‖e (p * q)‖ ≤ ‖e 0‖ + 2 * (G * ε) := by
    intro q
    induction q with
    | zero =>
      have : 0 ≤ G * ε := by positivity
      simp only [Nat.mul_zero]; linarith
    | succ q ih =>
      have h1 := hstep (p * q) p
      rw [← Nat.mul_succ] at h1
      have h2 : ‖A ^ p‖ * ‖e (p * q)‖ ≤ 1 / 2 * (‖e 0‖ + 2 * (G * ε)) :=
        mul_le_mul hhalf ih (norm_nonneg _) (by norm_num)
      have h3 : (p : ℝ) * (N * ‖b‖) * ε = G * ε := by rw [hG]
      have h4 := norm_nonneg (e 0)
      have : 0 ≤ G * ε := by positivity
      rw [h3] at h1
      linarith
  intro k
  have hk : k = p * (k / p) + k % p := (Nat.div_add_mod k p).symm
  have hmod : (k % p : ℕ) ≤ p := (Nat.mod_lt k (by omega)).le
  have h1 := hstep (p * (k / p)) (k % p)
  rw [← hk] at h1
  have h2 : ‖A ^ (k % p)‖ * ‖e (p * (k / p))‖ ≤ N * (‖e 0‖ + 2 * (G * ε)) :=
    mul_le_mul (hN _) (hblocks _) (norm_nonneg _) hN0
  have h3 : ((k % p : ℕ) : ℝ) * (N * ‖b‖) * ε ≤ G * ε := by
    rw [hG]
    refine mul_le_mul_of_nonneg_right (mul_le_mul_of_nonneg_right ?_ (by positivity)) hε
    exact_mod_cast hmod
  have h4 := norm_nonneg (e 0)
  have h5 : 0 ≤ G * ε := by positivity
  have h6 : 0 ≤ G * ‖e 0‖ := by positivity
  have h7 : 0 ≤ N * ‖e 0‖ := by positivity
  have h8 : 0 ≤ N * (G * ‖e 0‖) := by positivity
  have h9 : 0 ≤ N * ε := by positivity
  have h10 : 0 ≤ N * (G * ε) := by positivity
  nlinarith

end norms

/-! ## The g-h filter -/

theorem gh_stable_iff (s : GH ℝ) (hdt : s.dt ≠ 0) : s.Stable ↔ 0 < s.g ∧ 0 < s.h ∧ 2 * s.g + s.h < 4 := by
  refine ⟨fun hs => ?_, fun ⟨h1, h2, h3⟩ => C39_gh_stable s hdt h1 h2 h3⟩
  have hA := hs.pow hdt
  have h1 := det_one_sub_pos hA
  have h2 := det_one_sub_pos (pow_neg_tendsto hA)
  have h3 := abs_det_lt_one hA (by norm_num)
  have e1 : (1 - s.A).det = s.h := by
    simp [GH.A, det_fin_two]; field_simp; ring
  have e2 : (1 - -s.A).det = 4 - 2 * s.g - s.h := by
    simp [GH.A, det_fin_two]; field_simp; ring
  have e3 : s.A.det = 1 - s.g := by
    simp [GH.A, det_fin_two]; field_simp; ring
  rw [e1] at h1
  rw [e2] at h2
  rw [e3, abs_lt] at h3
  exact ⟨by linarith, h1, by linarith⟩

/-- **C116 (g-h).** A g-h filter finds every straight line from every start, that is its position and rate converge to
those of the line whatever it was started with, exactly when `0 < g`, `0 < h` and `2 g + h < 4`. -/
theorem C116_gh (g h dt : ℝ) (hdt : dt ≠ 0) :
    (∀ x dx p v : ℝ,
      Tendsto (fun k : ℕ => ((GH.init x dx dt g h).after (fun i => p + v * ((i + 1) * dt)) k).x - (p + v * (k * dt)))
        atTop (𝓝 0) ∧
      Tendsto (fun k : ℕ => ((GH.init x dx dt g h).after (fun i => p + v * ((i + 1) * dt)) k).dx) atTop (𝓝 v)) ↔
    0 < g ∧ 0 < h ∧ 2 * g + h < 4 := by
  constructor
  · intro H
    refine (gh_stable_iff (GH.init 0 0 dt g h) hdt).1 fun x dx => ?_
    have H0 := H x dx 0 0
    have e1 := GH.after_zero (GH.init x dx dt g h) hdt
    have e2 := GH.after_zero ({ GH.init (0 : ℝ) 0 dt g h with x := x, dx := dx } : GH ℝ) hdt
    have e : ∀ k, _ = _ := fun k => (e1 k).trans (e2 k).symm
    simp only [zero_mul, add_zero, sub_zero] at H0
    exact ⟨H0.1.congr fun k => congrFun (e k) 0, H0.2.congr fun k => congrFun (e k) 1⟩
  · intro hr x dx p v
    exact C36_gh_converges (GH.init x dx dt g h) hdt ((gh_stable_iff (GH.init x dx dt g h) hdt).2 hr) p v

/-- **C116 (g-h, bounded noise).** With such gains, errors of the measurements of at most `ε` about a straight line
never make the filter stray by more than a constant, given by the gains and the time step, times `ε` and the error at
the start. -/
theorem C116_gh_noise (g h dt : ℝ) (hdt : dt ≠ 0) (h1 : 0 < g) (h2 : 0 < h) (h3 : 2 * g + h < 4) :
    ∃ C : ℝ, ∀ (x dx p v ε : ℝ) (w : ℕ → ℝ), (∀ k, |w k| ≤ ε) → ∀ k : ℕ,
      |((GH.init x dx dt g h).after (fun i => p + v * ((i + 1) * dt) + w i) k).x - (p + v * (k * dt))|
        ≤ C * (|x - p| + |dx - v| + ε) ∧
      |((GH.init x dx dt g h).after (fun i => p + v * ((i + 1) * dt) + w i) k).dx - v|
        ≤ C * (|x - p| + |dx - v| + ε) := by
  have hs := C39_gh_stable (GH.init 0 0 dt g h) hdt h1 h2 h3
  obtain ⟨C, hC0, hC⟩ := bounded_of_pow (hs.pow hdt) (GH.init (0 : ℝ) 0 dt g h).b
  refine ⟨C, fun x dx p v ε w hw => ?_⟩
  set z : ℕ → ℝ := fun i => p + v * ((i + 1) * dt) + w i with hzdef
  set s := GH.init x dx dt g h with hsdef
  have key := hC (fun k : ℕ => ![(s.after z k).x - (p + v * (k * dt)), (s.after z k).dx - v]) w ε hw (by
    intro k
    have h := GH.after_vec s hdt z k
    have hz : z k = p + v * ((k + 1) * dt) + w k := rfl
    clear_value z
    have h0 := congrFun h 0
    have h1 := congrFun h 1
    ext i
    fin_cases i
    · simp [GH.A, GH.b, hz, hsdef, GH.init] at h0 ⊢
      rw [h0]; ring
    · simp [GH.A, GH.b, hz, hsdef, GH.init] at h1 ⊢
      rw [h1]; field_simp; ring)
  have hstart : ‖(![(s.after z 0).x - (p + v * ((0 : ℕ) * dt)), (s.after z 0).dx - v] : Vec 2)‖ ≤ |x - p| + |dx - v| := by
    refine (pi_norm_le_iff_of_nonneg (by positivity)).2 fun i => ?_
    fin_cases i <;> simp [GH.after, runList, Exec.left, hsdef, GH.init]
  have hbound : ∀ k i, ‖(![(s.after z k).x - (p + v * (k * dt)), (s.after z k).dx - v] : Vec 2) i‖
      ≤ C * (|x - p| + |dx - v| + ε) := fun k i =>
    (norm_le_pi_norm _ i).trans ((key k).trans (mul_le_mul_of_nonneg_left (by linarith) hC0))
  exact fun k => ⟨hbound k 0, hbound k 1⟩

/-! ## The g-h-k filter -/

theorem quad3 (M : Mat 3 3) (v : Vec 3) : v ⬝ᵥ (M *ᵥ v) = v 0 * (M 0 0 * v 0 + M 0 1 * v 1 + M 0 2 * v 2)
    + v 1 * (M 1 0 * v 0 + M 1 1 * v 1 + M 1 2 * v 2) + v 2 * (M 2 0 * v 0 + M 2 1 * v 1 + M 2 2 * v 2) := by
  simp only [dotProduct, Matrix.mulVec, Fin.sum_univ_three]

theorem ghk_stable (s : GHK ℝ) (hdt : s.dt ≠ 0) (hg : 0 < s.g) (hh : 0 < s.h) (hk : 0 < s.k) (h4 : 2 * s.g + s.h < 4)
    (h5 : 2 * s.k < s.g * (s.h + s.k)) : s.Stable := by
  refine GHK.stable_of_pow hdt ?_
  have hd : 0 < 4 - 2 * s.g - s.h := by linarith
  have he : 0 < s.g * s.h + s.g * s.k - 2 * s.k := by linarith
  have hfix := s.Pss_fixed hdt hd.ne' he.ne'
  have hsym : s.Pssᵀ = s.Pss := by
    ext i j; fin_cases i <;> fin_cases j <;> rfl
  have hquad : ∀ v : Vec 3, ((4 - 2 * s.g - s.h) * (s.g * s.h + s.g * s.k - 2 * s.k)) * (v ⬝ᵥ (s.Pss *ᵥ v))
      = 8 * s.h * s.k ^ 2 * (v 2 / s.dt ^ 2 + (s.h - s.k) / (2 * s.k) * (v 1 / s.dt)
          + (s.h * (2 * s.g - s.h) - s.k * (4 - 2 * s.g - s.h)) / (4 * s.h * s.k) * v 0) ^ 2
        + 2 * s.k ^ 2 * (4 - 2 * s.g - s.h) * (v 1 / s.dt + (s.h - s.k) / (2 * s.k) * v 0) ^ 2
        + s.k * (4 - 2 * s.g - s.h) * (s.g * s.h + s.g * s.k - 2 * s.k) / s.h * v 0 ^ 2 := by
    intro v
    rw [quad3]
    simp only [GHK.Pss, of_apply, cons_val', cons_val_zero, cons_val_one, cons_val_fin_one, empty_val', cons_val]
    rcases s with ⟨x, dx, ddx, _, _, _, dt, g, h, k, _, _⟩
    simp only at *
    have n1 := hd.ne'
    have n2 := he.ne'
    have n3 := hh.ne'
    have n4 := hk.ne'
    generalize hD : (4 - 2 * g - h) * (g * h + g * k - 2 * k) = D
    have hD0 : D ≠ 0 := by rw [← hD]; exact mul_ne_zero n1 n2
    field_simp
    subst hD
    ring
  have hPD : s.Pss.PosDef := by
    refine PD.of_quad hsym fun v hv => ?_
    have hq := hquad v
    have hpos : 0 < 8 * s.h * s.k ^ 2 * (v 2 / s.dt ^ 2 + (s.h - s.k) / (2 * s.k) * (v 1 / s.dt)
          + (s.h * (2 * s.g - s.h) - s.k * (4 - 2 * s.g - s.h)) / (4 * s.h * s.k) * v 0) ^ 2
        + 2 * s.k ^ 2 * (4 - 2 * s.g - s.h) * (v 1 / s.dt + (s.h - s.k) / (2 * s.k) * v 0) ^ 2
        + s.k * (4 - 2 * s.g - s.h) * (s.g * s.h + s.g * s.k - 2 * s.k) / s.h * v 0 ^ 2 := by
      by_cases h0 : v 0 = 0
      · by_cases h1 : v 1 = 0
        · have h2 : v 2 ≠ 0 := by
            intro h2; apply hv; ext i; fin_cases i <;> assumption
          rw [h0, h1]
          simp only [zero_div, mul_zero, add_zero]
          positivity
        · rw [h0]
          simp only [mul_zero, add_zero]
          positivity
      · positivity
    rw [← hq] at hpos
    exact (pos_iff_pos_of_mul_pos hpos).1 (by positivity)
  have hb : ∀ v : Vec 3, v ⬝ᵥ (vecMulVec s.b s.b *ᵥ v) = (s.b ⬝ᵥ v) ^ 2 := by
    intro v
    simp only [dotProduct, Matrix.mulVec, vecMulVec, Fin.sum_univ_three, of_apply]; ring
  have hbs : (vecMulVec s.b s.b)ᵀ = vecMulVec s.b s.b := by ext i j; simp [vecMulVec, mul_comm]
  have e2 : s.A * s.Pss * s.Aᵀ = s.Pss - vecMulVec s.b s.b := by
    conv_rhs => enter [1]; rw [hfix]
    abel
  refine pow_tendsto_zero hPD ?_ 3 ?_
  · rw [e2, sub_sub_cancel]
    refine PSD.of_quad hbs fun v => ?_
    rw [hb]; positivity
  · have : s.Pss - s.A ^ 3 * s.Pss * (s.A ^ 3)ᵀ
        = vecMulVec s.b s.b + s.A * vecMulVec s.b s.b * s.Aᵀ + s.A * (s.A * vecMulVec s.b s.b * s.Aᵀ) * s.Aᵀ := by
      have e : s.A ^ 3 * s.Pss * (s.A ^ 3)ᵀ = s.A * (s.A * (s.A * s.Pss * s.Aᵀ) * s.Aᵀ) * s.Aᵀ := by
        rw [pow_succ, pow_two, transpose_mul, transpose_mul]; simp only [Matrix.mul_assoc]
      rw [e, e2, Matrix.mul_sub, Matrix.sub_mul, e2, Matrix.mul_sub, Matrix.mul_sub, Matrix.sub_mul, Matrix.sub_mul, e2]
      abel
    rw [this]
    refine PD.of_quad ?_ fun v hv => ?_
    · simp only [transpose_add, transpose_mul, transpose_transpose, hbs, Matrix.mul_assoc]
    · rw [add_mulVec, add_mulVec, dotProduct_add, dotProduct_add, quad_congr, quad_congr, quad_congr, hb, hb, hb]
      have hne : s.b ⬝ᵥ v ≠ 0 ∨ s.b ⬝ᵥ (s.Aᵀ *ᵥ v) ≠ 0 ∨ s.b ⬝ᵥ (s.Aᵀ *ᵥ (s.Aᵀ *ᵥ v)) ≠ 0 := by
        by_contra hcon
        push Not at hcon
        obtain ⟨c1, c2, c3⟩ := hcon
        have hdot : ∀ w : Vec 3, s.b ⬝ᵥ w = s.g * w 0 + s.h / s.dt * w 1 + 2 * s.k / s.dt ^ 2 * w 2 := fun w => by
          simp [GHK.b, dotProduct, Fin.sum_univ_three]
        have hT : ∀ w : Vec 3, s.b ⬝ᵥ w = 0 →
            s.Aᵀ *ᵥ w = ![w 0, s.dt * w 0 + w 1, s.dt ^ 2 / 2 * w 0 + s.dt * w 1 + w 2] := by
          intro w hw
          rw [hdot] at hw
          ext i
          fin_cases i
          · simp [GHK.A, Matrix.mulVec, dotProduct, Fin.sum_univ_three]
            linear_combination (-1 : ℝ) * hw
          · simp [GHK.A, Matrix.mulVec, dotProduct, Fin.sum_univ_three]
            field_simp at hw ⊢
            linear_combination (-1 : ℝ) * hw
          · simp [GHK.A, Matrix.mulVec, dotProduct, Fin.sum_univ_three]
            field_simp at hw ⊢
            linear_combination (-1 : ℝ) * hw
        rw [hT _ c2, hdot] at c3
        rw [hT _ c1] at c2 c3
        rw [hdot] at c1 c2
        simp only [cons_val_zero, cons_val_one, cons_val] at c2 c3
        have v0 : v 0 = 0 := by
          have : 2 * s.k * v 0 = 0 := by
            field_simp at c1 c2 c3
            have : s.dt ^ 2 * (2 * s.k * v 0) = 0 := by linear_combination c3 - 2 * c2 + c1
            exact (mul_eq_zero.1 this).resolve_left (pow_ne_zero 2 hdt)
          exact (mul_eq_zero.1 this).resolve_left (by positivity)
        have v1 : v 1 = 0 := by
          rw [v0] at c1 c2
          have : 2 * s.k * v 1 = 0 := by
            field_simp at c1 c2
            have : s.dt * (2 * s.k * v 1) = 0 := by linear_combination c2 - c1
            exact (mul_eq_zero.1 this).resolve_left hdt
          exact (mul_eq_zero.1 this).resolve_left (by positivity)
        have v2 : v 2 = 0 := by
          rw [v0, v1, mul_zero, mul_zero, zero_add, zero_add] at c1
          exact (mul_eq_zero.1 c1).resolve_left (by positivity)
        apply hv
        ext i; fin_cases i <;> assumption
      rcases hne with h | h | h <;> positivity

theorem ghk_stable_iff (s : GHK ℝ) (hdt : s.dt ≠ 0) :
    s.Stable ↔ 0 < s.g ∧ 0 < s.h ∧ 0 < s.k ∧ 2 * s.g + s.h < 4 ∧ 2 * s.k < s.g * (s.h + s.k) := by
  refine ⟨fun hs => ?_, fun ⟨h1, h2, h3, h4, h5⟩ => ghk_stable s hdt h1 h2 h3 h4 h5⟩
  have hA := hs.pow hdt
  have h1 := det_one_sub_pos hA
  have h2 := det_one_sub_pos (pow_neg_tendsto hA)
  have h3 := abs_det_lt_one hA (by norm_num)
  have h4 := det_one_sub_pos (pow_adjugate_tendsto hA)
  have e1 : (1 - s.A).det = 2 * s.k := by
    simp [GHK.A, det_fin_three]; field_simp; ring
  have e2 : (1 - -s.A).det = 2 * (4 - 2 * s.g - s.h) := by
    simp [GHK.A, det_fin_three]; field_simp; ring
  have e3 : s.A.det = 1 - s.g := by
    simp [GHK.A, det_fin_three]; field_simp; ring
  have e4 : (1 - s.A.adjugate).det = s.g * (s.h + s.k) - 2 * s.k := by
    simp [GHK.A, adjugate_fin_three, det_fin_three]; field_simp; ring
  rw [e1] at h1
  rw [e2] at h2
  rw [e3, abs_lt] at h3
  rw [e4] at h4
  have hg : 0 < s.g := by linarith
  have hg2 : s.g < 2 := by linarith
  have hk : 0 < s.k := by linarith
  have hh : 0 < s.h := by
    have : 0 < s.g * s.h := by nlinarith
    exact (pos_iff_pos_of_mul_pos this).1 hg
  exact ⟨hg, hh, hk, by linarith, by linarith⟩

/-- **C116 (g-h-k).** A g-h-k filter finds every parabola from every start exactly when `g`, `h` and `k` are positive,
`2 g + h < 4` and `2 k < g (h + k)`. -/
theorem C116_ghk (g h k dt : ℝ) (hdt : dt ≠ 0) :
    (∀ x dx ddx p v a : ℝ,
      let f := fun i : ℕ => (GHK.init x dx ddx dt g h k).after
        (fun i => p + v * ((i + 1) * dt) + a * ((i + 1) * dt) ^ 2 / 2) i
      Tendsto (fun i : ℕ => (f i).x - (p + v * (i * dt) + a * (i * dt) ^ 2 / 2)) atTop (𝓝 0) ∧
      Tendsto (fun i : ℕ => (f i).dx - (v + a * (i * dt))) atTop (𝓝 0) ∧
      Tendsto (fun i : ℕ => (f i).ddx) atTop (𝓝 a)) ↔
    0 < g ∧ 0 < h ∧ 0 < k ∧ 2 * g + h < 4 ∧ 2 * k < g * (h + k) := by
  constructor
  · intro H
    refine (ghk_stable_iff (GHK.init 0 0 0 dt g h k) hdt).1 fun x dx ddx => ?_
    have H0 := H x dx ddx 0 0 0
    have e1 := GHK.after_zero (GHK.init x dx ddx dt g h k) hdt
    have e2 := GHK.after_zero ({ GHK.init (0 : ℝ) 0 0 dt g h k with x := x, dx := dx, ddx := ddx } : GHK ℝ) hdt
    have e : ∀ i, _ = _ := fun i => (e1 i).trans (e2 i).symm
    simp only [zero_mul, add_zero, sub_zero, zero_div] at H0
    exact ⟨H0.1.congr fun i => congrFun (e i) 0, H0.2.1.congr fun i => congrFun (e i) 1,
      H0.2.2.congr fun i => congrFun (e i) 2⟩
  · intro hr x dx ddx p v a
    exact C36_ghk_converges (GHK.init x dx ddx dt g h k) hdt
      ((ghk_stable_iff (GHK.init x dx ddx dt g h k) hdt).2 hr) p v a

/-- **C116 (g-h-k, bounded noise).** With such gains, errors of the measurements of at most `ε` about a parabola never
make the filter stray by more than a constant, given by the gains and the time step, times `ε` and the error at the
start. -/
theorem C116_ghk_noise (g h k dt : ℝ) (hdt : dt ≠ 0) (h1 : 0 < g) (h2 : 0 < h) (h3 : 0 < k) (h4 : 2 * g + h < 4)
    (h5 : 2 * k < g * (h + k)) :
    ∃ C : ℝ, ∀ (x dx ddx p v a ε : ℝ) (w : ℕ → ℝ), (∀ i, |w i| ≤ ε) → ∀ i : ℕ,
      let f := (GHK.init x dx ddx dt g h k).after
        (fun i => p + v * ((i + 1) * dt) + a * ((i + 1) * dt) ^ 2 / 2 + w i) i
      |f.x - (p + v * (i * dt) + a * (i * dt) ^ 2 / 2)| ≤ C * (|x - p| + |dx - v| + |ddx - a| + ε) ∧
      |f.dx - (v + a * (i * dt))| ≤ C * (|x - p| + |dx - v| + |ddx - a| + ε) ∧
      |f.ddx - a| ≤ C * (|x - p| + |dx - v| + |ddx - a| + ε) := by
  have hs := ghk_stable (GHK.init 0 0 0 dt g h k) hdt h1 h2 h3 h4 h5
  obtain ⟨C, hC0, hC⟩ := bounded_of_pow (hs.pow hdt) (GHK.init (0 : ℝ) 0 0 dt g h k).b
  refine ⟨C, fun x dx ddx p v a ε w hw => ?_⟩
  set z : ℕ → ℝ := fun i => p + v * ((i + 1) * dt) + a * ((i + 1) * dt) ^ 2 / 2 + w i with hzdef
  set s := GHK.init x dx ddx dt g h k with hsdef
  have key := hC (fun k : ℕ => ![(s.after z k).x - (p + v * (k * dt) + a * (k * dt) ^ 2 / 2),
      (s.after z k).dx - (v + a * (k * dt)), (s.after z k).ddx - a]) w ε hw (by
    intro k
    have h := GHK.after_vec s hdt z k
    have hz : z k = p + v * ((k + 1) * dt) + a * ((k + 1) * dt) ^ 2 / 2 + w k := rfl
    clear_value z
    have h0 := congrFun h 0
    have h1 := congrFun h 1
    have h2 := congrFun h 2
    ext i
    fin_cases i
    · simp [GHK.A, GHK.b, GHK.vec, hz, hsdef, GHK.init] at h0 ⊢
      rw [h0]; ring
    · simp [GHK.A, GHK.b, GHK.vec, hz, hsdef, GHK.init] at h1 ⊢
      rw [h1]; field_simp; ring
    · simp [GHK.A, GHK.b, GHK.vec, hz, hsdef, GHK.init] at h2 ⊢
      rw [h2]; field_simp; ring)
  have hstart : ‖(![(s.after z 0).x - (p + v * ((0 : ℕ) * dt) + a * ((0 : ℕ) * dt) ^ 2 / 2),
      (s.after z 0).dx - (v + a * ((0 : ℕ) * dt)), (s.after z 0).ddx - a] : Vec 3)‖
      ≤ |x - p| + |dx - v| + |ddx - a| := by
    have q0 := abs_nonneg (x - p)
    have q1 := abs_nonneg (dx - v)
    have q2 := abs_nonneg (ddx - a)
    refine (pi_norm_le_iff_of_nonneg (by positivity)).2 fun i => ?_
    fin_cases i <;> simp [GHK.after, runList, Exec.left, hsdef, GHK.init] <;> linarith
  have hbound : ∀ k i, ‖(![(s.after z k).x - (p + v * (k * dt) + a * (k * dt) ^ 2 / 2),
      (s.after z k).dx - (v + a * (k * dt)), (s.after z k).ddx - a] : Vec 3) i‖
      ≤ C * (|x - p| + |dx - v| + |ddx - a| + ε) := fun k i =>
    (norm_le_pi_norm _ i).trans ((key k).trans (mul_le_mul_of_nonneg_left (by linarith) hC0))
  exact fun k => ⟨hbound k 0, hbound k 1, hbound k 2⟩

/-- Gains inside and outside: `g = 1/2, h = 1/5, k = 1/20` works, `k = 1/10` (with the same `g` and `h`) already does
not. -/
example : (∀ x dx ddx : ℝ, (GHK.init x dx ddx 2 (1 / 2) (1 / 5) (1 / 20)).Stable) ∧
    ¬ (GHK.init (0 : ℝ) 0 0 2 (1 / 2) (1 / 5) (1 / 10)).Stable := by
  constructor
  · intro x dx ddx
    exact (ghk_stable_iff _ (by norm_num [GHK.init])).2 (by norm_num [GHK.init])
  · intro h
    have := ((ghk_stable_iff _ (by norm_num [GHK.init])).1 h).2.2.2.2
    norm_num [GHK.init] at this

/-- A g-h filter with `g = 1/2` and `h = 4` overshoots for ever. -/
example : ¬ (GH.init (0 : ℝ) 0 1 (1 / 2) 4).Stable := by
  intro h
  have := ((gh_stable_iff _ (by norm_num [GH.init])).1 h).2.2
  norm_num [GH.init] at this

end Filterpy
