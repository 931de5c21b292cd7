import Verif.Lemmas.Mat
import Verif.Lemmas.Prob
import Mathlib.Topology.Instances.Matrix
import Mathlib.Topology.Algebra.Order.LiminfLimsup
import Mathlib.Analysis.SpecificLimits.Basic
import Mathlib.Topology.MetricSpace.ProperSpace

/-! # Linear recursions: powers tending to zero and steady-state covariances (helper lemmas) -/

set_option linter.unusedSectionVars false

namespace Filterpy
open Matrix Filter Topology

variable {n : ℕ}

/-- A positive definite form dominates every other form. -/
theorem PD.dominates {D P : Mat n n} (hD : D.PosDef) :
    ∃ ε : ℝ, 0 < ε ∧ ∀ v : Vec n, ε * (v ⬝ᵥ (P *ᵥ v)) ≤ v ⬝ᵥ (D *ᵥ v) := by
  rcases Nat.eq_zero_or_pos n with rfl | hn
  · exact ⟨1, one_pos, fun v => by simp [dotProduct]⟩
  have : Nonempty (Fin n) := ⟨⟨0, hn⟩⟩
  have hc : IsCompact (Metric.sphere (0 : Vec n) 1) := isCompact_sphere 0 1
  have hne : (Metric.sphere (0 : Vec n) 1).Nonempty := by
    refine ⟨fun _ => 1, ?_⟩
    rw [mem_sphere_zero_iff_norm]; exact (pi_norm_const (1 : ℝ)).trans (by norm_num)
  have cont : ∀ M : Mat n n, Continuous fun v : Vec n => v ⬝ᵥ (M *ᵥ v) := by
    intro M
    simp only [dotProduct, Matrix.mulVec]
    fun_prop
  obtain ⟨v₀, hv₀, hmin⟩ := hc.exists_isMinOn hne (cont D).continuousOn
  obtain ⟨v₁, hv₁, hmax⟩ := hc.exists_isMaxOn hne (cont P).continuousOn
  set m := v₀ ⬝ᵥ (D *ᵥ v₀)
  set M := v₁ ⬝ᵥ (P *ᵥ v₁)
  have hm : 0 < m := by
    have h0 : v₀ ≠ 0 := by
      rintro rfl; simp at hv₀
    simpa using hD.dotProduct_mulVec_pos h0
  refine ⟨m / (|M| + 1), by positivity, fun v => ?_⟩
  by_cases hv : v = 0
  · subst hv; simp
  have hnv : 0 < ‖v‖ := norm_pos_iff.2 hv
  set u := ‖v‖⁻¹ • v
  have hu : u ∈ Metric.sphere (0 : Vec n) 1 := by
    simp [u, norm_smul, hnv.ne']
  have e : ∀ N : Mat n n, v ⬝ᵥ (N *ᵥ v) = ‖v‖ ^ 2 * (u ⬝ᵥ (N *ᵥ u)) := by
    intro N
    simp only [u, mulVec_smul, dotProduct_smul, smul_dotProduct, smul_eq_mul]
    field_simp
  rw [e P, e D]
  have h1 : m ≤ u ⬝ᵥ (D *ᵥ u) := hmin hu
  have h2 : u ⬝ᵥ (P *ᵥ u) ≤ M := hmax hu
  have h3 : m / (|M| + 1) * (u ⬝ᵥ (P *ᵥ u)) ≤ m := by
    have : u ⬝ᵥ (P *ᵥ u) ≤ |M| + 1 := by linarith [le_abs_self M]
    calc m / (|M| + 1) * (u ⬝ᵥ (P *ᵥ u)) ≤ m / (|M| + 1) * (|M| + 1) :=
          mul_le_mul_of_nonneg_left this (by positivity)
      _ = m := by field_simp
  calc m / (|M| + 1) * (‖v‖ ^ 2 * (u ⬝ᵥ (P *ᵥ u)))
      = ‖v‖ ^ 2 * (m / (|M| + 1) * (u ⬝ᵥ (P *ᵥ u))) := by ring
    _ ≤ ‖v‖ ^ 2 * (u ⬝ᵥ (D *ᵥ u)) :=
        mul_le_mul_of_nonneg_left (h3.trans h1) (by positivity)

theorem quad_congr (A P : Mat n n) (v : Vec n) :
    v ⬝ᵥ ((A * P * Aᵀ) *ᵥ v) = (Aᵀ *ᵥ v) ⬝ᵥ (P *ᵥ (Aᵀ *ᵥ v)) := by
  rw [← mulVec_mulVec, ← mulVec_mulVec, dotProduct_mulVec, vecMul_eq_mulVec_transpose]
  where vecMul_eq_mulVec_transpose : v ᵥ* A = Aᵀ *ᵥ v := (mulVec_transpose A v).symm

/-- Lyapunov criterion: if a positive definite form never grows along the recursion and
strictly shrinks over `N` steps, the powers of the matrix tend to zero. -/
theorem pow_tendsto_zero {A P : Mat n n} (hP : P.PosDef) (h1 : (P - A * P * Aᵀ).PosSemidef) (N : ℕ)
    (h2 : (P - A ^ N * P * (A ^ N)ᵀ).PosDef) : Tendsto (fun k => A ^ k) atTop (𝓝 0) := by
  obtain ⟨ε, hε, hdom⟩ := PD.dominates (P := P) h2
  obtain ⟨δ, hδ, hlow⟩ := PD.dominates (P := 1) hP
  set V : Vec n → ℝ := fun v => v ⬝ᵥ (P *ᵥ v)
  have hV0 : ∀ v, 0 ≤ V v := fun v => PSD.quad hP.posSemidef v
  have hstep : ∀ v, V (Aᵀ *ᵥ v) ≤ V v := by
    intro v
    have := PSD.quad h1 v
    rw [sub_mulVec, dotProduct_sub, quad_congr] at this
    simp only [V]; linarith
  set q := max 0 (1 - ε)
  have hq0 : 0 ≤ q := le_max_left _ _
  have hq1 : q < 1 := max_lt one_pos (by linarith)
  have hN : ∀ v, V ((A ^ N)ᵀ *ᵥ v) ≤ q * V v := by
    intro v
    have := hdom v
    rw [sub_mulVec, dotProduct_sub, quad_congr] at this
    have h3 : (1 - ε) * V v ≤ q * V v := mul_le_mul_of_nonneg_right (le_max_right _ _) (hV0 v)
    simp only [V] at *; linarith
  have key : ∀ v, Tendsto (fun k => V ((A ^ k)ᵀ *ᵥ v)) atTop (𝓝 0) := by
    intro v
    have anti : Antitone fun k => V ((A ^ k)ᵀ *ᵥ v) := by
      refine antitone_nat_of_succ_le fun k => ?_
      rw [pow_succ, transpose_mul, ← mulVec_mulVec]
      exact hstep _
    have hNpos : 0 < N ∨ V v = 0 := by
      rcases Nat.eq_zero_or_pos N with rfl | h
      · right
        have := hN v
        rw [pow_zero, transpose_one, one_mulVec] at this
        nlinarith [hV0 v]
      · exact .inl h
    rcases hNpos with hNpos | hz
    · have sub : ∀ j, V ((A ^ (N * j))ᵀ *ᵥ v) ≤ q ^ j * V v := by
        intro j
        induction j with
        | zero => simp
        | succ j ih =>
          rw [Nat.mul_succ, pow_add, transpose_mul, ← mulVec_mulVec]
          calc _ ≤ q * V ((A ^ (N * j))ᵀ *ᵥ v) := hN _
            _ ≤ q * (q ^ j * V v) := mul_le_mul_of_nonneg_left ih hq0
            _ = q ^ (j + 1) * V v := by ring
      have hsub : Tendsto (fun j => V ((A ^ (N * j))ᵀ *ᵥ v)) atTop (𝓝 0) := by
        have : Tendsto (fun j => q ^ j * V v) atTop (𝓝 (0 * V v)) :=
          (tendsto_pow_atTop_nhds_zero_of_lt_one hq0 hq1).mul_const _
        rw [zero_mul] at this
        exact squeeze_zero (fun j => hV0 _) sub this
      exact (tendsto_iff_tendsto_subseq_of_antitone anti
        (tendsto_id.const_mul_atTop' hNpos)).2 hsub
    · have h0 : ∀ k, V ((A ^ k)ᵀ *ᵥ v) = 0 := fun k => by
        refine le_antisymm ?_ (hV0 _)
        have := anti (Nat.zero_le k)
        simpa [hz] using this
      simp only [h0]; exact tendsto_const_nhds
  refine tendsto_pi_nhds.2 ?_
  intro i
  rw [tendsto_pi_nhds]
  intro j
  have hk := key (Pi.single i 1)
  have hent : ∀ k, (A ^ k) i j = ((A ^ k)ᵀ *ᵥ Pi.single i 1) j := by
    intro k; rw [mulVec_single_one]; rfl
  have hle : ∀ k, ((A ^ k) i j) ^ 2 ≤ δ⁻¹ * V ((A ^ k)ᵀ *ᵥ Pi.single i 1) := by
    intro k
    have := hlow ((A ^ k)ᵀ *ᵥ Pi.single i 1)
    rw [one_mulVec] at this
    have h4 : ((A ^ k) i j) ^ 2 ≤ ((A ^ k)ᵀ *ᵥ Pi.single i 1) ⬝ᵥ ((A ^ k)ᵀ *ᵥ Pi.single i 1) := by
      rw [hent, dotProduct, sq]
      exact Finset.single_le_sum (f := fun l => ((A ^ k)ᵀ *ᵥ Pi.single i 1) l *
        ((A ^ k)ᵀ *ᵥ Pi.single i 1) l) (fun l _ => mul_self_nonneg _) (Finset.mem_univ j)
    rw [← div_eq_inv_mul, le_div_iff₀ hδ]
    nlinarith
  have hsq : Tendsto (fun k => ((A ^ k) i j) ^ 2) atTop (𝓝 0) := by
    have := hk.const_mul δ⁻¹
    rw [mul_zero] at this
    exact squeeze_zero (fun k => sq_nonneg _) hle this
  have := (Real.continuous_sqrt.tendsto 0).comp hsq
  simp only [Function.comp_def, Real.sqrt_sq_eq_abs, Real.sqrt_zero] at this
  exact (tendsto_zero_iff_abs_tendsto_zero _).2 this

/-- The covariance recursion converges to its fixed point. -/
theorem cov_tendsto {A Q : Mat n n} (hA : Tendsto (fun k => A ^ k) atTop (𝓝 0)) {P : Mat n n}
    (hP : P = A * P * Aᵀ + Q) {C : ℕ → Mat n n} (hC : ∀ k, C (k + 1) = A * C k * Aᵀ + Q) :
    Tendsto C atTop (𝓝 P) := by
  have h : ∀ k, C k = P + A ^ k * (C 0 - P) * (A ^ k)ᵀ := by
    intro k
    induction k with
    | zero => simp
    | succ k ih =>
      have e : A * (A ^ k * (C 0 - P) * (A ^ k)ᵀ) * Aᵀ
          = A ^ (k + 1) * (C 0 - P) * (A ^ (k + 1))ᵀ := by
        rw [pow_succ', transpose_mul]; simp only [Matrix.mul_assoc]
      rw [hC, ih, Matrix.mul_add, Matrix.add_mul, e]
      set W := A ^ (k + 1) * (C 0 - P) * (A ^ (k + 1))ᵀ
      have : P + W = A * P * Aᵀ + Q + W := by rw [← hP]
      rw [this]; abel
  have hT : Tendsto (fun k => (A ^ k)ᵀ) atTop (𝓝 0) := by
    have := (continuous_id.matrix_transpose).tendsto (0 : Mat n n)
    rw [show (id (0 : Mat n n))ᵀ = 0 from transpose_zero] at this
    exact this.comp hA
  have := ((hA.mul_const (C 0 - P)).mul hT).const_add P
  simp only [zero_mul, add_zero] at this
  exact this.congr fun k => (h k).symm

/-- A linear recursion with a vanishing transition matrix forgets its start. -/
theorem lin_tendsto {A : Mat n n} (hA : Tendsto (fun k => A ^ k) atTop (𝓝 0)) {e : ℕ → Vec n}
    (he : ∀ k, e (k + 1) = A *ᵥ e k) : Tendsto e atTop (𝓝 0) := by
  have h : ∀ k, e k = A ^ k *ᵥ e 0 := by
    intro k
    induction k with
    | zero => simp
    | succ k ih => rw [he, ih, pow_succ', mulVec_mulVec]
  have hc : Continuous fun B : Mat n n => B *ᵥ e 0 := by fun_prop
  have := (hc.tendsto 0).comp hA
  rw [zero_mulVec] at this
  exact this.congr fun k => (h k).symm

section random
open MeasureTheory ProbabilityTheory Spec

variable {Ω : Type*} [MeasurableSpace Ω] {μ : Measure Ω} [IsProbabilityMeasure μ]

/-- A state driven by white noise through `b` has the covariance recursion
`C' = A C Aᵀ + σ² b bᵀ`. -/
theorem driven_cov {A : Mat n n} {b : Vec n} {s : ℕ → ℝ} {v : ℕ → Ω → ℝ} {σ2 : ℝ}
    (hv : WhiteNoise v σ2 μ) {X : ℕ → Ω → Vec n} (c : Vec n) (h0 : ∀ ω, X 0 ω = c)
    (hX : ∀ k ω, X (k + 1) ω = A *ᵥ X k ω + (s k + v k ω) • b) (k : ℕ) :
    SqInt (X k) μ ∧
    covMat (X (k + 1)) (X (k + 1)) μ = A * covMat (X k) (X k) μ * Aᵀ + σ2 • vecMulVec b b := by
  -- the noise as a vector of length one
  let B : Mat n 1 := Matrix.of fun i _ => b i
  let w : ℕ → Ω → Vec 1 := fun k ω _ => s k + v k ω
  have hw : ∀ k, SqInt (w k) μ := fun k _ => (memLp_const (s k)).add (hv.memLp k)
  have hBw : ∀ k ω, (s k + v k ω) • b = B *ᵥ w k ω := by
    intro k ω; ext i; simp [B, w, Matrix.mulVec, dotProduct, mul_comm]
  have hcw : ∀ j k, covMat (w j) (w k) μ = Matrix.of fun _ _ => cov[v j, v k; μ] := by
    intro j k
    ext a b
    rw [of_apply]
    show cov[fun ω => s j + v j ω, fun ω => s k + v k ω; μ] = _
    rw [covariance_const_add_left ((hv.memLp j).integrable (by norm_num)),
      covariance_const_add_right ((hv.memLp k).integrable (by norm_num))]
  have hsq : ∀ k, SqInt (X k) μ := by
    intro k
    induction k with
    | zero => rw [show X 0 = fun _ => c from funext h0]; exact SqInt.const c
    | succ k ih =>
      rw [show X (k + 1) = fun ω => A *ᵥ X k ω + B *ᵥ w k ω from
        funext fun ω => by rw [hX, hBw]]
      exact (ih.mulVec A).add ((hw k).mulVec B)
  have hun : ∀ k j, k ≤ j → covMat (X k) (w j) μ = 0 := by
    intro k
    induction k with
    | zero =>
      intro j _
      rw [show X 0 = fun _ => c from funext h0]
      ext a b; simp [covMat, covariance_const_left]
    | succ k ih =>
      intro j hj
      rw [show X (k + 1) = fun ω => A *ᵥ X k ω + B *ᵥ w k ω from
        funext fun ω => by rw [hX, hBw],
        covMat_add_left ((hsq k).mulVec A) ((hw k).mulVec B) (hw j),
        covMat_mulVec_left (hsq k) (hw j), covMat_mulVec_left (hw k) (hw j), ih j (by omega), hcw,
        hv.uncorr k j (by omega)]
      rw [show (Matrix.of fun _ _ => 0 : Mat 1 1) = 0 from rfl, Matrix.mul_zero, Matrix.mul_zero,
        add_zero]
  refine ⟨hsq k, ?_⟩
  have hXk := hsq k
  rw [show X (k + 1) = fun ω => A *ᵥ X k ω + B *ᵥ w k ω from funext fun ω => by rw [hX, hBw]]
  rw [covMat_add_left (hXk.mulVec A) ((hw k).mulVec B) ((hXk.mulVec A).add ((hw k).mulVec B)),
    covMat_add_right (hXk.mulVec A) (hXk.mulVec A) ((hw k).mulVec B),
    covMat_add_right ((hw k).mulVec B) (hXk.mulVec A) ((hw k).mulVec B),
    covMat_mulVec_left hXk (hXk.mulVec A), covMat_mulVec_right hXk hXk,
    covMat_mulVec_left hXk ((hw k).mulVec B), covMat_mulVec_right hXk (hw k),
    covMat_mulVec_left (hw k) (hXk.mulVec A), covMat_mulVec_right (hw k) hXk,
    covMat_mulVec_left (hw k) ((hw k).mulVec B), covMat_mulVec_right (hw k) (hw k),
    covMat_transpose (X := X k) (Y := w k), hun k k le_rfl, hcw, hv.var]
  simp only [Matrix.zero_mul, Matrix.mul_zero, transpose_zero, add_zero, zero_add]
  rw [Matrix.mul_assoc A]
  congr 1
  ext i j
  simp only [B, Matrix.mul_apply, vecMulVec, Finset.univ_unique, Finset.sum_singleton, of_apply,
    transpose_apply, Matrix.smul_apply, smul_eq_mul]
  ring

end random
end Filterpy
