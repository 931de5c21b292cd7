import Verif.Props.KalmanWrongStart

/-!
# C142: how disturbances of any kind enter the estimate, and how fast they leave it
-/

namespace Filterpy

open Matrix Filter Topology

variable {n m l : ℕ}

/-! ## Specification -/

/-- What is left of the disturbances `δ 0, …, δ (k-1)` after `k` steps if each step keeps the part `σ` of what is there. -/
noncomputable def Spec.remaining (σ : ℝ) (δ : ℕ → ℝ) (k : ℕ) : ℝ := ∑ j ∈ Finset.range k, σ ^ (k - 1 - j) * δ j

/-- `X` is the path of a system with the model of the filter, pushed by `w` and measured as `z` with errors `v` - numbers of any
kind, not necessarily random. -/
structure Spec.Disturbed (s : KF n m l) (u : ℕ → Vec l) (z : ℕ → Vec m) (X w : ℕ → Vec n) (v : ℕ → Vec m) : Prop where
  moves : ∀ k, X (k + 1) = s.F *ᵥ X k + Spec.controlEffect s.B (some (u k)) + w k
  measured : ∀ k, z k = s.H *ᵥ X (k + 1) + v k

open Spec

/-! ## Sequences -/

theorem remaining_succ (σ : ℝ) (δ : ℕ → ℝ) (k : ℕ) : remaining σ δ (k + 1) = σ * remaining σ δ k + δ k := by
  unfold remaining
  rw [Finset.sum_range_succ, Finset.mul_sum]
  congr 1
  · refine Finset.sum_congr rfl fun j hj => ?_
    have hj := Finset.mem_range.1 hj
    rw [show k + 1 - 1 - j = (k - 1 - j) + 1 by omega, pow_succ]
    ring
  · simp

theorem remaining_nonneg {σ : ℝ} (h : 0 ≤ σ) {δ : ℕ → ℝ} (hδ : ∀ k, 0 ≤ δ k) (k : ℕ) : 0 ≤ remaining σ δ k :=
  Finset.sum_nonneg fun j _ => mul_nonneg (pow_nonneg h _) (hδ j)

theorem remaining_le {σ : ℝ} (h : 0 ≤ σ) (h1 : σ < 1) {δ : ℕ → ℝ} {b : ℝ} (hb : 0 ≤ b) (hδ : ∀ k, δ k ≤ b) (k : ℕ) :
    remaining σ δ k ≤ b / (1 - σ) := by
  have h1' : 0 < 1 - σ := by linarith
  induction k with
  | zero => simp only [remaining, Finset.range_zero, Finset.sum_empty]; positivity
  | succ k ih =>
    rw [remaining_succ]
    have := mul_le_mul_of_nonneg_left ih h
    have e : σ * (b / (1 - σ)) + b = b / (1 - σ) := by field_simp; ring
    linarith [hδ k]

/-- A sequence that contracts up to perturbations that are summable in the factor. -/
theorem perturbed_bound {r E ρ M : ℝ} (hr : 0 < r) (hE : 0 ≤ E) (hρ : 0 ≤ ρ) (hρ1 : ρ < 1) (hM : 0 ≤ M) :
    ∃ G : ℝ, 0 < G ∧ ∀ (V δ : ℕ → ℝ), (∀ k, 0 ≤ V k) → (∀ k, 0 ≤ δ k) →
      (∀ k, V (k + 1) ≤ (r + E * ρ ^ k) * V k + M * δ k) → ∀ k, V k ≤ G * (r ^ k * V 0 + M * remaining r δ k) := by
  have h1ρ : 0 < 1 - ρ := by linarith
  have hgeo : ∀ k, ∑ i ∈ Finset.range k, ρ ^ i ≤ (1 - ρ)⁻¹ := fun k => by
    rw [← tsum_geometric_of_lt_one hρ hρ1]
    exact (summable_geometric_of_lt_one hρ hρ1).sum_le_tsum _ fun i _ => pow_nonneg hρ i
  refine ⟨Real.exp (E / r * (1 - ρ)⁻¹), Real.exp_pos _, fun V δ hV hδ h k => ?_⟩
  have hpos : ∀ k, 0 ≤ r ^ k * V 0 + M * remaining r δ k := fun k =>
    add_nonneg (mul_nonneg (pow_nonneg hr.le _) (hV 0)) (mul_nonneg hM (remaining_nonneg hr.le hδ k))
  have key : ∀ k, V k ≤ Real.exp (E / r * ∑ i ∈ Finset.range k, ρ ^ i) * (r ^ k * V 0 + M * remaining r δ k) := by
    intro k
    induction k with
    | zero => simp [remaining]
    | succ k ih =>
      have hx : 0 ≤ E / r * ρ ^ k := by positivity
      have hS : 0 ≤ ∑ i ∈ Finset.range (k + 1), ρ ^ i := Finset.sum_nonneg fun i _ => pow_nonneg hρ i
      have h1 : r + E * ρ ^ k ≤ r * Real.exp (E / r * ρ ^ k) := by
        have := mul_le_mul_of_nonneg_left (Real.add_one_le_exp (E / r * ρ ^ k)) hr.le
        have e : r * (E / r * ρ ^ k + 1) = r + E * ρ ^ k := by field_simp; ring
        linarith
      have h2 : 1 ≤ Real.exp (E / r * ∑ i ∈ Finset.range (k + 1), ρ ^ i) := Real.one_le_exp (by positivity)
      have h3 : (r + E * ρ ^ k) * V k ≤ r * Real.exp (E / r * ρ ^ k) *
          (Real.exp (E / r * ∑ i ∈ Finset.range k, ρ ^ i) * (r ^ k * V 0 + M * remaining r δ k)) :=
        mul_le_mul h1 ih (hV k) (by positivity)
      have h4 : M * δ k ≤ Real.exp (E / r * ∑ i ∈ Finset.range (k + 1), ρ ^ i) * (M * δ k) :=
        le_mul_of_one_le_left (mul_nonneg hM (hδ k)) h2
      refine (h k).trans ((add_le_add h3 h4).trans (le_of_eq ?_))
      rw [Finset.sum_range_succ, mul_add (E / r), Real.exp_add, remaining_succ]
      ring
  refine (key k).trans (mul_le_mul_of_nonneg_right (Real.exp_le_exp.2 ?_) (hpos k))
  exact mul_le_mul_of_nonneg_left (hgeo k) (by positivity)

/-! ## Errors -/

theorem dot_add_le {k : ℕ} (a b : Vec k) : (a + b) ⬝ᵥ (a + b) ≤ 2 * (a ⬝ᵥ a) + 2 * (b ⬝ᵥ b) := by
  have := dot_sub_le a (-b)
  simpa using this

/-- One step of the error of a filter whose gain is `K + D`. -/
theorem error_step {A P : Mat n n} (hP : P.PosDef) (hD : (P - A * P * Aᵀ).PosDef) (G : Mat m n) (H : Mat m n) (J : Mat n n) (K : Mat n m)
    {C2 : ℝ} (hC2 : 0 ≤ C2) :
    ∃ r E M : ℝ, 0 < r ∧ r < 1 ∧ 0 ≤ E ∧ 0 ≤ M ∧ ∀ (D : Mat n m) (d w : Vec n) (v : Vec m), sizeSq D ≤ C2 →
      sqLen P (A *ᵥ d + D *ᵥ (-(H *ᵥ w + v) - G *ᵥ d) + (J *ᵥ w - K *ᵥ v)) ≤
        (r + E * sizeSq D) * sqLen P d + M * (w ⬝ᵥ w + v ⬝ᵥ v) := by
  obtain ⟨r, C1, hr0, hr1, hC1, hstep⟩ := step_contract hP hD G
  obtain ⟨c1, hc1, h1⟩ := sqLen_le_dot (P := P)
  set η := (1 - r) / 2 with hη
  have hη0 : 0 < η := by rw [hη]; linarith
  have hηi : 0 < η⁻¹ := inv_pos.2 hη0
  have hr' : (1 + η) * r < 1 := by rw [hη]; nlinarith
  have sH := sizeSq_nonneg H
  have sJ := sizeSq_nonneg J
  have sK := sizeSq_nonneg K
  refine ⟨((1 + η) * r + 1) / 2, (1 + η) * C1,
    (1 + η) * (C1 * C2) * (2 * sizeSq H + 2) + (1 + η⁻¹) * c1 * (2 * sizeSq J + 2 * sizeSq K), ?_, by linarith, by positivity, by positivity,
    fun D d w v hDc => ?_⟩
  · have : 0 ≤ (1 + η) * r := by positivity
    linarith
  have sD := sizeSq_nonneg D
  have vd := sqLen_nonneg hP d
  have dw := dot_self_nonneg w
  have dv := dot_self_nonneg v
  have k1 := sqLen_add_le hP hη0 (A *ᵥ d + D *ᵥ (-(H *ᵥ w + v) - G *ᵥ d)) (J *ᵥ w - K *ᵥ v)
  have k2 := hstep D d (-(H *ᵥ w + v))
  have k3 : (-(H *ᵥ w + v)) ⬝ᵥ (-(H *ᵥ w + v)) ≤ (2 * sizeSq H + 2) * (w ⬝ᵥ w + v ⬝ᵥ v) := by
    rw [neg_dotProduct_neg]
    have a1 := dot_add_le (H *ᵥ w) v
    have a2 := dot_mulVec_le H w
    nlinarith [mul_nonneg sH dv]
  have k4 : (J *ᵥ w - K *ᵥ v) ⬝ᵥ (J *ᵥ w - K *ᵥ v) ≤ (2 * sizeSq J + 2 * sizeSq K) * (w ⬝ᵥ w + v ⬝ᵥ v) := by
    have a1 := dot_sub_le (J *ᵥ w) (K *ᵥ v)
    have a2 := dot_mulVec_le J w
    have a3 := dot_mulVec_le K v
    nlinarith [mul_nonneg sJ dv, mul_nonneg sK dw]
  have k5 := (h1 (J *ᵥ w - K *ᵥ v)).trans (mul_le_mul_of_nonneg_left k4 hc1.le)
  have k6 := mul_le_mul_of_nonneg_left k5 (show 0 ≤ 1 + η⁻¹ by linarith)
  have k7 : C1 * sizeSq D * ((-(H *ᵥ w + v)) ⬝ᵥ (-(H *ᵥ w + v))) ≤ C1 * C2 * ((2 * sizeSq H + 2) * (w ⬝ᵥ w + v ⬝ᵥ v)) :=
    mul_le_mul (mul_le_mul_of_nonneg_left hDc hC1) k3 (dot_self_nonneg _) (by positivity)
  have k8 := mul_le_mul_of_nonneg_left (k2.trans (add_le_add_right k7 _)) (show 0 ≤ 1 + η by linarith)
  have k9 : (1 + η) * r * sqLen P d ≤ ((1 + η) * r + 1) / 2 * sqLen P d := mul_le_mul_of_nonneg_right (by linarith) vd
  refine k1.trans ((add_le_add k8 k6).trans ?_)
  linarith

/-- The gain in cycle `k` of a filter started with covariance `P₀`. -/
noncomputable def gainAt (s : KF n m l) (P₀ : Mat n n) (k : ℕ) : Mat n m :=
  steadyGain s.alphaSq s.F s.Q s.H s.R ((riccati s.alphaSq s.F s.Q s.H s.R)^[k] P₀)

theorem error_bound (s : KF n m l) (hs : AtFixedPoint s) (ha : 1 ≤ s.alphaSq) (hP : s.P.PosDef)
    (hQ : s.Q.PosSemidef) (hR : s.R.PosDef) (hC : Reachable s.F s.Q) (P₀ : Mat n n) (hP₀ : P₀.PosSemidef) :
    ∃ C σ : ℝ, 0 < C ∧ 0 ≤ σ ∧ σ < 1 ∧ ∀ (e w : ℕ → Vec n) (v : ℕ → Vec m),
      (∀ k, e (k + 1) = (s.F *ᵥ e k + w k) - gainAt s P₀ k *ᵥ (s.H *ᵥ (s.F *ᵥ e k + w k) + v k)) →
      ∀ k, e k ⬝ᵥ e k ≤ C * (σ ^ k * (e 0 ⬝ᵥ e 0) + remaining σ (fun j => w j ⬝ᵥ w j + v j ⬝ᵥ v j) k) := by
  obtain ⟨X, hX, hXA⟩ := reach_length hs ha hP hQ hR hC
  obtain ⟨C2, ρ, hC2, hρ0, hρ1, hgain⟩ := gain_converges (by linarith) hQ hR hC hP.posSemidef (fixed_riccati hs).1 hP₀
  obtain ⟨r, E, M, hr0, hr1, hE, hM, hstep⟩ := error_step hX hXA (s.H * s.F) s.H (1 - s.K * s.H) s.K hC2
  obtain ⟨G, hG, hbound⟩ := perturbed_bound hr0 (mul_nonneg hE hC2) hρ0 hρ1 hM
  obtain ⟨c, hc, hdot⟩ := dot_le_sqLen hX
  obtain ⟨c', hc', hdot'⟩ := sqLen_le_dot (P := X)
  refine ⟨c * G * (c' + M), r, by positivity, hr0.le, hr1, fun e w v he k => ?_⟩
  have hK : steadyGain s.alphaSq s.F s.Q s.H s.R s.P = s.K := (fixed_riccati hs).2
  have hδ : ∀ k, 0 ≤ w k ⬝ᵥ w k + v k ⬝ᵥ v k := fun k => add_nonneg (dot_self_nonneg _) (dot_self_nonneg _)
  have h := hbound (fun k => sqLen X (e k)) (fun k => w k ⬝ᵥ w k + v k ⬝ᵥ v k) (fun k => sqLen_nonneg hX _) hδ (fun k => ?_) k
  · have k1 := (hdot (e k)).trans (mul_le_mul_of_nonneg_left h hc.le)
    have k2 := hdot' (e 0)
    have r0 := remaining_nonneg hr0.le hδ k
    have p0 := pow_nonneg hr0.le k
    refine k1.trans ?_
    rw [mul_assoc c G, mul_assoc c, mul_assoc G]
    refine mul_le_mul_of_nonneg_left (mul_le_mul_of_nonneg_left ?_ hG.le) hc.le
    have k3 := mul_le_mul_of_nonneg_left k2 p0
    have k4 := mul_nonneg hM (mul_nonneg p0 (dot_self_nonneg (e 0)))
    have k5 := mul_nonneg hc'.le r0
    nlinarith
  · set D := gainAt s P₀ k - s.K with hD
    have hDk : sizeSq D ≤ C2 * ρ ^ k := by rw [hD, ← hK]; exact hgain k
    have hDc : sizeSq D ≤ C2 := hDk.trans (mul_le_of_le_one_right hC2 (pow_le_one₀ hρ0 hρ1.le))
    have h := hstep D (e k) (w k) (v k) hDc
    have e1 : e (k + 1) = ((1 - s.K * s.H) * s.F) *ᵥ e k + D *ᵥ (-(s.H *ᵥ w k + v k) - (s.H * s.F) *ᵥ e k) +
        ((1 - s.K * s.H) *ᵥ w k - s.K *ᵥ v k) := by
      rw [he, show gainAt s P₀ k = s.K + D by rw [hD]; abel]
      simp only [sub_mulVec, add_mulVec, one_mulVec, mulVec_add, mulVec_sub, ← mulVec_mulVec, mulVec_neg]
      abel
    rw [e1]
    refine h.trans (add_le_add_left (mul_le_mul_of_nonneg_right ?_ (sqLen_nonneg hX _)) _)
    have := mul_le_mul_of_nonneg_left hDk hE
    rw [mul_assoc]
    linarith

/-! ## The theorems -/

/-- **C142, errors.**  A filter whose process noise reaches every direction and whose sensor leaves nothing lasting unseen: there
are `C` and `σ < 1`, the same for all starts and all disturbances, such that the squared error of the estimate after `k` cycles is at
most `C` times what is left of the squared initial error and of the squared disturbances when each cycle keeps the part `σ`. The
disturbances may be anything: biased, correlated, malicious, far beyond `Q` and `R`. -/
theorem C142_errors (expf : ℝ → ℝ) (s : KF n m l) (hinv : s.inv = npInv) (ha : 1 ≤ s.alphaSq) (hP : s.P.PosSemidef)
    (hQ : s.Q.PosSemidef) (hR : s.R.PosDef) (hC : Reachable s.F s.Q) (hD : Detectable (√s.alphaSq • s.F) s.H) :
    ∃ C σ : ℝ, 0 < C ∧ 0 ≤ σ ∧ σ < 1 ∧ ∀ (x : Vec n) (u : ℕ → Vec l) (z : ℕ → Vec m) (X w : ℕ → Vec n) (v : ℕ → Vec m),
      Disturbed s u z X w v → ∃ run : ℕ → KF n m l,
        (∀ k, ({ s with x := x } : KF n m l).run expf (fullCycles (firstOf (fun j => (.vec (u j), z j)) k)) = .ok (run k)) ∧
        ∀ k, (X k - (run k).x) ⬝ᵥ (X k - (run k).x) ≤
          C * (σ ^ k * ((X 0 - x) ⬝ᵥ (X 0 - x)) + remaining σ (fun j => w j ⬝ᵥ w j + v j ⬝ᵥ v j) k) := by
  obtain ⟨P, K, hPd, -, -, hs, -⟩ := C125_settles expf s hinv (by linarith) hQ hR hC hD
  obtain ⟨C, σ, h1, h2, h3, h4⟩ := error_bound { s with P := P, K := K } hs ha hPd hQ hR hC s.P hP
  refine ⟨C, σ, h1, h2, h3, fun x u z X w v hdis => ?_⟩
  obtain ⟨run, g1, g2, -, g3⟩ := full_cycles expf { s with x := x } u z hinv (zero_le_one.trans ha) hP hQ hR
  refine ⟨run, g1, fun k => ?_⟩
  have := h4 (fun k => X k - (run k).x) w v (fun k => ?_) k
  · simpa only [g2] using this
  · have g3 := g3 k
    dsimp only at g3 ⊢
    rw [g3, hdis.measured, hdis.moves]
    show _ = _ - steadyGain s.alphaSq s.F s.Q s.H s.R ((riccati s.alphaSq s.F s.Q s.H s.R)^[k] s.P) *ᵥ _
    generalize steadyGain s.alphaSq s.F s.Q s.H s.R ((riccati s.alphaSq s.F s.Q s.H s.R)^[k] s.P) = Kk
    generalize controlEffect s.B (some (u k)) = cu
    simp only [mulVec_add, mulVec_sub]
    abel

/-- **C142, bounded errors.**  If the squared disturbances never exceed `b`, the squared error is at most `C b` up to a part of the
initial error that dies out exponentially. -/
theorem C142_bounded (expf : ℝ → ℝ) (s : KF n m l) (hinv : s.inv = npInv) (ha : 1 ≤ s.alphaSq) (hP : s.P.PosSemidef)
    (hQ : s.Q.PosSemidef) (hR : s.R.PosDef) (hC : Reachable s.F s.Q) (hD : Detectable (√s.alphaSq • s.F) s.H) :
    ∃ C σ : ℝ, 0 < C ∧ 0 ≤ σ ∧ σ < 1 ∧ ∀ (x : Vec n) (u : ℕ → Vec l) (z : ℕ → Vec m) (X w : ℕ → Vec n) (v : ℕ → Vec m) (b : ℝ),
      Disturbed s u z X w v → (∀ k, w k ⬝ᵥ w k + v k ⬝ᵥ v k ≤ b) → ∃ run : ℕ → KF n m l,
        (∀ k, ({ s with x := x } : KF n m l).run expf (fullCycles (firstOf (fun j => (.vec (u j), z j)) k)) = .ok (run k)) ∧
        ∀ k, (X k - (run k).x) ⬝ᵥ (X k - (run k).x) ≤ C * (σ ^ k * ((X 0 - x) ⬝ᵥ (X 0 - x)) + b) := by
  obtain ⟨C, σ, h1, h2, h3, h4⟩ := C142_errors expf s hinv ha hP hQ hR hC hD
  have hσ : 0 < 1 - σ := by linarith
  refine ⟨C * (1 - σ)⁻¹, σ, by positivity, h2, h3, fun x u z X w v b hdis hb => ?_⟩
  obtain ⟨run, g1, g2⟩ := h4 x u z X w v hdis
  refine ⟨run, g1, fun k => (g2 k).trans ?_⟩
  have hb0 : 0 ≤ b := (add_nonneg (dot_self_nonneg (w 0)) (dot_self_nonneg (v 0))).trans (hb 0)
  rw [mul_assoc]
  refine mul_le_mul_of_nonneg_left ?_ h1.le
  have k1 := remaining_le h2 h3 hb0 hb k
  rw [div_eq_mul_inv, mul_comm] at k1
  have k2 : σ ^ k * ((X 0 - x) ⬝ᵥ (X 0 - x)) ≤ (1 - σ)⁻¹ * (σ ^ k * ((X 0 - x) ⬝ᵥ (X 0 - x))) :=
    le_mul_of_one_le_left (mul_nonneg (pow_nonneg h2 k) (dot_self_nonneg _)) ((one_le_inv₀ hσ).2 (by linarith))
  rw [mul_add]
  linarith

/-- **C142, data.**  Two runs of the same filter with different initial states, controls and measurements: the squared difference of
the estimates is at most `C` times what is left of the squared differences of the start, the controls and the measurements; so one
wrong measurement, however wrong, is forgotten exponentially fast. -/
theorem C142_data (expf : ℝ → ℝ) (s : KF n m l) (hinv : s.inv = npInv) (ha : 1 ≤ s.alphaSq) (hP : s.P.PosSemidef)
    (hQ : s.Q.PosSemidef) (hR : s.R.PosDef) (hC : Reachable s.F s.Q) (hD : Detectable (√s.alphaSq • s.F) s.H) :
    ∃ C σ : ℝ, 0 < C ∧ 0 ≤ σ ∧ σ < 1 ∧ ∀ (x x' : Vec n) (u u' : ℕ → Vec l) (z z' : ℕ → Vec m), ∃ run run' : ℕ → KF n m l,
        (∀ k, ({ s with x := x } : KF n m l).run expf (fullCycles (firstOf (fun j => (.vec (u j), z j)) k)) = .ok (run k)) ∧
        (∀ k, ({ s with x := x' } : KF n m l).run expf (fullCycles (firstOf (fun j => (.vec (u' j), z' j)) k)) = .ok (run' k)) ∧
        ∀ k, ((run k).x - (run' k).x) ⬝ᵥ ((run k).x - (run' k).x) ≤
          C * (σ ^ k * ((x - x') ⬝ᵥ (x - x')) + remaining σ (fun j =>
            (controlEffect s.B (some (u j)) - controlEffect s.B (some (u' j))) ⬝ᵥ (controlEffect s.B (some (u j)) - controlEffect s.B (some (u' j)))
            + (z j - z' j) ⬝ᵥ (z j - z' j)) k) := by
  obtain ⟨P, K, hPd, -, -, hs, -⟩ := C125_settles expf s hinv (by linarith) hQ hR hC hD
  obtain ⟨C, σ, h1, h2, h3, h4⟩ := error_bound { s with P := P, K := K } hs ha hPd hQ hR hC s.P hP
  refine ⟨C, σ, h1, h2, h3, fun x x' u u' z z' => ?_⟩
  obtain ⟨run, g1, g2, -, g3⟩ := full_cycles expf { s with x := x } u z hinv (zero_le_one.trans ha) hP hQ hR
  obtain ⟨run', g1', g2', -, g3'⟩ := full_cycles expf { s with x := x' } u' z' hinv (zero_le_one.trans ha) hP hQ hR
  refine ⟨run, run', g1, g1', fun k => ?_⟩
  have := h4 (fun k => (run k).x - (run' k).x) (fun j => controlEffect s.B (some (u j)) - controlEffect s.B (some (u' j)))
    (fun j => -(z j - z' j)) (fun k => ?_) k
  · simpa only [g2, g2', neg_dotProduct_neg] using this
  · have g3 := g3 k
    have g3' := g3' k
    dsimp only at g3 g3' ⊢
    rw [g3, g3']
    show _ = _ - steadyGain s.alphaSq s.F s.Q s.H s.R ((riccati s.alphaSq s.F s.Q s.H s.R)^[k] s.P) *ᵥ _
    generalize steadyGain s.alphaSq s.F s.Q s.H s.R ((riccati s.alphaSq s.F s.Q s.H s.R)^[k] s.P) = Kk
    generalize controlEffect s.B (some (u k)) = cu
    generalize controlEffect s.B (some (u' k)) = cu'
    simp only [mulVec_add, mulVec_sub, mulVec_neg]
    abel

/-- **C142, outliers.**  Change one measurement of a sequence: `k` cycles later the squared difference of the estimates is at most
`C σᵏ` times the squared change. -/
theorem C142_outlier (expf : ℝ → ℝ) (s : KF n m l) (hinv : s.inv = npInv) (ha : 1 ≤ s.alphaSq) (hP : s.P.PosSemidef)
    (hQ : s.Q.PosSemidef) (hR : s.R.PosDef) (hC : Reachable s.F s.Q) (hD : Detectable (√s.alphaSq • s.F) s.H) :
    ∃ C σ : ℝ, 0 < C ∧ 0 ≤ σ ∧ σ < 1 ∧ ∀ (u : ℕ → Vec l) (z : ℕ → Vec m) (j : ℕ) (y : Vec m), ∃ run run' : ℕ → KF n m l,
        (∀ k, s.run expf (fullCycles (firstOf (fun j => (.vec (u j), z j)) k)) = .ok (run k)) ∧
        (∀ k, s.run expf (fullCycles (firstOf (fun i => (.vec (u i), if i = j then y else z i)) k)) = .ok (run' k)) ∧
        ∀ k, ((run (j + 1 + k)).x - (run' (j + 1 + k)).x) ⬝ᵥ ((run (j + 1 + k)).x - (run' (j + 1 + k)).x) ≤
          C * σ ^ k * ((z j - y) ⬝ᵥ (z j - y)) := by
  obtain ⟨C, σ, h1, h2, h3, h4⟩ := C142_data expf s hinv ha hP hQ hR hC hD
  refine ⟨C, σ, h1, h2, h3, fun u z j y => ?_⟩
  obtain ⟨run, run', g1, g2, g3⟩ := h4 s.x s.x u u z fun i => if i = j then y else z i
  refine ⟨run, run', g1, g2, fun k => (g3 (j + 1 + k)).trans (le_of_eq ?_)⟩
  rw [sub_self, dotProduct_zero, mul_zero, zero_add, mul_assoc]
  congr 1
  unfold remaining
  rw [Finset.sum_eq_single j]
  · rw [show j + 1 + k - 1 - j = k by omega]
    simp
  · intro i _ hij
    simp [hij]
  · intro h
    exact absurd (Finset.mem_range.2 (by omega)) h

/-- **C142, constant gain.**  The same bound for a filter at its steady state that is run with `predict_steadystate` and
`update_steadystate`. -/
theorem C142_constant_gain (expf : ℝ → ℝ) (s : KF n m l) (hs : AtFixedPoint s) (ha : 1 ≤ s.alphaSq) (hP : s.P.PosDef)
    (hQ : s.Q.PosSemidef) (hR : s.R.PosDef) (hC : Reachable s.F s.Q) :
    ∃ C σ : ℝ, 0 < C ∧ 0 ≤ σ ∧ σ < 1 ∧ ∀ (x : Vec n) (u : ℕ → Vec l) (z : ℕ → Vec m) (X w : ℕ → Vec n) (v : ℕ → Vec m),
      Disturbed s u z X w v → ∃ run : ℕ → KF n m l,
        (∀ k, ({ s with x := x } : KF n m l).run expf (steadyCycles (firstOf (fun j => (.vec (u j), z j)) k)) = .ok (run k)) ∧
        ∀ k, (X k - (run k).x) ⬝ᵥ (X k - (run k).x) ≤
          C * (σ ^ k * ((X 0 - x) ⬝ᵥ (X 0 - x)) + remaining σ (fun j => w j ⬝ᵥ w j + v j ⬝ᵥ v j) k) := by
  obtain ⟨C, σ, h1, h2, h3, h4⟩ := error_bound s hs ha hP hQ hR hC s.P hP.posSemidef
  refine ⟨C, σ, h1, h2, h3, fun x u z X w v hdis => ?_⟩
  obtain ⟨run, g1, g2, g3⟩ := steady_cycles expf { s with x := x } u z
  refine ⟨run, g1, fun k => ?_⟩
  have := h4 (fun k => X k - (run k).x) w v (fun k => ?_) k
  · simpa only [g2] using this
  · have hK : gainAt s s.P k = s.K := by
      rw [gainAt, Function.iterate_fixed (fixed_riccati hs).1, (fixed_riccati hs).2]
    have g3 := g3 k
    dsimp only at g3 ⊢
    rw [hK, g3, hdis.measured, hdis.moves]
    generalize controlEffect s.B (some (u k)) = cu
    simp only [sub_mulVec, one_mulVec, ← mulVec_mulVec, mulVec_add, mulVec_sub]
    abel

/-- **C142, exactly.**  Such a bound holds only if the sensor leaves nothing lasting unseen. -/
theorem C142_exactly (expf : ℝ → ℝ) (s : KF n m l) (hinv : s.inv = npInv) (ha : s.alphaSq = 1) (hP : s.P.PosSemidef)
    (hQ : s.Q.PosSemidef) (hR : s.R.PosDef) (hC : Reachable s.F s.Q) :
    Detectable s.F s.H ↔
    ∃ C σ : ℝ, 0 < C ∧ 0 ≤ σ ∧ σ < 1 ∧ ∀ (x : Vec n) (u : ℕ → Vec l) (z : ℕ → Vec m) (X w : ℕ → Vec n) (v : ℕ → Vec m),
      Disturbed s u z X w v → ∃ run : ℕ → KF n m l,
        (∀ k, ({ s with x := x } : KF n m l).run expf (fullCycles (firstOf (fun j => (.vec (u j), z j)) k)) = .ok (run k)) ∧
        ∀ k, (X k - (run k).x) ⬝ᵥ (X k - (run k).x) ≤
          C * (σ ^ k * ((X 0 - x) ⬝ᵥ (X 0 - x)) + remaining σ (fun j => w j ⬝ᵥ w j + v j ⬝ᵥ v j) k) := by
  refine ⟨fun hD => C142_errors expf s hinv ha.ge hP hQ hR hC (by rwa [ha, Real.sqrt_one, one_smul]), ?_⟩
  rintro ⟨C, σ, h1, h2, h3, h4⟩ d hd
  have hc : controlEffect s.B (some (0 : Vec l)) = 0 := by cases s.B <;> simp [controlEffect]
  obtain ⟨run, g1, g2⟩ := h4 0 (fun _ => 0) (fun _ => 0) (fun k => s.F ^ k *ᵥ d) (fun _ => 0) (fun _ => 0)
    ⟨fun k => by simp [pow_succ', ← mulVec_mulVec, hc], fun k => by rw [hd (k + 1), add_zero]⟩
  obtain ⟨run', r1, r2, -, r3⟩ := full_cycles expf { s with x := 0 } (fun _ => 0) (fun _ => 0) hinv (by simp [ha]) hP hQ hR
  obtain rfl : run = run' := funext fun k => Except.ok.inj ((g1 k).symm.trans (r1 k))
  have hx : ∀ k, (run k).x = 0 := fun k => by
    induction k with
    | zero => exact r2
    | succ k ih => rw [r3, ih]; simp [hc]
  have hb : ∀ k, (s.F ^ k *ᵥ d) ⬝ᵥ (s.F ^ k *ᵥ d) ≤ C * (d ⬝ᵥ d) * σ ^ k := fun k => by
    have := g2 k
    simp only [hx, sub_zero, pow_zero, one_mulVec, dotProduct_zero, add_zero, remaining, mul_zero, Finset.sum_const_zero] at this
    linarith
  refine vec_tendsto_of_dot (squeeze_zero (fun k => dot_self_nonneg _) hb ?_)
  have := (tendsto_pow_atTop_nhds_zero_of_lt_one h2 h3).const_mul (C * (d ⬝ᵥ d))
  rwa [mul_zero] at this

/-- A constant velocity filter meets the hypotheses: a single wrong position is forgotten. -/
example (expf : ℝ → ℝ) : ∃ C σ : ℝ, 0 < C ∧ 0 ≤ σ ∧ σ < 1 ∧ ∀ (u : ℕ → Vec 1) (z : ℕ → Vec 1) (j : ℕ) (y : Vec 1), ∃ run run' : ℕ → KF 2 1 1,
    (∀ k, cvKF.run expf (fullCycles (firstOf (fun j => (.vec (u j), z j)) k)) = .ok (run k)) ∧
    (∀ k, cvKF.run expf (fullCycles (firstOf (fun i => (.vec (u i), if i = j then y else z i)) k)) = .ok (run' k)) ∧
    ∀ k, ((run (j + 1 + k)).x - (run' (j + 1 + k)).x) ⬝ᵥ ((run (j + 1 + k)).x - (run' (j + 1 + k)).x) ≤
      C * σ ^ k * ((z j - y) ⬝ᵥ (z j - y)) :=
  C142_outlier expf cvKF rfl (by simp [cvKF, KF.fresh]) PosSemidef.one PosSemidef.one PosDef.one (reachable_of_pd PosDef.one)
    (by
      have : √cvKF.alphaSq • cvKF.F = cvKF.F := by simp [cvKF, KF.fresh]
      rw [this]; exact cv_observable.detectable)

/-- A system with a biased sensor and a steady push is described by `Disturbed`. -/
example : ∃ X : ℕ → Vec 1, Disturbed walkKF (fun _ => 0) (fun k => X (k + 1) + 1) X (fun _ => 1) (fun _ => 1) :=
  ⟨fun k _ => k, fun k => by ext; simp [walkKF, KF.fresh, controlEffect], fun k => by simp [walkKF, KF.fresh]⟩

end Filterpy
