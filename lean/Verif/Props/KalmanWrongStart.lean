import Verif.Props.KalmanReachable

/-!
# A wrong start is forgotten: the full filter, the constant gain filter and the truth (C105)
-/

namespace Filterpy

open Matrix Filter Topology

variable {n m l : ℕ}

/-! ## Lengths -/

theorem sqLen_nonneg {P : Mat n n} (hP : P.PosDef) (v : Vec n) : 0 ≤ sqLen P v :=
  PSD.quad hP.inv.posSemidef v

/-- A Lyapunov inequality for covariances is one for lengths. -/
theorem dual_contract {A P : Mat n n} (hP : P.PosDef) (hD : (P - A * P * Aᵀ).PosDef) :
    ∃ r : ℝ, 0 ≤ r ∧ r < 1 ∧ ∀ v : Vec n, sqLen P (A *ᵥ v) ≤ r * sqLen P v := by
  obtain ⟨ε, hε, hdom⟩ := PD.dominates (P := P) hD
  refine ⟨(1 + ε)⁻¹, by positivity, inv_lt_one_of_one_lt₀ (by linarith), fun v => ?_⟩
  rw [inv_mul_eq_div, le_div_iff₀ (by linarith)]
  have hPi : P * P⁻¹ = 1 := mul_nonsing_inv _ (PD.isUnit_det hP)
  have hPs : Pᵀ = P := hP.1
  set q := sqLen P (A *ᵥ v) with hq
  set w : Vec n := P⁻¹ *ᵥ (A *ᵥ v) with hw
  have e1 : q = (Aᵀ *ᵥ w) ⬝ᵥ v := by
    rw [hq, sqLen, ← hw, dotProduct_comm, dot_mulVec_transpose]
  have hPw : P *ᵥ w = A *ᵥ v := by rw [hw, mulVec_mulVec, hPi, one_mulVec]
  have e2 : w ⬝ᵥ (P *ᵥ w) = q := by rw [hPw, hq, sqLen, ← hw, dotProduct_comm]
  have h1 := hdom w
  rw [sub_mulVec, dotProduct_sub, quad_congr, e2] at h1
  have h2 := PSD.quad hP.posSemidef (Aᵀ *ᵥ w - P⁻¹ *ᵥ v)
  have hPv : P *ᵥ (P⁻¹ *ᵥ v) = v := by rw [mulVec_mulVec, hPi, one_mulVec]
  rw [quad_sub hPs, hPv, ← e1] at h2
  have e3 : (P⁻¹ *ᵥ v) ⬝ᵥ v = sqLen P v := by rw [dotProduct_comm]; rfl
  rw [e3] at h2
  nlinarith

theorem sqLen_add_le {P : Mat n n} (hP : P.PosDef) {η : ℝ} (hη : 0 < η) (a b : Vec n) :
    sqLen P (a + b) ≤ (1 + η) * sqLen P a + (1 + η⁻¹) * sqLen P b := by
  have hs : (P⁻¹)ᵀ = P⁻¹ := hP.inv.1
  have h := sqLen_nonneg hP (η • a - b)
  unfold sqLen at *
  rw [quad_sub hs] at h
  simp only [mulVec_smul, smul_dotProduct, dotProduct_smul, smul_eq_mul] at h
  simp only [mulVec_add, dotProduct_add, add_dotProduct]
  rw [dot_mulVec_symm hs b a]
  have h' : 0 ≤ η⁻¹ * (η * (η * a ⬝ᵥ P⁻¹ *ᵥ a) - 2 * (η * a ⬝ᵥ P⁻¹ *ᵥ b) + b ⬝ᵥ P⁻¹ *ᵥ b) :=
    mul_nonneg (inv_nonneg.2 hη.le) h
  have : η⁻¹ * (η * (η * a ⬝ᵥ P⁻¹ *ᵥ a) - 2 * (η * a ⬝ᵥ P⁻¹ *ᵥ b) + b ⬝ᵥ P⁻¹ *ᵥ b) =
      η * a ⬝ᵥ P⁻¹ *ᵥ a - 2 * a ⬝ᵥ P⁻¹ *ᵥ b + η⁻¹ * b ⬝ᵥ P⁻¹ *ᵥ b := by
    field_simp
  rw [this] at h'
  linarith

theorem sqLen_le_dot {P : Mat n n} : ∃ c : ℝ, 0 < c ∧ ∀ v : Vec n, sqLen P v ≤ c * (v ⬝ᵥ v) := by
  obtain ⟨ε, hε, h⟩ := PD.dominates (D := (1 : Mat n n)) (P := P⁻¹) PosDef.one
  refine ⟨ε⁻¹, by positivity, fun v => ?_⟩
  have := h v
  rw [one_mulVec] at this
  rw [inv_mul_eq_div, le_div_iff₀ hε, mul_comm]
  exact this

theorem dot_le_sqLen {P : Mat n n} (hP : P.PosDef) : ∃ c : ℝ, 0 < c ∧ ∀ v : Vec n, v ⬝ᵥ v ≤ c * sqLen P v := by
  obtain ⟨ε, hε, h⟩ := PD.dominates (D := P⁻¹) (P := (1 : Mat n n)) hP.inv
  refine ⟨ε⁻¹, by positivity, fun v => ?_⟩
  have := h v
  rw [one_mulVec] at this
  rw [inv_mul_eq_div, le_div_iff₀ hε, mul_comm]
  exact this

theorem dot_sub_le {k : ℕ} (a b : Vec k) : (a - b) ⬝ᵥ (a - b) ≤ 2 * (a ⬝ᵥ a) + 2 * (b ⬝ᵥ b) := by
  unfold dotProduct
  rw [Finset.mul_sum, Finset.mul_sum, ← Finset.sum_add_distrib]
  refine Finset.sum_le_sum fun i _ => ?_
  simp only [Pi.sub_apply]
  nlinarith [mul_self_nonneg (a i + b i)]

/-- One step of the difference between two filters, one of which uses the gain of a stable steady state and the
other a gain that differs from it by `D`; `g` is the residual of the first. -/
theorem step_contract {A P : Mat n n} (hP : P.PosDef) (hD : (P - A * P * Aᵀ).PosDef) (G : Mat m n) :
    ∃ r C : ℝ, 0 ≤ r ∧ r < 1 ∧ 0 ≤ C ∧ ∀ (D : Mat n m) (d : Vec n) (g : Vec m),
      sqLen P (A *ᵥ d + D *ᵥ (g - G *ᵥ d)) ≤ (r + C * sizeSq D) * sqLen P d + C * sizeSq D * (g ⬝ᵥ g) := by
  obtain ⟨r, hr0, hr1, hr⟩ := dual_contract hP hD
  obtain ⟨c1, hc1, h1⟩ := sqLen_le_dot (P := P)
  obtain ⟨c2, hc2, h2⟩ := dot_le_sqLen hP
  set η := (1 - r) / 2 with hη
  have hη0 : 0 < η := by rw [hη]; linarith
  have hηi : 0 < η⁻¹ := inv_pos.2 hη0
  set c := (1 + η⁻¹) * c1 * 2 with hc
  have hc0 : 0 < c := by positivity
  refine ⟨(1 + η) * r, c + c * (sizeSq G * c2), by positivity, ?_, ?_, fun D d g => ?_⟩
  · rw [hη]; nlinarith
  · have := sizeSq_nonneg G; positivity
  have k1 := sqLen_add_le hP hη0 (A *ᵥ d) (D *ᵥ (g - G *ᵥ d))
  have k2 := h1 (D *ᵥ (g - G *ᵥ d))
  have k3 := dot_mulVec_le D (g - G *ᵥ d)
  have k4 := dot_sub_le g (G *ᵥ d)
  have k5 := dot_mulVec_le G d
  have k6 := h2 d
  have sD := sizeSq_nonneg D
  have sG := sizeSq_nonneg G
  have dg := dot_self_nonneg g
  have vd := sqLen_nonneg hP d
  have k7 : (g - G *ᵥ d) ⬝ᵥ (g - G *ᵥ d) ≤ 2 * (g ⬝ᵥ g) + 2 * (sizeSq G * c2 * sqLen P d) := by
    have := mul_le_mul_of_nonneg_left k6 sG
    nlinarith
  have k8 : sqLen P (D *ᵥ (g - G *ᵥ d)) ≤ c1 * (sizeSq D * (2 * (g ⬝ᵥ g) + 2 * (sizeSq G * c2 * sqLen P d))) :=
    k2.trans (mul_le_mul_of_nonneg_left (k3.trans (mul_le_mul_of_nonneg_left k7 sD)) hc1.le)
  have k9 := mul_le_mul_of_nonneg_left k8 (show 0 ≤ 1 + η⁻¹ by linarith)
  have k10 := mul_le_mul_of_nonneg_left (hr d) (show 0 ≤ 1 + η by linarith)
  have k11 : 0 ≤ c * sizeSq D * sqLen P d := by positivity
  have k12 : 0 ≤ c * (sizeSq G * c2) * sizeSq D * (g ⬝ᵥ g) := by positivity
  have e : (1 + η⁻¹) * (c1 * (sizeSq D * (2 * (g ⬝ᵥ g) + 2 * (sizeSq G * c2 * sqLen P d)))) =
      c * sizeSq D * (g ⬝ᵥ g) + c * (sizeSq G * c2) * sizeSq D * sqLen P d := by rw [hc]; ring
  rw [e] at k9
  nlinarith

/-! ## Sequences -/

/-- A nonnegative sequence that contracts up to vanishing perturbations vanishes. -/
theorem perturbed_tendsto {a e b : ℕ → ℝ} {r : ℝ} (ha : ∀ k, 0 ≤ a k) (hr0 : 0 ≤ r) (hr : r < 1)
    (he : Tendsto e atTop (𝓝 0)) (hb : Tendsto b atTop (𝓝 0))
    (h : ∀ k, a (k + 1) ≤ (r + e k) * a k + b k) : Tendsto a atTop (𝓝 0) := by
  set q := (1 + r) / 2 with hq
  have hq1 : q < 1 := by rw [hq]; linarith
  have hq0 : 0 ≤ q := by rw [hq]; linarith
  rw [Metric.tendsto_atTop]
  intro ε hε
  have h1 : ∀ᶠ k in atTop, e k ≤ (1 - r) / 2 := he.eventually (ge_mem_nhds (by linarith))
  have h2 : ∀ᶠ k in atTop, b k ≤ (1 - q) * (ε / 2) :=
    hb.eventually (ge_mem_nhds (by have := sub_pos.2 hq1; positivity))
  obtain ⟨K, hK⟩ := eventually_atTop.1 (h1.and h2)
  have key : ∀ j, a (K + j) ≤ q ^ j * a K + ε / 2 := by
    intro j
    induction j with
    | zero => simp; linarith
    | succ j ih =>
      obtain ⟨g1, g2⟩ := hK (K + j) (by omega)
      have g3 := h (K + j)
      have g4 : (r + e (K + j)) * a (K + j) ≤ q * a (K + j) :=
        mul_le_mul_of_nonneg_right (by rw [hq]; linarith) (ha _)
      have g5 := mul_le_mul_of_nonneg_left ih hq0
      rw [pow_succ]
      have : K + (j + 1) = K + j + 1 := by omega
      rw [this]
      nlinarith
  have hlim : Tendsto (fun j => q ^ j * a K) atTop (𝓝 0) := by
    have := (tendsto_pow_atTop_nhds_zero_of_lt_one hq0 hq1).mul_const (a K)
    rwa [zero_mul] at this
  obtain ⟨J, hJ⟩ := eventually_atTop.1 (hlim.eventually (gt_mem_nhds (show (0 : ℝ) < ε / 2 by linarith)))
  refine ⟨K + J, fun k hk => ?_⟩
  obtain ⟨j, rfl⟩ : ∃ j, k = K + j := ⟨k - K, by omega⟩
  have := key j
  have := hJ j (by omega)
  rw [Real.dist_eq, sub_zero, abs_of_nonneg (ha _)]
  linarith

theorem vec_tendsto_of_dot {k : ℕ} {d : ℕ → Vec k} (h : Tendsto (fun j => d j ⬝ᵥ d j) atTop (𝓝 0)) :
    Tendsto d atTop (𝓝 0) := by
  rw [tendsto_pi_nhds]
  intro i
  have h1 : Tendsto (fun j => d j i ^ 2) atTop (𝓝 0) := by
    refine squeeze_zero (fun j => sq_nonneg _) (fun j => ?_) h
    unfold dotProduct
    rw [sq]
    exact Finset.single_le_sum (f := fun a => d j a * d j a) (fun a _ => mul_self_nonneg _) (Finset.mem_univ i)
  have h2 := h1.sqrt
  simp only [Real.sqrt_sq_eq_abs, Real.sqrt_zero] at h2
  exact (tendsto_zero_iff_abs_tendsto_zero _).2 h2

/-! ## The filters -/

theorem fullCycles_succ (h : ℕ → UArg l × Vec m) (k : ℕ) :
    (fullCycles (firstOf h (k + 1)) : List (KFOp n m l))
      = fullCycles (firstOf h k) ++ [.predict (h k).1 none none .none, .update (some (h k).2) .none none] := by
  simp [fullCycles, firstOf, List.range_succ]

/-- One cycle of the full filter. -/
theorem full_cycle (expf : ℝ → ℝ) (s : KF n m l) (u : Vec l) (z : Vec m) (hinv : s.inv = npInv)
    (ha : 0 ≤ s.alphaSq) (hP : s.P.PosSemidef) (hQ : s.Q.PosSemidef) (hR : s.R.PosDef) :
    ∃ s', s.run expf [.predict (.vec u) none none .none, .update (some z) .none none] = .ok s' ∧
      s'.P = riccati s.alphaSq s.F s.Q s.H s.R s.P ∧
      s'.K = steadyGain s.alphaSq s.F s.Q s.H s.R s.P ∧
      s'.x = (s.F *ᵥ s.x + Spec.controlEffect s.B (some u)) + steadyGain s.alphaSq s.F s.Q s.H s.R s.P *ᵥ
        (z - s.H *ᵥ (s.F *ᵥ s.x + Spec.controlEffect s.B (some u))) ∧
      s'.B = s.B ∧ s'.F = s.F ∧ s'.Q = s.Q ∧ s'.H = s.H ∧ s'.R = s.R ∧
      s'.alphaSq = s.alphaSq ∧ s'.inv = npInv := by
  have hp : ∃ s1, s.predict (.vec u) = .ok s1 ∧ s1.x = s.F *ᵥ s.x + Spec.controlEffect s.B (some u) := by
    cases hB : s.B with
    | none => exact ⟨_, by simp only [KF.predict, KF.control, Option.or, hB]; rfl, by simp [Spec.controlEffect]⟩
    | some B => exact ⟨_, by simp only [KF.predict, KF.control, Option.or, hB]; rfl, by simp [Spec.controlEffect]⟩
  obtain ⟨s1, h1, x1⟩ := hp
  obtain ⟨x, e1⟩ := KF.predict_ok h1
  have hP1 : s1.P = s.alphaSq • (s.F * s.P * s.Fᵀ) + s.Q := by rw [e1]; rfl
  obtain ⟨i1, b1, f1, q1, m1, r1, a1⟩ : s1.inv = npInv ∧ s1.B = s.B ∧ s1.F = s.F ∧ s1.Q = s.Q ∧ s1.H = s.H ∧
      s1.R = s.R ∧ s1.alphaSq = s.alphaSq := by rw [e1]; exact ⟨hinv, rfl, rfl, rfl, rfl, rfl, rfl⟩
  obtain ⟨s2, h2, -⟩ := update_semi s1 z .none none i1 (by rw [hP1]; exact predCov_psd ha hP hQ)
    (by show s1.R.PosDef; rw [r1]; exact hR)
  obtain ⟨SI, g, e2⟩ := KF.update_ok h2
  rw [i1] at g
  obtain ⟨-, rfl⟩ := npInv_eq_some.1 g
  refine ⟨s2, by simp only [KF.run, KF.step, h1, h2], ?_, ?_, ?_, ?_, ?_, ?_, ?_, ?_, ?_, ?_⟩
  · rw [e2, riccati, ← hP1, postCov, ← m1, ← r1]; rfl
  · rw [e2, steadyGain, ← hP1, ← m1, ← r1]; rfl
  · rw [e2, steadyGain, ← hP1, ← m1, ← r1, ← x1]; rfl
  all_goals rw [e2]; assumption

theorem full_cycles (expf : ℝ → ℝ) (s : KF n m l) (u : ℕ → Vec l) (z : ℕ → Vec m) (hinv : s.inv = npInv)
    (ha : 0 ≤ s.alphaSq) (hP : s.P.PosSemidef) (hQ : s.Q.PosSemidef) (hR : s.R.PosDef) :
    ∃ run : ℕ → KF n m l, (∀ k, s.run expf (fullCycles (firstOf (fun j => (.vec (u j), z j)) k)) = .ok (run k)) ∧
      (run 0).x = s.x ∧ (∀ k, (run k).P = (riccati s.alphaSq s.F s.Q s.H s.R)^[k] s.P) ∧
      ∀ k, (run (k + 1)).x = (s.F *ᵥ (run k).x + Spec.controlEffect s.B (some (u k))) +
        steadyGain s.alphaSq s.F s.Q s.H s.R ((riccati s.alphaSq s.F s.Q s.H s.R)^[k] s.P) *ᵥ
        (z k - s.H *ᵥ (s.F *ᵥ (run k).x + Spec.controlEffect s.B (some (u k)))) := by
  have key : ∀ k, ∃ s', s.run expf (fullCycles (firstOf (fun j => (.vec (u j), z j)) k)) = .ok s' ∧
      s'.P = (riccati s.alphaSq s.F s.Q s.H s.R)^[k] s.P ∧ s'.P.PosSemidef ∧
      s'.B = s.B ∧ s'.F = s.F ∧ s'.Q = s.Q ∧ s'.H = s.H ∧ s'.R = s.R ∧ s'.alphaSq = s.alphaSq ∧ s'.inv = npInv := by
    intro k
    induction k with
    | zero => exact ⟨s, rfl, rfl, hP, rfl, rfl, rfl, rfl, rfl, rfl, hinv⟩
    | succ k ih =>
      obtain ⟨s1, h1, p1, psd1, b1, f1, q1, m1, r1, a1, i1⟩ := ih
      obtain ⟨s2, h2, p2, -, -, b2, f2, q2, m2, r2, a2, i2⟩ := full_cycle expf s1 (u k) (z k) i1
        (by rw [a1]; exact ha) psd1 (by rw [q1]; exact hQ) (by rw [r1]; exact hR)
      refine ⟨s2, ?_, ?_, ?_, b2.trans b1, f2.trans f1, q2.trans q1, m2.trans m1, r2.trans r1, a2.trans a1, i2⟩
      · rw [fullCycles_succ, KF.run_append, h1]; exact h2
      · rw [p2, Function.iterate_succ_apply', a1, f1, q1, m1, r1, p1]
      · rw [p2]; exact riccati_psd (by rw [a1]; exact ha) psd1 (by rw [q1]; exact hQ) (by rw [r1]; exact hR)
  choose run hrun hPk hpsd hB hF hQ' hH hR' ha' hi using key
  refine ⟨run, hrun, ?_, hPk, fun k => ?_⟩
  · have : run 0 = s := Except.ok.inj ((hrun 0).symm.trans rfl)
    rw [this]
  · obtain ⟨s2, h2, -, -, x2, -⟩ := full_cycle expf (run k) (u k) (z k) (hi k)
        (by rw [ha']; exact ha) (hpsd k) (by rw [hQ']; exact hQ) (by rw [hR']; exact hR)
    have h3 := hrun (k + 1)
    rw [fullCycles_succ, KF.run_append, hrun k] at h3
    obtain rfl : s2 = run (k + 1) := Except.ok.inj (h2.symm.trans h3)
    rw [x2, hB, hF, hH, hQ', hR', ha', hPk]

/-- The gain of a cycle is linear in the covariance it leaves. -/
theorem steadyGain_eq {a : ℝ} (ha : 0 ≤ a) {F Q : Mat n n} {H : Mat m n} {R : Mat m m} {P : Mat n n}
    (hP : P.PosSemidef) (hQ : Q.PosSemidef) (hR : R.PosDef) :
    steadyGain a F Q H R P = riccati a F Q H R P * (Hᵀ * R⁻¹) := by
  have hpd : (a • (F * P * Fᵀ) + Q).PosSemidef := predCov_psd ha hP hQ
  have hS : (H * ((a • (F * P * Fᵀ) + Q) * Hᵀ) + R).PosDef := S_pd hpd hR
  have hPs : (a • (F * P * Fᵀ) + Q)ᵀ = a • (F * P * Fᵀ) + Q := hpd.1
  rw [riccati, postCov, joseph_simple hPs rfl (nonsing_inv_mul _ (PD.isUnit_det hS)) hS.inv.1 rfl]
  change (a • (F * P * Fᵀ) + Q) * Hᵀ * (H * ((a • (F * P * Fᵀ) + Q) * Hᵀ) + R)⁻¹ = _
  generalize a • (F * P * Fᵀ) + Q = M at hS
  set S := H * (M * Hᵀ) + R with hSd
  have e1 : S⁻¹ * S = 1 := nonsing_inv_mul _ (PD.isUnit_det hS)
  have e2 : R * R⁻¹ = 1 := mul_nonsing_inv _ (PD.isUnit_det hR)
  have e3 : (1 - M * Hᵀ * S⁻¹ * H) * M * Hᵀ = M * Hᵀ * S⁻¹ * R := by
    have : R = S - H * (M * Hᵀ) := by rw [hSd, add_sub_cancel_left]
    rw [this, Matrix.mul_sub, Matrix.mul_assoc (M * Hᵀ) S⁻¹ S, e1, Matrix.mul_one, Matrix.sub_mul, Matrix.sub_mul,
      Matrix.one_mul]
    simp only [Matrix.mul_assoc]
  have e4 : (1 - M * Hᵀ * S⁻¹ * H) * M * (Hᵀ * R⁻¹) = M * Hᵀ * S⁻¹ := by
    rw [← Matrix.mul_assoc, e3, Matrix.mul_assoc _ R, e2, Matrix.mul_one]
  exact e4.symm

/-- The gain converges exponentially. -/
theorem gain_converges {a : ℝ} (ha : 0 < a) {F Q P : Mat n n} {H : Mat m n} {R : Mat m m}
    (hQ : Q.PosSemidef) (hR : R.PosDef) (hC : Spec.Reachable F Q) (hP : P.PosSemidef) (hfix : riccati a F Q H R P = P) {P₀ : Mat n n}
    (hP₀ : P₀.PosSemidef) : ∃ C ρ : ℝ, 0 ≤ C ∧ 0 ≤ ρ ∧ ρ < 1 ∧
      ∀ k, sizeSq (steadyGain a F Q H R ((riccati a F Q H R)^[k] P₀) - steadyGain a F Q H R P) ≤ C * ρ ^ k := by
  obtain ⟨C, ρ, hC0, h0, h1, hb⟩ := riccati_reach_converges ha hQ hR hC hP hfix hP₀
  have hC : ∀ k i j, |((riccati a F Q H R)^[k + 1] P₀) i j - P i j| ≤ |C| * ρ ^ k := fun k i j =>
    (hb (k + 1) i j).trans (mul_le_mul (le_abs_self C) (pow_le_pow_of_le_one h0 h1.le (Nat.le_succ k))
      (pow_nonneg h0 _) (abs_nonneg C))
  set L := Hᵀ * R⁻¹ with hL
  have hpsd : ∀ k, ((riccati a F Q H R)^[k] P₀).PosSemidef := by
    intro k
    induction k with
    | zero => exact hP₀
    | succ k ih => rw [Function.iterate_succ_apply']; exact riccati_psd ha.le ih hQ hR
  refine ⟨∑ _a : Fin n, ∑ b : Fin m, (∑ j : Fin n, |C| * |L j b|) ^ 2, ρ ^ 2, by positivity, by positivity,
    pow_lt_one₀ h0 h1 (by norm_num), fun k => ?_⟩
  have e : steadyGain a F Q H R ((riccati a F Q H R)^[k] P₀) - steadyGain a F Q H R P =
      ((riccati a F Q H R)^[k + 1] P₀ - P) * L := by
    rw [steadyGain_eq ha.le (hpsd k) hQ hR, steadyGain_eq ha.le hP hQ hR, hfix, ← Function.iterate_succ_apply' (riccati a F Q H R),
      Matrix.sub_mul]
  rw [e, ← pow_mul, mul_comm 2 k, pow_mul, Finset.sum_mul]
  unfold sizeSq
  refine Finset.sum_le_sum fun i _ => ?_
  rw [Finset.sum_mul]
  refine Finset.sum_le_sum fun b _ => ?_
  rw [← mul_pow, ← sq_abs]
  refine pow_le_pow_left₀ (abs_nonneg _) ?_ 2
  rw [Matrix.mul_apply, Finset.sum_mul]
  refine (Finset.abs_sum_le_sum_abs _ _).trans (Finset.sum_le_sum fun j _ => ?_)
  rw [abs_mul, Matrix.sub_apply]
  calc _ ≤ (|C| * ρ ^ k) * |L j b| := mul_le_mul_of_nonneg_right (hC k i j) (abs_nonneg _)
    _ = _ := by ring

theorem fixed_riccati {s : KF n m l} (hs : AtFixedPoint s) :
    riccati s.alphaSq s.F s.Q s.H s.R s.P = s.P ∧ steadyGain s.alphaSq s.F s.Q s.H s.R s.P = s.K := by
  have hg : steadyGain s.alphaSq s.F s.Q s.H s.R s.P = s.K := by
    rw [hs.gain, steadyGain, Matrix.mul_assoc s.H]
  refine ⟨?_, hg⟩
  have h := hs.cov
  rw [← hg] at h
  exact h.symm

/-- One constant gain cycle: the residual it records. -/
theorem steady_cycle_y (expf : ℝ → ℝ) (s s' : KF n m l) (u : Vec l) (z : Vec m)
    (h : s.run expf [.predictSteadystate (.vec u) none, .updateSteadystate (some z)] = .ok s') :
    s'.y = z - s.H *ᵥ (s.F *ᵥ s.x + Spec.controlEffect s.B (some u)) := by
  cases hB : s.B with
  | none =>
    simp only [KF.run, KF.step, KF.predictSteadystate, KF.steadyControl, KF.control, Option.or, hB,
      Except.ok.injEq] at h
    subst h
    simp [KF.updateSteadystate, Spec.controlEffect]
  | some B =>
    simp only [KF.run, KF.step, KF.predictSteadystate, KF.steadyControl, KF.control, Option.or, hB,
      Except.ok.injEq] at h
    subst h
    simp [KF.updateSteadystate, Spec.controlEffect]

/-- The difference between the full filter and the constant gain filter. -/
theorem difference (expf : ℝ → ℝ) (s : KF n m l) (hs : AtFixedPoint s) (ha : 0 ≤ s.alphaSq)
    (hQ : s.Q.PosSemidef) (hR : s.R.PosDef) (x x' : Vec n) (P₀ : Mat n n)
    (hP₀ : P₀.PosSemidef) (u : ℕ → Vec l) (z : ℕ → Vec m) :
    ∃ run run' : ℕ → KF n m l,
      (∀ k, ({ s with x := x, P := P₀ } : KF n m l).run expf (fullCycles (firstOf (fun j => (.vec (u j), z j)) k)) = .ok (run k)) ∧
      (∀ k, ({ s with x := x' } : KF n m l).run expf (steadyCycles (firstOf (fun j => (.vec (u j), z j)) k)) = .ok (run' k)) ∧
      (run 0).x = x ∧ (run' 0).x = x' ∧
      (∀ k, (run' (k + 1)).y = z k - s.H *ᵥ (s.F *ᵥ (run' k).x + Spec.controlEffect s.B (some (u k)))) ∧
      (∀ k, (run k).P = (riccati s.alphaSq s.F s.Q s.H s.R)^[k] P₀) ∧
      ∀ k, (run (k + 1)).x - (run' (k + 1)).x = ((1 - s.K * s.H) * s.F) *ᵥ ((run k).x - (run' k).x) +
        (steadyGain s.alphaSq s.F s.Q s.H s.R ((riccati s.alphaSq s.F s.Q s.H s.R)^[k] P₀) -
          steadyGain s.alphaSq s.F s.Q s.H s.R s.P) *ᵥ
          ((run' (k + 1)).y - (s.H * s.F) *ᵥ ((run k).x - (run' k).x)) := by
  obtain ⟨run, h1, h10, h1P, h2⟩ := full_cycles expf { s with x := x, P := P₀ } u z hs.invertible.1 ha hP₀
    hQ hR
  have key : ∀ k, ∃ s', ({ s with x := x' } : KF n m l).run expf (steadyCycles (firstOf (fun j => (.vec (u j), z j)) k)) = .ok s' ∧
      s'.B = s.B ∧ s'.F = s.F ∧ s'.H = s.H ∧ s'.K = s.K := by
    intro k
    induction k with
    | zero => exact ⟨_, rfl, rfl, rfl, rfl, rfl⟩
    | succ k ih =>
      obtain ⟨s1, h1, b1, f1, m1, k1⟩ := ih
      obtain ⟨s2, h2, -, b2, f2, m2, k2⟩ := steady_cycle expf s1 (u k) (z k)
      refine ⟨s2, ?_, b2.trans b1, f2.trans f1, m2.trans m1, k2.trans k1⟩
      rw [steadyCycles_succ, KF.run_append, h1]; exact h2
  choose run' hrun hB hF hH hK using key
  have hstep : ∀ k, (run' k).run expf [.predictSteadystate (.vec (u k)) none, .updateSteadystate (some (z k))]
      = .ok (run' (k + 1)) := by
    intro k
    have h3 := hrun (k + 1)
    rw [steadyCycles_succ, KF.run_append, hrun k] at h3
    exact h3
  have hx : ∀ k, (run' (k + 1)).x = (1 - s.K * s.H) *ᵥ (s.F *ᵥ (run' k).x + Spec.controlEffect s.B (some (u k))) + s.K *ᵥ z k := by
    intro k
    obtain ⟨s2, h2, x2, -⟩ := steady_cycle expf (run' k) (u k) (z k)
    obtain rfl : s2 = run' (k + 1) := Except.ok.inj (h2.symm.trans (hstep k))
    rw [x2, hB, hF, hH, hK]
  have hy : ∀ k, (run' (k + 1)).y = z k - s.H *ᵥ (s.F *ᵥ (run' k).x + Spec.controlEffect s.B (some (u k))) := by
    intro k
    rw [steady_cycle_y expf _ _ _ _ (hstep k), hB, hF, hH]
  refine ⟨run, run', h1, hrun, h10, ?_, hy, h1P, fun k => ?_⟩
  · have : run' 0 = { s with x := x' } := Except.ok.inj ((hrun 0).symm.trans rfl)
    rw [this]
  · rw [h2, hx, hy, (fixed_riccati hs).2]
    simp only
    generalize steadyGain s.alphaSq s.F s.Q s.H s.R ((riccati s.alphaSq s.F s.Q s.H s.R)^[k] P₀) = Kk
    generalize Spec.controlEffect s.B (some (u k)) = c
    simp only [sub_mulVec, one_mulVec, mulVec_add, mulVec_sub, ← mulVec_mulVec]
    abel

/-- **C105 (pathwise).** The full filter, started from any state and covariance, and the filter run with the
constant steady state gain, started from any other state, agree in the limit on every data sequence, as long as
the residuals of the constant gain filter do not grow faster than some power of time. -/
theorem C105_pathwise (expf : ℝ → ℝ) (s : KF n m l) (hs : AtFixedPoint s) (ha : 1 ≤ s.alphaSq) (hP : s.P.PosDef)
    (hQ : s.Q.PosSemidef) (hR : s.R.PosDef) (hC : Spec.Reachable s.F s.Q) (x x' : Vec n) (P₀ : Mat n n) (hP₀ : P₀.PosSemidef)
    (u : ℕ → Vec l) (z : ℕ → Vec m) :
    ∃ run run' : ℕ → KF n m l,
      (∀ k, ({ s with x := x, P := P₀ } : KF n m l).run expf (fullCycles (firstOf (fun j => (.vec (u j), z j)) k)) = .ok (run k)) ∧
      (∀ k, ({ s with x := x' } : KF n m l).run expf (steadyCycles (firstOf (fun j => (.vec (u j), z j)) k)) = .ok (run' k)) ∧
      ∀ (C : ℝ) (p : ℕ), (∀ k i, |(run' k).y i| ≤ C * (k : ℝ) ^ p) →
        Tendsto (fun k => (run k).x - (run' k).x) atTop (𝓝 0) := by
  have ha0 : 0 ≤ s.alphaSq := by linarith
  obtain ⟨run, run', h1, h2, -, -, -, -, hd⟩ := difference expf s hs ha0 hQ hR x x' P₀ hP₀ u z
  refine ⟨run, run', h1, h2, fun C p hy => ?_⟩
  obtain ⟨X', hX, hXA⟩ := reach_length hs ha hP hQ hR hC
  obtain ⟨r, C1, hr0, hr1, hC1, hstep⟩ := step_contract hX hXA (s.H * s.F)
  obtain ⟨C2, ρ, hC2, hρ0, hρ1, hgain⟩ := gain_converges (by linarith) hQ hR hC hP.posSemidef (fixed_riccati hs).1 hP₀
  obtain ⟨c, hc, hdot⟩ := dot_le_sqLen hX
  set D : ℕ → Mat n m := fun k => steadyGain s.alphaSq s.F s.Q s.H s.R ((riccati s.alphaSq s.F s.Q s.H s.R)^[k] P₀) -
          steadyGain s.alphaSq s.F s.Q s.H s.R s.P with hD
  have hDlim : Tendsto (fun k => C2 * ρ ^ k) atTop (𝓝 0) := by
    have := (tendsto_pow_atTop_nhds_zero_of_lt_one hρ0 hρ1).const_mul C2
    rwa [mul_zero] at this
  have hD0 : Tendsto (fun k => sizeSq (D k)) atTop (𝓝 0) :=
    squeeze_zero (fun k => sizeSq_nonneg _) hgain hDlim
  have hV : Tendsto (fun k => sqLen X' ((run k).x - (run' k).x)) atTop (𝓝 0) := by
    refine perturbed_tendsto (r := r) (e := fun k => C1 * sizeSq (D k))
      (b := fun k => C1 * sizeSq (D k) * ((run' (k + 1)).y ⬝ᵥ (run' (k + 1)).y)) (fun k => sqLen_nonneg hX _) hr0 hr1 ?_ ?_
      (fun k => ?_)
    · have := hD0.const_mul C1
      rwa [mul_zero] at this
    · set σ := (1 + ρ) / 2 with hσ
      have hσ0 : 0 < σ := by rw [hσ]; linarith
      have hσ1 : σ < 1 := by rw [hσ]; linarith
      have hlim : Tendsto (fun k : ℕ => C1 * (C2 * σ⁻¹ * (m * C ^ 2)) * (((k + 1 : ℕ) : ℝ) ^ (2 * p) * σ ^ (k + 1)))
          atTop (𝓝 0) := by
        have := ((tendsto_add_atTop_iff_nat 1).2
          (tendsto_pow_const_mul_const_pow_of_lt_one (2 * p) hσ0.le hσ1)).const_mul (C1 * (C2 * σ⁻¹ * (m * C ^ 2)))
        rwa [mul_zero] at this
      refine squeeze_zero (fun k => mul_nonneg (mul_nonneg hC1 (sizeSq_nonneg _)) (dot_self_nonneg _)) (fun k => ?_) hlim
      have g1 : sizeSq (D k) ≤ C2 * σ⁻¹ * σ ^ (k + 1) := by
        refine (hgain k).trans ?_
        rw [pow_succ, mul_assoc, mul_comm (σ ^ k), inv_mul_cancel_left₀ hσ0.ne']
        exact mul_le_mul_of_nonneg_left (pow_le_pow_left₀ hρ0 (by rw [hσ]; linarith) k) hC2
      have g2 : (run' (k + 1)).y ⬝ᵥ (run' (k + 1)).y ≤ (m * C ^ 2) * ((k + 1 : ℕ) : ℝ) ^ (2 * p) := by
        unfold dotProduct
        have : ∀ i ∈ Finset.univ, (run' (k + 1)).y i * (run' (k + 1)).y i ≤ C ^ 2 * ((k + 1 : ℕ) : ℝ) ^ (2 * p) := by
          intro i _
          rw [← sq, ← sq_abs, mul_comm 2 p, pow_mul, ← mul_pow]
          exact pow_le_pow_left₀ (abs_nonneg _) (hy (k + 1) i) 2
        refine (Finset.sum_le_sum this).trans (le_of_eq ?_)
        simp [mul_assoc]
      calc C1 * sizeSq (D k) * ((run' (k + 1)).y ⬝ᵥ (run' (k + 1)).y)
          ≤ C1 * (C2 * σ⁻¹ * σ ^ (k + 1)) * ((m * C ^ 2) * ((k + 1 : ℕ) : ℝ) ^ (2 * p)) :=
            mul_le_mul (mul_le_mul_of_nonneg_left g1 hC1) g2 (dot_self_nonneg _) (by positivity)
        _ = _ := by ring
    · rw [hd k]
      exact hstep (D k) _ _
  refine vec_tendsto_of_dot (squeeze_zero (fun k => dot_self_nonneg _) (fun k => hdot _) ?_)
  have := hV.const_mul c
  rwa [mul_zero] at this

/-- **C125 (the start is forgotten).** Two filters that differ only in the initial state, with the same data and any
initial covariance, singular ones included: their estimates converge to each other, whatever the data. -/
theorem C125_forgets (expf : ℝ → ℝ) (s : KF n m l) (hinv : s.inv = npInv) (ha : 1 ≤ s.alphaSq)
    (hP₀ : s.P.PosSemidef) (hQ : s.Q.PosSemidef) (hR : s.R.PosDef) (hC : Spec.Reachable s.F s.Q)
    (hD : Spec.Detectable (√s.alphaSq • s.F) s.H) (x x' : Vec n) (u : ℕ → Vec l) (z : ℕ → Vec m) :
    ∃ run run' : ℕ → KF n m l,
      (∀ k, ({ s with x := x } : KF n m l).run expf (fullCycles (firstOf (fun j => (.vec (u j), z j)) k)) = .ok (run k)) ∧
      (∀ k, ({ s with x := x' } : KF n m l).run expf (fullCycles (firstOf (fun j => (.vec (u j), z j)) k)) = .ok (run' k)) ∧
      Tendsto (fun k => (run k).x - (run' k).x) atTop (𝓝 0) := by
  have ha0 : 0 ≤ s.alphaSq := by linarith
  obtain ⟨P, K, hPd, -, -, hs, -⟩ := C125_settles expf s hinv (by linarith) hQ hR hC hD
  obtain ⟨run, h1, -, -, hx⟩ := full_cycles expf { s with x := x } u z hinv ha0 hP₀ hQ hR
  obtain ⟨run', h2, -, -, hx'⟩ := full_cycles expf { s with x := x' } u z hinv ha0 hP₀ hQ hR
  refine ⟨run, run', h1, h2, ?_⟩
  obtain ⟨X, hX, hXA⟩ := reach_length hs ha hPd hQ hR hC
  obtain ⟨r, C1, hr0, hr1, hC1, hstep⟩ := step_contract hX hXA (s.H * s.F)
  obtain ⟨hfix, hK⟩ := fixed_riccati hs
  obtain ⟨C2, ρ, hC2, hρ0, hρ1, hgain⟩ := gain_converges (by linarith) hQ hR hC hPd.posSemidef hfix hP₀
  obtain ⟨c, hc, hdot⟩ := dot_le_sqLen hX
  set D : ℕ → Mat n m := fun k => steadyGain s.alphaSq s.F s.Q s.H s.R ((riccati s.alphaSq s.F s.Q s.H s.R)^[k] s.P) -
          steadyGain s.alphaSq s.F s.Q s.H s.R P with hDd
  have hDlim : Tendsto (fun k => C2 * ρ ^ k) atTop (𝓝 0) := by
    have := (tendsto_pow_atTop_nhds_zero_of_lt_one hρ0 hρ1).const_mul C2
    rwa [mul_zero] at this
  have hD0 : Tendsto (fun k => sizeSq (D k)) atTop (𝓝 0) :=
    squeeze_zero (fun k => sizeSq_nonneg _) hgain hDlim
  have hV : Tendsto (fun k => sqLen X ((run k).x - (run' k).x)) atTop (𝓝 0) := by
    refine perturbed_tendsto (r := r) (e := fun k => C1 * sizeSq (D k)) (b := fun _ => 0)
      (fun k => sqLen_nonneg hX _) hr0 hr1 ?_ tendsto_const_nhds (fun k => ?_)
    · have := hD0.const_mul C1
      rwa [mul_zero] at this
    · have h := hstep (D k) ((run k).x - (run' k).x) 0
      rw [dotProduct_zero, mul_zero] at h
      refine le_trans (le_of_eq (congrArg (sqLen X) ?_)) h
      rw [hx, hx']
      have hK' : K = steadyGain s.alphaSq s.F s.Q s.H s.R P := hK.symm
      have e : steadyGain s.alphaSq s.F s.Q s.H s.R ((riccati s.alphaSq s.F s.Q s.H s.R)^[k] s.P) = K + D k := by
        rw [hK', hDd]; exact (add_sub_cancel _ _).symm
      simp only [e]
      generalize Spec.controlEffect s.B (some (u k)) = cu
      simp only [sub_mulVec, add_mulVec, one_mulVec, mulVec_add, mulVec_sub, ← mulVec_mulVec, mulVec_neg, zero_sub]
      abel
  refine vec_tendsto_of_dot (squeeze_zero (fun k => dot_self_nonneg _) (fun k => hdot _) ?_)
  have := hV.const_mul c
  rwa [mul_zero] at this

/-- The hypotheses of `C105_pathwise` are met: a sensor that reads zero and a constant gain filter started there;
whatever the full filter is started with, its state tends to zero. -/
example (expf : ℝ → ℝ) (x : Vec 2) (P₀ : Mat 2 2) (hP₀ : P₀.PosSemidef) : ∃ (K : Mat 2 1) (run : ℕ → KF 2 1 1),
    (∀ k, ({ cvKF with x := x, P := P₀, K := K } : KF 2 1 1).run expf
      (fullCycles (firstOf (fun _ => (.vec 0, 0)) k)) = .ok (run k)) ∧
    Tendsto (fun k => (run k).x) atTop (𝓝 0) := by
  obtain ⟨P, K, h1, -, h3, -⟩ := C97_converges expf cvKF rfl (by simp [cvKF, KF.fresh]) PosDef.one PosDef.one cv_observable
  obtain ⟨run, run', r1, r2, r3⟩ := C105_pathwise expf { cvKF with P := P, K := K } h3 (by simp [cvKF, KF.fresh]) h1
    PosDef.one.posSemidef PosDef.one (reachable_of_pd PosDef.one) x 0 P₀ hP₀ (fun _ => 0) (fun _ => 0)
  have hz : ∀ k, (run' k).x = 0 ∧ (run' k).y = 0 := by
    obtain ⟨run2, g1, g2, g3⟩ := steady_cycles expf { cvKF with P := P, K := K, x := 0 } (fun _ => 0) (fun _ => 0)
    have e3 : run2 = run' := funext fun k => Except.ok.inj ((g1 k).symm.trans (r2 k))
    obtain ⟨-, run4, -, h4, -, -, hy, -⟩ := difference expf { cvKF with P := P, K := K } h3 (by simp [cvKF, KF.fresh])
      PosDef.one.posSemidef PosDef.one x 0 P₀ hP₀ (fun _ => 0) (fun _ => 0)
    have e4 : run4 = run' := funext fun k => Except.ok.inj ((h4 k).symm.trans (r2 k))
    rw [e3] at g2 g3
    rw [e4] at hy
    have hc : Spec.controlEffect cvKF.B (some 0) = 0 := by simp [cvKF, KF.fresh, Spec.controlEffect]
    have hx : ∀ k, (run' k).x = 0 := by
      intro k
      induction k with
      | zero => exact g2
      | succ k ih => rw [g3, ih]; simp [hc]
    intro k
    refine ⟨hx k, ?_⟩
    cases k with
    | zero =>
      have : run' 0 = { cvKF with P := P, K := K, x := 0 } := Except.ok.inj ((r2 0).symm.trans rfl)
      rw [this]; rfl
    | succ k => rw [hy, hx]; simp [hc]
  refine ⟨K, run, r1, ?_⟩
  have := r3 0 0 (by simp [hz])
  simpa only [(hz _).1, sub_zero] using this

section random
open MeasureTheory ProbabilityTheory Spec

variable {Ω : Type*} [MeasurableSpace Ω] {μ : Measure Ω} [IsProbabilityMeasure μ]

omit [IsProbabilityMeasure μ] in
theorem Spec.SqInt.dot {k : ℕ} {Y Z : Ω → Vec k} (hY : SqInt Y μ) (hZ : SqInt Z μ) :
    Integrable (fun ω => Y ω ⬝ᵥ Z ω) μ := by
  unfold dotProduct
  exact integrable_finsetSum _ fun i _ => (hY i).integrable_mul (hZ i)

theorem int_dot {k : ℕ} {Y : Ω → Vec k} (hY : SqInt Y μ) :
    ∫ ω, Y ω ⬝ᵥ Y ω ∂μ = ∑ i, (covMat Y Y μ i i + meanVec Y μ i ^ 2) := by
  have e : ∫ ω, Y ω ⬝ᵥ Y ω ∂μ = ∑ i, ∫ ω, Y ω i * Y ω i ∂μ :=
    integral_finsetSum _ fun i _ => (hY i).integrable_mul (hY i)
  rw [e]
  refine Finset.sum_congr rfl fun i _ => ?_
  simp only [covMat, meanVec, Matrix.of_apply]
  rw [covariance_eq_sub (hY i) (hY i)]
  simp only [Pi.mul_apply]
  ring

/-- Cauchy-Schwarz for covariances. -/
theorem cov_sq_le {k j : ℕ} {Y : Ω → Vec k} {Z : Ω → Vec j} (hY : SqInt Y μ) (hZ : SqInt Z μ) (a : Fin k) (b : Fin j) :
    covMat Y Z μ a b ^ 2 ≤ covMat Y Y μ a a * covMat Z Z μ b b := by
  have hW : SqInt (fun ω => (![Y ω a, Z ω b] : Vec 2)) μ := by
    intro i; fin_cases i
    · exact hY a
    · exact hZ b
  have h := (covMat_psd hW).det_nonneg
  rw [Matrix.det_fin_two] at h
  have e : covMat Z Y μ b a = covMat Y Z μ a b := by rw [covMat_transpose]; rfl
  have h' : 0 ≤ covMat Y Y μ a a * covMat Z Z μ b b - covMat Y Z μ a b * covMat Z Y μ b a := h
  rw [e] at h'
  nlinarith

theorem var_le_dot {k : ℕ} {Y : Ω → Vec k} (hY : SqInt Y μ) (i : Fin k) :
    covMat Y Y μ i i ≤ ∫ ω, Y ω ⬝ᵥ Y ω ∂μ ∧ meanVec Y μ i ^ 2 ≤ ∫ ω, Y ω ⬝ᵥ Y ω ∂μ := by
  rw [int_dot hY]
  have h0 : ∀ j, 0 ≤ covMat Y Y μ j j := fun j => (covMat_psd hY).diag_nonneg
  have h := Finset.single_le_sum (f := fun j => covMat Y Y μ j j + meanVec Y μ j ^ 2)
    (fun j _ => add_nonneg (h0 j) (sq_nonneg _)) (Finset.mem_univ i)
  exact ⟨by nlinarith [sq_nonneg (meanVec Y μ i)], by linarith [h0 i]⟩

theorem tendsto_of_sq {f g : ℕ → ℝ} (h : ∀ k, f k ^ 2 ≤ g k) (hg : Tendsto g atTop (𝓝 0)) : Tendsto f atTop (𝓝 0) := by
  rw [tendsto_zero_iff_abs_tendsto_zero]
  have h1 : Tendsto (fun k => Real.sqrt (g k)) atTop (𝓝 0) := by
    have := (Real.continuous_sqrt.tendsto 0).comp hg
    rwa [Real.sqrt_zero] at this
  exact squeeze_zero (fun k => abs_nonneg _) (fun k => Real.abs_le_sqrt (h k)) h1

/-- Everything about the two runs that the theorems below need. -/
theorem limit_setup (expf : ℝ → ℝ) (s : KF n m l) (hs : AtFixedPoint s) (ha : s.alphaSq = 1) (hP : s.P.PosDef)
    (hQ : s.Q.PosSemidef) (hR : s.R.PosDef) (hC : Spec.Reachable s.F s.Q) (x x' : Vec n) (P₀ : Mat n n) (hP₀ : P₀.PosSemidef) (u : ℕ → Vec l)
    (X w : ℕ → Ω → Vec n) (v : ℕ → Ω → Vec m) (hsys : NoisySystem s μ u X w v) :
    ∃ run run' : ℕ → Ω → KF n m l,
      (∀ k ω, ({ s with x := x, P := P₀ } : KF n m l).run expf
        (fullCycles (firstOf (fun j => (.vec (u j), s.H *ᵥ X (j + 1) ω + v j ω)) k)) = .ok (run k ω)) ∧
      (∀ k ω, ({ s with x := x' } : KF n m l).run expf
        (steadyCycles (firstOf (fun j => (.vec (u j), s.H *ᵥ X (j + 1) ω + v j ω)) k)) = .ok (run' k ω)) ∧
      (∀ ω, Tendsto (fun k => (run k ω).P) atTop (𝓝 s.P)) ∧
      (∀ k, SqInt (fun ω => X k ω - (run' k ω).x) μ) ∧
      Tendsto (fun k => meanVec (fun ω => X k ω - (run' k ω).x) μ) atTop (𝓝 0) ∧
      Tendsto (fun k => covMat (fun ω => X k ω - (run' k ω).x) (fun ω => X k ω - (run' k ω).x) μ) atTop (𝓝 s.P) ∧
      (∀ k, SqInt (fun ω => (run k ω).x - (run' k ω).x) μ) ∧
      Tendsto (fun k => ∫ ω, ((run k ω).x - (run' k ω).x) ⬝ᵥ ((run k ω).x - (run' k ω).x) ∂μ) atTop (𝓝 0) := by
  have ha0 : 0 ≤ s.alphaSq := by rw [ha]; exact zero_le_one
  have key := fun ω => difference expf s hs ha0 hQ hR x x' P₀ hP₀ u fun j => s.H *ᵥ X (j + 1) ω + v j ω
  choose run run' h1 h2 h10 h20 hy hPk hd using key
  have hs' : AtFixedPoint ({ s with x := x' } : KF n m l) := ⟨hs.invertible, hs.gain, hs.cov⟩
  have hsys' : NoisySystem ({ s with x := x' } : KF n m l) μ u X w v :=
    ⟨hsys.state, hsys.start, hsys.process, hsys.sensor, hsys.process_white, hsys.sensor_white, hsys.separate,
      hsys.start_process, hsys.start_sensor⟩
  obtain ⟨run2, r2, hmean, hcov⟩ := C125_error expf { s with x := x' } hs' ha hP hQ hR hC u X w v hsys'
  have e2 : run2 = fun k ω => run' ω k := by
    funext k ω
    exact Except.ok.inj ((r2 k ω).symm.trans (h2 ω k))
  subst e2
  have hfix := (fixed_riccati hs).1
  obtain ⟨C0, ρ0, -, hρ00, hρ01, hb⟩ := riccati_reach_converges (by linarith) hQ hR hC hP.posSemidef hfix hP₀
  -- errors and residuals of the constant gain filter
  have hErec : ∀ k ω, X (k + 1) ω - (run' ω (k + 1)).x = ((1 - s.K * s.H) * s.F) *ᵥ (X k ω - (run' ω k).x) +
      ((1 - s.K * s.H) *ᵥ w k ω - s.K *ᵥ v k ω) := by
    intro k ω
    obtain ⟨run3, g1, g2, g3⟩ := steady_cycles expf { s with x := x' } u fun j => s.H *ᵥ X (j + 1) ω + v j ω
    have e3 : run3 = run' ω := funext fun k => Except.ok.inj ((g1 k).symm.trans (h2 ω k))
    subst e3
    simp only [g3, hsys.state]
    generalize controlEffect s.B (some (u k)) = c
    simp only [sub_mulVec, one_mulVec, mulVec_add, mulVec_sub, ← mulVec_mulVec]
    abel
  have hES : ∀ k, SqInt (fun ω => X k ω - (run' ω k).x) μ := by
    intro k
    induction k with
    | zero => simp only [h20]; exact hsys.start.sub (SqInt.const _)
    | succ k ih =>
      rw [funext (hErec k)]
      exact (ih.mulVec _).add (((hsys.process k).sq.mulVec _).sub ((hsys.sensor k).sq.mulVec _))
  have hyE : ∀ k ω, (run' ω (k + 1)).y = (s.H * s.F) *ᵥ (X k ω - (run' ω k).x) - (-(s.H *ᵥ w k ω) - v k ω) := by
    intro k ω
    rw [hy, hsys.state]
    generalize controlEffect s.B (some (u k)) = c
    simp only [mulVec_add, mulVec_sub, ← mulVec_mulVec]
    abel
  have hvS : ∀ k, SqInt (fun ω => -(s.H *ᵥ w k ω) - v k ω) μ := by
    intro k
    have := (((hsys.process k).sq.mulVec (-s.H)).sub (hsys.sensor k).sq)
    simpa only [neg_mulVec] using this
  have hyS : ∀ k, SqInt (fun ω => (run' ω (k + 1)).y) μ := by
    intro k
    rw [funext (hyE k)]
    exact ((hES k).mulVec _).sub (hvS k)
  have hyB : ∃ B, 0 ≤ B ∧ ∀ k, ∫ ω, (run' ω (k + 1)).y ⬝ᵥ (run' ω (k + 1)).y ∂μ ≤ B := by
    have hEE : Tendsto (fun k => ∫ ω, (X k ω - (run' ω k).x) ⬝ᵥ (X k ω - (run' ω k).x) ∂μ) atTop
        (𝓝 (∑ i, (s.P i i + (0 : Vec n) i ^ 2))) := by
      simp only [int_dot (hES _)]
      refine tendsto_finsetSum _ fun i _ => ?_
      refine Tendsto.add ?_ ?_
      · exact tendsto_pi_nhds.1 (tendsto_pi_nhds.1 hcov i) i
      · exact (tendsto_pi_nhds.1 hmean i).pow 2
    obtain ⟨BE, hBE⟩ := hEE.bddAbove_range
    have hN : ∀ k, ∫ ω, (-(s.H *ᵥ w k ω) - v k ω) ⬝ᵥ (-(s.H *ᵥ w k ω) - v k ω) ∂μ =
        ∑ i, (s.H * s.Q * s.Hᵀ + s.R) i i := by
      intro k
      have wk := (hsys.process k).sq
      have vk := (hsys.sensor k).sq
      have hw := wk.mulVec (-s.H)
      have e4 : covMat (v k) (w k) μ = 0 := by rw [covMat_transpose, hsys.separate, transpose_zero]
      have e : (fun ω => -(s.H *ᵥ w k ω) - v k ω) = fun ω => (-s.H) *ᵥ w k ω - v k ω := by
        funext ω; rw [neg_mulVec]
      rw [int_dot (hvS k), e]
      have ec : covMat (fun ω => (-s.H) *ᵥ w k ω - v k ω) (fun ω => (-s.H) *ᵥ w k ω - v k ω) μ =
          s.H * s.Q * s.Hᵀ + s.R := by
        rw [covMat_sub_left hw vk (hw.sub vk), covMat_sub_right hw hw vk, covMat_sub_right vk hw vk,
          covMat_mulVec_right hw wk, covMat_mulVec_left wk wk, covMat_mulVec_left wk vk, covMat_mulVec_right vk wk,
          hsys.separate, e4, (hsys.process k).cov, (hsys.sensor k).cov]
        simp
      have em : meanVec (fun ω => (-s.H) *ᵥ w k ω - v k ω) μ = 0 := by
        rw [meanVec_sub hw vk, meanVec_mulVec wk, (hsys.process k).mean, (hsys.sensor k).mean]
        simp
      rw [ec, em]
      simp
    have hBE0 : 0 ≤ BE := (integral_nonneg fun ω => dot_self_nonneg _).trans (hBE ⟨0, rfl⟩)
    have hN0 : 0 ≤ ∑ i, (s.H * s.Q * s.Hᵀ + s.R) i i := by
      rw [← hN 0]; exact integral_nonneg fun ω => dot_self_nonneg _
    have hG := sizeSq_nonneg (s.H * s.F)
    refine ⟨2 * (sizeSq (s.H * s.F) * BE) + 2 * ∑ i, (s.H * s.Q * s.Hᵀ + s.R) i i, by positivity, fun k => ?_⟩
    have i1 := ((hES k).dot (hES k)).const_mul (sizeSq (s.H * s.F))
    have i2 := (hvS k).dot (hvS k)
    calc ∫ ω, (run' ω (k + 1)).y ⬝ᵥ (run' ω (k + 1)).y ∂μ
        ≤ ∫ ω, (2 * (sizeSq (s.H * s.F) * ((X k ω - (run' ω k).x) ⬝ᵥ (X k ω - (run' ω k).x))) +
            2 * ((-(s.H *ᵥ w k ω) - v k ω) ⬝ᵥ (-(s.H *ᵥ w k ω) - v k ω))) ∂μ := by
          refine integral_mono ((hyS k).dot (hyS k)) ((i1.const_mul 2).add (i2.const_mul 2)) fun ω => ?_
          simp only [hyE k ω]
          have := dot_sub_le ((s.H * s.F) *ᵥ (X k ω - (run' ω k).x)) (-(s.H *ᵥ w k ω) - v k ω)
          have := dot_mulVec_le (s.H * s.F) (X k ω - (run' ω k).x)
          linarith
      _ = 2 * (sizeSq (s.H * s.F) * ∫ ω, (X k ω - (run' ω k).x) ⬝ᵥ (X k ω - (run' ω k).x) ∂μ) +
            2 * ∑ i, (s.H * s.Q * s.Hᵀ + s.R) i i := by
          rw [integral_add (i1.const_mul 2) (i2.const_mul 2), integral_const_mul, integral_const_mul,
            integral_const_mul, hN]
      _ ≤ _ := by
          have : ∫ ω, (X k ω - (run' ω k).x) ⬝ᵥ (X k ω - (run' ω k).x) ∂μ ≤ BE := hBE ⟨k, rfl⟩
          have := mul_le_mul_of_nonneg_left this hG
          linarith
  obtain ⟨B, hB0, hB⟩ := hyB
  have hdS : ∀ k, SqInt (fun ω => (run ω k).x - (run' ω k).x) μ := by
    intro k
    induction k with
    | zero => simp only [h10, h20]; exact SqInt.const _
    | succ k ih =>
      simp only [hd]
      exact (ih.mulVec _).add (((hyS k).sub (ih.mulVec _)).mulVec _)
  refine ⟨fun k ω => run ω k, fun k ω => run' ω k, fun k ω => h1 ω k, fun k ω => h2 ω k, fun ω => ?_, hES, hmean, hcov,
    hdS, ?_⟩
  · rw [← tendsto_add_atTop_iff_nat 1]
    simp only [hPk]
    refine tendsto_pi_nhds.2 fun i => tendsto_pi_nhds.2 fun j => ?_
    rw [tendsto_iff_dist_tendsto_zero]
    have hlim : Tendsto (fun k => C0 * ρ0 ^ (k + 1)) atTop (𝓝 0) := by
      have := ((tendsto_add_atTop_iff_nat 1).2 (tendsto_pow_atTop_nhds_zero_of_lt_one hρ00 hρ01)).const_mul C0
      rwa [mul_zero] at this
    exact squeeze_zero (fun k => dist_nonneg) (fun k => by rw [Real.dist_eq]; exact hb (k + 1) i j) hlim
  obtain ⟨X', hX, hXA⟩ := reach_length hs ha.ge hP hQ hR hC
  obtain ⟨r, C1, hr0, hr1, hC1, hstep⟩ := step_contract hX hXA (s.H * s.F)
  obtain ⟨C2, ρ, hC2, hρ0, hρ1, hgain⟩ := gain_converges (by linarith) hQ hR hC hP.posSemidef hfix hP₀
  obtain ⟨c, hc, hdot⟩ := dot_le_sqLen hX
  set D : ℕ → Mat n m := fun k => steadyGain s.alphaSq s.F s.Q s.H s.R ((riccati s.alphaSq s.F s.Q s.H s.R)^[k] P₀) -
          steadyGain s.alphaSq s.F s.Q s.H s.R s.P with hD
  have hDlim : Tendsto (fun k => C2 * ρ ^ k) atTop (𝓝 0) := by
    have := (tendsto_pow_atTop_nhds_zero_of_lt_one hρ0 hρ1).const_mul C2
    rwa [mul_zero] at this
  have hD0 : Tendsto (fun k => sizeSq (D k)) atTop (𝓝 0) :=
    squeeze_zero (fun k => sizeSq_nonneg _) hgain hDlim
  have iV : ∀ k, Integrable (fun ω => sqLen X' ((run ω k).x - (run' ω k).x)) μ := fun k =>
    (hdS k).dot ((hdS k).mulVec _)
  have hV : Tendsto (fun k => ∫ ω, sqLen X' ((run ω k).x - (run' ω k).x) ∂μ) atTop (𝓝 0) := by
    refine perturbed_tendsto (r := r) (e := fun k => C1 * sizeSq (D k))
      (b := fun k => C1 * sizeSq (D k) * B) (fun k => integral_nonneg fun ω => sqLen_nonneg hX _) hr0 hr1 ?_ ?_
      (fun k => ?_)
    · have := hD0.const_mul C1
      rwa [mul_zero] at this
    · have := (hD0.const_mul C1).mul_const B
      rwa [mul_zero, zero_mul] at this
    · have i1 := (iV k).const_mul (r + C1 * sizeSq (D k))
      have i2 := ((hyS k).dot (hyS k)).const_mul (C1 * sizeSq (D k))
      calc ∫ ω, sqLen X' ((run ω (k + 1)).x - (run' ω (k + 1)).x) ∂μ
          ≤ ∫ ω, ((r + C1 * sizeSq (D k)) * sqLen X' ((run ω k).x - (run' ω k).x) +
              C1 * sizeSq (D k) * ((run' ω (k + 1)).y ⬝ᵥ (run' ω (k + 1)).y)) ∂μ := by
            refine integral_mono (iV (k + 1)) (i1.add i2) fun ω => ?_
            simp only [hd ω k]
            exact hstep (D k) _ _
        _ = (r + C1 * sizeSq (D k)) * ∫ ω, sqLen X' ((run ω k).x - (run' ω k).x) ∂μ +
              C1 * sizeSq (D k) * ∫ ω, (run' ω (k + 1)).y ⬝ᵥ (run' ω (k + 1)).y ∂μ := by
            rw [integral_add i1 i2, integral_const_mul, integral_const_mul]
        _ ≤ _ := by
            have := mul_le_mul_of_nonneg_left (hB k) (mul_nonneg hC1 (sizeSq_nonneg (D k)))
            linarith
  refine squeeze_zero (fun k => integral_nonneg fun ω => dot_self_nonneg _) (fun k => ?_)
    (g := fun k => c * ∫ ω, sqLen X' ((run ω k).x - (run' ω k).x) ∂μ) ?_
  · rw [← integral_const_mul]
    exact integral_mono ((hdS k).dot (hdS k)) ((iV k).const_mul c) fun ω => hdot _
  · have := hV.const_mul c
    rwa [mul_zero] at this

/-- **C105 (mean square).** On measurements of the system the filters were told about, the full filter, started from
any state and covariance, and the constant gain filter, started from any other state, agree in mean square in the
limit. -/
theorem C105_mean_square (expf : ℝ → ℝ) (s : KF n m l) (hs : AtFixedPoint s) (ha : s.alphaSq = 1) (hP : s.P.PosDef)
    (hQ : s.Q.PosSemidef) (hR : s.R.PosDef) (hC : Spec.Reachable s.F s.Q) (x x' : Vec n) (P₀ : Mat n n) (hP₀ : P₀.PosSemidef) (u : ℕ → Vec l)
    (X w : ℕ → Ω → Vec n) (v : ℕ → Ω → Vec m) (hsys : NoisySystem s μ u X w v) :
    ∃ run run' : ℕ → Ω → KF n m l,
      (∀ k ω, ({ s with x := x, P := P₀ } : KF n m l).run expf
        (fullCycles (firstOf (fun j => (.vec (u j), s.H *ᵥ X (j + 1) ω + v j ω)) k)) = .ok (run k ω)) ∧
      (∀ k ω, ({ s with x := x' } : KF n m l).run expf
        (steadyCycles (firstOf (fun j => (.vec (u j), s.H *ᵥ X (j + 1) ω + v j ω)) k)) = .ok (run' k ω)) ∧
      Tendsto (fun k => ∫ ω, ((run k ω).x - (run' k ω).x) ⬝ᵥ ((run k ω).x - (run' k ω).x) ∂μ) atTop (𝓝 0) := by
  obtain ⟨run, run', h1, h2, -, -, -, -, -, h⟩ := limit_setup expf s hs ha hP hQ hR hC x x' P₀ hP₀ u X w v hsys
  exact ⟨run, run', h1, h2, h⟩

/-- **C105 (consistency).** A filter whose model of the system is right but whose start is wrong becomes honest.
Whatever `kf.x` and `kf.P` it is started with, and whatever the system's initial state is, the filter never
fails, the mean of its error tends to zero, and the covariance of its error tends to the same limit as the
`kf.P` it reports (`R` positive definite, process noise that reaches every direction, and nothing unseen that does
not die out). -/
theorem C105_becomes_consistent (expf : ℝ → ℝ) (s : KF n m l) (hinv : s.inv = npInv) (ha : s.alphaSq = 1)
    (hP : s.P.PosSemidef) (hQ : s.Q.PosSemidef) (hR : s.R.PosDef) (hC : Reachable s.F s.Q) (hD : Detectable s.F s.H)
    (u : ℕ → Vec l)
    (X w : ℕ → Ω → Vec n) (v : ℕ → Ω → Vec m) (hsys : NoisySystem s μ u X w v) :
    ∃ (run : ℕ → Ω → KF n m l) (P : Mat n n),
      (∀ k ω, s.run expf (fullCycles (firstOf (fun j => (.vec (u j), s.H *ᵥ X (j + 1) ω + v j ω)) k)) = .ok (run k ω)) ∧
      P.PosDef ∧ (∀ ω, Tendsto (fun k => (run k ω).P) atTop (𝓝 P)) ∧
      Tendsto (fun k => meanVec (fun ω => X k ω - (run k ω).x) μ) atTop (𝓝 0) ∧
      Tendsto (fun k => covMat (fun ω => X k ω - (run k ω).x) (fun ω => X k ω - (run k ω).x) μ) atTop (𝓝 P) := by
  have ha0 : 0 ≤ s.alphaSq := by rw [ha]; exact zero_le_one
  obtain ⟨P, K, hPd, -, -, hfix, -⟩ := C125_settles expf s hinv (by linarith) hQ hR hC (by rwa [ha, Real.sqrt_one, one_smul])
  have hsys' : NoisySystem ({ s with P := P, K := K } : KF n m l) μ u X w v :=
    ⟨hsys.state, hsys.start, hsys.process, hsys.sensor, hsys.process_white, hsys.sensor_white, hsys.separate,
      hsys.start_process, hsys.start_sensor⟩
  obtain ⟨run, run', h1, -, hPlim, hES, hmean, hcov, hdS, hd⟩ :=
    limit_setup expf { s with P := P, K := K } hfix ha hPd hQ hR hC s.x s.x s.P hP u X w v hsys'
  -- the gain stored before the run does not matter
  choose runf r1 r10 rP rx using fun ω => full_cycles expf s u (fun j => s.H *ᵥ X (j + 1) ω + v j ω) hinv ha0 hP
    hQ hR
  choose rung g1 g10 gP gx using fun ω => full_cycles expf { s with K := K } u (fun j => s.H *ᵥ X (j + 1) ω + v j ω)
    hinv ha0 hP hQ hR
  have eg : ∀ k ω, rung ω k = run k ω := fun k ω => Except.ok.inj ((g1 ω k).symm.trans (h1 k ω))
  have ex : ∀ k ω, (runf ω k).x = (run k ω).x := by
    intro k ω
    rw [← eg]
    induction k with
    | zero => rw [r10, g10]
    | succ k ih => rw [rx, gx, ih]
  have eP : ∀ k ω, (runf ω k).P = (run k ω).P := by
    intro k ω
    rw [← eg, rP, gP]
  refine ⟨fun k ω => runf ω k, P, fun k ω => r1 ω k, hPd, fun ω => ?_, ?_, ?_⟩
  · simp only [eP]; exact hPlim ω
  all_goals simp only [ex]
  · have e : ∀ k, meanVec (fun ω => X k ω - (run k ω).x) μ = meanVec (fun ω => X k ω - (run' k ω).x) μ -
        meanVec (fun ω => (run k ω).x - (run' k ω).x) μ := by
      intro k
      rw [← meanVec_sub (hES k) (hdS k)]
      congr 1; funext ω; abel
    simp only [e]
    have hz : Tendsto (fun k => meanVec (fun ω => (run k ω).x - (run' k ω).x) μ) atTop (𝓝 0) := by
      refine tendsto_pi_nhds.2 fun i => ?_
      exact tendsto_of_sq (fun k => (var_le_dot (hdS k) i).2) hd
    simpa using hmean.sub hz
  · have e : ∀ k, covMat (fun ω => X k ω - (run k ω).x) (fun ω => X k ω - (run k ω).x) μ =
        covMat (fun ω => X k ω - (run' k ω).x) (fun ω => X k ω - (run' k ω).x) μ -
        covMat (fun ω => X k ω - (run' k ω).x) (fun ω => (run k ω).x - (run' k ω).x) μ -
        (covMat (fun ω => (run k ω).x - (run' k ω).x) (fun ω => X k ω - (run' k ω).x) μ -
        covMat (fun ω => (run k ω).x - (run' k ω).x) (fun ω => (run k ω).x - (run' k ω).x) μ) := by
      intro k
      rw [← covMat_sub_right (hES k) (hES k) (hdS k), ← covMat_sub_right (hdS k) (hES k) (hdS k),
        ← covMat_sub_left (hES k) (hdS k) ((hES k).sub (hdS k))]
      congr 1 <;> funext ω <;> abel
    simp only [e]
    have hdd : ∀ i, Tendsto (fun k => covMat (fun ω => (run k ω).x - (run' k ω).x)
        (fun ω => (run k ω).x - (run' k ω).x) μ i i) atTop (𝓝 0) := fun i =>
      squeeze_zero (fun k => (covMat_psd (hdS k)).diag_nonneg) (fun k => (var_le_dot (hdS k) i).1) hd
    have hee : ∀ i, Tendsto (fun k => covMat (fun ω => X k ω - (run' k ω).x)
        (fun ω => X k ω - (run' k ω).x) μ i i) atTop (𝓝 (P i i)) := fun i =>
      tendsto_pi_nhds.1 (tendsto_pi_nhds.1 hcov i) i
    have h1 : Tendsto (fun k => covMat (fun ω => X k ω - (run' k ω).x) (fun ω => (run k ω).x - (run' k ω).x) μ) atTop
        (𝓝 (0 : Mat n n)) := by
      refine tendsto_pi_nhds.2 fun i => tendsto_pi_nhds.2 fun j =>
        tendsto_of_sq (fun k => cov_sq_le (hES k) (hdS k) i j) ?_
      simpa using (hee i).mul (hdd j)
    have h2 : Tendsto (fun k => covMat (fun ω => (run k ω).x - (run' k ω).x) (fun ω => X k ω - (run' k ω).x) μ) atTop
        (𝓝 (0 : Mat n n)) := by
      refine tendsto_pi_nhds.2 fun i => tendsto_pi_nhds.2 fun j =>
        tendsto_of_sq (fun k => cov_sq_le (hdS k) (hES k) i j) ?_
      simpa using (hdd i).mul (hee j)
    have h3 : Tendsto (fun k => covMat (fun ω => (run k ω).x - (run' k ω).x) (fun ω => (run k ω).x - (run' k ω).x) μ) atTop
        (𝓝 (0 : Mat n n)) := by
      refine tendsto_pi_nhds.2 fun i => tendsto_pi_nhds.2 fun j =>
        tendsto_of_sq (fun k => cov_sq_le (hdS k) (hdS k) i j) ?_
      simpa using (hdd i).mul (hdd j)
    simpa using (hcov.sub h1).sub (h2.sub h3)

/-- A constant velocity filter started at the wrong place with any covariance, tracking an object that moves under
Gaussian noise: the hypotheses of `C105_becomes_consistent` are met. -/
example (expf : ℝ → ℝ) (c x : Vec 2) (P₀ : Mat 2 2) (hP₀ : P₀.PosSemidef) :
    ∃ (run : ℕ → (ℕ → ℝ) → KF 2 1 1) (P : Mat 2 2),
      (∀ k ω, ({ cvKF with x := x, P := P₀ } : KF 2 1 1).run expf
        (fullCycles (firstOf (fun j => (.vec 0, cvKF.H *ᵥ cvState c (j + 1) ω + ![ω (3 * j + 2)])) k)) = .ok (run k ω)) ∧
      (∀ ω, Tendsto (fun k => (run k ω).P) atTop (𝓝 P)) ∧
      Tendsto (fun k => covMat (fun ω => cvState c k ω - (run k ω).x) (fun ω => cvState c k ω - (run k ω).x)
        (Measure.infinitePi fun _ : ℕ => gaussianReal 0 1)) atTop (𝓝 P) := by
  have h := cv_system c P₀ cvKF.K
  obtain ⟨run, P, h1, -, h2, -, h3⟩ := C105_becomes_consistent expf { cvKF with x := x, P := P₀ } rfl
    (by simp [cvKF, KF.fresh]) hP₀ PosDef.one.posSemidef PosDef.one (reachable_of_pd PosDef.one) cv_observable.detectable _ _ _ _
    ⟨h.state, h.start, h.process, h.sensor, h.process_white, h.sensor_white, h.separate, h.start_process, h.start_sensor⟩
  exact ⟨run, P, h1, h2, h3⟩

/-- And those of `C105_mean_square`, from two different wrong starts. -/
example (expf : ℝ → ℝ) (c : Vec 2) : ∃ (P : Mat 2 2) (K : Mat 2 1) (run run' : ℕ → (ℕ → ℝ) → KF 2 1 1),
    (∀ k ω, ({ cvKF with P := 100, K := K, x := ![3, 1] } : KF 2 1 1).run expf
      (fullCycles (firstOf (fun j => (.vec 0, cvKF.H *ᵥ cvState c (j + 1) ω + ![ω (3 * j + 2)])) k)) = .ok (run k ω)) ∧
    (∀ k ω, ({ cvKF with P := P, K := K, x := ![0, 7] } : KF 2 1 1).run expf
      (steadyCycles (firstOf (fun j => (.vec 0, cvKF.H *ᵥ cvState c (j + 1) ω + ![ω (3 * j + 2)])) k)) = .ok (run' k ω)) ∧
    Tendsto (fun k => ∫ ω, ((run k ω).x - (run' k ω).x) ⬝ᵥ ((run k ω).x - (run' k ω).x)
      ∂(Measure.infinitePi fun _ : ℕ => gaussianReal 0 1)) atTop (𝓝 0) := by
  obtain ⟨P, K, h1, -, h3, -⟩ := C97_converges expf cvKF rfl (by simp [cvKF, KF.fresh]) PosDef.one PosDef.one cv_observable
  have h100 : (100 : Mat 2 2).PosSemidef := by
    have : (100 : Mat 2 2) = (100 : ℝ) • 1 := by ext i j; fin_cases i <;> fin_cases j <;> simp [Matrix.ofNat_apply]
    rw [this]; exact PosSemidef.one.smul (by norm_num)
  obtain ⟨run, run', r1, r2, r3⟩ := C105_mean_square expf { cvKF with P := P, K := K } h3 (by simp [cvKF, KF.fresh]) h1
    PosDef.one.posSemidef PosDef.one (reachable_of_pd PosDef.one) ![3, 1] ![0, 7] 100 h100 _ _ _ _ (cv_system c P K)
  exact ⟨P, K, run, run', r1, r2, r3⟩

end random

end Filterpy
