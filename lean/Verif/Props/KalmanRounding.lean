import Verif.Props.KalmanWrongStart
import Verif.Lemmas.Rounding
import Verif.Spec.Rounding

/-!
# Rounding errors do not build up (C115)
-/

namespace Filterpy

open Matrix Filter Topology

variable {n m l : ℕ}

/-- What is fixed during a run: the model, a bound `c` on how much uncertainty survives a prediction, a lower
bound `p` of the covariances, and the size `τ` of the rounding errors. -/
structure RoundingSetup (a : ℝ) (F Q : Mat n n) (H : Mat m n) (R : Mat m m) (c p τ : ℝ) : Prop where
  ha : 1 ≤ a
  hQ : Q.PosDef
  hR : R.PosDef
  hc : 0 ≤ c
  hp : 0 < p
  hτ : 0 ≤ τ
  lowQ : ∀ w, p * (w ⬝ᵥ w) ≤ w ⬝ᵥ (Q *ᵥ w)
  lowPost : ∀ w, 2 * p * (w ⬝ᵥ w) ≤ w ⬝ᵥ (postCov H R Q *ᵥ w)
  small : 6 * (2 * n * τ / p) * (1 + 2 * c) ≤ (1 - √(2 * c / (1 + 2 * c))) / 2

/-- Relative size of the rounding errors of a covariance. -/
noncomputable def relErr (n : ℕ) (p τ : ℝ) : ℝ := 2 * n * τ / p

/-- Bound of the relative error of the rounded covariances. -/
noncomputable def covErr (n : ℕ) (c p τ : ℝ) : ℝ := 6 * relErr n p τ * (1 + 2 * c)

theorem root_lt {c : ℝ} (hc : 0 ≤ c) : √(2 * c / (1 + 2 * c)) < 1 := by
  rw [Real.sqrt_lt' one_pos, one_pow, div_lt_one (by linarith)]
  linarith

theorem ratio_lt {c : ℝ} (hc : 0 ≤ c) : 2 * c / (1 + 2 * c) < 1 := by
  rw [div_lt_one (by linarith)]; linarith

section
variable {a c p τ : ℝ} {F Q : Mat n n} {H : Mat m n} {R : Mat m m} (h : RoundingSetup a F Q H R c p τ)
include h

theorem RoundingSetup.rel_nonneg : 0 ≤ relErr n p τ := by
  have := h.hp; have := h.hτ
  unfold relErr; positivity

theorem RoundingSetup.cov_nonneg : 0 ≤ covErr n c p τ := by
  have := h.rel_nonneg; have := h.hc
  unfold covErr; positivity

theorem RoundingSetup.cov_small : covErr n c p τ ≤ (1 - √(2 * c / (1 + 2 * c))) / 2 := h.small

theorem RoundingSetup.cov_half : covErr n c p τ ≤ 1 / 2 := by
  have := h.cov_small
  have := Real.sqrt_nonneg (2 * c / (1 + 2 * c))
  linarith

theorem RoundingSetup.six_rel : 6 * relErr n p τ ≤ covErr n c p τ := by
  have h1 := h.rel_nonneg
  have h2 := h.hc
  unfold covErr
  nlinarith

/-- The relative errors after the two calls of a cycle. -/
theorem RoundingSetup.numbers :
    (1 + covErr n c p τ * (2 * c / (1 + 2 * c))) * (1 + relErr n p τ) - 1 ≤ covErr n c p τ ∧
    (1 + ((1 + covErr n c p τ * (2 * c / (1 + 2 * c))) * (1 + relErr n p τ) - 1)) * (1 + relErr n p τ) - 1
      ≤ covErr n c p τ := by
  have h1 := h.rel_nonneg
  have h2 := h.hc
  have h3 := h.cov_nonneg
  have h4 := h.cov_half
  have h5 := h.six_rel
  have hr := ratio_lt h2
  have hr0 : 0 ≤ 2 * c / (1 + 2 * c) := by positivity
  have e : covErr n c p τ * (1 - 2 * c / (1 + 2 * c)) = 6 * relErr n p τ := by
    unfold covErr; field_simp; ring
  generalize covErr n c p τ = M at *
  generalize relErr n p τ = η at *
  generalize 2 * c / (1 + 2 * c) = ρ at *
  have m1 : M * ρ ≤ M := by nlinarith
  have m0 : 0 ≤ M * ρ := by positivity
  have key : (1 + M * ρ) * (1 + η) * (1 + η) ≤ 1 + M := by
    have e1 : M = M * ρ + 6 * η := by linarith
    have : (1 + M * ρ) * (1 + η) * (1 + η) = 1 + M * ρ + (1 + M * ρ) * (2 + η) * η := by ring
    rw [this]
    have : (1 + M * ρ) * (2 + η) ≤ 6 := by nlinarith
    nlinarith
  constructor
  · nlinarith [mul_nonneg (by positivity : 0 ≤ (1 + M * ρ) * (1 + η)) h1]
  · linarith

/-- The covariances of one cycle. -/
theorem RoundingSetup.covs {P P' R₁ R₂ : Mat n n} (hP : P.PosSemidef) (hcar : CovLE (a • (F * P * Fᵀ)) (c • Q))
    (hn : Near (covErr n c p τ) P P')
    (hs1 : R₁ᵀ = R₁) (he1 : ∀ i j, |R₁ i j - (a • (F * P' * Fᵀ) + Q) i j| ≤ τ)
    (hs2 : R₂ᵀ = R₂) (he2 : ∀ i j, |R₂ i j - postCov H R R₁ i j| ≤ τ) :
    Near (covErr n c p τ) (a • (F * P * Fᵀ) + Q) (a • (F * P' * Fᵀ) + Q) ∧
    Near (covErr n c p τ) (a • (F * P * Fᵀ) + Q) R₁ ∧
    Near (covErr n c p τ) (postCov H R (a • (F * P * Fᵀ) + Q)) (postCov H R R₁) ∧
    Near (covErr n c p τ) (postCov H R (a • (F * P * Fᵀ) + Q)) R₂ ∧
    (∀ w, p * (w ⬝ᵥ w) ≤ w ⬝ᵥ ((a • (F * P' * Fᵀ) + Q) *ᵥ w)) ∧
    (∀ w, p * (w ⬝ᵥ w) ≤ w ⬝ᵥ (postCov H R R₁ *ᵥ w)) := by
  have ha0 : 0 ≤ a := by have := h.ha; linarith
  have h1 := h.rel_nonneg
  have h3 := h.cov_nonneg
  have h4 := h.cov_half
  have h5 := h.six_rel
  obtain ⟨n1, n2⟩ := h.numbers
  have hc := h.hc
  have hr0 : 0 ≤ 2 * c / (1 + 2 * c) := by positivity
  have hr1 := ratio_lt hc
  have m0 : 0 ≤ covErr n c p τ * (2 * c / (1 + 2 * c)) := by positivity
  have m1 : covErr n c p τ * (2 * c / (1 + 2 * c)) ≤ covErr n c p τ := by nlinarith
  have hsmall : 2 * n * τ ≤ p := by
    have : relErr n p τ ≤ 1 := by linarith
    rwa [relErr, div_le_one h.hp] at this
  have hP' : P'.PosSemidef := hn.2.1
  have g1 := hn.pred ha0 hc h3 (by linarith) h.hQ.posSemidef hcar
  have hT1 : (a • (F * P' * Fᵀ)).PosSemidef := PSD.smul (PSD.congr hP' F) ha0
  have low1 : ∀ w, p * (w ⬝ᵥ w) ≤ w ⬝ᵥ ((a • (F * P' * Fᵀ) + Q) *ᵥ w) := fun w => by
    rw [add_mulVec, dotProduct_add]
    linarith [h.lowQ w, PSD.quad hT1 w]
  have r1 : Near (relErr n p τ) (a • (F * P' * Fᵀ) + Q) R₁ :=
    near_of_entries h.hp (hT1.add h.hQ.posSemidef) hs1 low1 he1 hsmall h.hτ
  have g2 := g1.trans r1 m0 h1
  have m2 : 0 ≤ (1 + covErr n c p τ * (2 * c / (1 + 2 * c))) * (1 + relErr n p τ) - 1 := by nlinarith
  have g3 := g2.post m2 H h.hR
  have hpd1 : (a • (F * P * Fᵀ) + Q).PosDef := predCov_pd ha0 hP h.hQ
  have hR1 : R₁.PosDef := g2.posDef m2 hpd1
  have hpost : (postCov H R R₁).PosDef := postCov_pd hR1 h.hR
  have g3M := g3.mono m2 n1
  have low2 : ∀ w, p * (w ⬝ᵥ w) ≤ w ⬝ᵥ (postCov H R R₁ *ᵥ w) := fun w => by
    have q1 : CovLE Q ((1 : ℝ) • (a • (F * P * Fᵀ) + Q)) := ⟨h.hQ.posSemidef, by
      rw [one_smul, add_sub_cancel_right]; exact PSD.smul (PSD.congr hP F) ha0⟩
    have q2 : CovLE (postCov H R Q) ((1 : ℝ) • postCov H R (a • (F * P * Fᵀ) + Q)) :=
      post_scale H le_rfl q1 h.hR.posSemidef (PD.det_ne (S_pd h.hQ.posSemidef h.hR)) _
    have q3 := q2.quad w
    have q4 := g3M.1.quad w
    rw [one_smul] at q3
    rw [smul_mulVec, dotProduct_smul, smul_eq_mul] at q4
    have q5 := h.lowPost w
    have q6 := PSD.quad hpost.posSemidef w
    nlinarith
  have r2 : Near (relErr n p τ) (postCov H R R₁) R₂ :=
    near_of_entries h.hp hpost.posSemidef hs2 low2 he2 hsmall h.hτ
  have m3 : 0 ≤ (1 + ((1 + covErr n c p τ * (2 * c / (1 + 2 * c))) * (1 + relErr n p τ) - 1))
      * (1 + relErr n p τ) - 1 := by nlinarith
  exact ⟨g1.mono m0 m1, g2.mono m2 n1, g3M, (g3.trans r2 m2 h1).mono m3 n2, low1, low2⟩

/-- The estimates of one cycle. -/
theorem RoundingSetup.states {P P' R₁ R₂ : Mat n n} (hP : P.PosSemidef) (hcar : CovLE (a • (F * P * Fᵀ)) (c • Q))
    (hn : Near (covErr n c p τ) P P')
    (hs1 : R₁ᵀ = R₁) (he1 : ∀ i j, |R₁ i j - (a • (F * P' * Fᵀ) + Q) i j| ≤ τ)
    (hs2 : R₂ᵀ = R₂) (he2 : ∀ i j, |R₂ i j - postCov H R R₁ i j| ≤ τ)
    {A Y : ℝ} (hA : 0 ≤ A) (hY : 0 ≤ Y) {x x' b r₁ r₂ : Vec n} {z : Vec m} (hx : InStd P (x' - x) A)
    (hy : (z - H *ᵥ (F *ᵥ x + b)) ⬝ᵥ (R⁻¹ *ᵥ (z - H *ᵥ (F *ᵥ x + b))) ≤ Y ^ 2)
    (hr1 : ∀ i, |r₁ i - (F *ᵥ x' + b) i| ≤ τ)
    (hr2 : ∀ i, |r₂ i - (r₁ + gainOf H R R₁ *ᵥ (z - H *ᵥ r₁)) i| ≤ τ) :
    InStd (postCov H R (a • (F * P * Fᵀ) + Q))
      (r₂ - (F *ᵥ x + b + gainOf H R (a • (F * P * Fᵀ) + Q) *ᵥ (z - H *ᵥ (F *ᵥ x + b))))
      ((A * √(2 * c / (1 + 2 * c)) + 2 * (τ * √(n / p))) * (1 + covErr n c p τ) + covErr n c p τ * Y
        + 2 * (τ * √(n / p))) := by
  obtain ⟨k1, k2, k3, -, low1, low2⟩ := h.covs hP hcar hn hs1 he1 hs2 he2
  have hc := h.hc
  have hτ := h.hτ
  have h3 := h.cov_nonneg
  have h4 := h.cov_half
  have ha0 : 0 ≤ a := by have := h.ha; linarith
  have hpd1 : (a • (F * P * Fᵀ) + Q).PosDef := predCov_pd ha0 hP h.hQ
  have hR1 : R₁.PosDef := k2.posDef h3 hpd1
  have hε : 0 ≤ τ * √(n / p) := by positivity
  have hroot : τ * √(n / p) * √(1 + covErr n c p τ) ≤ 2 * (τ * √(n / p)) := by
    have : √(1 + covErr n c p τ) ≤ 2 := by rw [Real.sqrt_le_left two_pos.le]; linarith
    nlinarith
  have s1 := hx.pred h.ha hc hA hP hcar
  have e1 : InStd (a • (F * P' * Fᵀ) + Q) (r₁ - (F *ᵥ x' + b)) (τ * √(n / p)) := inStd_of_entries h.hp low1 hr1 hτ
  have s2 := s1.add ((e1.of_near h3 hε k1.symm).mono hroot)
  have d1 : F *ᵥ (x' - x) + (r₁ - (F *ᵥ x' + b)) = r₁ - (F *ᵥ x + b) := by rw [mulVec_sub]; abel
  rw [d1] at s2
  generalize F *ᵥ x + b = x1 at *
  have hB : 0 ≤ A * √(2 * c / (1 + 2 * c)) + 2 * (τ * √(n / p)) := by positivity
  generalize A * √(2 * c / (1 + 2 * c)) + 2 * (τ * √(n / p)) = B at *
  have s3 := (((s2.of_near h3 hB k2).post (by positivity) H h.hR.posSemidef hR1.posSemidef).of_near h3 (by positivity)
    k3.symm)
  rw [mul_assoc B, Real.mul_self_sqrt (by linarith)] at s3
  have s4 := s3.add (gain_near h3 hY H h.hR hpd1 k2 hy)
  have e2 : InStd (postCov H R R₁) (r₂ - (r₁ + gainOf H R R₁ *ᵥ (z - H *ᵥ r₁))) (τ * √(n / p)) :=
    inStd_of_entries h.hp low2 hr2 hτ
  have s5 := s4.add ((e2.of_near h3 hε k3.symm).mono hroot)
  have d2 : (1 - gainOf H R R₁ * H) *ᵥ (r₁ - x1)
      + (gainOf H R R₁ - gainOf H R (a • (F * P * Fᵀ) + Q)) *ᵥ (z - H *ᵥ x1)
      + (r₂ - (r₁ + gainOf H R R₁ *ᵥ (z - H *ᵥ r₁)))
      = r₂ - (x1 + gainOf H R (a • (F * P * Fᵀ) + Q) *ᵥ (z - H *ᵥ x1)) := by
    simp only [sub_mulVec, one_mulVec, ← mulVec_mulVec, mulVec_sub]
    abel
  rwa [d2] at s5

end

/-! ## The filter -/

theorem predict_call (expf : ℝ → ℝ) (s : KF n m l) (u : Vec l) :
    ∃ s', s.step expf (.predict (.vec u) none none .none) = .ok s' ∧
      s'.P = s.alphaSq • (s.F * s.P * s.Fᵀ) + s.Q ∧ s'.x = s.F *ᵥ s.x + Spec.controlEffect s.B (some u) ∧
      s'.B = s.B ∧ s'.F = s.F ∧ s'.Q = s.Q ∧ s'.H = s.H ∧ s'.R = s.R ∧ s'.alphaSq = s.alphaSq ∧ s'.inv = s.inv := by
  have hp : ∃ s1, s.predict (.vec u) = .ok s1 ∧ s1.x = s.F *ᵥ s.x + Spec.controlEffect s.B (some u) := by
    cases hB : s.B with
    | none => exact ⟨_, by simp only [KF.predict, KF.control, Option.or, hB]; rfl, by simp [Spec.controlEffect]⟩
    | some B => exact ⟨_, by simp only [KF.predict, KF.control, Option.or, hB]; rfl, by simp [Spec.controlEffect]⟩
  obtain ⟨s1, h1, x1⟩ := hp
  obtain ⟨x, e1⟩ := KF.predict_ok h1
  refine ⟨s1, by simp only [KF.step, h1], by rw [e1]; rfl, x1, ?_⟩
  rw [e1]
  exact ⟨rfl, rfl, rfl, rfl, rfl, rfl, rfl⟩

theorem update_call (expf : ℝ → ℝ) (s : KF n m l) (z : Vec m) (hinv : s.inv = npInv) (hP : s.P.PosSemidef)
    (hR : s.R.PosDef) :
    ∃ s', s.step expf (.update (some z) .none none) = .ok s' ∧
      s'.P = postCov s.H s.R s.P ∧ s'.x = s.x + gainOf s.H s.R s.P *ᵥ (z - s.H *ᵥ s.x) ∧ s'.y = z - s.H *ᵥ s.x ∧
      s'.B = s.B ∧ s'.F = s.F ∧ s'.Q = s.Q ∧ s'.H = s.H ∧ s'.R = s.R ∧ s'.alphaSq = s.alphaSq ∧ s'.inv = s.inv := by
  obtain ⟨s2, h2, -⟩ := update_semi s z .none none hinv hP (by show s.R.PosDef; exact hR)
  obtain ⟨SI, g, e2⟩ := KF.update_ok h2
  rw [hinv] at g
  obtain ⟨-, rfl⟩ := npInv_eq_some.1 g
  refine ⟨s2, by simp only [KF.step, h2], by rw [e2]; rfl, by rw [e2]; rfl, by rw [e2]; rfl, ?_⟩
  rw [e2]
  exact ⟨rfl, rfl, rfl, rfl, rfl, rfl, rfl⟩

theorem roundedRun_append (expf : ℝ → ℝ) (rnd : ℕ → KF n m l → KF n m l) (ops ops' : List (KFOp n m l)) :
    ∀ (j : ℕ) (s s' : KF n m l), Spec.roundedRun expf rnd j s ops = .ok s' →
      Spec.roundedRun expf rnd j s (ops ++ ops') = Spec.roundedRun expf rnd (j + ops.length) s' ops' := by
  induction ops with
  | nil =>
    intro j s s' h
    cases h
    rfl
  | cons op ops ih =>
    intro j s s' h
    rw [Spec.roundedRun] at h
    rw [List.cons_append, Spec.roundedRun]
    cases hs : s.step expf op with
    | error e => rw [hs] at h; cases h
    | ok t =>
      rw [hs] at h
      show Spec.roundedRun expf rnd (j + 1) (rnd j t) (ops ++ ops') = _
      rw [ih _ _ _ h, List.length_cons, Nat.add_assoc, Nat.add_comm 1]

/-- Bound of the error of the rounded estimates, in standard deviations, with residuals of at most `Y`. -/
noncomputable def estErr (n : ℕ) (c p τ Y : ℝ) : ℝ :=
  2 * (6 * (τ * √(n / p)) + covErr n c p τ * Y) / (1 - √(2 * c / (1 + 2 * c)))

theorem RoundingSetup.est_nonneg {a c p τ Y : ℝ} {F Q : Mat n n} {H : Mat m n} {R : Mat m m}
    (h : RoundingSetup a F Q H R c p τ) (hY : 0 ≤ Y) : 0 ≤ estErr n c p τ Y := by
  have := h.cov_nonneg
  have := h.hτ
  have := root_lt h.hc
  exact div_nonneg (by positivity) (by linarith)

theorem RoundingSetup.est_step {a c p τ Y : ℝ} {F Q : Mat n n} {H : Mat m n} {R : Mat m m}
    (h : RoundingSetup a F Q H R c p τ) (hY : 0 ≤ Y) :
    (estErr n c p τ Y * √(2 * c / (1 + 2 * c)) + 2 * (τ * √(n / p))) * (1 + covErr n c p τ) + covErr n c p τ * Y
        + 2 * (τ * √(n / p)) ≤ estErr n c p τ Y := by
  have h0 := h.est_nonneg hY
  have h1 := h.cov_nonneg
  have h2 := h.cov_half
  have h3 := h.cov_small
  have h4 := root_lt h.hc
  have h5 := Real.sqrt_nonneg (2 * c / (1 + 2 * c))
  have hτ := h.hτ
  have h6 : 0 ≤ τ * √(n / p) := by positivity
  have e : estErr n c p τ Y * (1 - √(2 * c / (1 + 2 * c))) = 2 * (6 * (τ * √(n / p)) + covErr n c p τ * Y) :=
    div_mul_cancel₀ _ (by linarith)
  generalize estErr n c p τ Y = A at *
  generalize √(2 * c / (1 + 2 * c)) = r at *
  generalize covErr n c p τ = M at *
  generalize τ * √(n / p) = ε at *
  have g1 : A * r * M ≤ A * ((1 - r) / 2) := by
    have : r * M ≤ (1 - r) / 2 := by nlinarith
    nlinarith
  nlinarith

theorem postCov_symm {H : Mat m n} {R : Mat m m} {P : Mat n n} (hP : Pᵀ = P) (hR : Rᵀ = R) :
    (postCov H R P)ᵀ = postCov H R P := by
  rw [postCov_eq]
  generalize gainOf H R P = K
  simp only [transpose_add, transpose_mul, transpose_transpose, hP, hR, Matrix.mul_assoc]

/-- The rounded run beside the exact one. -/
theorem rounded_beside (expf : ℝ → ℝ) (s : KF n m l) (hinv : s.inv = npInv) (hP : s.P.PosSemidef) {c p τ : ℝ}
    (h : RoundingSetup s.alphaSq s.F s.Q s.H s.R c p τ)
    (hcar : ∀ k, CovLE (s.alphaSq • (s.F * (riccati s.alphaSq s.F s.Q s.H s.R)^[k] s.P * s.Fᵀ)) (c • s.Q))
    (rnd : ℕ → KF n m l → KF n m l) (hrnd : ∀ j t, t.Pᵀ = t.P → Spec.Rounds τ t (rnd j t))
    (u : ℕ → Vec l) (z : ℕ → Vec m) (k : ℕ) :
    ∃ e r, s.run expf (fullCycles (firstOf (fun j => (.vec (u j), z j)) k)) = .ok e ∧
      Spec.roundedRun expf rnd 0 s (fullCycles (firstOf (fun j => (.vec (u j), z j)) k)) = .ok r ∧
      e.P = (riccati s.alphaSq s.F s.Q s.H s.R)^[k] s.P ∧ e.P.PosSemidef ∧
      (e.B = s.B ∧ e.F = s.F ∧ e.Q = s.Q ∧ e.H = s.H ∧ e.R = s.R ∧ e.alphaSq = s.alphaSq ∧ e.inv = npInv) ∧
      (r.B = s.B ∧ r.F = s.F ∧ r.Q = s.Q ∧ r.H = s.H ∧ r.R = s.R ∧ r.alphaSq = s.alphaSq ∧ r.inv = npInv) ∧
      Near (covErr n c p τ) e.P r.P ∧
      ∀ Y : ℝ, 0 ≤ Y → (∀ j < k, ∀ t, s.run expf (fullCycles (firstOf (fun j => (.vec (u j), z j)) (j + 1))) = .ok t →
        t.y ⬝ᵥ (s.R⁻¹ *ᵥ t.y) ≤ Y ^ 2) → InStd e.P (r.x - e.x) (estErr n c p τ Y) := by
  have ha0 : 0 ≤ s.alphaSq := by have := h.ha; linarith
  induction k with
  | zero =>
    refine ⟨s, s, rfl, rfl, rfl, hP, ⟨rfl, rfl, rfl, rfl, rfl, rfl, hinv⟩, ⟨rfl, rfl, rfl, rfl, rfl, rfl, hinv⟩,
      (Near.self hP).mono le_rfl h.cov_nonneg, fun Y hY _ w => ?_⟩
    rw [sub_self, zero_dotProduct, abs_zero]
    exact mul_nonneg (h.est_nonneg hY) (Real.sqrt_nonneg _)
  | succ k ih =>
    obtain ⟨e, r, he, hr, pe, psd, ⟨b1, f1, q1, m1, r1, a1, i1⟩, ⟨b2, f2, q2, m2, r2, a2, i2⟩, hn, hx⟩ := ih
    obtain ⟨e1, se1, Pe1, xe1, be1, fe1, qe1, me1, re1, ae1, ie1⟩ := predict_call expf e (u k)
    obtain ⟨t1, st1, Pt1, xt1, bt1, ft1, qt1, mt1, rt1, at1, it1⟩ := predict_call expf r (u k)
    rw [a1, f1, q1] at Pe1
    rw [f1, b1] at xe1
    rw [a2, f2, q2] at Pt1
    rw [f2, b2] at xt1
    have hcark : CovLE (s.alphaSq • (s.F * e.P * s.Fᵀ)) (c • s.Q) := by rw [pe]; exact hcar k
    have hpd1 : e1.P.PosDef := by rw [Pe1]; exact predCov_pd ha0 psd h.hQ
    have hpt1 : t1.P.PosDef := by rw [Pt1]; exact predCov_pd ha0 hn.2.1 h.hQ
    have R1 := hrnd (2 * k) t1 (PD.symm hpt1)
    have hcirc := h.covs psd hcark hn R1.symmetric (fun i j => by rw [← Pt1]; exact R1.covariance i j)
      (postCov_symm R1.symmetric (PD.symm h.hR)) (fun i j => by rw [sub_self, abs_zero]; exact h.hτ)
    have hpw1 : (rnd (2 * k) t1).P.PosDef := hcirc.2.1.posDef h.cov_nonneg (by rw [← Pe1]; exact hpd1)
    have hRw : (rnd (2 * k) t1).R = s.R := R1.R.trans (rt1.trans r2)
    have hHw : (rnd (2 * k) t1).H = s.H := R1.H.trans (mt1.trans m2)
    obtain ⟨e2, se2, Pe2, xe2, ye2, be2, fe2, qe2, me2, re2, ae2, ie2⟩ :=
      update_call expf e1 (z k) (ie1.trans i1) hpd1.posSemidef (by rw [re1, r1]; exact h.hR)
    obtain ⟨t2, st2, Pt2, xt2, yt2, bt2, ft2, qt2, mt2, rt2, at2, it2⟩ :=
      update_call expf (rnd (2 * k) t1) (z k) (R1.inv.trans (it1.trans i2)) hpw1.posSemidef (by rw [hRw]; exact h.hR)
    rw [me1, m1, re1, r1, Pe1] at Pe2
    rw [me1, m1, re1, r1, Pe1, xe1] at xe2
    rw [me1, m1, xe1] at ye2
    rw [hHw, hRw] at Pt2 xt2
    have R2 := hrnd (2 * k + 1) t2 (by rw [Pt2]; exact postCov_symm R1.symmetric (PD.symm h.hR))
    have d1P : ∀ i j, |(rnd (2 * k) t1).P i j - (s.alphaSq • (s.F * r.P * s.Fᵀ) + s.Q) i j| ≤ τ := fun i j => by
      rw [← Pt1]; exact R1.covariance i j
    have d2P : ∀ i j, |(rnd (2 * k + 1) t2).P i j - postCov s.H s.R (rnd (2 * k) t1).P i j| ≤ τ := fun i j => by
      rw [← Pt2]; exact R2.covariance i j
    have hcov := h.covs psd hcark hn R1.symmetric d1P R2.symmetric d2P
    have hrun : s.run expf (fullCycles (firstOf (fun j => (.vec (u j), z j)) (k + 1))) = .ok e2 := by
      rw [fullCycles_succ, KF.run_append, he]
      simp only [KF.run, se1, se2]
    refine ⟨e2, rnd (2 * k + 1) t2, hrun, ?_, ?_, ?_, ?_, ?_, ?_, ?_⟩
    · rw [fullCycles_succ, roundedRun_append _ _ _ _ _ _ _ hr]
      have hl : 0 + (fullCycles (firstOf (fun j => (UArg.vec (u j), z j)) k) : List (KFOp n m l)).length = 2 * k := by
        simp [fullCycles, firstOf, mul_comm, Function.comp_def]
      rw [hl]
      simp only [Spec.roundedRun, st1, st2]
    · rw [Pe2, Function.iterate_succ_apply', ← pe]; rfl
    · rw [Pe2]; exact (postCov_pd (by rw [← Pe1]; exact hpd1) h.hR).posSemidef
    · exact ⟨be2.trans (be1.trans b1), fe2.trans (fe1.trans f1), qe2.trans (qe1.trans q1), me2.trans (me1.trans m1),
        re2.trans (re1.trans r1), ae2.trans (ae1.trans a1), ie2.trans (ie1.trans i1)⟩
    · exact ⟨R2.B.trans (bt2.trans (R1.B.trans (bt1.trans b2))), R2.F.trans (ft2.trans (R1.F.trans (ft1.trans f2))),
        R2.Q.trans (qt2.trans (R1.Q.trans (qt1.trans q2))), R2.H.trans (mt2.trans (R1.H.trans (mt1.trans m2))),
        R2.R.trans (rt2.trans (R1.R.trans (rt1.trans r2))),
        R2.alphaSq.trans (at2.trans (R1.alphaSq.trans (at1.trans a2))),
        R2.inv.trans (it2.trans (R1.inv.trans (it1.trans i2)))⟩
    · rw [Pe2]; exact hcov.2.2.2.1
    · intro Y hY hres
      have hk := hx Y hY fun j hj => hres j (by omega)
      have hy := hres k (by omega) e2 hrun
      rw [ye2] at hy
      rw [Pe2, xe2]
      exact (h.states psd hcark hn R1.symmetric d1P R2.symmetric d2P (h.est_nonneg hY) hY hk hy
        (fun i => by rw [← xt1]; exact R1.estimate i) (fun i => by rw [← xt2]; exact R2.estimate i)).mono (h.est_step hY)

/-- **C115.** A filter whose every call stores its estimate and covariance with a rounding error keeps, after any
number of cycles and whatever the controls and the measurements, within a constant times that error of the filter
computed exactly: the constant depends on the model and the initial covariance only. For the estimate the bound
is in proportion to the largest residual, in standard deviations of the measurement noise, met on the way. The
rounded filter never fails and its covariance stays positive definite. -/
theorem C115_bounded (expf : ℝ → ℝ) (s : KF n m l) (hinv : s.inv = npInv) (ha : 1 ≤ s.alphaSq)
    (hP : s.P.PosSemidef) (hQ : s.Q.PosDef) (hR : s.R.PosDef) (hO : Spec.Observable s.F s.H) :
    ∃ C τ₀ : ℝ, 0 < τ₀ ∧ ∀ τ, 0 ≤ τ → τ ≤ τ₀ → ∀ rnd : ℕ → KF n m l → KF n m l,
      (∀ j t, t.Pᵀ = t.P → Spec.Rounds τ t (rnd j t)) → ∀ (u : ℕ → Vec l) (z : ℕ → Vec m) (k : ℕ), ∃ e r : KF n m l,
        s.run expf (fullCycles (firstOf (fun j => (.vec (u j), z j)) k)) = .ok e ∧
        Spec.roundedRun expf rnd 0 s (fullCycles (firstOf (fun j => (.vec (u j), z j)) k)) = .ok r ∧
        (∀ i j, |r.P i j - e.P i j| ≤ C * τ) ∧ (0 < k → r.P.PosDef) ∧
        ∀ Y : ℝ, 0 ≤ Y →
          (∀ j < k, ∀ t, s.run expf (fullCycles (firstOf (fun j => (.vec (u j), z j)) (j + 1))) = .ok t →
            t.y ⬝ᵥ (s.R⁻¹ *ᵥ t.y) ≤ Y ^ 2) →
          ∀ i, |r.x i - e.x i| ≤ C * τ * (1 + Y) := by
  have ha0 : 0 ≤ s.alphaSq := by linarith
  obtain ⟨P, hPs, hst, -⟩ := C97_exists expf s hinv ha0 hQ.posSemidef hR hO
  have hfix : riccati s.alphaSq s.F s.Q s.H s.R P = P := by
    obtain ⟨s', h1, h2, -⟩ := cycle_run expf { s with P := P } 0 hinv ha0 hPs hQ hR
    exact h2.symm.trans (hst s.x 0 s' h1)
  obtain ⟨lam, c, hl, hc, hb, hcar⟩ := riccati_bounded ha0 hQ hR hPs hfix hP
  obtain ⟨p₁, hp₁, low₁⟩ := PD.lower hQ
  obtain ⟨p₂, hp₂, low₂⟩ := PD.lower (postCov_pd (H := s.H) hQ hR)
  obtain ⟨p, hp, hpa, hpb⟩ : ∃ p, 0 < p ∧ p ≤ p₁ ∧ 2 * p ≤ p₂ :=
    ⟨min p₁ (p₂ / 2), lt_min hp₁ (by linarith), min_le_left _ _, by linarith [min_le_right p₁ (p₂ / 2)]⟩
  have hroot := root_lt hc
  have hroot0 := Real.sqrt_nonneg (2 * c / (1 + 2 * c))
  set ρ := √(2 * c / (1 + 2 * c)) with hρ
  set m₁ : ℝ := 12 * n * (1 + 2 * c) / p with hm₁
  set g : ℝ := 2 * (6 * √(n / p) + m₁) / (1 - ρ) with hg
  set T : ℝ := 1 + lam * ∑ i, P i i with hT
  have hm0 : 0 ≤ m₁ := by positivity
  have h1ρ : 0 < 1 - ρ := by linarith
  have hg0 : 0 ≤ g := by positivity
  have hdiag : ∀ i, 0 ≤ P i i := fun i => hPs.diag_nonneg (i := i)
  have hT1 : 1 ≤ T := by
    have : 0 ≤ lam * ∑ i, P i i := mul_nonneg (by linarith) (Finset.sum_nonneg fun i _ => hdiag i)
    linarith
  refine ⟨(g + m₁) * T, (1 - ρ) / (2 * (m₁ + 1)), by positivity, fun τ hτ hτ₀ rnd hrnd u z k => ?_⟩
  have hcovτ : covErr n c p τ = m₁ * τ := by rw [covErr, relErr, hm₁]; ring
  have hsetup : RoundingSetup s.alphaSq s.F s.Q s.H s.R c p τ := by
    refine ⟨ha, hQ, hR, hc, hp, hτ, fun w => ?_, fun w => ?_, ?_⟩
    · exact (mul_le_mul_of_nonneg_right hpa (dot_self_nonneg w)).trans (low₁ w)
    · exact (mul_le_mul_of_nonneg_right hpb (dot_self_nonneg w)).trans (low₂ w)
    · have e : 6 * (2 * n * τ / p) * (1 + 2 * c) = m₁ * τ := hcovτ
      rw [e, ← hρ]
      rw [le_div_iff₀ (by positivity)] at hτ₀
      nlinarith
  obtain ⟨e, r, he, hr, pe, psd, -, -, hn, hx⟩ := rounded_beside expf s hinv hP hsetup hcar rnd hrnd u z k
  have hii : ∀ i, e.P i i ≤ T := fun i => by
    rw [pe]
    have h1 : ((riccati s.alphaSq s.F s.Q s.H s.R)^[k] s.P) i i ≤ lam * P i i := by
      have := (hb k).2.diag_nonneg (i := i)
      rw [Matrix.sub_apply, Matrix.smul_apply, smul_eq_mul] at this
      linarith
    have h2 : P i i ≤ ∑ i, P i i := Finset.single_le_sum (fun i _ => hdiag i) (Finset.mem_univ i)
    have : lam * P i i ≤ lam * ∑ i, P i i := mul_le_mul_of_nonneg_left h2 (by linarith)
    linarith
  refine ⟨e, r, he, hr, fun i j => ?_, fun hk => ?_, fun Y hY hres i => ?_⟩
  · refine (hn.entry hsetup.cov_nonneg i j).trans ?_
    rw [hcovτ]
    calc m₁ * τ * ((e.P i i + e.P j j) / 2) ≤ m₁ * τ * T :=
          mul_le_mul_of_nonneg_left (by linarith [hii i, hii j]) (by positivity)
      _ = m₁ * T * τ := by ring
      _ ≤ (g + m₁) * T * τ := by
          refine mul_le_mul_of_nonneg_right (mul_le_mul_of_nonneg_right (by linarith) (by linarith)) hτ
  · refine hn.posDef hsetup.cov_nonneg ?_
    obtain ⟨k, rfl⟩ : ∃ j, k = j + 1 := ⟨k - 1, by omega⟩
    rw [pe, Function.iterate_succ_apply']
    exact riccati_pd ha0 (riccati_iter_psd ha0 hP hQ.posSemidef hR k) hQ hR
  · have h1 := hx Y hY hres (Pi.single i 1)
    have e1 : (r.x - e.x) ⬝ᵥ Pi.single i 1 = r.x i - e.x i := by simp
    have e2 : (Pi.single i 1 : Vec n) ⬝ᵥ (e.P *ᵥ Pi.single i 1) = e.P i i := by simp
    rw [e1, e2] at h1
    have h2 : √(e.P i i) ≤ T := by
      rw [Real.sqrt_le_left (by linarith)]
      nlinarith [hii i]
    refine h1.trans ((mul_le_mul_of_nonneg_left h2 (hsetup.est_nonneg hY)).trans ?_)
    have h3 : estErr n c p τ Y ≤ g * τ * (1 + Y) := by
      have e3 : g * τ * (1 + Y) = 2 * ((6 * √(n / p) + m₁) * τ * (1 + Y)) / (1 - ρ) := by rw [hg]; ring
      rw [estErr, hcovτ, ← hρ, e3]
      refine div_le_div_of_nonneg_right ?_ h1ρ.le
      have q1 : 0 ≤ √(n / p) * τ * Y := by positivity
      have q2 : 0 ≤ m₁ * τ := by positivity
      nlinarith
    calc estErr n c p τ Y * T ≤ g * τ * (1 + Y) * T := mul_le_mul_of_nonneg_right h3 (by linarith)
      _ = g * T * τ * (1 + Y) := by ring
      _ ≤ (g + m₁) * T * τ * (1 + Y) := by
          refine mul_le_mul_of_nonneg_right (mul_le_mul_of_nonneg_right
            (mul_le_mul_of_nonneg_right (by linarith) (by linarith)) hτ) (by linarith)

/-- Stores every estimate and every variance a little too large. -/
noncomputable def roundUp (τ : ℝ) (t : KF n m l) : KF n m l :=
  { t with x := fun i => t.x i + τ, P := t.P + τ • (1 : Mat n n) }

theorem roundUp_rounds {τ : ℝ} (h : 0 ≤ τ) (t : KF n m l) (ht : t.Pᵀ = t.P) : Spec.Rounds τ t (roundUp τ t) := by
  refine ⟨fun i => ?_, fun i j => ?_, ?_, rfl, rfl, rfl, rfl, rfl, rfl, rfl⟩
  · simp [roundUp, abs_of_nonneg h]
  · by_cases hij : i = j
    · subst hij; simp [roundUp, abs_of_nonneg h]
    · simp [roundUp, hij, h]
  · simp [roundUp, ht]

/-- A tracker of position and velocity whose results are all stored too large stays near the exact one for ever. -/
example (expf : ℝ → ℝ) : ∃ C τ₀ : ℝ, 0 < τ₀ ∧ ∀ τ, 0 ≤ τ → τ ≤ τ₀ → ∀ (z : ℕ → Vec 1) (k : ℕ), ∃ e r : KF 2 1 1,
    cvKF.run expf (fullCycles (firstOf (fun j => (.vec 0, z j)) k)) = .ok e ∧
    Spec.roundedRun expf (fun _ => roundUp τ) 0 cvKF (fullCycles (firstOf (fun j => (.vec 0, z j)) k)) = .ok r ∧
    ∀ i j, |r.P i j - e.P i j| ≤ C * τ := by
  obtain ⟨C, τ₀, h0, h⟩ := C115_bounded expf cvKF rfl (by simp [cvKF, KF.fresh]) PosSemidef.one PosDef.one PosDef.one
    cv_observable
  refine ⟨C, τ₀, h0, fun τ h1 h2 z k => ?_⟩
  obtain ⟨e, r, a, b, c, -⟩ := h τ h1 h2 (fun _ => roundUp τ) (fun _ => roundUp_rounds h1) (fun _ => 0) z k
  exact ⟨e, r, a, b, c⟩

/-- Observability is needed: in a filter whose sensor does not see the state, the rounding errors add up without
limit, however small they are. -/
theorem C115_needs (expf : ℝ → ℝ) (τ : ℝ) (hτ : 0 < τ) (C : ℝ) : ∃ (k : ℕ) (e r : KF 1 1 0),
    (KF.fresh 1 1 0).run expf (fullCycles (firstOf (fun _ => (.vec 0, 0)) k)) = .ok e ∧
    Spec.roundedRun expf (fun _ => roundUp τ) 0 (KF.fresh 1 1 0)
      (fullCycles (firstOf (fun _ => (.vec 0, 0)) k)) = .ok r ∧
    C < |r.x 0 - e.x 0| := by
  have key : ∀ k : ℕ, ∃ e r : KF 1 1 0,
      (KF.fresh 1 1 0).run expf (fullCycles (firstOf (fun _ => (.vec 0, 0)) k)) = .ok e ∧
      Spec.roundedRun expf (fun _ => roundUp τ) 0 (KF.fresh 1 1 0)
        (fullCycles (firstOf (fun _ => (.vec 0, 0)) k)) = .ok r ∧
      (e.P.PosSemidef ∧ e.B = none ∧ e.F = 1 ∧ e.Q = 1 ∧ e.H = 0 ∧ e.R = 1 ∧ e.alphaSq = 1 ∧ e.inv = npInv) ∧
      (r.P.PosSemidef ∧ r.B = none ∧ r.F = 1 ∧ r.Q = 1 ∧ r.H = 0 ∧ r.R = 1 ∧ r.alphaSq = 1 ∧ r.inv = npInv) ∧
      r.x 0 = e.x 0 + 2 * k * τ := by
    have cyc : ∀ t : KF 1 1 0, t.P.PosSemidef → t.B = none → t.F = 1 → t.Q = 1 → t.H = 0 → t.R = 1 → t.alphaSq = 1 →
        t.inv = npInv → ∀ d, 0 ≤ d → ∃ t1 t2, t.step expf (.predict (.vec 0) none none .none) = .ok t1 ∧
          ({ t1 with x := fun i => t1.x i + d, P := t1.P + d • 1 } : KF 1 1 0).step expf
            (.update (some 0) .none none) = .ok t2 ∧
          (t2.P.PosSemidef ∧ t2.B = none ∧ t2.F = 1 ∧ t2.Q = 1 ∧ t2.H = 0 ∧ t2.R = 1 ∧ t2.alphaSq = 1 ∧ t2.inv = npInv) ∧
          t2.x 0 = t.x 0 + d := by
      intro t hp hb hf hq hh hr ha hi d hd
      obtain ⟨t1, st1, Pt1, xt1, bt1, ft1, qt1, mt1, rt1, at1, it1⟩ := predict_call expf t 0
      have hp1 : (t1.P + d • (1 : Mat 1 1)).PosSemidef := by
        rw [Pt1, ha, hf, hq]
        exact ((PSD.smul (PSD.congr hp 1) zero_le_one).add PosSemidef.one).add (PSD.smul PosSemidef.one hd)
      obtain ⟨t2, st2, Pt2, xt2, -, bt2, ft2, qt2, mt2, rt2, at2, it2⟩ := update_call expf
        ({ t1 with x := fun i => t1.x i + d, P := t1.P + d • 1 } : KF 1 1 0) 0 (it1.trans hi) hp1
        (by show t1.R.PosDef; rw [rt1, hr]; exact PosDef.one)
      refine ⟨t1, t2, st1, st2, ⟨?_, bt2.trans (bt1.trans hb), ft2.trans (ft1.trans hf), qt2.trans (qt1.trans hq),
        mt2.trans (mt1.trans hh), rt2.trans (rt1.trans hr), at2.trans (at1.trans ha), it2.trans (it1.trans hi)⟩, ?_⟩
      · rw [Pt2]
        exact (PSD.congr hp1 _).add (PSD.congr (by rw [rt1, hr]; exact PosSemidef.one) _)
      · rw [xt2]
        simp [gainOf, mt1, hh, xt1, hf, hb, Spec.controlEffect]
    intro k
    induction k with
    | zero =>
      exact ⟨_, _, rfl, rfl, ⟨PosSemidef.one, rfl, rfl, rfl, rfl, rfl, rfl, rfl⟩,
        ⟨PosSemidef.one, rfl, rfl, rfl, rfl, rfl, rfl, rfl⟩, by simp⟩
    | succ k ih =>
      obtain ⟨e, r, he, hr, ⟨e1, e2, e3, e4, e5, e6, e7, e8⟩, ⟨r1, r2, r3, r4, r5, r6, r7, r8⟩, hx⟩ := ih
      obtain ⟨a1, a2, s1, s2, s3, s4⟩ := cyc e e1 e2 e3 e4 e5 e6 e7 e8 0 le_rfl
      obtain ⟨b1, b2, w1, w2, w3, w4⟩ := cyc r r1 r2 r3 r4 r5 r6 r7 r8 τ hτ.le
      have ea : ({ a1 with x := fun i => a1.x i + 0, P := a1.P + (0 : ℝ) • 1 } : KF 1 1 0) = a1 := by
        simp only [add_zero, zero_smul]
      rw [ea] at s2
      refine ⟨a2, roundUp τ b2, ?_, ?_, s3, ⟨?_, w3.2⟩, ?_⟩
      · rw [fullCycles_succ, KF.run_append, he]
        simp only [KF.run, s1, s2]
      · rw [fullCycles_succ, roundedRun_append _ _ _ _ _ _ _ hr]
        simp only [Spec.roundedRun, w1]
        have : KF.step expf (roundUp τ b1) (.update (some 0) .none none) = .ok b2 := w2
        simp only [this]
      · exact w3.1.add (PSD.smul PosSemidef.one hτ.le)
      · show b2.x 0 + τ = _
        rw [w4, s4, hx]
        push_cast
        ring
  obtain ⟨k, hk⟩ := exists_nat_gt (C / (2 * τ))
  obtain ⟨e, r, h1, h2, -, -, h3⟩ := key k
  refine ⟨k, e, r, h1, h2, ?_⟩
  rw [h3, add_sub_cancel_left]
  rw [div_lt_iff₀ (by positivity)] at hk
  exact lt_of_lt_of_le (by linarith) (le_abs_self _)

end Filterpy
