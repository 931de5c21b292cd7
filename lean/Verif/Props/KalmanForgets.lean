import Verif.Props.KalmanMonotone
import Verif.Lemmas.Steady

/-!
# The filter forgets where it started: C84 (covariance), C85 (state)
-/

namespace Filterpy
open Matrix Filter Topology

variable {n m l : ℕ}

/-! ## One step -/

theorem CovLE.refl {k : ℕ} {A : Mat k k} (h : A.PosSemidef) : CovLE A A :=
  ⟨h, by rw [sub_self]; exact PosSemidef.zero⟩

theorem CovLE.smul_le {k : ℕ} {A : Mat k k} (h : A.PosSemidef) {a b : ℝ} (ha : 0 ≤ a) (hab : a ≤ b) :
    CovLE (a • A) (b • A) :=
  ⟨PSD.smul h ha, by rw [← sub_smul]; exact PSD.smul h (sub_nonneg.2 hab)⟩

/-- The factor by which a prediction that carries at most `c` times the fresh noise shrinks a relative
difference. -/
noncomputable def shrink (c lam : ℝ) : ℝ := 1 + (lam - 1) * (c / (1 + c))

theorem shrink_ge {c lam : ℝ} (hc : 0 ≤ c) (hl : 1 ≤ lam) : 1 ≤ shrink c lam := by
  have : 0 ≤ (lam - 1) * (c / (1 + c)) := mul_nonneg (by linarith) (by positivity)
  unfold shrink; linarith

theorem shrink_iterate (c lam : ℝ) (k : ℕ) :
    (shrink c)^[k] lam = 1 + (lam - 1) * (c / (1 + c)) ^ k := by
  induction k generalizing lam with
  | zero => simp
  | succ k ih => rw [Function.iterate_succ_apply, ih, shrink]; ring

theorem pred_scale {k : ℕ} {A B Q : Mat k k} {c lam : ℝ} (hc : 0 ≤ c) (hl : 1 ≤ lam)
    (hQ : Q.PosSemidef) (hAB : CovLE A (lam • B)) (hB : CovLE B (c • Q)) :
    CovLE (A + Q) (shrink c lam • (B + Q)) := by
  refine CovLE.trans (B := lam • B + Q) (hAB.add (.refl hQ)) ⟨(PSD.smul hB.1 (by linarith)).add hQ, ?_⟩
  have h1 : (0 : ℝ) < 1 + c := by linarith
  have e : shrink c lam • (B + Q) - (lam • B + Q) = ((lam - 1) / (1 + c)) • (c • Q - B) := by
    have a1 : shrink c lam = lam - (lam - 1) / (1 + c) := by unfold shrink; field_simp; ring
    have a2 : shrink c lam = 1 + (lam - 1) / (1 + c) * c := by unfold shrink; field_simp
    rw [smul_add]
    nth_rewrite 1 [a1]
    rw [a2, smul_sub, sub_smul, add_smul, one_smul, smul_smul]
    abel
  rw [e]
  exact PSD.smul hB.2 (div_nonneg (by linarith) h1.le)

theorem post_scale {k : ℕ} {A B : Mat n n} {R : Mat k k} (H : Mat k n) {lam : ℝ} (hl : 1 ≤ lam)
    (hAB : CovLE A (lam • B)) (hR : R.PosSemidef) (hd : (H * (A * Hᵀ) + R).det ≠ 0) (K' : Mat n k) :
    let K := A * Hᵀ * (H * (A * Hᵀ) + R)⁻¹
    CovLE ((1 - K * H) * A * (1 - K * H)ᵀ + K * R * Kᵀ)
      (lam • ((1 - K' * H) * B * (1 - K' * H)ᵀ + K' * R * K'ᵀ)) := by
  have hRR : CovLE R (lam • R) := by
    have := CovLE.smul_le hR zero_le_one hl
    rwa [one_smul] at this
  have := joseph_mono H hAB hRR hd K'
  intro K
  refine this.trans ?_
  rw [smul_add]
  simp only [Matrix.mul_smul, Matrix.smul_mul]
  have hB : (lam • B).PosSemidef := hAB.right
  refine .refl ?_
  have := joseph_psd (H := H) hB (PSD.smul hR (by linarith : (0 : ℝ) ≤ lam)) K'
  simpa only [Matrix.mul_smul, Matrix.smul_mul] using this

/-! ## C84 -/

/-- Two filters with the same model and nothing known about their states; the covariance of the first is
at most `lam` times that of the second. -/
structure Within (lam : ℝ) (s t : KF n m l) : Prop where
  P : CovLE s.P (lam • t.P)
  F : s.F = t.F
  Q : s.Q = t.Q
  H : s.H = t.H
  R : s.R = t.R
  alpha : s.alphaSq = t.alphaSq
  inv : s.inv = npInv

/-- The two histories of calls: the same calls with noise matrices that are covariances; controls and
measured values are arbitrary (but a measurement is missing in both runs or in none). -/
def SameModel (Q : Mat n n) (R : Mat m m) : KFOp n m l → KFOp n m l → Prop
  | .predict _ _ F Q₁, .predict _ _ F' Q₁' => F = F' ∧ Q₁ = Q₁' ∧ (Q₁.resolve Q).PosSemidef
  | .update z R₁ H, .update z' R₁' H' => (z = none ↔ z' = none) ∧ H = H' ∧ R₁ = R₁' ∧ (R₁.resolve R).PosSemidef
  | _, _ => False

/-- In every prediction of the history the uncertainty carried over is at most `c` times the process
noise that is added. -/
def CarriesAtMost (expf : ℝ → ℝ) (c : ℝ) (t : KF n m l) (ops : List (KFOp n m l)) : Prop :=
  ∀ pre u B F Q post t₁, ops = pre ++ KFOp.predict u B F Q :: post → t.run expf pre = .ok t₁ →
    CovLE (t₁.alphaSq • (F.getD t₁.F * t₁.P * (F.getD t₁.F)ᵀ)) (c • Q.resolve t₁.Q)

/-- Number of predictions in a history. -/
def predictsIn (ops : List (KFOp n m l)) : ℕ :=
  (ops.filter fun o => match o with | .predict .. => true | _ => false).length

theorem CarriesAtMost.tail {expf : ℝ → ℝ} {c : ℝ} {t t₁ : KF n m l} {op : KFOp n m l}
    {ops : List (KFOp n m l)} (h : CarriesAtMost expf c t (op :: ops)) (h1 : t.step expf op = .ok t₁) :
    CarriesAtMost expf c t₁ ops := by
  intro pre u B F Q post t₂ e h2
  refine h (op :: pre) u B F Q post t₂ (by rw [e]; rfl) ?_
  simp only [KF.run, h1]; exact h2

/-- **C84 (relative difference of the covariances).** Two filters with the same model, put through the
same calls (with whatever data): every prediction shrinks the excess of the relative size of the first
covariance over the second by the factor `c/(1+c)`, and no measurement increases it. -/
theorem C84_forgets (expf : ℝ → ℝ) {c lam : ℝ} (hc : 0 ≤ c) (hl : 1 ≤ lam) {s t s' t' : KF n m l}
    (h : Within lam s t) (ha : 0 ≤ s.alphaSq) (ops ops' : List (KFOp n m l))
    (hops : List.Forall₂ (SameModel s.Q s.R) ops ops') (hcar : CarriesAtMost expf c t ops')
    (hs : s.run expf ops = .ok s') (ht : t.run expf ops' = .ok t') :
    CovLE s'.P ((1 + (lam - 1) * (c / (1 + c)) ^ predictsIn ops) • t'.P) := by
  rw [← shrink_iterate]
  suffices key : Within ((shrink c)^[predictsIn ops] lam) s' t' from key.P
  induction ops generalizing s t lam ops' with
  | nil =>
    cases hops
    simp only [KF.run, Except.ok.injEq] at hs ht
    subst hs; subst ht; exact h
  | cons a ops ih =>
    cases hops with
    | @cons _ b _ bs hab hrest =>
    simp only [KF.run] at hs ht
    cases h1 : s.step expf a with
    | error e => rw [h1] at hs; cases hs
    | ok s1 =>
    cases h2 : t.step expf b with
    | error e => rw [h2] at ht; cases ht
    | ok t1 =>
    rw [h1] at hs; rw [h2] at ht
    have hct := hcar.tail h2
    cases a <;> cases b <;> simp only [SameModel] at hab <;> simp only [KF.step] at h1 h2
    · rename_i u B F Q u' B' F' Q'
      obtain ⟨rfl, rfl, hQ⟩ := hab
      have hc1 := hcar [] u' B' F Q bs t rfl rfl
      obtain ⟨x, e1⟩ := KF.predict_ok h1
      obtain ⟨x', e2⟩ := KF.predict_ok h2
      have hw : Within (shrink c lam) s1 t1 := by
        subst e1; subst e2
        refine { h with P := ?_ }
        have hP := (h.P.congr (F.getD t.F)).smul (h.alpha ▸ ha : 0 ≤ t.alphaSq)
        have e : t.alphaSq • (F.getD t.F * (lam • t.P) * (F.getD t.F)ᵀ)
            = lam • (t.alphaSq • (F.getD t.F * t.P * (F.getD t.F)ᵀ)) := by
          rw [Matrix.mul_smul, Matrix.smul_mul, smul_comm]
        rw [e] at hP
        simp only [h.F, h.alpha, h.Q]
        rw [h.Q] at hQ
        exact pred_scale hc hl hQ hP hc1
      have hf : predictsIn (KFOp.predict u B F Q :: ops) = predictsIn ops + 1 := rfl
      rw [hf, Function.iterate_succ_apply]
      refine ih (shrink_ge hc hl) hw (by subst e1; exact ha) bs ?_ hct hs ht
      subst e1; exact hrest
    · rename_i z R H z' R' H'
      obtain ⟨hz, rfl, rfl, hR⟩ := hab
      have hw : Within lam s1 t1 ∧ s1.alphaSq = s.alphaSq ∧ s1.Q = s.Q ∧ s1.R = s.R := by
        cases z with
        | none =>
          obtain rfl := hz.1 rfl
          simp only [KF.update, Except.ok.injEq] at h1 h2
          subst h1; subst h2
          exact ⟨{ h with }, rfl, rfl, rfl⟩
        | some z =>
          cases z' with
          | none => exact absurd (hz.2 rfl) (by simp)
          | some z' =>
            obtain ⟨SI, g1, rfl⟩ := KF.update_ok h1
            obtain ⟨SI', g2, rfl⟩ := KF.update_ok h2
            rw [h.inv] at g1
            obtain ⟨hd, rfl⟩ := npInv_eq_some.1 g1
            refine ⟨{ h with P := ?_ }, rfl, rfl, rfl⟩
            have hH : H.getD s.H = H.getD t.H := by rw [h.H]
            simp only [hH, ← h.R] at hd ⊢
            exact post_scale _ hl h.P hR hd _
      obtain ⟨hw, e1, e2, e3⟩ := hw
      exact ih hl hw (by rw [e1]; exact ha) bs (by rw [e2, e3]; exact hrest) hct hs ht

/-! ### Convergence to the steady state -/

theorem PD.covLE {k : ℕ} {D A : Mat k k} (hD : D.PosDef) (hA : A.PosSemidef) :
    ∃ c : ℝ, 0 ≤ c ∧ CovLE A (c • D) := by
  obtain ⟨ε, he, h⟩ := PD.dominates (P := A) hD
  refine ⟨1 / ε, by positivity, hA, ?_⟩
  refine PSD.of_quad (by rw [transpose_sub, transpose_smul, PD.symm hD, PSD.symm hA]) fun v => ?_
  rw [sub_mulVec, dotProduct_sub, smul_mulVec, dotProduct_smul, smul_eq_mul]
  have := h v
  have h2 : v ⬝ᵥ (A *ᵥ v) ≤ 1 / ε * (v ⬝ᵥ (D *ᵥ v)) := by
    rw [one_div, ← div_eq_inv_mul, le_div_iff₀ he]; linarith
  linarith

/-- `k` cycles of `predict(); update(z)`. -/
def cycles (z : ℕ → Vec m) (k : ℕ) : List (KFOp n m l) :=
  (List.range k).flatMap fun i => [.predict .none none none .none, .update (some (z i)) .none none]

theorem cycles_succ (z : ℕ → Vec m) (k : ℕ) : (cycles z (k + 1) : List (KFOp n m l))
    = cycles z k ++ [.predict .none none none .none, .update (some (z k)) .none none] := by
  simp [cycles, List.range_succ]

theorem predictsIn_cycles (z : ℕ → Vec m) (k : ℕ) : predictsIn (cycles z k : List (KFOp n m l)) = k := by
  induction k with
  | zero => rfl
  | succ k ih =>
    rw [cycles_succ]
    unfold predictsIn at ih ⊢
    rw [List.filter_append, List.length_append, ih]; rfl

/-- One `predict(); update(z)` cycle leaves the covariance `P` as it is, whatever the state and the data. -/
def IsSteady (expf : ℝ → ℝ) (s : KF n m l) (P : Mat n n) : Prop :=
  ∀ x z s', ({ s with x := x, P := P } : KF n m l).run expf
    [.predict .none none none .none, .update (some z) .none none] = .ok s' → s'.P = P

/-- Posterior covariance of a measurement. -/
noncomputable def postCov (H : Mat m n) (R : Mat m m) (P : Mat n n) : Mat n n :=
  (1 - P * Hᵀ * (H * (P * Hᵀ) + R)⁻¹ * H) * P * (1 - P * Hᵀ * (H * (P * Hᵀ) + R)⁻¹ * H)ᵀ
    + P * Hᵀ * (H * (P * Hᵀ) + R)⁻¹ * R * (P * Hᵀ * (H * (P * Hᵀ) + R)⁻¹)ᵀ

/-- The Riccati map of one cycle. -/
noncomputable def riccati (a : ℝ) (F Q : Mat n n) (H : Mat m n) (R : Mat m m) (P : Mat n n) : Mat n n :=
  postCov H R (a • (F * P * Fᵀ) + Q)

theorem postCov_pd {H : Mat m n} {R : Mat m m} {P : Mat n n} (hP : P.PosDef) (hR : R.PosDef) :
    (postCov H R P).PosDef := by
  have hS := S_pd (H := H) hP.posSemidef hR
  have := post_pd (H := H) hP hR
  unfold postCov
  rwa [joseph_simple (PD.symm hP) rfl (nonsing_inv_mul _ (PD.isUnit_det hS)) (inv_symm (PD.symm hS)) rfl]

theorem predCov_pd {a : ℝ} (ha : 0 ≤ a) {F Q P : Mat n n} (hP : P.PosSemidef) (hQ : Q.PosDef) :
    (a • (F * P * Fᵀ) + Q).PosDef :=
  hQ.posSemidef_add (PSD.smul (PSD.congr hP F) ha)

theorem riccati_pd {a : ℝ} (ha : 0 ≤ a) {F Q P : Mat n n} {H : Mat m n} {R : Mat m m}
    (hP : P.PosSemidef) (hQ : Q.PosDef) (hR : R.PosDef) : (riccati a F Q H R P).PosDef :=
  postCov_pd (predCov_pd ha hP hQ) hR

theorem riccati_scale {a : ℝ} (ha : 0 ≤ a) {F Q A B : Mat n n} {H : Mat m n} {R : Mat m m} {c lam : ℝ}
    (hc : 0 ≤ c) (hl : 1 ≤ lam) (hQ : Q.PosDef) (hR : R.PosDef) (hAB : CovLE A (lam • B))
    (hB : CovLE (a • (F * B * Fᵀ)) (c • Q)) :
    CovLE (riccati a F Q H R A) (shrink c lam • riccati a F Q H R B) := by
  have h1 := (hAB.congr F).smul ha
  rw [Matrix.mul_smul, Matrix.smul_mul, smul_comm] at h1
  have h2 := pred_scale hc hl hQ.posSemidef h1 hB
  exact post_scale H (shrink_ge hc hl) h2 hR.posSemidef
    (PD.det_ne (S_pd (predCov_pd ha hAB.1 hQ).posSemidef hR)) _

theorem entry_le {k : ℕ} {M : Mat k k} (h : M.PosSemidef) (i j : Fin k) : |M i j| ≤ (M i i + M j j) / 2 := by
  have hs : M j i = M i j := congrFun (congrFun (PSD.symm h) i) j
  have q : ∀ a b : ℝ, 0 ≤ a ^ 2 * M i i + 2 * a * b * M i j + b ^ 2 * M j j := by
    intro a b
    have := PSD.quad h (Pi.single i a + Pi.single j b)
    rw [mulVec_add, dotProduct_add, add_dotProduct, add_dotProduct] at this
    simp only [mulVec_single, single_dotProduct, Pi.smul_apply, MulOpposite.smul_eq_mul_unop,
      MulOpposite.unop_op, Matrix.col_apply] at this
    rw [hs] at this
    linarith
  have h1 := q 1 1
  have h2 := q 1 (-1)
  rw [abs_le]
  constructor <;> linarith

/-- Two-sided domination bounds the entries. -/
theorem entry_diff {k : ℕ} {A B : Mat k k} {e : ℝ} (h1 : (e • B - (A - B)).PosSemidef)
    (h2 : (e • B + (A - B)).PosSemidef) (i j : Fin k) : |A i j - B i j| ≤ e * ((B i i + B j j) / 2) := by
  have a := entry_le h1 i j
  have b := entry_le h2 i j
  simp only [Matrix.sub_apply, Matrix.add_apply, Matrix.smul_apply, smul_eq_mul] at a b
  rw [abs_le] at a b ⊢
  constructor <;> linarith [a.1, a.2, b.1, b.2]

/-- The Riccati iteration stays bounded when there is a fixed point. -/
theorem riccati_bounded {a : ℝ} (ha : 0 ≤ a) {F Q P : Mat n n} {H : Mat m n} {R : Mat m m}
    (hQ : Q.PosDef) (hR : R.PosDef) (hP : P.PosSemidef) (hfix : riccati a F Q H R P = P) {P₀ : Mat n n}
    (hP₀ : P₀.PosSemidef) : ∃ lam d : ℝ, 1 ≤ lam ∧ 0 ≤ d ∧ (∀ k, CovLE ((riccati a F Q H R)^[k] P₀) (lam • P)) ∧
      ∀ k, CovLE (a • (F * (riccati a F Q H R)^[k] P₀ * Fᵀ)) (d • Q) := by
  have hPd : P.PosDef := by rw [← hfix]; exact riccati_pd ha hP hQ hR
  obtain ⟨c₀, hc₀, h⟩ := PD.covLE hPd hP₀
  set lam := c₀ + 1
  have hl : 1 ≤ lam := by simp only [lam]; linarith
  have hl0 : 0 ≤ lam := by linarith
  have h0 : CovLE P₀ (lam • P) := h.trans (CovLE.smul_le hP hc₀ (by simp only [lam]; linarith))
  obtain ⟨c, hc, hcP⟩ := PD.covLE hQ (PSD.smul (PSD.congr hP F) ha)
  have hbd : ∀ k, CovLE ((riccati a F Q H R)^[k] P₀) (lam • P) := by
    intro k
    induction k with
    | zero => exact h0
    | succ k ih =>
      rw [Function.iterate_succ_apply']
      have h1 := riccati_scale (H := H) (R := R) ha hc hl hQ hR ih hcP
      rw [hfix] at h1
      have hr1 : c / (1 + c) ≤ 1 := by rw [div_le_one (by positivity)]; linarith
      refine h1.trans (CovLE.smul_le hP (zero_le_one.trans (shrink_ge hc hl)) ?_)
      unfold shrink; nlinarith
  refine ⟨lam, lam * c, hl, mul_nonneg hl0 hc, hbd, fun k => ?_⟩
  have h1 := ((hbd k).congr F).smul ha
  rw [Matrix.mul_smul, Matrix.smul_mul, smul_comm] at h1
  refine h1.trans ?_
  have := hcP.smul hl0
  rwa [smul_smul lam c] at this

/-- Convergence of the Riccati iteration to any fixed point. -/
theorem riccati_converges {a : ℝ} (ha : 0 ≤ a) {F Q P : Mat n n} {H : Mat m n} {R : Mat m m}
    (hQ : Q.PosDef) (hR : R.PosDef) (hP : P.PosSemidef) (hfix : riccati a F Q H R P = P) {P₀ : Mat n n}
    (hP₀ : P₀.PosSemidef) : ∃ C ρ : ℝ, 0 ≤ ρ ∧ ρ < 1 ∧
      ∀ k i j, |((riccati a F Q H R)^[k + 1] P₀) i j - P i j| ≤ C * ρ ^ k := by
  have hPd : P.PosDef := by rw [← hfix]; exact riccati_pd ha hP hQ hR
  have up : ∀ A : Mat n n, A.PosSemidef → ∀ D : Mat n n, D.PosDef → ∃ lam : ℝ, 1 ≤ lam ∧ CovLE A (lam • D) := by
    intro A hA D hD
    obtain ⟨c, hc, h⟩ := PD.covLE hD hA
    exact ⟨c + 1, by linarith, h.trans (CovLE.smul_le hD.posSemidef hc (by linarith))⟩
  obtain ⟨lam, hl, h0⟩ := up P₀ hP₀ P hPd
  obtain ⟨c, hc, hcP⟩ := PD.covLE hQ (PSD.smul (PSD.congr hP F) ha)
  set f := riccati a F Q H R with hf
  have hl0 : (0 : ℝ) ≤ lam := by linarith
  -- upper bounds
  have hup : ∀ k, CovLE (f^[k] P₀) ((1 + (lam - 1) * (c / (1 + c)) ^ k) • P) := by
    intro k
    rw [← shrink_iterate]
    have hge : ∀ k, 1 ≤ (shrink c)^[k] lam := by
      intro k
      induction k with
      | zero => exact hl
      | succ k ih => rw [Function.iterate_succ_apply']; exact shrink_ge hc ih
    induction k with
    | zero => exact h0
    | succ k ih =>
      rw [Function.iterate_succ_apply', Function.iterate_succ_apply']
      have := riccati_scale (H := H) (R := R) ha hc (hge k) hQ hR ih hcP
      rwa [← hf, hfix] at this
  have hr0 : 0 ≤ c / (1 + c) := by positivity
  have hr1 : c / (1 + c) ≤ 1 := by rw [div_le_one (by positivity)]; linarith
  have hbd : ∀ k, CovLE (f^[k] P₀) (lam • P) := by
    intro k
    refine (hup k).trans (CovLE.smul_le hP (by have := pow_nonneg hr0 k; nlinarith) ?_)
    have := pow_le_one₀ (n := k) hr0 hr1
    nlinarith
  -- lower bounds
  set d := lam * c with hd
  have hd0 : 0 ≤ d := mul_nonneg hl0 hc
  have hcar : ∀ k, CovLE (a • (F * f^[k] P₀ * Fᵀ)) (d • Q) := by
    intro k
    have h1 := ((hbd k).congr F).smul ha
    rw [Matrix.mul_smul, Matrix.smul_mul, smul_comm] at h1
    refine h1.trans ?_
    have := hcP.smul hl0
    rwa [smul_smul lam c] at this
  have hpd1 : (f P₀).PosDef := riccati_pd ha hP₀ hQ hR
  obtain ⟨mu, hm, h1⟩ := up P hP (f P₀) hpd1
  have hlow : ∀ k, CovLE P ((1 + (mu - 1) * (d / (1 + d)) ^ k) • f^[k + 1] P₀) := by
    intro k
    rw [← shrink_iterate]
    have hge : ∀ k, 1 ≤ (shrink d)^[k] mu := by
      intro k
      induction k with
      | zero => exact hm
      | succ k ih => rw [Function.iterate_succ_apply']; exact shrink_ge hd0 ih
    induction k with
    | zero => exact h1
    | succ k ih =>
      rw [Function.iterate_succ_apply' (shrink d), Function.iterate_succ_apply' f]
      have := riccati_scale (H := H) (R := R) ha hd0 (hge k) hQ hR ih (hcar (k + 1))
      rwa [← hf, hfix] at this
  -- together
  set r := d / (1 + d) with hr
  have hrr0 : 0 ≤ r := by positivity
  have hrr1 : r < 1 := by rw [hr, div_lt_one (by positivity)]; linarith
  have hcr : c / (1 + c) ≤ r := by
    rw [hr, div_le_div_iff₀ (by positivity) (by positivity)]
    have : c ≤ d := by rw [hd]; nlinarith
    nlinarith
  set M := (lam - 1) + (mu - 1) * lam with hM
  have hM0 : 0 ≤ M := by have := mul_nonneg (sub_nonneg.2 hm) hl0; linarith
  refine ⟨M * ∑ i, P i i, r, hrr0, hrr1, fun k i j => ?_⟩
  have hrk := pow_nonneg hrr0 k
  have hA := hup (k + 1)
  have e1 : CovLE (f^[k + 1] P₀) ((1 + M * r ^ k) • P) := by
    refine hA.trans (CovLE.smul_le hP ?_ ?_)
    · have := pow_nonneg hr0 (k + 1); nlinarith
    · have t1 : (c / (1 + c)) ^ (k + 1) ≤ r ^ k :=
        (pow_le_pow_of_le_one hr0 hr1 (Nat.le_succ k)).trans (pow_le_pow_left₀ hr0 hcr k)
      have t2 : (lam - 1) * (c / (1 + c)) ^ (k + 1) ≤ (lam - 1) * r ^ k :=
        mul_le_mul_of_nonneg_left t1 (by linarith)
      have t3 : (lam - 1) * r ^ k ≤ M * r ^ k :=
        mul_le_mul_of_nonneg_right (by have := mul_nonneg (sub_nonneg.2 hm) hl0; linarith) hrk
      linarith
  have e2 : (((mu - 1) * r ^ k * lam) • P + (f^[k + 1] P₀ - P)).PosSemidef := by
    have g1 := (hlow k).2
    have g2 := ((hbd (k + 1)).smul (mul_nonneg (sub_nonneg.2 hm) hrk)).2
    have := g1.add g2
    rw [smul_smul] at this
    convert this using 1
    rw [add_smul, one_smul]; abel
  have e3 : ((M * r ^ k) • P + (f^[k + 1] P₀ - P)).PosSemidef := by
    have g : (((lam - 1) * r ^ k) • P).PosSemidef := PSD.smul hP (mul_nonneg (by linarith) hrk)
    have := e2.add g
    convert this using 1
    rw [hM, add_mul, add_smul, mul_right_comm]; abel
  have e4 : ((M * r ^ k) • P - (f^[k + 1] P₀ - P)).PosSemidef := by
    have := e1.2
    rw [add_smul, one_smul] at this
    convert this using 1; abel
  refine (entry_diff e4 e3 i j).trans ?_
  have hdiag : ∀ i, 0 ≤ P i i := fun i => hP.diag_nonneg
  have hi := Finset.single_le_sum (f := fun i => P i i) (fun i _ => hdiag i) (Finset.mem_univ i)
  have hj := Finset.single_le_sum (f := fun i => P i i) (fun i _ => hdiag i) (Finset.mem_univ j)
  have : (P i i + P j j) / 2 ≤ ∑ i, P i i := by linarith
  calc M * r ^ k * ((P i i + P j j) / 2) ≤ M * r ^ k * ∑ i, P i i :=
        mul_le_mul_of_nonneg_left this (mul_nonneg hM0 hrk)
    _ = M * (∑ i, P i i) * r ^ k := by ring

/-- A cycle applies the Riccati map, whatever the data. -/
theorem cycle_run (expf : ℝ → ℝ) (s : KF n m l) (z : Vec m) (hinv : s.inv = npInv) (ha : 0 ≤ s.alphaSq)
    (hP : s.P.PosSemidef) (hQ : s.Q.PosDef) (hR : s.R.PosDef) :
    ∃ s', s.run expf [.predict .none none none .none, .update (some z) .none none] = .ok s' ∧
      s'.P = riccati s.alphaSq s.F s.Q s.H s.R s.P ∧ s'.F = s.F ∧ s'.Q = s.Q ∧ s'.H = s.H ∧ s'.R = s.R ∧
      s'.alphaSq = s.alphaSq ∧ s'.inv = npInv := by
  have hp : ∃ s1, s.predict = .ok s1 := by
    cases hB : s.B <;> exact ⟨_, by simp only [KF.predict, KF.control, Option.or, hB]; rfl⟩
  obtain ⟨s1, h1⟩ := hp
  obtain ⟨x, e1⟩ := KF.predict_ok h1
  have hP1 : s1.P = s.alphaSq • (s.F * s.P * s.Fᵀ) + s.Q := by rw [e1]; rfl
  obtain ⟨i1, f1, q1, m1, r1, a1⟩ : s1.inv = npInv ∧ s1.F = s.F ∧ s1.Q = s.Q ∧ s1.H = s.H ∧ s1.R = s.R ∧
      s1.alphaSq = s.alphaSq := by rw [e1]; exact ⟨hinv, rfl, rfl, rfl, rfl, rfl⟩
  obtain ⟨s2, h2, -⟩ := update_pd s1 z .none none i1 (by rw [hP1]; exact predCov_pd ha hP hQ)
    (by show s1.R.PosDef; rw [r1]; exact hR)
  obtain ⟨SI, g, e2⟩ := KF.update_ok h2
  rw [i1] at g
  obtain ⟨-, rfl⟩ := npInv_eq_some.1 g
  refine ⟨s2, by simp only [KF.run, KF.step, h1, h2], ?_, ?_, ?_, ?_, ?_, ?_, ?_⟩
  · rw [e2, riccati, ← hP1, postCov, ← m1, ← r1]; rfl
  all_goals rw [e2]; assumption

theorem cycles_run (expf : ℝ → ℝ) (s : KF n m l) (z : ℕ → Vec m) (hinv : s.inv = npInv) (ha : 0 ≤ s.alphaSq)
    (hP : s.P.PosSemidef) (hQ : s.Q.PosDef) (hR : s.R.PosDef) (k : ℕ) :
    ∃ s', s.run expf (cycles z k) = .ok s' ∧
      s'.P = (riccati s.alphaSq s.F s.Q s.H s.R)^[k] s.P ∧ s'.P.PosSemidef ∧ s'.F = s.F ∧ s'.Q = s.Q ∧
      s'.H = s.H ∧ s'.R = s.R ∧ s'.alphaSq = s.alphaSq ∧ s'.inv = npInv := by
  induction k with
  | zero => exact ⟨s, rfl, rfl, hP, rfl, rfl, rfl, rfl, rfl, hinv⟩
  | succ k ih =>
    obtain ⟨s1, h1, p1, psd1, f1, q1, m1, r1, a1, i1⟩ := ih
    obtain ⟨s2, h2, p2, f2, q2, m2, r2, a2, i2⟩ := cycle_run expf s1 (z k) i1 (by rw [a1]; exact ha) psd1
      (by rw [q1]; exact hQ) (by rw [r1]; exact hR)
    refine ⟨s2, ?_, ?_, ?_, f2.trans f1, q2.trans q1, m2.trans m1, r2.trans r1, a2.trans a1, i2⟩
    · rw [cycles_succ, KF.run_append, h1]; exact h2
    · rw [p2, Function.iterate_succ_apply', a1, f1, q1, m1, r1, p1]
    · rw [p2, a1, f1, q1, m1, r1]; exact (riccati_pd ha psd1 hQ hR).posSemidef

/-- **C84 (convergence).** If the filter's model has a steady state covariance `P`, then from every initial
covariance, with any measurements, the covariance after `k` cycles converges to it exponentially in `k`. -/
theorem C84_converges (expf : ℝ → ℝ) (s : KF n m l) (hinv : s.inv = npInv) (ha : 0 ≤ s.alphaSq)
    (hP₀ : s.P.PosSemidef) (hQ : s.Q.PosDef) (hR : s.R.PosDef) (P : Mat n n) (hP : P.PosSemidef)
    (hst : IsSteady expf s P) (z : ℕ → Vec m) :
    ∃ (C ρ : ℝ) (run : ℕ → KF n m l), 0 ≤ ρ ∧ ρ < 1 ∧ (∀ k, s.run expf (cycles z k) = .ok (run k)) ∧
      (∀ k i j, |(run (k + 1)).P i j - P i j| ≤ C * ρ ^ k) ∧
      Tendsto (fun k => (run k).P) atTop (𝓝 P) := by
  have hfix : riccati s.alphaSq s.F s.Q s.H s.R P = P := by
    obtain ⟨s', h1, h2, -⟩ := cycle_run expf { s with P := P } 0 hinv ha hP hQ hR
    exact h2.symm.trans (hst s.x 0 s' h1)
  obtain ⟨C, ρ, h0, h1, hb⟩ := riccati_converges ha hQ hR hP hfix hP₀
  choose run hrun hPk _ using cycles_run expf s z hinv ha hP₀ hQ hR
  have hbd : ∀ k i j, |(run (k + 1)).P i j - P i j| ≤ C * ρ ^ k := fun k i j => by
    rw [hPk]; exact hb k i j
  refine ⟨C, ρ, run, h0, h1, hrun, hbd, ?_⟩
  rw [← tendsto_add_atTop_iff_nat 1]
  refine tendsto_pi_nhds.2 fun i => tendsto_pi_nhds.2 fun j => ?_
  rw [tendsto_iff_dist_tendsto_zero]
  have hlim : Tendsto (fun k => C * ρ ^ k) atTop (𝓝 0) := by
    have := (tendsto_pow_atTop_nhds_zero_of_lt_one h0 h1).const_mul C
    rwa [mul_zero] at this
  exact squeeze_zero (fun k => dist_nonneg) (fun k => by rw [Real.dist_eq]; exact hbd k i j) hlim

/-- **C84 (uniqueness).** A model has at most one steady state covariance. -/
theorem C84_unique (expf : ℝ → ℝ) (s : KF n m l) (hinv : s.inv = npInv) (ha : 0 ≤ s.alphaSq)
    (hQ : s.Q.PosDef) (hR : s.R.PosDef) (P P' : Mat n n) (hP : P.PosSemidef) (hP' : P'.PosSemidef)
    (hst : IsSteady expf s P) (hst' : IsSteady expf s P') : P = P' := by
  have hfix : riccati s.alphaSq s.F s.Q s.H s.R P = P := by
    obtain ⟨s', h1, h2, -⟩ := cycle_run expf { s with P := P } 0 hinv ha hP hQ hR
    exact h2.symm.trans (hst s.x 0 s' h1)
  obtain ⟨C, ρ, run, -, -, h1, -, h2⟩ := C84_converges expf { s with P := P } hinv ha hP hQ hR P' hP' hst' (fun _ => 0)
  have : ∀ k, (run k).P = P := by
    intro k
    obtain ⟨s', g1, g2, -⟩ := cycles_run expf { s with P := P } (fun _ => 0) hinv ha hP hQ hR k
    have e : run k = s' := Except.ok.inj ((h1 k).symm.trans g1)
    rw [e, g2]
    exact Function.iterate_fixed hfix k
  simp only [this] at h2
  exact tendsto_nhds_unique tendsto_const_nhds h2

/-- A random walk observed directly. -/
noncomputable def walk0 : KF 1 1 0 := { KF.fresh 1 1 0 with H := 1 }

theorem golden_riccati {g : ℝ} (hg : 0 ≤ g) (hgg : g * g + g = 1) :
    riccati 1 (1 : Mat 1 1) 1 (1 : Mat 1 1) 1 (g • 1) = g • 1 := by
  have e1 : (1 : ℝ) • ((1 : Mat 1 1) * (g • 1) * 1ᵀ) + 1 = (g + 1) • 1 := by
    simp only [one_smul, Matrix.one_mul, transpose_one, Matrix.mul_one, add_smul]
  have e2 : (1 : Mat 1 1) * ((g + 1) • 1 * 1ᵀ) + 1 = (g + 2) • 1 := by
    simp only [Matrix.one_mul, transpose_one, Matrix.mul_one]
    rw [show g + 2 = g + 1 + 1 by ring, add_smul (g + 1) (1 : ℝ), one_smul]
  have e3 : ((g + 2) • (1 : Mat 1 1))⁻¹ = (g + 2)⁻¹ • 1 := by
    refine inv_eq_right_inv ?_
    rw [smul_mul_smul_comm, Matrix.one_mul, mul_inv_cancel₀ (by linarith), one_smul]
  rw [riccati, e1, postCov, joseph_simple (S := (g + 2) • 1) (by simp) e2.symm
    (by rw [e2, e3, smul_mul_smul_comm, Matrix.one_mul, inv_mul_cancel₀ (by linarith), one_smul])
    (inv_symm (by rw [e2]; simp)) rfl, e2, e3]
  have h2 : g + 2 ≠ 0 := by linarith
  ext i j
  fin_cases i; fin_cases j
  simp [Matrix.mul_apply]
  field_simp
  linarith

/-- Non-vacuity: the scalar random walk with unit noises has the golden ratio's `(√5 - 1)/2` as its steady
state variance, and the filter that starts at variance 1 converges to it. -/
example (expf : ℝ → ℝ) (z : ℕ → Vec 1) : ∃ (run : ℕ → KF 1 1 0),
    (∀ k, walk0.run expf (cycles z k) = .ok (run k)) ∧
    Tendsto (fun k => (run k).P) atTop (𝓝 (((Real.sqrt 5 - 1) / 2) • 1)) := by
  have hg : 0 ≤ (Real.sqrt 5 - 1) / 2 := by
    have : (1 : ℝ) ≤ Real.sqrt 5 := Real.one_le_sqrt.2 (by norm_num)
    linarith
  have hs : Real.sqrt 5 ^ 2 = 5 := Real.sq_sqrt (by norm_num)
  set g := (Real.sqrt 5 - 1) / 2 with hgd
  have hgg : g * g + g = 1 := by rw [hgd]; nlinarith
  have hst : IsSteady expf walk0 (g • 1) := by
    intro x z s' h
    obtain ⟨s1, h1, h2, -⟩ := cycle_run expf ({ walk0 with x := x, P := g • 1 } : KF 1 1 0) z rfl
      zero_le_one (PSD.smul PosSemidef.one hg) PosDef.one PosDef.one
    obtain rfl : s1 = s' := Except.ok.inj (h1.symm.trans h)
    rw [h2]
    show riccati 1 (1 : Mat 1 1) 1 (1 : Mat 1 1) 1 (g • 1) = g • 1
    exact golden_riccati hg hgg
  obtain ⟨-, -, run, -, -, h1, -, h2⟩ := C84_converges expf walk0 rfl zero_le_one PosSemidef.one
    PosDef.one PosDef.one (g • 1) (PSD.smul PosSemidef.one hg) hst z
  exact ⟨run, h1, h2⟩

/-! ## C85 -/

/-- The two filters are the same object except for the state estimate, and the difference of the
estimates is within `V` standard deviations squared in every direction: `(d·v)² ≤ V · vᵀ P v`. -/
structure Apart (V : ℝ) (s t : KF n m l) : Prop where
  P : s.P = t.P
  F : s.F = t.F
  Q : s.Q = t.Q
  B : s.B = t.B
  H : s.H = t.H
  R : s.R = t.R
  alpha : s.alphaSq = t.alphaSq
  inv : s.inv = t.inv
  diff : CovLE (vecMulVec (s.x - t.x) (s.x - t.x)) (V • s.P)

/-- Calls with proper covariances. -/
def ProperCall (Q : Mat n n) (R : Mat m m) : KFOp n m l → Prop
  | .predict _ _ _ Q₁ => (Q₁.resolve Q).PosSemidef
  | .update _ R₁ _ => (R₁.resolve R).PosSemidef
  | _ => False

theorem outer_mul {k j : ℕ} (A : Mat j k) (d : Vec k) :
    vecMulVec (A *ᵥ d) (A *ᵥ d) = A * vecMulVec d d * Aᵀ := by
  rw [mul_vecMulVec, vecMulVec_mul, vecMul_transpose]

theorem Apart.run {expf : ℝ → ℝ} {c V : ℝ} (hc : 0 ≤ c) (hV : 0 ≤ V) {s t s' t' : KF n m l}
    (h : Apart V s t) (ha : 1 ≤ s.alphaSq) {ops : List (KFOp n m l)}
    (hops : ∀ op ∈ ops, ProperCall s.Q s.R op) (hcar : CarriesAtMost expf c s ops)
    (hs : s.run expf ops = .ok s') (ht : t.run expf ops = .ok t') :
    Apart (V * (c / (1 + c)) ^ predictsIn ops) s' t' := by
  induction ops generalizing s t V with
  | nil =>
    simp only [KF.run, Except.ok.injEq] at hs ht
    subst hs; subst ht
    simpa [predictsIn] using h
  | cons a ops ih =>
    simp only [KF.run] at hs ht
    cases h1 : s.step expf a with
    | error e => rw [h1] at hs; cases hs
    | ok s1 =>
    cases h2 : t.step expf a with
    | error e => rw [h2] at ht; cases ht
    | ok t1 =>
    rw [h1] at hs; rw [h2] at ht
    have hct := hcar.tail h1
    have hop := hops a (by simp)
    have hVP : (V • s.P).PosSemidef := h.diff.right
    cases a <;> simp only [ProperCall] at hop <;> simp only [KF.step] at h1 h2
    · rename_i u B F Q
      have hc1 := hcar [] u B F Q ops s rfl rfl
      have hx : s1.x - t1.x = F.getD t.F *ᵥ (s.x - t.x) := by
        simp only [KF.predict, h.F, h.B, h.alpha, h.P, h.Q] at h1 h2
        split at h1
        · cases h1
        · rename_i bu hbu
          simp only [hbu] at h2
          obtain rfl := Except.ok.inj h1
          obtain rfl := Except.ok.inj h2
          cases bu with
          | none =>
            show F.getD t.F *ᵥ s.x - F.getD t.F *ᵥ t.x = _
            rw [mulVec_sub]
          | some b =>
            show (F.getD t.F *ᵥ s.x + b) - (F.getD t.F *ᵥ t.x + b) = _
            rw [add_sub_add_right_eq_sub, mulVec_sub]
      have hP1 : s1.P = s.alphaSq • (F.getD s.F * s.P * (F.getD s.F)ᵀ) + Q.resolve s.Q := by
        obtain ⟨x, e⟩ := KF.predict_ok h1; rw [e]
      have hw : Apart (V * (c / (1 + c))) s1 t1 := by
        have hd : CovLE (vecMulVec (s1.x - t1.x) (s1.x - t1.x)) ((V * (c / (1 + c))) • s1.P) := by
          rw [hx, ← h.F, outer_mul, hP1]
          generalize F.getD s.F = F₁ at *
          generalize Q.resolve s.Q = Q₁ at *
          have g1 := h.diff.congr F₁
          rw [Matrix.mul_smul, Matrix.smul_mul] at g1
          have hX : (F₁ * s.P * F₁ᵀ).PosSemidef := by
            have := PSD.smul hc1.1 (inv_nonneg.2 (zero_le_one.trans ha))
            rwa [smul_smul, inv_mul_cancel₀ (by linarith), one_smul] at this
          generalize F₁ * s.P * F₁ᵀ = X at *
          have g2 : CovLE (V • X) (V • (s.alphaSq • X)) := by
            have := (CovLE.smul_le hX zero_le_one ha).smul hV
            rwa [one_smul] at this
          refine (g1.trans g2).trans ?_
          have e : (c / (1 + c)) • (s.alphaSq • X + Q₁) - s.alphaSq • X = (1 / (1 + c)) • (c • Q₁ - s.alphaSq • X) := by
            have h0 : (1 + c) ≠ 0 := by positivity
            have e1 : s.alphaSq • X = (c / (1 + c)) • (s.alphaSq • X) + (1 / (1 + c)) • (s.alphaSq • X) := by
              rw [← add_smul, ← add_div, add_comm c 1, div_self h0, one_smul]
            nth_rewrite 2 [e1]
            rw [smul_add, smul_sub, smul_smul (1 / (1 + c)) c Q₁, one_div_mul_eq_div]
            abel
          have g3 : CovLE (s.alphaSq • X) ((c / (1 + c)) • (s.alphaSq • X + Q₁)) :=
            ⟨hc1.1, by rw [e]; exact PSD.smul hc1.2 (by positivity)⟩
          rw [← smul_smul]
          exact g3.smul hV
        obtain ⟨x, e1⟩ := KF.predict_ok h1
        obtain ⟨x', e2⟩ := KF.predict_ok h2
        subst e1; subst e2
        exact ⟨by simp only [h.P, h.F, h.alpha, h.Q], h.F, h.Q, h.B, h.H, h.R, h.alpha, h.inv, hd⟩
      have hf : predictsIn (KFOp.predict u B F Q :: ops) = predictsIn ops + 1 := rfl
      rw [hf, pow_succ', ← mul_assoc]
      obtain ⟨x, e1⟩ := KF.predict_ok h1
      refine ih (mul_nonneg hV (by positivity)) hw (by subst e1; exact ha) ?_ hct hs ht
      intro op ho
      have := hops op (by simp [ho])
      subst e1; exact this
    · rename_i z R H
      have hw : Apart V s1 t1 ∧ s1.alphaSq = s.alphaSq ∧ s1.Q = s.Q ∧ s1.R = s.R := by
        cases z with
        | none =>
          simp only [KF.update, Except.ok.injEq] at h1 h2
          subst h1; subst h2
          exact ⟨{ h with }, rfl, rfl, rfl⟩
        | some z =>
          obtain ⟨SI, g1, rfl⟩ := KF.update_ok h1
          obtain ⟨SI', g2, rfl⟩ := KF.update_ok h2
          rw [← h.inv, ← h.H, ← h.P, ← h.R, g1] at g2
          obtain rfl := Option.some.inj g2
          refine ⟨⟨by simp only [h.P, h.H, h.R], h.F, h.Q, h.B, h.H, h.R, h.alpha, h.inv, ?_⟩, rfl, rfl, rfl⟩
          simp only [← h.P, ← h.H]
          generalize H.getD s.H = H₁ at *
          generalize s.P * H₁ᵀ * SI = K₁ at *
          have e : s.x + K₁ *ᵥ (z - H₁ *ᵥ s.x) - (t.x + K₁ *ᵥ (z - H₁ *ᵥ t.x)) = (1 - K₁ * H₁) *ᵥ (s.x - t.x) := by
            simp only [sub_mulVec, mulVec_sub, one_mulVec, mulVec_mulVec]; abel
          rw [e, outer_mul, smul_add]
          have g1 := h.diff.congr (1 - K₁ * H₁)
          rw [Matrix.mul_smul, Matrix.smul_mul] at g1
          have hR := PSD.smul (PSD.congr hop K₁) hV
          have g2 : CovLE 0 (V • (K₁ * R.resolve s.R * K₁ᵀ)) := ⟨PosSemidef.zero, by rw [sub_zero]; exact hR⟩
          have := g1.add g2
          rwa [add_zero] at this
      obtain ⟨hw, e1, e2, e3⟩ := hw
      refine ih hV hw (by rw [e1]; exact ha) ?_ hct hs ht
      intro op ho
      rw [e2, e3]; exact hops op (by simp [ho])

theorem Apart.bound {V : ℝ} {s' t' : KF n m l} (key : Apart V s' t') (v : Vec n) :
    ((s'.x - t'.x) ⬝ᵥ v) ^ 2 ≤ V * (v ⬝ᵥ s'.P *ᵥ v) := by
  have h1 := key.diff.2.dotProduct_mulVec_nonneg v
  simp only [star_trivial, sub_mulVec, dotProduct_sub, smul_mulVec, dotProduct_smul, smul_eq_mul] at h1
  have e : v ⬝ᵥ (vecMulVec (s'.x - t'.x) (s'.x - t'.x) *ᵥ v) = ((s'.x - t'.x) ⬝ᵥ v) ^ 2 := by
    rw [vecMulVec_mulVec, op_smul_eq_smul, dotProduct_smul, smul_eq_mul, dotProduct_comm v, sq]
  rw [e] at h1
  linarith

/-- **C85.** Two filters that differ only in their initial state estimate, put through the same calls with
the same data: measured in the filter's own standard deviations the squared difference of the estimates
shrinks by `c/(1+c)` with every prediction and never grows. -/
theorem C85_forgets (expf : ℝ → ℝ) {c V : ℝ} (hc : 0 ≤ c) (hV : 0 ≤ V) {s t s' t' : KF n m l}
    (h : Apart V s t) (ha : 1 ≤ s.alphaSq) (ops : List (KFOp n m l))
    (hops : ∀ op ∈ ops, ProperCall s.Q s.R op) (hcar : CarriesAtMost expf c s ops)
    (hs : s.run expf ops = .ok s') (ht : t.run expf ops = .ok t') :
    s'.P = t'.P ∧ ∀ v, ((s'.x - t'.x) ⬝ᵥ v) ^ 2 ≤ V * (c / (1 + c)) ^ predictsIn ops * (v ⬝ᵥ s'.P *ᵥ v) := by
  have key := h.run hc hV ha hops hcar hs ht
  exact ⟨key.P, key.bound⟩

/-- **C85 (convergence).** When the model has a steady state covariance, filters that differ only in their
initial state (with a positive definite initial covariance) and see the same data agree in the limit, at an
exponential rate. -/
theorem C85_converges (expf : ℝ → ℝ) (s t : KF n m l) (ht : t = { s with x := t.x }) (hinv : s.inv = npInv)
    (ha : 1 ≤ s.alphaSq) (hP₀ : s.P.PosDef) (hQ : s.Q.PosDef) (hR : s.R.PosDef) (P : Mat n n)
    (hP : P.PosSemidef) (hst : IsSteady expf s P) (z : ℕ → Vec m) :
    ∃ (C ρ : ℝ) (run run' : ℕ → KF n m l), 0 ≤ ρ ∧ ρ < 1 ∧ (∀ k, s.run expf (cycles z k) = .ok (run k)) ∧
      (∀ k, t.run expf (cycles z k) = .ok (run' k)) ∧
      (∀ k i, ((run k).x i - (run' k).x i) ^ 2 ≤ C * ρ ^ k) := by
  have ha0 : 0 ≤ s.alphaSq := zero_le_one.trans ha
  have hfix : riccati s.alphaSq s.F s.Q s.H s.R P = P := by
    obtain ⟨s', h1, h2, -⟩ := cycle_run expf { s with P := P } 0 hinv ha0 hP hQ hR
    exact h2.symm.trans (hst s.x 0 s' h1)
  obtain ⟨lam, c, hl, hc, hbd, hcar⟩ := riccati_bounded (P₀ := s.P) ha0 hQ hR hP hfix hP₀.posSemidef
  choose run hrun hPk hpsd hF hQk hHk hRk hak hik using cycles_run expf s z hinv ha0 hP₀.posSemidef hQ hR
  choose run' hrun' _ using cycles_run expf t z (by rw [ht]; exact hinv) (by rw [ht]; exact ha0)
    (by rw [ht]; exact hP₀.posSemidef) (by rw [ht]; exact hQ) (by rw [ht]; exact hR)
  have hdpsd : (vecMulVec (s.x - t.x) (s.x - t.x)).PosSemidef := by
    have := posSemidef_vecMulVec_self_star (R := ℝ) (s.x - t.x)
    simpa using this
  obtain ⟨V, hV, hVd⟩ := PD.covLE hP₀ hdpsd
  have hap : ∀ k, Apart (V * (c / (1 + c)) ^ k) (run k) (run' k) := by
    intro k
    induction k with
    | zero =>
      have e1 : run 0 = s := (Except.ok.inj (hrun 0)).symm
      have e2 : run' 0 = t := (Except.ok.inj (hrun' 0)).symm
      rw [e1, e2, pow_zero, mul_one]
      refine ⟨?_, ?_, ?_, ?_, ?_, ?_, ?_, ?_, hVd⟩ <;> rw [ht]
    | succ k ih =>
      have g1 := hrun (k + 1)
      have g2 := hrun' (k + 1)
      rw [cycles_succ, KF.run_append, hrun k] at g1
      rw [cycles_succ, KF.run_append, hrun' k] at g2
      have := Apart.run hc (mul_nonneg hV (by positivity)) ih (by rw [hak]; exact ha) ?_ ?_ g1 g2
      · rw [show predictsIn ([.predict .none none none .none, .update (some (z k)) .none none] :
          List (KFOp n m l)) = 1 from rfl, pow_one, mul_assoc, ← pow_succ] at this
        exact this
      · intro op hop
        simp only [List.mem_cons, List.not_mem_nil, or_false] at hop
        rcases hop with rfl | rfl
        · show (run k).Q.PosSemidef
          rw [hQk]; exact hQ.posSemidef
        · show (run k).R.PosSemidef
          rw [hRk]; exact hR.posSemidef
      · intro pre u B F Q post t₁ e hr
        rcases pre with _ | ⟨a, _ | ⟨b, pre⟩⟩
        · simp only [List.nil_append, List.cons.injEq, KFOp.predict.injEq] at e
          obtain ⟨⟨-, -, rfl, rfl⟩, -⟩ := e
          obtain rfl := Except.ok.inj hr
          show CovLE ((run k).alphaSq • ((run k).F * (run k).P * (run k).Fᵀ)) (c • (run k).Q)
          rw [hak, hF, hQk, hPk]
          exact hcar k
        · simp at e
        · simp at e
  have hr1 : c / (1 + c) < 1 := by rw [div_lt_one (by positivity)]; linarith
  refine ⟨V * (lam * ∑ i, P i i), c / (1 + c), run, run', by positivity, hr1, hrun, hrun', fun k i => ?_⟩
  have hb := (hap k).bound (Pi.single i 1)
  simp only [dotProduct_single, mul_one, Pi.sub_apply, single_dotProduct, one_mul, mulVec_single_one,
    Matrix.col_apply] at hb
  refine hb.trans ?_
  have h1 : (run k).P i i ≤ lam * ∑ i, P i i := by
    have h2 := (hbd k).2.diag_nonneg (i := i)
    rw [← hPk] at h2
    simp only [Matrix.sub_apply, Matrix.smul_apply, smul_eq_mul] at h2
    have h3 := Finset.single_le_sum (f := fun i => P i i) (fun i _ => hP.diag_nonneg) (Finset.mem_univ i)
    have : lam * P i i ≤ lam * ∑ i, P i i := mul_le_mul_of_nonneg_left h3 (by linarith)
    linarith
  calc V * (c / (1 + c)) ^ k * (run k).P i i ≤ V * (c / (1 + c)) ^ k * (lam * ∑ i, P i i) :=
        mul_le_mul_of_nonneg_left h1 (mul_nonneg hV (by positivity))
    _ = V * (lam * ∑ i, P i i) * (c / (1 + c)) ^ k := by ring

/-- Non-vacuity of `C84_forgets` and `C85_forgets`: the random walk with variance 1, whose predictions carry
at most as much uncertainty as they add, through a prediction, a measurement and another prediction; the
states start 4 apart and the variances a factor 9. -/
example (expf : ℝ → ℝ) (z : Vec 1) : ∃ s',
    walk0.run expf [.predict .none none none .none, .update (some z) .none none, .predict .none none none .none]
      = .ok s' ∧
    CarriesAtMost expf 1 walk0
      [.predict .none none none .none, .update (some z) .none none, .predict .none none none .none] ∧
    Within 9 ({ walk0 with P := (9 : ℝ) • 1 } : KF 1 1 0) walk0 ∧
    Apart 16 ({ walk0 with x := fun _ => 4 } : KF 1 1 0) walk0 := by
  obtain ⟨s1, h1, p1, f1, q1, -, -, a1, -⟩ := cycle_run expf walk0 z rfl zero_le_one PosSemidef.one PosDef.one
    PosDef.one
  have h2 : ∃ s', s1.predict = .ok s' := by
    cases hB : s1.B <;> exact ⟨_, by simp only [KF.predict, KF.control, Option.or, hB]; rfl⟩
  obtain ⟨s', h2⟩ := h2
  have hone : CovLE (1 : Mat 1 1) ((1 : ℝ) • 1) := by rw [one_smul]; exact .refl PosSemidef.one
  have hP1 : CovLE s1.P ((1 : ℝ) • 1) := by
    have hpp : ((1 : ℝ) • ((1 : Mat 1 1) * 1 * 1ᵀ) + 1).PosDef := predCov_pd zero_le_one PosSemidef.one PosDef.one
    have := joseph_mono (1 : Mat 1 1) (CovLE.refl hpp.posSemidef) (CovLE.refl PosSemidef.one)
      (PD.det_ne (S_pd hpp.posSemidef PosDef.one)) (1 : Mat 1 1)
    rw [p1, one_smul]
    refine CovLE.trans this ?_
    simp only [Matrix.mul_one, sub_self, Matrix.zero_mul, zero_add, transpose_one]
    exact .refl PosSemidef.one
  have hall : walk0.run expf ([.predict .none none none .none, .update (some z) .none none]
      ++ [.predict .none none none .none]) = .ok s' := by
    rw [KF.run_append, h1]; simp only [KF.run, KF.step, h2]
  refine ⟨s', hall, ?_, ?_, ?_⟩
  · intro pre u B F Q post t₁ e hr
    rcases pre with _ | ⟨a, _ | ⟨b, _ | ⟨c, pre⟩⟩⟩
    · simp only [List.nil_append, List.cons.injEq, KFOp.predict.injEq] at e
      obtain ⟨⟨-, -, rfl, rfl⟩, -⟩ := e
      obtain rfl := Except.ok.inj hr
      show CovLE ((1 : ℝ) • ((1 : Mat 1 1) * 1 * 1ᵀ)) ((1 : ℝ) • 1)
      simpa using hone
    · simp at e
    · simp only [List.cons_append, List.nil_append, List.cons.injEq, KFOp.predict.injEq] at e
      obtain ⟨rfl, rfl, ⟨-, -, rfl, rfl⟩, -⟩ := e
      obtain rfl := Except.ok.inj (h1.symm.trans hr)
      show CovLE (s1.alphaSq • (s1.F * s1.P * s1.Fᵀ)) ((1 : ℝ) • s1.Q)
      rw [a1, f1, q1]
      show CovLE ((1 : ℝ) • ((1 : Mat 1 1) * s1.P * 1ᵀ)) ((1 : ℝ) • 1)
      simpa using hP1
    · simp at e
  · refine ⟨.refl (PSD.smul PosSemidef.one (by norm_num)), rfl, rfl, rfl, rfl, rfl, rfl⟩
  · refine ⟨rfl, rfl, rfl, rfl, rfl, rfl, rfl, rfl, ?_⟩
    have e : vecMulVec ((fun _ => 4 : Vec 1) - 0) ((fun _ => 4 : Vec 1) - 0) = (16 : ℝ) • (1 : Mat 1 1) := by
      ext i j
      fin_cases i; fin_cases j
      simp [vecMulVec_apply]; norm_num
    show CovLE (vecMulVec ((fun _ => 4 : Vec 1) - 0) ((fun _ => 4 : Vec 1) - 0)) ((16 : ℝ) • (1 : Mat 1 1))
    rw [e]
    exact .refl (PSD.smul PosSemidef.one (by norm_num))

end Filterpy
