import Verif.Props.KalmanSettles

/-!
# Settling with singular process noise: C125

`Q_discrete_white_noise`, the process noise most filters are given, is singular. What the covariance needs in
order to settle is less than a positive definite `Q`: the noise must reach every direction of the state in time, and
whatever the sensor never sees must die out by itself.
-/

namespace Filterpy
open Matrix Filter Topology

variable {n m l : ℕ}

/-- The process noise reaches every direction: no combination `v` of the state variables other than zero stays
undisturbed forever (`vᵀ Fᵏ Q = 0` for all `k`). -/
def Spec.Reachable (F Q : Mat n n) : Prop :=
  ∀ v : Vec n, (∀ k : ℕ, Q *ᵥ (Fᵀ ^ k *ᵥ v) = 0) → v = 0

/-- What the noiseless sensor never sees dies out. -/
def Spec.Detectable (F : Mat n n) (H : Mat m n) : Prop :=
  ∀ x : Vec n, (∀ k : ℕ, H *ᵥ (F ^ k *ᵥ x) = 0) → Tendsto (fun k => F ^ k *ᵥ x) atTop (𝓝 0)

theorem Spec.Observable.detectable {F : Mat n n} {H : Mat m n} (h : Spec.Observable F H) : Spec.Detectable F H := by
  intro x hx
  rw [h x hx]
  simp

theorem reachable_of_pd {F Q : Mat n n} (hQ : Q.PosDef) : Spec.Reachable F Q := by
  intro v hv
  by_contra hne
  have h0 := hv 0
  rw [pow_zero, one_mulVec] at h0
  have := PD.quad hQ hne
  rw [h0, dotProduct_zero] at this
  exact lt_irrefl _ this

theorem Spec.Reachable.smul {F Q : Mat n n} (h : Spec.Reachable F Q) {c : ℝ} (hc : c ≠ 0) :
    Spec.Reachable (c • F) Q := by
  intro v hv
  refine h v fun k => ?_
  have := hv k
  rw [transpose_smul, smul_pow, smul_mulVec, mulVec_smul] at this
  exact (smul_eq_zero.1 this).resolve_left (pow_ne_zero _ hc)

theorem Spec.Observable.smul {F : Mat n n} {H : Mat m n} (h : Spec.Observable F H) {c : ℝ} (hc : c ≠ 0) :
    Spec.Observable (c • F) H := by
  intro v hv
  refine h v fun k => ?_
  have := hv k
  rw [smul_pow, smul_mulVec, mulVec_smul] at this
  exact (smul_eq_zero.1 this).resolve_left (pow_ne_zero _ hc)

/-! ## Concavity of the Riccati map -/

theorem gainCycle_mix (a t u : ℝ) (htu : t + u = 1) (F Q : Mat n n) (H : Mat m n) (R : Mat m m) (K : Mat n m)
    (A B : Mat n n) : gainCycle a F Q H R K (t • A + u • B)
      = t • gainCycle a F Q H R K A + u • gainCycle a F Q H R K B := by
  unfold gainCycle
  have e1 : a • (F * (t • A + u • B) * Fᵀ) + Q = t • (a • (F * A * Fᵀ) + Q) + u • (a • (F * B * Fᵀ) + Q) := by
    have : Q = t • Q + u • Q := by rw [← add_smul, htu, one_smul]
    nth_rewrite 1 [this]
    simp only [Matrix.mul_add, Matrix.add_mul, Matrix.mul_smul, Matrix.smul_mul, smul_add, smul_comm a]
    abel
  have e2 : K * R * Kᵀ = t • (K * R * Kᵀ) + u • (K * R * Kᵀ) := by rw [← add_smul, htu, one_smul]
  rw [e1]
  nth_rewrite 1 [e2]
  simp only [Matrix.mul_add, Matrix.add_mul, Matrix.mul_smul, Matrix.smul_mul, smul_add]
  abel

theorem riccati_concave {a : ℝ} (ha : 0 ≤ a) {F Q A B : Mat n n} {H : Mat m n} {R : Mat m m} (hQ : Q.PosSemidef)
    (hR : R.PosDef) (hA : A.PosSemidef) (hB : B.PosSemidef) {t u : ℝ} (ht : 0 ≤ t) (hu : 0 ≤ u) (htu : t + u = 1) :
    CovLE (t • riccati a F Q H R A + u • riccati a F Q H R B) (riccati a F Q H R (t • A + u • B)) := by
  have e : riccati a F Q H R (t • A + u • B)
      = gainCycle a F Q H R (steadyGain a F Q H R (t • A + u • B)) (t • A + u • B) := rfl
  rw [e, gainCycle_mix a t u htu]
  exact ((riccati_le ha hQ hR (CovLE.refl hA) _).smul ht).add ((riccati_le ha hQ hR (CovLE.refl hB) _).smul hu)

theorem riccati_iter_concave {a : ℝ} (ha : 0 ≤ a) {F Q A B : Mat n n} {H : Mat m n} {R : Mat m m} (hQ : Q.PosSemidef)
    (hR : R.PosDef) (hA : A.PosSemidef) (hB : B.PosSemidef) {t u : ℝ} (ht : 0 ≤ t) (hu : 0 ≤ u) (htu : t + u = 1)
    (k : ℕ) : CovLE (t • (riccati a F Q H R)^[k] A + u • (riccati a F Q H R)^[k] B)
      ((riccati a F Q H R)^[k] (t • A + u • B)) := by
  induction k with
  | zero => exact CovLE.refl ((PSD.smul hA ht).add (PSD.smul hB hu))
  | succ k ih =>
    simp only [Function.iterate_succ_apply']
    exact (riccati_concave ha hQ hR (riccati_iter_psd ha hA hQ hR k) (riccati_iter_psd ha hB hQ hR k) ht hu htu).trans
      (riccati_mono ha hQ hR ih)

/-- Multiplied uncertainty: part of the factor is lost to what the noise alone produces. -/
theorem riccati_iter_scale {a : ℝ} (ha : 0 ≤ a) {F Q A B : Mat n n} {H : Mat m n} {R : Mat m m} (hQ : Q.PosSemidef)
    (hR : R.PosDef) {lam ε : ℝ} (hl : 1 ≤ lam) (hB : B.PosSemidef) (hAB : CovLE A (lam • B)) (k : ℕ)
    (hε : ((riccati a F Q H R)^[k] 0 - ε • (riccati a F Q H R)^[k] B).PosSemidef) :
    CovLE ((riccati a F Q H R)^[k] A) ((1 + (lam - 1) * (1 - ε)) • (riccati a F Q H R)^[k] B) := by
  have hl0 : 0 < lam := by linarith
  have h1 := riccati_iter_mono (F := F) (H := H) ha hQ hR hAB k
  have h2 := riccati_iter_concave (F := F) (H := H) ha hQ hR (PSD.smul hB hl0.le) PosSemidef.zero
    (t := lam⁻¹) (u := 1 - lam⁻¹) (by positivity) (sub_nonneg.2 (inv_le_one_of_one_le₀ hl)) (by ring) k
  rw [smul_smul, inv_mul_cancel₀ hl0.ne', one_smul, smul_zero, add_zero] at h2
  set X := (riccati a F Q H R)^[k] B
  set Y := (riccati a F Q H R)^[k] (lam • B)
  set L := (riccati a F Q H R)^[k] 0
  refine h1.trans ⟨h1.right, ?_⟩
  have h3 := (PSD.smul h2.2 hl0.le).add (PSD.smul hε (sub_nonneg.2 hl))
  convert h3 using 1
  have e1 : lam * (1 - lam⁻¹) = lam - 1 := by rw [mul_sub, mul_one, mul_inv_cancel₀ hl0.ne']
  have e2 : 1 + (lam - 1) * (1 - ε) = lam - (lam - 1) * ε := by ring
  rw [smul_sub, smul_add, smul_smul, smul_smul, mul_inv_cancel₀ hl0.ne', one_smul, e1, e2, smul_sub, smul_smul,
    sub_smul lam]
  abel

/-! ## The noise keeps the covariance away from zero -/

/-- A direction without posterior uncertainty was not disturbed and carried none. -/
theorem riccati_kernel {a : ℝ} (ha : 0 < a) {F Q P : Mat n n} {H : Mat m n} {R : Mat m m} (hP : P.PosSemidef)
    (hQ : Q.PosSemidef) (hR : R.PosDef) {v : Vec n} (h : riccati a F Q H R P *ᵥ v = 0) :
    Q *ᵥ v = 0 ∧ P *ᵥ (Fᵀ *ᵥ v) = 0 := by
  have hM := predCov_psd (F := F) ha.le hP hQ
  have h0 : v ⬝ᵥ (riccati a F Q H R P *ᵥ v) = 0 := by rw [h, dotProduct_zero]
  unfold riccati postCov at h0
  set M := a • (F * P * Fᵀ) + Q with hMd
  set K := M * Hᵀ * (H * (M * Hᵀ) + R)⁻¹
  rw [add_mulVec, dotProduct_add, quad_congr, quad_rect K] at h0
  have h1 := PSD.quad hM ((1 - K * H)ᵀ *ᵥ v)
  have h2 := PSD.quad hR.posSemidef (Kᵀ *ᵥ v)
  have hk : Kᵀ *ᵥ v = 0 := by
    by_contra hne
    have := PD.quad hR hne; linarith
  have he : (1 - K * H)ᵀ *ᵥ v = v := by
    rw [transpose_sub, transpose_one, transpose_mul, sub_mulVec, one_mulVec, ← mulVec_mulVec, hk, mulVec_zero, sub_zero]
  rw [he] at h0 h1
  have h3 : v ⬝ᵥ (M *ᵥ v) = 0 := by linarith
  rw [hMd, add_mulVec, dotProduct_add, smul_mulVec, dotProduct_smul, smul_eq_mul, quad_congr] at h3
  have q1 := PSD.quad hQ v
  have q2 := PSD.quad hP (Fᵀ *ᵥ v)
  have q3 := mul_nonneg ha.le q2
  have z1 : v ⬝ᵥ (Q *ᵥ v) = 0 := by linarith
  have z2 : (Fᵀ *ᵥ v) ⬝ᵥ (P *ᵥ (Fᵀ *ᵥ v)) = 0 := by
    have : a * ((Fᵀ *ᵥ v) ⬝ᵥ (P *ᵥ (Fᵀ *ᵥ v))) = 0 := by linarith
    exact (mul_eq_zero.1 this).resolve_left ha.ne'
  exact ⟨(hQ.dotProduct_mulVec_zero_iff v).1 (by simpa using z1),
    (hP.dotProduct_mulVec_zero_iff _).1 (by simpa using z2)⟩

theorem riccati_iter_kernel {a : ℝ} (ha : 0 < a) {F Q P : Mat n n} {H : Mat m n} {R : Mat m m} (hP : P.PosSemidef)
    (hQ : Q.PosSemidef) (hR : R.PosDef) (k : ℕ) : ∀ v : Vec n, (riccati a F Q H R)^[k] P *ᵥ v = 0 →
      ∀ j < k, Q *ᵥ (Fᵀ ^ j *ᵥ v) = 0 := by
  induction k with
  | zero => intro v _ j hj; omega
  | succ k ih =>
    intro v hv j hj
    rw [Function.iterate_succ_apply'] at hv
    obtain ⟨h1, h2⟩ := riccati_kernel ha (riccati_iter_psd ha.le hP hQ hR k) hQ hR hv
    cases j with
    | zero => simpa using h1
    | succ j =>
      have := ih _ h2 j (by omega)
      rwa [mulVec_mulVec v, ← pow_succ] at this

/-- After as many cycles as there are state variables no direction is known exactly. -/
theorem riccati_reach_pd {a : ℝ} (ha : 0 < a) {F Q P : Mat n n} {H : Mat m n} {R : Mat m m} (hP : P.PosSemidef)
    (hQ : Q.PosSemidef) (hR : R.PosDef) (hC : Spec.Reachable F Q) : ((riccati a F Q H R)^[n] P).PosDef := by
  have hpsd := riccati_iter_psd (F := F) (H := H) ha.le hP hQ hR n
  refine PD.of_quad (PSD.symm hpsd) fun v hv => lt_of_le_of_ne (PSD.quad hpsd v) fun h0 => hv ?_
  have hz := (hpsd.dotProduct_mulVec_zero_iff v).1 (by simpa using h0.symm)
  exact observable_first (F := Fᵀ) (H := Q) hC v (riccati_iter_kernel ha hP hQ hR n v hz)

theorem riccati_floor {a : ℝ} (ha : 0 ≤ a) {F Q P : Mat n n} {H : Mat m n} {R : Mat m m} (hP : P.PosSemidef)
    (hQ : Q.PosSemidef) (hR : R.PosDef) {k : ℕ} (hk : n ≤ k) :
    CovLE ((riccati a F Q H R)^[n] 0) ((riccati a F Q H R)^[k] P) := by
  obtain ⟨j, rfl⟩ := Nat.exists_eq_add_of_le hk
  rw [Function.iterate_add_apply]
  exact riccati_iter_mono ha hQ hR ⟨PosSemidef.zero, by
    rw [sub_zero]; exact riccati_iter_psd ha hP hQ hR j⟩ n

/-- A bound for all but the first few instants extends to all. -/
theorem geometric_all {f : ℕ → ℝ} (hf : ∀ k, 0 ≤ f k) {C σ : ℝ} (hC : 0 ≤ C) (hσ : 0 < σ) (N : ℕ)
    (h : ∀ k, f (k + N) ≤ C * σ ^ k) : ∃ C', 0 ≤ C' ∧ ∀ k, f k ≤ C' * σ ^ k := by
  have hs : 0 ≤ ∑ j ∈ Finset.range N, f j / σ ^ j :=
    Finset.sum_nonneg fun j _ => div_nonneg (hf j) (pow_nonneg hσ.le j)
  refine ⟨C / σ ^ N + ∑ j ∈ Finset.range N, f j / σ ^ j, by positivity, fun k => ?_⟩
  have hp := pow_pos hσ k
  rcases Nat.lt_or_ge k N with hk | hk
  · have h1 := Finset.single_le_sum (f := fun j => f j / σ ^ j) (fun j _ => div_nonneg (hf j) (pow_nonneg hσ.le j))
      (Finset.mem_range.2 hk)
    have h2 : f k = f k / σ ^ k * σ ^ k := by field_simp
    rw [h2]
    refine mul_le_mul_of_nonneg_right ?_ hp.le
    have : 0 ≤ C / σ ^ N := by positivity
    linarith
  · obtain ⟨j, rfl⟩ := Nat.exists_eq_add_of_le hk
    rw [add_comm N j]
    refine (h j).trans ?_
    rw [add_mul, pow_add]
    have : C / σ ^ N * (σ ^ j * σ ^ N) = C * σ ^ j := by field_simp
    rw [this]
    have := mul_nonneg hs (mul_nonneg (pow_nonneg hσ.le j) (pow_nonneg hσ.le N))
    linarith

/-- With reachable noise every covariance tends to the steady one at an exponential rate. -/
theorem riccati_reach_converges {a : ℝ} (ha : 0 < a) {F Q P : Mat n n} {H : Mat m n} {R : Mat m m}
    (hQ : Q.PosSemidef) (hR : R.PosDef) (hC : Spec.Reachable F Q) (hP : P.PosSemidef)
    (hfix : riccati a F Q H R P = P) {P₀ : Mat n n} (hP₀ : P₀.PosSemidef) :
    ∃ C ρ : ℝ, 0 ≤ C ∧ 0 ≤ ρ ∧ ρ < 1 ∧ ∀ k i j, |((riccati a F Q H R)^[k] P₀) i j - P i j| ≤ C * ρ ^ k := by
  rcases Nat.eq_zero_or_pos n with rfl | hn
  · exact ⟨0, 0, le_rfl, le_rfl, one_pos, fun k i => i.elim0⟩
  have hPd : P.PosDef := by
    have := riccati_reach_pd (H := H) ha hP hQ hR hC
    rwa [Function.iterate_fixed hfix] at this
  have up : ∀ A : Mat n n, A.PosSemidef → ∀ D : Mat n n, D.PosDef → ∃ lam : ℝ, 1 ≤ lam ∧ CovLE A (lam • D) := by
    intro A hA D hD
    obtain ⟨c, hc, h⟩ := PD.covLE hD hA
    exact ⟨c + 1, by linarith, h.trans (CovLE.smul_le hD.posSemidef hc (by linarith))⟩
  set f := riccati a F Q H R with hf
  have hfk : ∀ k, f^[k] P = P := fun k => Function.iterate_fixed hfix k
  have hpsd : ∀ k, (f^[k] P₀).PosSemidef := riccati_iter_psd ha.le hP₀ hQ hR
  have hz : ∀ (k : ℕ) (B : Mat n n), (f^[k] 0 - (0 : ℝ) • f^[k] B).PosSemidef := fun k B => by
    rw [zero_smul, sub_zero]; exact riccati_iter_psd ha.le PosSemidef.zero hQ hR k
  -- an upper bound for ever
  obtain ⟨lam, hl, h0⟩ := up P₀ hP₀ P hPd
  have hbd : ∀ k, CovLE (f^[k] P₀) (lam • P) := by
    intro k
    have := riccati_iter_scale (F := F) (H := H) ha.le hQ hR hl hP h0 k (ε := 0) (hz k P)
    rwa [← hf, hfk, sub_zero, mul_one, add_sub_cancel] at this
  -- what the noise alone produces
  set L := f^[n] 0 with hL
  have hLd : L.PosDef := riccati_reach_pd ha PosSemidef.zero hQ hR hC
  obtain ⟨c, hc, hcL⟩ := up (lam • P) (PSD.smul hP (by linarith)) L hLd
  set ε := 1 / (2 * c) with hε
  have hc0 : 0 < c := by linarith
  have hε0 : 0 < ε := by rw [hε]; positivity
  have hε1 : ε ≤ 1 / 2 := by
    rw [hε]; exact one_div_le_one_div_of_le (by norm_num) (by linarith)
  have hLε : ∀ X : Mat n n, CovLE X (lam • P) → (L - ε • X).PosSemidef := by
    intro X hX
    have g1 := (hX.trans hcL).smul hε0.le
    rw [smul_smul] at g1
    have e : ε * c = 1 / 2 := by rw [hε]; field_simp
    rw [e] at g1
    have := g1.2.add (PSD.smul hLd.posSemidef (show (0 : ℝ) ≤ 1 / 2 by norm_num))
    convert this using 1
    rw [sub_add_eq_add_sub, ← add_smul]; norm_num
  -- a two-sided bound that shrinks
  obtain ⟨m1, hm1, g1⟩ := up (f^[n] P₀) (hpsd n) P hPd
  obtain ⟨m2, hm2, g2⟩ := up P hP (f^[n] P₀) (riccati_reach_pd ha hP₀ hQ hR hC)
  set q := 1 - ε with hq
  have hq0 : 0 < q := by rw [hq]; linarith
  have hq1 : q < 1 := by rw [hq]; linarith
  set mu := max m1 m2 with hmu
  have hmu1 : 1 ≤ mu := hm1.trans (le_max_left _ _)
  have hPlam : CovLE P (lam • P) := by
    have := CovLE.smul_le hP zero_le_one hl
    rwa [one_smul] at this
  have hfac : ∀ j, 1 ≤ 1 + (mu - 1) * q ^ j := fun j => by
    have := mul_nonneg (sub_nonneg.2 hmu1) (pow_nonneg hq0.le j); linarith
  have hblock : ∀ j, CovLE (f^[n * j + n] P₀) ((1 + (mu - 1) * q ^ j) • P) ∧
      CovLE P ((1 + (mu - 1) * q ^ j) • f^[n * j + n] P₀) := by
    intro j
    induction j with
    | zero =>
      simp only [mul_zero, zero_add, pow_zero, mul_one, add_sub_cancel]
      exact ⟨g1.trans (CovLE.smul_le hP (by linarith) (le_max_left _ _)),
        g2.trans (CovLE.smul_le (hpsd n) (by linarith) (le_max_right _ _))⟩
    | succ j ih =>
      have e : f^[n * (j + 1) + n] P₀ = f^[n] (f^[n * j + n] P₀) := by
        rw [← Function.iterate_add_apply]; congr 1; ring
      have e2 : 1 + (1 + (mu - 1) * q ^ j - 1) * (1 - ε) = 1 + (mu - 1) * q ^ (j + 1) := by
        rw [← hq, pow_succ]; ring
      have a1 := riccati_iter_scale (F := F) (H := H) ha.le hQ hR (hfac j) hP ih.1 n (ε := ε)
        (by rw [← hf, hfk]; exact hLε P hPlam)
      have a2 := riccati_iter_scale (F := F) (H := H) ha.le hQ hR (hfac j) (hpsd _) ih.2 n (ε := ε)
        (by rw [← hf, ← e]; exact hLε _ (hbd _))
      rw [← hf, hfk, e2] at a1
      rw [← hf, hfk, e2] at a2
      rw [e]
      exact ⟨a1, a2⟩
  have hall : ∀ k, CovLE (f^[k + n] P₀) ((1 + (mu - 1) * q ^ (k / n)) • P) ∧
      CovLE P ((1 + (mu - 1) * q ^ (k / n)) • f^[k + n] P₀) := by
    intro k
    obtain ⟨b1, b2⟩ := hblock (k / n)
    have e : f^[k + n] P₀ = f^[k % n] (f^[n * (k / n) + n] P₀) := by
      rw [← Function.iterate_add_apply]; congr 1
      have := Nat.mod_add_div k n; omega
    have a1 := riccati_iter_scale (F := F) (H := H) ha.le hQ hR (hfac _) hP b1 (k % n) (ε := 0) (hz _ _)
    have a2 := riccati_iter_scale (F := F) (H := H) ha.le hQ hR (hfac _) (hpsd _) b2 (k % n) (ε := 0) (hz _ _)
    rw [← hf, hfk, sub_zero, mul_one, add_sub_cancel] at a1 a2
    rw [e]
    exact ⟨a1, a2⟩
  -- entries
  have hlam0 : 0 ≤ lam := by linarith
  have hdiag : ∀ i, 0 ≤ P i i := fun i => hP.diag_nonneg
  have hent : ∀ k i j, |(f^[k + n] P₀) i j - P i j| ≤ (mu - 1) * lam * (∑ i, P i i) * q ^ (k / n) := by
    intro k i j
    obtain ⟨b1, b2⟩ := hall k
    set e := (mu - 1) * q ^ (k / n) with he
    have he0 : 0 ≤ e := mul_nonneg (sub_nonneg.2 hmu1) (pow_nonneg hq0.le _)
    have d1 : ((e * lam) • P - (f^[k + n] P₀ - P)).PosSemidef := by
      have := b1.2.add (PSD.smul hP (show 0 ≤ e * (lam - 1) from mul_nonneg he0 (by linarith)))
      convert this using 1
      rw [add_smul, one_smul, mul_sub, mul_one, sub_smul]; abel
    have d2 : ((e * lam) • P + (f^[k + n] P₀ - P)).PosSemidef := by
      have := b2.2.add ((hbd (k + n)).smul he0).2
      convert this using 1
      rw [add_smul, one_smul, smul_smul]; abel
    refine (entry_diff d1 d2 i j).trans ?_
    have hi := Finset.single_le_sum (f := fun i => P i i) (fun i _ => hdiag i) (Finset.mem_univ i)
    have hj := Finset.single_le_sum (f := fun i => P i i) (fun i _ => hdiag i) (Finset.mem_univ j)
    have hs : (P i i + P j j) / 2 ≤ ∑ i, P i i := by linarith
    calc e * lam * ((P i i + P j j) / 2) ≤ e * lam * ∑ i, P i i :=
          mul_le_mul_of_nonneg_left hs (mul_nonneg he0 hlam0)
      _ = _ := by rw [he]; ring
  -- one rate for every instant
  set σ := q ^ ((n : ℝ)⁻¹) with hσ
  have hσ0 : 0 < σ := Real.rpow_pos_of_pos hq0 _
  have hσn : σ ^ n = q := Real.rpow_inv_natCast_pow hq0.le hn.ne'
  have hσ1 : σ < 1 := by
    by_contra hge
    have := one_le_pow₀ (n := n) (not_lt.1 hge)
    rw [hσn] at this; linarith
  set D := (mu - 1) * lam * (∑ i, P i i) with hDd
  have hD0 : 0 ≤ D := mul_nonneg (mul_nonneg (sub_nonneg.2 hmu1) hlam0) (Finset.sum_nonneg fun i _ => hdiag i)
  have hpow : ∀ k, q ^ (k / n) ≤ q⁻¹ * σ ^ k := by
    intro k
    rw [le_inv_mul_iff₀ hq0, ← pow_succ', ← hσn, ← pow_mul]
    refine pow_le_pow_of_le_one hσ0.le hσ1.le ?_
    rw [Nat.mul_add, mul_one]
    have := Nat.mod_add_div k n
    have := Nat.mod_lt k hn
    omega
  have hsum : ∀ k, ∑ i, ∑ j, |(f^[k + n] P₀) i j - P i j| ≤ (∑ _i : Fin n, ∑ _j : Fin n, D * q⁻¹) * σ ^ k := by
    intro k
    rw [Finset.sum_mul]
    refine Finset.sum_le_sum fun i _ => ?_
    rw [Finset.sum_mul]
    refine Finset.sum_le_sum fun j _ => (hent k i j).trans ?_
    have := mul_le_mul_of_nonneg_left (hpow k) hD0
    rwa [← mul_assoc] at this
  obtain ⟨C', hC', hfin⟩ := geometric_all (f := fun k => ∑ i, ∑ j, |(f^[k] P₀) i j - P i j|)
    (fun k => Finset.sum_nonneg fun i _ => Finset.sum_nonneg fun j _ => abs_nonneg _)
    (C := ∑ _i : Fin n, ∑ _j : Fin n, D * q⁻¹) (by positivity) hσ0 n hsum
  refine ⟨C', σ, hC', hσ0.le, hσ1, fun k i j => ?_⟩
  refine le_trans ?_ (hfin k)
  have s1 := Finset.single_le_sum (f := fun j => |(f^[k] P₀) i j - P i j|) (fun _ _ => abs_nonneg _) (Finset.mem_univ j)
  have s2 := Finset.single_le_sum (f := fun i => ∑ j, |(f^[k] P₀) i j - P i j|)
    (fun _ _ => Finset.sum_nonneg fun _ _ => abs_nonneg _) (Finset.mem_univ i)
  exact s1.trans s2

/-! ## The error dynamics -/

/-- A covariance that shrinks at every step, and strictly where noise comes in, shrinks strictly over `n` steps. -/
theorem lyapunov_strict {A P F Q : Mat n n} (h1 : (P - A * P * Aᵀ).PosSemidef) (hC : Spec.Reachable F Q)
    (hker : ∀ v, v ⬝ᵥ ((P - A * P * Aᵀ) *ᵥ v) = 0 → Q *ᵥ v = 0 ∧ Aᵀ *ᵥ v = Fᵀ *ᵥ v) (hP : Pᵀ = P) :
    (P - A ^ n * P * (A ^ n)ᵀ).PosDef := by
  have hq : ∀ v, v ⬝ᵥ ((P - A * P * Aᵀ) *ᵥ v) = v ⬝ᵥ (P *ᵥ v) - (Aᵀ *ᵥ v) ⬝ᵥ (P *ᵥ (Aᵀ *ᵥ v)) := by
    intro v; rw [sub_mulVec, dotProduct_sub, quad_congr]
  have hn : ∀ (k : ℕ) (v : Vec n), 0 ≤ v ⬝ᵥ (P *ᵥ v) - ((A ^ k)ᵀ *ᵥ v) ⬝ᵥ (P *ᵥ ((A ^ k)ᵀ *ᵥ v)) ∧
      (v ⬝ᵥ (P *ᵥ v) - ((A ^ k)ᵀ *ᵥ v) ⬝ᵥ (P *ᵥ ((A ^ k)ᵀ *ᵥ v)) = 0 → ∀ j < k, Q *ᵥ (Fᵀ ^ j *ᵥ v) = 0) := by
    intro k
    induction k with
    | zero => intro v; simp
    | succ k ih =>
      intro v
      have e : (A ^ (k + 1))ᵀ *ᵥ v = (A ^ k)ᵀ *ᵥ (Aᵀ *ᵥ v) := by
        rw [pow_succ', transpose_mul, mulVec_mulVec]
      rw [e]
      obtain ⟨i1, i2⟩ := ih (Aᵀ *ᵥ v)
      have h2 := PSD.quad h1 v
      rw [hq] at h2
      refine ⟨by linarith, fun h0 j hj => ?_⟩
      have z1 : v ⬝ᵥ ((P - A * P * Aᵀ) *ᵥ v) = 0 := by rw [hq]; linarith
      obtain ⟨k1, k2⟩ := hker v z1
      cases j with
      | zero => simpa using k1
      | succ j =>
        have := i2 (by linarith) j (by omega)
        rwa [k2, mulVec_mulVec v, ← pow_succ] at this
  refine PD.of_quad (by rw [transpose_sub, transpose_mul, transpose_mul, transpose_transpose, hP, Matrix.mul_assoc])
    fun v hv => ?_
  rw [sub_mulVec, dotProduct_sub, quad_congr]
  obtain ⟨i1, i2⟩ := hn n v
  refine lt_of_le_of_ne i1 fun h0 => hv ?_
  exact observable_first (F := Fᵀ) (H := Q) hC v (i2 h0.symm)

/-- What the noises add to the covariance in a cycle vanishes only where nothing comes in. -/
theorem noise_kernel {Q : Mat n n} {H : Mat m n} {R : Mat m m} (hQ : Q.PosSemidef) (hR : R.PosDef) (K : Mat n m)
    (F : Mat n n) {v : Vec n} (h0 : v ⬝ᵥ (((1 - K * H) * Q * (1 - K * H)ᵀ + K * R * Kᵀ) *ᵥ v) = 0) :
    Q *ᵥ v = 0 ∧ ((1 - K * H) * F)ᵀ *ᵥ v = Fᵀ *ᵥ v := by
  rw [add_mulVec, dotProduct_add, quad_congr, quad_rect K] at h0
  have h1 := PSD.quad hQ ((1 - K * H)ᵀ *ᵥ v)
  have h2 := PSD.quad hR.posSemidef (Kᵀ *ᵥ v)
  have hk : Kᵀ *ᵥ v = 0 := by
    by_contra hne
    have := PD.quad hR hne; linarith
  have he : (1 - K * H)ᵀ *ᵥ v = v := by
    rw [transpose_sub, transpose_one, transpose_mul, sub_mulVec, one_mulVec, ← mulVec_mulVec, hk, mulVec_zero, sub_zero]
  rw [he] at h0 h1
  refine ⟨(hQ.dotProduct_mulVec_zero_iff v).1 (by simpa using (by linarith : v ⬝ᵥ (Q *ᵥ v) = 0)), ?_⟩
  rw [transpose_mul, ← mulVec_mulVec, he]

/-- At a fixed point with reachable noise the error dynamics shrink strictly over `n` cycles. -/
theorem reach_lyapunov {a : ℝ} (ha : 1 ≤ a) {P F Q : Mat n n} {H : Mat m n} {R : Mat m m} {K : Mat n m}
    (h : P = (1 - K * H) * (a • (F * P * Fᵀ) + Q) * (1 - K * H)ᵀ + K * R * Kᵀ) (hP : P.PosSemidef)
    (hQ : Q.PosSemidef) (hR : R.PosDef) (hC : Spec.Reachable F Q) :
    (P - (1 - K * H) * F * P * ((1 - K * H) * F)ᵀ).PosSemidef ∧
    (P - ((1 - K * H) * F) ^ n * P * (((1 - K * H) * F) ^ n)ᵀ).PosDef := by
  have e : P - (1 - K * H) * F * P * ((1 - K * H) * F)ᵀ = ((1 - K * H) * Q * (1 - K * H)ᵀ + K * R * Kᵀ)
        + (a - 1) • ((1 - K * H) * F * P * ((1 - K * H) * F)ᵀ) := by
    have e2 : (1 - K * H) * F * P * ((1 - K * H) * F)ᵀ = (1 - K * H) * (F * P * Fᵀ) * (1 - K * H)ᵀ := by
      rw [transpose_mul]; simp only [Matrix.mul_assoc]
    rw [Matrix.mul_add, Matrix.add_mul, Matrix.mul_smul, Matrix.smul_mul, ← e2] at h
    nth_rewrite 1 [h]
    rw [sub_smul, one_smul]; abel
  have hN := joseph_psd (H := H) hQ hR.posSemidef K
  have hX := PSD.smul (PSD.congr hP ((1 - K * H) * F)) (sub_nonneg.2 ha)
  have h1 : (P - (1 - K * H) * F * P * ((1 - K * H) * F)ᵀ).PosSemidef := by
    rw [e]; exact hN.add hX
  refine ⟨h1, lyapunov_strict h1 hC (fun v hv => ?_) (PSD.symm hP)⟩
  rw [e, add_mulVec, dotProduct_add] at hv
  have q1 := PSD.quad hN v
  have q2 := PSD.quad hX v
  exact noise_kernel hQ hR K F (by linarith)

/-- The steady state gain makes the error dynamics stable. -/
theorem reach_stable {s : KF n m l} (hs : AtFixedPoint s) (ha : 1 ≤ s.alphaSq) (hP : s.P.PosDef)
    (hQ : s.Q.PosSemidef) (hR : s.R.PosDef) (hC : Spec.Reachable s.F s.Q) :
    Tendsto (fun k => ((1 - s.K * s.H) * s.F) ^ k) atTop (𝓝 0) := by
  obtain ⟨h1, h2⟩ := reach_lyapunov ha hs.cov hP.posSemidef hQ hR hC
  exact pow_tendsto_zero hP h1 n h2

/-- A measure of length in which the error dynamics shrink at every cycle. -/
theorem reach_length {s : KF n m l} (hs : AtFixedPoint s) (ha : 1 ≤ s.alphaSq) (hP : s.P.PosDef)
    (hQ : s.Q.PosSemidef) (hR : s.R.PosDef) (hC : Spec.Reachable s.F s.Q) :
    ∃ X : Mat n n, X.PosDef ∧ (X - (1 - s.K * s.H) * s.F * X * ((1 - s.K * s.H) * s.F)ᵀ).PosDef := by
  obtain ⟨h1, h2⟩ := reach_lyapunov ha hs.cov hP.posSemidef hQ hR hC
  rcases Nat.eq_zero_or_pos n with rfl | hn
  · exact ⟨s.P, hP, by rwa [Subsingleton.elim (s.P - _) (s.P - ((1 - s.K * s.H) * s.F) ^ 0 * s.P * (((1 - s.K * s.H) * s.F) ^ 0)ᵀ)]⟩
  set A := (1 - s.K * s.H) * s.F
  refine ⟨∑ j ∈ Finset.range n, A ^ j * s.P * (A ^ j)ᵀ, ?_, ?_⟩
  · have key : ∀ k, (∑ j ∈ Finset.range (k + 1), A ^ j * s.P * (A ^ j)ᵀ).PosDef := fun k => by
      rw [Finset.sum_range_succ', pow_zero, Matrix.one_mul, transpose_one, Matrix.mul_one]
      exact PosDef.posSemidef_add (posSemidef_sum _ fun j _ => PSD.congr hP.posSemidef _) hP
    have := key (n - 1)
    rwa [Nat.sub_add_cancel hn] at this
  · have e : (∑ j ∈ Finset.range n, A ^ j * s.P * (A ^ j)ᵀ) - A * (∑ j ∈ Finset.range n, A ^ j * s.P * (A ^ j)ᵀ) * Aᵀ
        = s.P - A ^ n * s.P * (A ^ n)ᵀ := by
      rw [Finset.mul_sum, Finset.sum_mul, ← Finset.sum_sub_distrib]
      have : ∀ j, A ^ j * s.P * (A ^ j)ᵀ - A * (A ^ j * s.P * (A ^ j)ᵀ) * Aᵀ
          = A ^ j * s.P * (A ^ j)ᵀ - A ^ (j + 1) * s.P * (A ^ (j + 1))ᵀ := by
        intro j
        rw [pow_succ', transpose_mul A (A ^ j)]; simp only [Matrix.mul_assoc]
      simp only [this]
      rw [Finset.sum_range_sub' (fun j => A ^ j * s.P * (A ^ j)ᵀ)]
      simp
    rw [e]; exact h2

/-! ## Detectability -/

/-- The inflation factor `alpha` acts like a multiple of `F`. -/
theorem riccati_alpha {a : ℝ} (ha : 0 ≤ a) (F Q : Mat n n) (H : Mat m n) (R : Mat m m) :
    riccati a F Q H R = riccati 1 (√a • F) Q H R := by
  funext P
  unfold riccati
  rw [one_smul, transpose_smul, Matrix.smul_mul, Matrix.mul_smul, Matrix.smul_mul, smul_smul, Real.mul_self_sqrt ha]

theorem steadyGain_alpha {a : ℝ} (ha : 0 ≤ a) (F Q : Mat n n) (H : Mat m n) (R : Mat m m) (P : Mat n n) :
    steadyGain a F Q H R P = steadyGain 1 (√a • F) Q H R P := by
  unfold steadyGain
  rw [one_smul, transpose_smul, Matrix.smul_mul, Matrix.mul_smul, Matrix.smul_mul, smul_smul, Real.mul_self_sqrt ha]

/-- What the first `n` instants do not show is never shown. -/
theorem unseen_first {F : Mat n n} {H : Mat m n} (x : Vec n) (hx : ∀ k < n, H *ᵥ (F ^ k *ᵥ x) = 0) (k : ℕ) :
    H *ᵥ (F ^ k *ᵥ x) = 0 := by
  rcases Nat.eq_zero_or_pos n with rfl | hn
  · rw [Subsingleton.elim (F ^ k *ᵥ x) 0, mulVec_zero]
  rw [Matrix.pow_eq_aeval_mod_charpoly]
  have hd : (Polynomial.X ^ k %ₘ F.charpoly).natDegree < n := by
    have h1 := Polynomial.natDegree_modByMonic_lt (Polynomial.X ^ k) F.charpoly_monic (by
      intro h1
      have := F.charpoly_natDegree_eq_dim
      rw [h1, Polynomial.natDegree_one, Fintype.card_fin] at this; omega)
    rwa [F.charpoly_natDegree_eq_dim, Fintype.card_fin] at h1
  rw [Polynomial.aeval_eq_sum_range' hd, Matrix.sum_mulVec, Matrix.mulVec_sum]
  refine Finset.sum_eq_zero fun i hi => ?_
  rw [smul_mulVec, mulVec_smul, hx i (Finset.mem_range.1 hi), smul_zero]

theorem leftOver_unseen {F : Mat n n} {H : Mat m n} {v : Vec n} (hv : v ∈ leftOver F H n) (k : ℕ) :
    H *ᵥ (F ^ k *ᵥ v) = 0 := by
  rcases Nat.eq_zero_or_pos n with hn | hn
  · subst hn; rw [Subsingleton.elim (F ^ k *ᵥ v) 0, mulVec_zero]
  obtain ⟨j, hj⟩ : ∃ j, n = j + 1 := ⟨n - 1, by omega⟩
  have hv' : v ∈ leftOver F H (j + 1) := hj ▸ hv
  obtain ⟨x, rfl, hx⟩ := leftOver_mem j v hv'
  have := unseen_first (F := F) (H := H) (F *ᵥ x) (fun i hi => hx i (by omega)) (k + j)
  rwa [mulVec_mulVec (F *ᵥ x), ← pow_add]

/-- Sum of the squared entries. -/
def sizeSq {j k : ℕ} (M : Mat j k) : ℝ := ∑ a, ∑ b, M a b ^ 2

theorem sizeSq_nonneg {j k : ℕ} (M : Mat j k) : 0 ≤ sizeSq M :=
  Finset.sum_nonneg fun _ _ => Finset.sum_nonneg fun _ _ => sq_nonneg _

theorem dot_self_nonneg {k : ℕ} (v : Vec k) : 0 ≤ v ⬝ᵥ v :=
  Finset.sum_nonneg fun _ _ => mul_self_nonneg _

theorem dot_mulVec_le {j k : ℕ} (M : Mat j k) (v : Vec k) : (M *ᵥ v) ⬝ᵥ (M *ᵥ v) ≤ sizeSq M * (v ⬝ᵥ v) := by
  unfold sizeSq dotProduct
  rw [Finset.sum_mul]
  refine Finset.sum_le_sum fun a _ => ?_
  have := Finset.sum_mul_sq_le_sq_mul_sq Finset.univ (fun b => M a b) v
  simp only [mulVec, dotProduct, ← sq]
  exact this

theorem riccati_pred_bound {F Q : Mat n n} {H : Mat m n} {R : Mat m m} (hQ : Q.PosSemidef) (hR : R.PosDef) (k : ℕ) :
    ∃ N : Mat n n, N.PosSemidef ∧
      ∀ P : Mat n n, P.PosSemidef → CovLE ((riccati 1 F Q H R)^[k] P) (F ^ k * P * (F ^ k)ᵀ + N) := by
  induction k with
  | zero => exact ⟨0, PosSemidef.zero, fun P hP => by simpa using CovLE.refl hP⟩
  | succ k ih =>
    obtain ⟨N, hN, h⟩ := ih
    refine ⟨F * N * Fᵀ + Q, (PSD.congr hN F).add hQ, fun P hP => ?_⟩
    rw [Function.iterate_succ_apply']
    have := riccati_le (F := F) (H := H) zero_le_one hQ hR (h P hP) 0
    convert this using 1
    rw [gainCycle, Matrix.zero_mul, Matrix.zero_mul, Matrix.zero_mul, sub_zero, add_zero, transpose_one, Matrix.one_mul,
      Matrix.mul_one, one_smul, pow_succ', transpose_mul, Matrix.mul_add, Matrix.add_mul]
    simp only [Matrix.mul_assoc]
    abel

/-- If what the sensor never sees dies out, the uncertainty of a start without uncertainty stays bounded. -/
theorem riccati_detectable_bound {F Q : Mat n n} {H : Mat m n} {R : Mat m m} (hQ : Q.PosSemidef) (hR : R.PosDef)
    (hD : Spec.Detectable F H) : ∃ B : Mat n n, ∀ k, CovLE ((riccati 1 F Q H R)^[k] 0) B := by
  obtain ⟨A, N, hN, hA, h⟩ := riccati_affine (F := F) (H := H) zero_le_one hQ hR n
  have hlim : Tendsto (fun j => sizeSq (F ^ j * A)ᵀ) atTop (𝓝 0) := by
    have h1 : ∀ a b, Tendsto (fun j => (F ^ j * A)ᵀ a b ^ 2) atTop (𝓝 0) := by
      intro a b
      have := tendsto_pi_nhds.1 (hD (A *ᵥ Pi.single a 1) (leftOver_unseen (hA _))) b
      have h2 := this.pow 2
      simp only [Pi.zero_apply, ne_eq, OfNat.ofNat_ne_zero, not_false_eq_true, zero_pow] at h2
      refine h2.congr fun j => ?_
      rw [mulVec_mulVec, mulVec_single_one]; rfl
    have h3 : Tendsto (fun j => sizeSq (F ^ j * A)ᵀ) atTop (𝓝 (∑ _a : Fin n, ∑ _b : Fin n, (0 : ℝ))) :=
      tendsto_finsetSum _ fun a _ => tendsto_finsetSum _ fun b _ => h1 a b
    simpa using h3
  obtain ⟨j, hj1, hj2⟩ := ((hlim.eventually (gt_mem_nhds (show (0 : ℝ) < 1 / 2 by norm_num))).and
    (eventually_ge_atTop 1)).exists
  obtain ⟨N', hN', h'⟩ := riccati_pred_bound (F := F) (H := H) hQ hR j
  set M := F ^ j * A
  have hM : CovLE (M * Mᵀ) ((1 / 2 : ℝ) • 1) := by
    have hp : (M * 1 * Mᵀ).PosSemidef := PSD.congr PosSemidef.one M
    rw [Matrix.mul_one] at hp
    refine ⟨hp, PSD.of_quad (by rw [transpose_sub, PSD.symm hp]; simp) fun v => ?_⟩
    rw [sub_mulVec, dotProduct_sub, smul_mulVec, one_mulVec, dotProduct_smul, smul_eq_mul, ← mulVec_mulVec,
      dotProduct_mulVec, ← mulVec_transpose M v]
    have := dot_mulVec_le Mᵀ v
    have := mul_le_mul_of_nonneg_right hj1.le (dot_self_nonneg v)
    linarith
  set G := F ^ j * N * (F ^ j)ᵀ + N' with hG
  have hGp : G.PosSemidef := (PSD.congr hN _).add hN'
  obtain ⟨d, hd, hdG⟩ := PD.covLE (PosDef.one (n := Fin n) (R := ℝ)) hGp
  set f := riccati 1 F Q H R with hf
  have hpsd : ∀ (P : Mat n n), P.PosSemidef → ∀ k, (f^[k] P).PosSemidef := fun P hP => riccati_iter_psd zero_le_one hP hQ hR
  have hstep : ∀ P : Mat n n, CovLE P ((2 * d) • 1) → CovLE (f^[j + n] P) ((2 * d) • 1) := by
    intro P hP
    rw [Function.iterate_add_apply]
    have b1 := h' _ (hpsd P hP.1 n)
    have b2 := ((h P hP.1).congr (F ^ j)).add (CovLE.refl hN')
    have b3 := b1.trans b2
    have e : F ^ j * (A * P * Aᵀ + N) * (F ^ j)ᵀ + N' = M * P * Mᵀ + G := by
      have eM : Mᵀ = Aᵀ * (F ^ j)ᵀ := transpose_mul _ _
      rw [hG, Matrix.mul_add, Matrix.add_mul, eM, show M = F ^ j * A from rfl]
      simp only [Matrix.mul_assoc, add_assoc]
    rw [e] at b3
    have b4 := (hP.congr M).add hdG
    rw [Matrix.mul_smul, Matrix.smul_mul, Matrix.mul_one] at b4
    have b5 := (hM.smul (show 0 ≤ 2 * d by linarith)).add (CovLE.refl (PSD.smul PosSemidef.one hd : (d • (1 : Mat n n)).PosSemidef))
    have b6 := (b3.trans b4).trans b5
    convert b6 using 1
    rw [smul_smul, ← add_smul]; congr 1; ring
  have hmul : ∀ k, CovLE (f^[(j + n) * k] 0) ((2 * d) • 1) := by
    intro k
    induction k with
    | zero => exact ⟨PosSemidef.zero, by rw [Nat.mul_zero, Function.iterate_zero, id, sub_zero]; exact PSD.smul PosSemidef.one (by linarith)⟩
    | succ k ih =>
      rw [Nat.mul_succ, add_comm, Function.iterate_add_apply]
      exact hstep _ ih
  refine ⟨(2 * d) • 1, fun k => ?_⟩
  obtain ⟨i, hi⟩ := Nat.exists_eq_add_of_le (show k ≤ (j + n) * k by nlinarith)
  refine CovLE.trans ?_ (hmul k)
  rw [hi, Function.iterate_add_apply]
  exact riccati_iter_mono zero_le_one hQ hR ⟨PosSemidef.zero, by rw [sub_zero]; exact hpsd 0 PosSemidef.zero i⟩ k

/-- With reachable noise, boundedness needs detectability. -/
theorem riccati_needs_detectable {F Q P : Mat n n} {H : Mat m n} {R : Mat m m} (hQ : Q.PosSemidef) (hR : R.PosDef)
    (hC : Spec.Reachable F Q) (hP : P.PosSemidef) (hfix : riccati 1 F Q H R P = P) : Spec.Detectable F H := by
  have hPd : P.PosDef := by
    have := riccati_reach_pd (H := H) one_pos hP hQ hR hC
    rwa [Function.iterate_fixed hfix] at this
  set K := steadyGain 1 F Q H R P with hK
  obtain ⟨h1, h2⟩ := reach_lyapunov (H := H) (K := K) le_rfl hfix.symm hP hQ hR hC
  have hst := pow_tendsto_zero hPd h1 n h2
  intro x hx
  have e : ∀ k, ((1 - K * H) * F) ^ k *ᵥ x = F ^ k *ᵥ x := by
    intro k
    induction k with
    | zero => simp
    | succ k ih =>
      have h1 : F *ᵥ (F ^ k *ᵥ x) = F ^ (k + 1) *ᵥ x := by rw [mulVec_mulVec, ← pow_succ']
      rw [pow_succ', ← mulVec_mulVec, ih, ← mulVec_mulVec, h1, sub_mulVec, one_mulVec, ← mulVec_mulVec, hx, mulVec_zero,
        sub_zero]
  have h2 : Tendsto (fun k => ((1 - K * H) * F) ^ k *ᵥ x) atTop (𝓝 ((0 : Mat n n) *ᵥ x)) := by
    have hc : Continuous fun M : Mat n n => M *ᵥ x := continuous_id.matrix_mulVec continuous_const
    exact (hc.tendsto 0).comp hst
  rw [zero_mulVec] at h2
  exact h2.congr e

/-! ## The filter -/

/-- **C125 (never certain).** If the process noise reaches every direction, then after as many cycles as there are
state variables the filter reports at least a certain positive definite covariance, whatever it was started with and
whatever it has measured: it never becomes certain of anything. -/
theorem C125_never_certain (expf : ℝ → ℝ) (s : KF n m l) (hinv : s.inv = npInv) (ha : 0 < s.alphaSq)
    (hQ : s.Q.PosSemidef) (hR : s.R.PosDef) (hC : Spec.Reachable s.F s.Q) :
    ∃ L : Mat n n, L.PosDef ∧ ∀ (x : Vec n) (P : Mat n n) (z : ℕ → Vec m) (k : ℕ), P.PosSemidef → n ≤ k →
      ∃ s', ({ s with x := x, P := P } : KF n m l).run expf (cycles z k) = .ok s' ∧ CovLE L s'.P := by
  refine ⟨_, riccati_reach_pd (H := s.H) ha PosSemidef.zero hQ hR hC, fun x P z k hP hk => ?_⟩
  obtain ⟨s', h1, h2, -⟩ := cycles_semi expf { s with x := x, P := P } z hinv ha.le hP hQ hR k
  exact ⟨s', h1, by rw [h2]; exact riccati_floor ha.le hP hQ hR hk⟩

/-- **C125 (existence).** If whatever the sensor never sees dies out (with the inflation factor `alpha` counted in),
there is a steady state covariance. Started from a state that is known exactly, the reported covariance climbs to
it, and it is the smallest one. -/
theorem C125_exists (expf : ℝ → ℝ) (s : KF n m l) (hinv : s.inv = npInv) (ha : 0 ≤ s.alphaSq)
    (hQ : s.Q.PosSemidef) (hR : s.R.PosDef) (hD : Spec.Detectable (√s.alphaSq • s.F) s.H) :
    ∃ P : Mat n n, P.PosSemidef ∧ IsSteady expf s P ∧
      (∀ P' : Mat n n, P'.PosSemidef → IsSteady expf s P' → CovLE P P') ∧
      ∀ (x : Vec n) (z : ℕ → Vec m), ∃ run : ℕ → KF n m l,
        (∀ k, ({ s with x := x, P := 0 } : KF n m l).run expf (cycles z k) = .ok (run k)) ∧
        (∀ k, CovLE (run k).P (run (k + 1)).P) ∧ Tendsto (fun k => (run k).P) atTop (𝓝 P) := by
  obtain ⟨B, hB⟩ := riccati_detectable_bound hQ hR hD
  rw [← riccati_alpha ha] at hB
  exact exists_of_bound expf s hinv ha hQ hR hB

/-- **C125 (exactly when).** With process noise that reaches every direction, the model has a steady state
covariance exactly when whatever the sensor never sees dies out. -/
theorem C125_exists_iff (expf : ℝ → ℝ) (s : KF n m l) (hinv : s.inv = npInv) (ha : 0 < s.alphaSq)
    (hQ : s.Q.PosSemidef) (hR : s.R.PosDef) (hC : Spec.Reachable s.F s.Q) :
    (∃ P : Mat n n, P.PosSemidef ∧ IsSteady expf s P) ↔ Spec.Detectable (√s.alphaSq • s.F) s.H := by
  refine ⟨fun ⟨P, hP, hst⟩ => ?_, fun h => ?_⟩
  · have hfix := (steady_iff expf s hinv ha.le hQ hR hP).1 hst
    rw [riccati_alpha ha.le] at hfix
    exact riccati_needs_detectable hQ hR (hC.smul (Real.sqrt_pos.2 ha).ne') hP hfix
  · obtain ⟨P, hP, hst, -⟩ := C125_exists expf s hinv ha.le hQ hR h
    exact ⟨P, hP, hst⟩

/-- **C125 (otherwise).** With process noise that reaches every direction and something unseen that does not die
out, the reported covariance of every run exceeds every bound. -/
theorem C125_unbounded (expf : ℝ → ℝ) (s : KF n m l) (hinv : s.inv = npInv) (ha : 0 < s.alphaSq)
    (hP : s.P.PosSemidef) (hQ : s.Q.PosSemidef) (hR : s.R.PosDef) (hC : Spec.Reachable s.F s.Q)
    (hD : ¬ Spec.Detectable (√s.alphaSq • s.F) s.H) (z : ℕ → Vec m) :
    ∃ run : ℕ → KF n m l, (∀ k, s.run expf (cycles z k) = .ok (run k)) ∧
      ∀ B : Mat n n, ∃ k, ¬ CovLE (run k).P B := by
  choose run hrun hPk _ using cycles_semi expf s z hinv ha.le hP hQ hR
  refine ⟨run, hrun, fun B => ?_⟩
  by_contra hno
  simp only [not_exists, not_not] at hno
  refine hD ((C125_exists_iff expf s hinv ha hQ hR hC).1 ?_)
  obtain ⟨P, h1, h2, -⟩ := exists_of_bound expf s hinv ha.le hQ hR (B := B) fun k => by
    refine CovLE.trans ?_ (hno k)
    rw [hPk]
    exact riccati_iter_mono ha.le hQ hR ⟨PosSemidef.zero, by rw [sub_zero]; exact hP⟩ k
  exact ⟨P, h1, h2⟩

/-- **C125 (convergence).** A steady state of a model with reachable process noise is positive definite and the
only one, and every run converges to it at an exponential rate. -/
theorem C125_rate (expf : ℝ → ℝ) (s : KF n m l) (hinv : s.inv = npInv) (ha : 0 < s.alphaSq) (hP₀ : s.P.PosSemidef)
    (hQ : s.Q.PosSemidef) (hR : s.R.PosDef) (hC : Spec.Reachable s.F s.Q) (P : Mat n n) (hP : P.PosSemidef)
    (hst : IsSteady expf s P) (z : ℕ → Vec m) : P.PosDef ∧
    ∃ (C ρ : ℝ) (run : ℕ → KF n m l), 0 ≤ ρ ∧ ρ < 1 ∧ (∀ k, s.run expf (cycles z k) = .ok (run k)) ∧
      (∀ k i j, |(run k).P i j - P i j| ≤ C * ρ ^ k) ∧ Tendsto (fun k => (run k).P) atTop (𝓝 P) := by
  have hfix := (steady_iff expf s hinv ha.le hQ hR hP).1 hst
  have hPd : P.PosDef := by
    have := riccati_reach_pd (H := s.H) ha hP hQ hR hC
    rwa [Function.iterate_fixed hfix] at this
  obtain ⟨C, ρ, -, h0, h1, hb⟩ := riccati_reach_converges ha hQ hR hC hP hfix hP₀
  choose run hrun hPk _ using cycles_semi expf s z hinv ha.le hP₀ hQ hR
  refine ⟨hPd, C, ρ, run, h0, h1, hrun, fun k i j => by rw [hPk]; exact hb k i j, ?_⟩
  simp only [hPk]
  refine tendsto_pi_nhds.2 fun i => tendsto_pi_nhds.2 fun j => ?_
  rw [tendsto_iff_dist_tendsto_zero]
  have hlim : Tendsto (fun k => C * ρ ^ k) atTop (𝓝 0) := by
    have := (tendsto_pow_atTop_nhds_zero_of_lt_one h0 h1).const_mul C
    rwa [mul_zero] at this
  exact squeeze_zero (fun k => dist_nonneg) (fun k => by rw [Real.dist_eq]; exact hb k i j) hlim

/-- **C125 (settling).** If the process noise reaches every direction and whatever the sensor never sees dies out,
there is exactly one steady state covariance and one steady state gain, and from every initial state and covariance,
with any data, `kf.P` and `kf.K` converge to them; `Q` may be singular. -/
theorem C125_settles (expf : ℝ → ℝ) (s : KF n m l) (hinv : s.inv = npInv) (ha : 0 < s.alphaSq)
    (hQ : s.Q.PosSemidef) (hR : s.R.PosDef) (hC : Spec.Reachable s.F s.Q)
    (hD : Spec.Detectable (√s.alphaSq • s.F) s.H) :
    ∃ (P : Mat n n) (K : Mat n m), P.PosDef ∧ IsSteady expf s P ∧
      (∀ P' : Mat n n, P'.PosSemidef → IsSteady expf s P' → P' = P) ∧ AtFixedPoint { s with P := P, K := K } ∧
      ∀ (x : Vec n) (P₀ : Mat n n) (z : ℕ → Vec m), P₀.PosSemidef → ∃ run : ℕ → KF n m l,
        (∀ k, ({ s with x := x, P := P₀ } : KF n m l).run expf (cycles z k) = .ok (run k)) ∧
        Tendsto (fun k => (run k).P) atTop (𝓝 P) ∧ Tendsto (fun k => (run k).K) atTop (𝓝 K) := by
  obtain ⟨P, hP, hst, -⟩ := C125_exists expf s hinv ha.le hQ hR hD
  have hfix := (steady_iff expf s hinv ha.le hQ hR hP).1 hst
  have hPd := (C125_rate expf { s with P := P } hinv ha hP hQ hR hC P hP hst (fun _ => 0)).1
  refine ⟨P, steadyGain s.alphaSq s.F s.Q s.H s.R P, hPd, hst, fun P' hP' hst' => ?_,
    ⟨⟨hinv, ?_⟩, ?_, hfix.symm⟩, fun x P₀ z hP₀ => ?_⟩
  · have hfix' := (steady_iff expf s hinv ha.le hQ hR hP').1 hst'
    obtain ⟨-, -, -, run, -, -, h1, -, h2⟩ := C125_rate expf { s with P := P' } hinv ha hP' hQ hR hC P hP hst (fun _ => 0)
    choose run' hrun' hPk _ using cycles_semi expf { s with P := P' } (fun _ => 0) hinv ha.le hP' hQ hR
    have e : run = run' := funext fun k => Except.ok.inj ((h1 k).symm.trans (hrun' k))
    rw [e] at h2
    refine tendsto_nhds_unique (tendsto_const_nhds.congr fun k => ?_) h2
    rw [hPk]
    exact (Function.iterate_fixed hfix' k).symm
  · rw [Matrix.mul_assoc]
    exact PD.det_ne (S_pd (predCov_psd ha.le hP hQ) hR)
  · show steadyGain s.alphaSq s.F s.Q s.H s.R P = _
    rw [steadyGain, ← Matrix.mul_assoc s.H]
  choose run hrun hPk hKk _ using cycles_semi expf { s with x := x, P := P₀ } z hinv ha.le hP₀ hQ hR
  obtain ⟨-, C, ρ, run', -, -, hrun', -, hlim⟩ :=
    C125_rate expf { s with x := x, P := P₀ } hinv ha hP₀ hQ hR hC P hP hst z
  have e : run' = run := funext fun k => Except.ok.inj ((hrun' k).symm.trans (hrun k))
  rw [e] at hlim
  refine ⟨run, hrun, hlim, ?_⟩
  rw [← tendsto_add_atTop_iff_nat 1]
  have := steadyGain_tendsto (F := s.F) (H := s.H) ha.le hQ hR hP hlim
  refine this.congr fun k => ?_
  rw [hKk (k + 1) k.succ_pos, Nat.add_sub_cancel, hPk k]

/-- **C125 (constant gain).** Constant gain operation with that gain forgets its initial state. -/
theorem C125_constant_gain (expf : ℝ → ℝ) (s : KF n m l) (hs : AtFixedPoint s) (ha : 1 ≤ s.alphaSq) (hP : s.P.PosDef)
    (hQ : s.Q.PosSemidef) (hR : s.R.PosDef) (hC : Spec.Reachable s.F s.Q) (x x' : Vec n) (u : ℕ → Vec l)
    (z : ℕ → Vec m) :
    ∃ run run' : ℕ → KF n m l,
      (∀ k, ({ s with x := x } : KF n m l).run expf (steadyCycles (firstOf (fun j => (.vec (u j), z j)) k)) = .ok (run k)) ∧
      (∀ k, ({ s with x := x' } : KF n m l).run expf (steadyCycles (firstOf (fun j => (.vec (u j), z j)) k)) = .ok (run' k)) ∧
      Tendsto (fun k => (run k).x - (run' k).x) atTop (𝓝 0) :=
  stable_forgets expf s (reach_stable hs ha hP hQ hR hC) x x' u z

section random
open MeasureTheory ProbabilityTheory Spec

variable {Ω : Type*} [MeasurableSpace Ω] {μ : Measure Ω} [IsProbabilityMeasure μ]

/-- **C125 (honest).** On the system it was told about, from any initial estimate, the constant gain filter becomes
unbiased and its error covariance tends to the steady state covariance. -/
theorem C125_error (expf : ℝ → ℝ) (s : KF n m l) (hs : AtFixedPoint s) (ha : s.alphaSq = 1) (hP : s.P.PosDef)
    (hQ : s.Q.PosSemidef) (hR : s.R.PosDef) (hC : Reachable s.F s.Q) (u : ℕ → Vec l) (X w : ℕ → Ω → Vec n)
    (v : ℕ → Ω → Vec m) (hsys : NoisySystem s μ u X w v) :
    ∃ run : ℕ → Ω → KF n m l,
      (∀ k ω, s.run expf (steadyCycles (firstOf (fun j => (.vec (u j), s.H *ᵥ X (j + 1) ω + v j ω)) k)) = .ok (run k ω)) ∧
      Tendsto (fun k => meanVec (fun ω => X k ω - (run k ω).x) μ) atTop (𝓝 0) ∧
      Tendsto (fun k => covMat (fun ω => X k ω - (run k ω).x) (fun ω => X k ω - (run k ω).x) μ) atTop (𝓝 s.P) :=
  stable_error expf s hs ha (reach_stable hs ha.ge hP hQ hR hC) u X w v hsys

end random

/-! ## Both conditions are needed -/

/-- An unstable system that is never disturbed, fully measured. -/
noncomputable def calm : KF 1 1 0 := { KF.fresh 1 1 0 with F := (2 : ℝ) • 1, Q := 0, H := 1 }

theorem calm_riccati {g : ℝ} (hg : 0 ≤ g) :
    riccati 1 ((2 : ℝ) • (1 : Mat 1 1)) 0 (1 : Mat 1 1) 1 (g • 1) = (4 * g / (4 * g + 1)) • 1 := by
  have e1 : (1 : ℝ) • (((2 : ℝ) • (1 : Mat 1 1)) * (g • 1) * ((2 : ℝ) • (1 : Mat 1 1))ᵀ) + 0 = (4 * g) • 1 := by
    rw [one_smul, add_zero, transpose_smul, transpose_one, smul_mul_smul_comm, smul_mul_smul_comm]
    simp only [Matrix.mul_one]
    congr 1; ring
  have e2 : (1 : Mat 1 1) * ((4 * g) • 1 * 1ᵀ) + 1 = (4 * g + 1) • 1 := by
    simp only [Matrix.one_mul, transpose_one, Matrix.mul_one]
    rw [add_smul (4 * g) (1 : ℝ), one_smul]
  have h2 : 4 * g + 1 ≠ 0 := by positivity
  have e3 : ((4 * g + 1) • (1 : Mat 1 1))⁻¹ = (4 * g + 1)⁻¹ • 1 := by
    refine inv_eq_right_inv ?_
    rw [smul_mul_smul_comm, Matrix.one_mul, mul_inv_cancel₀ h2, one_smul]
  rw [riccati, e1, postCov, joseph_simple (S := (4 * g + 1) • 1) (by simp) e2.symm
    (by rw [e2, e3, smul_mul_smul_comm, Matrix.one_mul, inv_mul_cancel₀ h2, one_smul])
    (inv_symm (by rw [e2]; simp)) rfl, e2, e3]
  ext i j
  fin_cases i; fin_cases j
  simp [Matrix.mul_apply]
  field_simp
  ring

/-- **C125 (why reachable).** Without noise in every direction the limit can depend on the start: this observable
model has two steady states, total certainty and variance 3/4. -/
theorem C125_two_limits (expf : ℝ → ℝ) : Spec.Observable calm.F calm.H ∧ calm.Q.PosSemidef ∧ calm.R.PosDef ∧
    IsSteady expf calm 0 ∧ IsSteady expf calm ((3 / 4 : ℝ) • 1) := by
  have hQ : calm.Q.PosSemidef := PosSemidef.zero
  have hR : calm.R.PosDef := PosDef.one
  refine ⟨fun x hx => ?_, hQ, hR, ?_, ?_⟩
  · have := hx 0
    simpa [calm] using this
  · refine (steady_iff expf calm rfl zero_le_one hQ hR PosSemidef.zero).2 ?_
    have := calm_riccati (g := 0) le_rfl
    rw [zero_smul, mul_zero, zero_div, zero_smul] at this
    exact this
  · refine (steady_iff expf calm rfl zero_le_one hQ hR (PSD.smul PosSemidef.one (by norm_num))).2 ?_
    refine (calm_riccati (g := 3 / 4) (by norm_num)).trans ?_
    norm_num

/-- The hypotheses of `C125_settles` are met by a process noise of rank one, which `C97_converges` does not cover: a
constant velocity model disturbed by a random acceleration during each time step. -/
example (expf : ℝ → ℝ) : ¬ (vecMulVec ![1 / 2, 1] ![1 / 2, 1] : Mat 2 2).PosDef ∧ ∃ (P : Mat 2 2) (K : Mat 2 1), P.PosDef ∧
    AtFixedPoint { cvKF with Q := vecMulVec ![1 / 2, 1] ![1 / 2, 1], P := P, K := K } := by
  refine ⟨fun h => ?_, ?_⟩
  · have := h.det_pos
    simp [det_fin_two] at this
  have hQ : (vecMulVec ![1 / 2, 1] ![1 / 2, 1] : Mat 2 2).PosSemidef := by
    have := posSemidef_vecMulVec_self_star (![1 / 2, 1] : Vec 2)
    rwa [star_trivial] at this
  have hC : Spec.Reachable cvKF.F (vecMulVec ![1 / 2, 1] ![1 / 2, 1]) := by
    intro v hv
    have h0 := congrFun (hv 0) 1
    have h1 := congrFun (hv 1) 1
    simp [cvKF, Matrix.mulVec, dotProduct, Fin.sum_univ_two, vecMulVec_apply] at h0 h1
    ext i
    fin_cases i
    · show v 0 = 0
      linarith
    · show v 1 = 0
      linarith
  have hD : Spec.Detectable (√cvKF.alphaSq • cvKF.F) cvKF.H := by
    have : cvKF.alphaSq = 1 := by simp [cvKF, KF.fresh]
    rw [this, Real.sqrt_one, one_smul]
    exact cv_observable.detectable
  obtain ⟨P, K, h1, -, -, h2, -⟩ := C125_settles expf { cvKF with Q := vecMulVec ![1 / 2, 1] ![1 / 2, 1] } rfl
    (by simp [cvKF, KF.fresh]) hQ PosDef.one hC hD
  exact ⟨P, K, h1, h2⟩

end Filterpy
