import Verif.Props.KalmanEvidence
import Verif.Props.KalmanForgets
import Verif.Props.KalmanBatch
import Verif.Props.KalmanStochastic
import Verif.Lemmas.WhiteNoise
import Mathlib.LinearAlgebra.Matrix.Charpoly.Coeff
import Mathlib.LinearAlgebra.Basis.VectorSpace
import Mathlib.Topology.Instances.Matrix

/-!
# The covariance settles: C97

An observable model has a steady state covariance, and no initial covariance matters after as many
`predict(); update(z)` cycles as there are state variables.
-/

namespace Filterpy
open Matrix Filter Topology

variable {n m l : ℕ}

/-- The textbook notion: no state other than zero is invisible to the noiseless sensor forever. -/
def Spec.Observable (F : Mat n n) (H : Mat m n) : Prop :=
  ∀ x : Vec n, (∀ k : ℕ, H *ᵥ (F ^ k *ᵥ x) = 0) → x = 0

/-- By Cayley and Hamilton the first `n` instants decide. -/
theorem observable_first {F : Mat n n} {H : Mat m n} (h : Spec.Observable F H) (x : Vec n)
    (hx : ∀ k < n, H *ᵥ (F ^ k *ᵥ x) = 0) : x = 0 := by
  rcases Nat.eq_zero_or_pos n with rfl | hn
  · exact Subsingleton.elim _ _
  refine h x fun k => ?_
  rw [Matrix.pow_eq_aeval_mod_charpoly]
  have hd : (Polynomial.X ^ k %ₘ F.charpoly).natDegree < n := by
    have h1 := Polynomial.natDegree_modByMonic_lt (Polynomial.X ^ k) F.charpoly_monic (by
      intro h1
      have := F.charpoly_natDegree_eq_dim
      rw [h1, Polynomial.natDegree_one, Fintype.card_fin] at this; omega)
    rwa [F.charpoly_natDegree_eq_dim, Fintype.card_fin] at h1
  rw [Polynomial.aeval_eq_sum_range' hd, Matrix.sum_mulVec, Matrix.mulVec_sum]
  refine Finset.sum_eq_zero fun i hi => ?_
  rw [smul_mulVec, mulVec_smul, hx i (Finset.mem_range.1 hi), smul_zero]

/-- Within a subspace of errors some gain removes everything the sensor sees. -/
theorem gain_removes (W : Submodule ℝ (Vec n)) (H : Mat m n) :
    ∃ K : Mat n m, ∀ w ∈ W, (1 - K * H) *ᵥ w ∈ W ∧ H *ᵥ ((1 - K * H) *ᵥ w) = 0 := by
  set f : W →ₗ[ℝ] Vec m := (Matrix.toLin' H).comp W.subtype with hf
  obtain ⟨g, hg⟩ := f.rangeRestrict.exists_rightInverse_of_surjective f.range_rangeRestrict
  obtain ⟨g', hg'⟩ := LinearMap.exists_extend (W.subtype.comp g)
  refine ⟨LinearMap.toMatrix' g', fun w hw => ?_⟩
  have key : g' (H *ᵥ w) = ((g (f.rangeRestrict ⟨w, hw⟩) : W) : Vec n) := by
    have := LinearMap.congr_fun hg' (f.rangeRestrict ⟨w, hw⟩)
    simpa [hf] using this
  have e : (1 - LinearMap.toMatrix' g' * H) *ᵥ w = w - ((g (f.rangeRestrict ⟨w, hw⟩) : W) : Vec n) := by
    rw [sub_mulVec, one_mulVec, ← mulVec_mulVec, LinearMap.toMatrix'_mulVec, key]
  rw [e]
  refine ⟨W.sub_mem hw (Subtype.property _), ?_⟩
  have h2 := LinearMap.congr_fun hg (f.rangeRestrict ⟨w, hw⟩)
  have h3 := congrArg Subtype.val h2
  rw [mulVec_sub, sub_eq_zero]
  simpa [hf] using h3.symm

/-! ## The Riccati map -/

theorem predCov_psd {a : ℝ} (ha : 0 ≤ a) {F Q P : Mat n n} (hP : P.PosSemidef) (hQ : Q.PosSemidef) :
    (a • (F * P * Fᵀ) + Q).PosSemidef :=
  (PSD.smul (PSD.congr hP F) ha).add hQ

/-- The covariance of a filter that applies the gain `K` in one cycle. -/
noncomputable def gainCycle (a : ℝ) (F Q : Mat n n) (H : Mat m n) (R : Mat m m) (K : Mat n m) (P : Mat n n) :
    Mat n n :=
  (1 - K * H) * (a • (F * P * Fᵀ) + Q) * (1 - K * H)ᵀ + K * R * Kᵀ

theorem riccati_le {a : ℝ} (ha : 0 ≤ a) {F Q A B : Mat n n} {H : Mat m n} {R : Mat m m} (hQ : Q.PosSemidef)
    (hR : R.PosDef) (h : CovLE A B) (K : Mat n m) :
    CovLE (riccati a F Q H R A) (gainCycle a F Q H R K B) :=
  joseph_mono H (((h.congr F).smul ha).add (CovLE.refl hQ)) (CovLE.refl hR.posSemidef)
    (PD.det_ne (S_pd (predCov_psd ha h.1 hQ) hR)) K

theorem riccati_mono {a : ℝ} (ha : 0 ≤ a) {F Q A B : Mat n n} {H : Mat m n} {R : Mat m m} (hQ : Q.PosSemidef)
    (hR : R.PosDef) (h : CovLE A B) : CovLE (riccati a F Q H R A) (riccati a F Q H R B) :=
  riccati_le ha hQ hR h _

theorem riccati_psd {a : ℝ} (ha : 0 ≤ a) {F Q P : Mat n n} {H : Mat m n} {R : Mat m m} (hP : P.PosSemidef)
    (hQ : Q.PosSemidef) (hR : R.PosDef) : (riccati a F Q H R P).PosSemidef :=
  (riccati_mono ha hQ hR (CovLE.refl hP)).1

theorem riccati_iter_psd {a : ℝ} (ha : 0 ≤ a) {F Q P : Mat n n} {H : Mat m n} {R : Mat m m} (hP : P.PosSemidef)
    (hQ : Q.PosSemidef) (hR : R.PosDef) (k : ℕ) : ((riccati a F Q H R)^[k] P).PosSemidef := by
  induction k with
  | zero => exact hP
  | succ k ih => rw [Function.iterate_succ_apply']; exact riccati_psd ha ih hQ hR

theorem riccati_iter_mono {a : ℝ} (ha : 0 ≤ a) {F Q A B : Mat n n} {H : Mat m n} {R : Mat m m} (hQ : Q.PosSemidef)
    (hR : R.PosDef) (h : CovLE A B) (k : ℕ) :
    CovLE ((riccati a F Q H R)^[k] A) ((riccati a F Q H R)^[k] B) := by
  induction k with
  | zero => exact h
  | succ k ih => rw [Function.iterate_succ_apply', Function.iterate_succ_apply']; exact riccati_mono ha hQ hR ih

/-- The errors that `k` cycles with well chosen gains leave over. -/
def leftOver (F : Mat n n) (H : Mat m n) : ℕ → Submodule ℝ (Vec n)
  | 0 => ⊤
  | k + 1 => (leftOver F H k).map (Matrix.toLin' F) ⊓ LinearMap.ker (Matrix.toLin' H)

theorem leftOver_mem {F : Mat n n} {H : Mat m n} (k : ℕ) :
    ∀ v ∈ leftOver F H (k + 1), ∃ x, v = F ^ k *ᵥ (F *ᵥ x) ∧ ∀ i ≤ k, H *ᵥ (F ^ i *ᵥ (F *ᵥ x)) = 0 := by
  induction k with
  | zero =>
    rintro v ⟨⟨x, -, rfl⟩, h⟩
    refine ⟨x, by simp, fun i hi => ?_⟩
    obtain rfl : i = 0 := by omega
    simpa using h
  | succ k ih =>
    rintro v ⟨⟨w, hw, rfl⟩, h⟩
    obtain ⟨x, rfl, hx⟩ := ih w hw
    have e : Matrix.toLin' F (F ^ k *ᵥ (F *ᵥ x)) = F ^ (k + 1) *ᵥ (F *ᵥ x) := by
      rw [Matrix.toLin'_apply, mulVec_mulVec, ← pow_succ']
    refine ⟨x, e, fun i hi => ?_⟩
    rcases Nat.lt_or_ge i (k + 1) with h1 | h1
    · exact hx i (by omega)
    · obtain rfl : i = k + 1 := by omega
      rw [e] at h
      simpa using h

theorem leftOver_none {F : Mat n n} {H : Mat m n} (h : Spec.Observable F H) : leftOver F H n = ⊥ := by
  rcases Nat.eq_zero_or_pos n with rfl | hn
  · exact Subsingleton.elim _ _
  obtain ⟨k, rfl⟩ : ∃ k, n = k + 1 := ⟨n - 1, by omega⟩
  rw [eq_bot_iff]
  intro v hv
  obtain ⟨x, rfl, hx⟩ := leftOver_mem k v hv
  rw [observable_first h (F *ᵥ x) (fun i hi => hx i (by omega)), mulVec_zero]
  exact Submodule.zero_mem _

theorem riccati_affine {a : ℝ} (ha : 0 ≤ a) {F Q : Mat n n} {H : Mat m n} {R : Mat m m} (hQ : Q.PosSemidef)
    (hR : R.PosDef) (k : ℕ) : ∃ A N : Mat n n, N.PosSemidef ∧ (∀ v, A *ᵥ v ∈ leftOver F H k) ∧
      ∀ P : Mat n n, P.PosSemidef → CovLE ((riccati a F Q H R)^[k] P) (A * P * Aᵀ + N) := by
  induction k with
  | zero =>
    refine ⟨1, 0, PosSemidef.zero, fun v => Submodule.mem_top, fun P hP => ?_⟩
    simpa using CovLE.refl hP
  | succ k ih =>
    obtain ⟨A, N, hN, hA, h⟩ := ih
    obtain ⟨K, hK⟩ := gain_removes ((leftOver F H k).map (Matrix.toLin' F)) H
    refine ⟨√a • ((1 - K * H) * (F * A)), gainCycle a F Q H R K N,
      joseph_psd (predCov_psd ha hN hQ) hR.posSemidef K, fun v => ?_, fun P hP => ?_⟩
    · rw [smul_mulVec, ← mulVec_mulVec, ← mulVec_mulVec]
      refine Submodule.smul_mem _ _ ?_
      obtain ⟨h1, h2⟩ := hK (F *ᵥ (A *ᵥ v)) ⟨A *ᵥ v, hA v, Matrix.toLin'_apply _ _⟩
      exact ⟨h1, by simpa using h2⟩
    · rw [Function.iterate_succ_apply']
      have := riccati_le (F := F) (H := H) ha hQ hR (h P hP) K
      convert this using 1
      rw [gainCycle, gainCycle, transpose_smul, Matrix.smul_mul, Matrix.smul_mul, Matrix.mul_smul, smul_smul,
        Real.mul_self_sqrt ha, Matrix.mul_add F, Matrix.add_mul, smul_add]
      have e : (1 - K * H) * (F * A) * P * ((1 - K * H) * (F * A))ᵀ
          = (1 - K * H) * (F * (A * P * Aᵀ) * Fᵀ) * (1 - K * H)ᵀ := by
        simp only [transpose_mul, Matrix.mul_assoc]
      rw [e]
      generalize 1 - K * H = T
      simp only [Matrix.mul_add, Matrix.add_mul, Matrix.mul_smul, Matrix.smul_mul]
      abel

/-- `n` cycles of an observable model bring any covariance below one bound. -/
theorem riccati_uniform {a : ℝ} (ha : 0 ≤ a) {F Q : Mat n n} {H : Mat m n} {R : Mat m m} (hQ : Q.PosSemidef)
    (hR : R.PosDef) (hO : Spec.Observable F H) : ∃ B : Mat n n, B.PosSemidef ∧
      ∀ P : Mat n n, P.PosSemidef → ∀ k, n ≤ k → CovLE ((riccati a F Q H R)^[k] P) B := by
  obtain ⟨A, N, hN, hA, h⟩ := riccati_affine (F := F) (H := H) ha hQ hR n
  rw [leftOver_none hO] at hA
  have hA0 : A = 0 := by
    ext i j
    have := congrFun ((Submodule.mem_bot ℝ).1 (hA (Pi.single j 1))) i
    simpa using this
  refine ⟨N, hN, fun P hP k hk => ?_⟩
  obtain ⟨j, rfl⟩ := Nat.exists_eq_add_of_le hk
  rw [Function.iterate_add_apply]
  have := h _ (riccati_iter_psd (F := F) (H := H) ha hP hQ hR j)
  simpa [hA0] using this

/-- A gain that keeps some covariance from growing bounds the iteration started without uncertainty. -/
theorem riccati_gain_bound {a : ℝ} (ha : 0 ≤ a) {F Q : Mat n n} {H : Mat m n} {R : Mat m m} (hQ : Q.PosSemidef)
    (hR : R.PosDef) {K : Mat n m} {X : Mat n n} (hX : X.PosSemidef) (h : CovLE (gainCycle a F Q H R K X) X) (k : ℕ) :
    CovLE ((riccati a F Q H R)^[k] 0) X := by
  induction k with
  | zero => exact ⟨PosSemidef.zero, by simpa using hX⟩
  | succ k ih => rw [Function.iterate_succ_apply']; exact (riccati_le ha hQ hR ih K).trans h

/-! ## Limits -/

theorem entry_quad {M : Mat n n} (hM : Mᵀ = M) (i j : Fin n) :
    M i j = ((Pi.single i 1 + Pi.single j 1 : Vec n) ⬝ᵥ (M *ᵥ (Pi.single i 1 + Pi.single j 1))
      - (Pi.single i 1 : Vec n) ⬝ᵥ (M *ᵥ Pi.single i 1) - (Pi.single j 1 : Vec n) ⬝ᵥ (M *ᵥ Pi.single j 1)) / 2 := by
  have hs : M j i = M i j := congrFun (congrFun hM i) j
  rw [mulVec_add, dotProduct_add, add_dotProduct, add_dotProduct]
  simp only [mulVec_single, single_dotProduct, Pi.smul_apply, MulOpposite.smul_eq_mul_unop,
    MulOpposite.unop_op, Matrix.col_apply]
  rw [hs]; ring

/-- A growing bounded sequence of covariances has a limit. -/
theorem cov_limit {P : ℕ → Mat n n} {B : Mat n n} (hmono : ∀ k, CovLE (P k) (P (k + 1))) (hB : ∀ k, CovLE (P k) B) :
    ∃ L : Mat n n, Tendsto P atTop (𝓝 L) ∧ L.PosSemidef ∧ (∀ k, CovLE (P k) L) ∧ CovLE L B := by
  have hq : ∀ v : Vec n, ∃ q, Tendsto (fun k => v ⬝ᵥ (P k *ᵥ v)) atTop (𝓝 q) := by
    intro v
    refine ⟨_, tendsto_atTop_ciSup (monotone_nat_of_le_succ fun k => ?_) ⟨v ⬝ᵥ (B *ᵥ v), ?_⟩⟩
    · have := PSD.quad (hmono k).2 v
      rw [sub_mulVec, dotProduct_sub] at this; linarith
    · rintro _ ⟨k, rfl⟩
      have := PSD.quad (hB k).2 v
      rw [sub_mulVec, dotProduct_sub] at this; exact sub_nonneg.1 this
  choose q hq using hq
  set L : Mat n n := Matrix.of fun i j => (q (Pi.single i 1 + Pi.single j 1) - q (Pi.single i 1) - q (Pi.single j 1)) / 2 with hLd
  have hL : Tendsto P atTop (𝓝 L) := by
    refine tendsto_pi_nhds.2 fun i => tendsto_pi_nhds.2 fun j => ?_
    have := (((hq (Pi.single i 1 + Pi.single j 1)).sub (hq (Pi.single i 1))).sub (hq (Pi.single j 1))).div_const 2
    refine this.congr fun k => ?_
    exact (entry_quad (PSD.symm (hB k).1) i j).symm
  have hmm : ∀ k j, CovLE (P k) (P (k + j)) := by
    intro k j
    induction j with
    | zero => exact CovLE.refl (hB k).1
    | succ j ih => exact ih.trans (hmono _)
  have hpsd : ∀ (A : Mat n n) (c : ℝ), (∀ᶠ k in atTop, (A + c • P k).PosSemidef) → (A + c • L).PosSemidef := by
    intro A c h
    have ht : Tendsto (fun k => A + c • P k) atTop (𝓝 (A + c • L)) := (hL.const_smul c).const_add A
    have hts : Tendsto (fun k => (A + c • P k)ᵀ) atTop (𝓝 (A + c • L)ᵀ) :=
      (continuous_id.matrix_transpose.tendsto _).comp ht
    have hsym : (A + c • L)ᵀ = A + c • L :=
      tendsto_nhds_unique hts (ht.congr' (h.mono fun k hk => (PSD.symm hk).symm))
    refine PosSemidef.of_dotProduct_mulVec_nonneg (by rw [IsHermitian, conjTranspose_eq_transpose_of_trivial, hsym]) fun v => ?_
    have hv : Tendsto (fun k => v ⬝ᵥ ((A + c • P k) *ᵥ v)) atTop (𝓝 (v ⬝ᵥ ((A + c • L) *ᵥ v))) := by
      have hc : Continuous fun M : Mat n n => v ⬝ᵥ (M *ᵥ v) :=
        continuous_const.dotProduct (continuous_id.matrix_mulVec continuous_const)
      exact (hc.tendsto _).comp ht
    exact ge_of_tendsto hv (h.mono fun k hk => PSD.quad hk v)
  have hL0 : L.PosSemidef := by
    have := hpsd 0 1 (Eventually.of_forall fun k => by simpa using (hB k).1)
    simpa using this
  refine ⟨L, hL, hL0, fun k => ⟨(hB k).1, ?_⟩, hL0, ?_⟩
  · have := hpsd (-P k) 1 (by
      filter_upwards [eventually_ge_atTop k] with j hj
      obtain ⟨i, rfl⟩ := Nat.exists_eq_add_of_le hj
      have := (hmm k i).2
      rw [one_smul, neg_add_eq_sub]; exact this)
    rwa [one_smul, neg_add_eq_sub] at this
  · have := hpsd B (-1) (Eventually.of_forall fun k => by
      rw [neg_one_smul, ← sub_eq_add_neg]; exact (hB k).2)
    rwa [neg_one_smul, ← sub_eq_add_neg] at this

theorem inv_tendsto {A : ℕ → Mat m m} {L : Mat m m} (h : Tendsto A atTop (𝓝 L)) (hd : L.det ≠ 0) :
    Tendsto (fun k => (A k)⁻¹) atTop (𝓝 L⁻¹) := by
  have hc : ContinuousAt (fun M : Mat m m => M⁻¹) L := by
    have e : (fun M : Mat m m => M⁻¹) = fun M : Mat m m => (M.det)⁻¹ • M.adjugate := by
      funext M; rw [Matrix.inv_def, Ring.inverse_eq_inv']
    rw [e]
    exact ((continuous_id.matrix_det.continuousAt).inv₀ hd).smul continuous_id.matrix_adjugate.continuousAt
  exact hc.tendsto.comp h

theorem mul_tendsto {i j k : ℕ} {A : ℕ → Mat i j} {B : ℕ → Mat j k} {L : Mat i j} {M : Mat j k}
    (hA : Tendsto A atTop (𝓝 L)) (hB : Tendsto B atTop (𝓝 M)) : Tendsto (fun t => A t * B t) atTop (𝓝 (L * M)) := by
  have hc : Continuous fun p : Mat i j × Mat j k => p.1 * p.2 := continuous_fst.matrix_mul continuous_snd
  exact (hc.tendsto (L, M)).comp (hA.prodMk_nhds hB)

theorem transpose_tendsto {i j : ℕ} {A : ℕ → Mat i j} {L : Mat i j}
    (hA : Tendsto A atTop (𝓝 L)) : Tendsto (fun t => (A t)ᵀ) atTop (𝓝 Lᵀ) :=
  (continuous_id.matrix_transpose.tendsto _).comp hA

/-- The gain of one cycle. -/
noncomputable def steadyGain (a : ℝ) (F Q : Mat n n) (H : Mat m n) (R : Mat m m) (P : Mat n n) : Mat n m :=
  (a • (F * P * Fᵀ) + Q) * Hᵀ * (H * ((a • (F * P * Fᵀ) + Q) * Hᵀ) + R)⁻¹

theorem steadyGain_tendsto {a : ℝ} (ha : 0 ≤ a) {F Q L : Mat n n} {H : Mat m n} {R : Mat m m} {P : ℕ → Mat n n}
    (hQ : Q.PosSemidef) (hR : R.PosDef) (hL : L.PosSemidef) (h : Tendsto P atTop (𝓝 L)) :
    Tendsto (fun k => steadyGain a F Q H R (P k)) atTop (𝓝 (steadyGain a F Q H R L)) := by
  have hp : Tendsto (fun k => a • (F * P k * Fᵀ) + Q) atTop (𝓝 (a • (F * L * Fᵀ) + Q)) :=
    ((mul_tendsto (mul_tendsto tendsto_const_nhds h) tendsto_const_nhds).const_smul a).add_const Q
  have hS := inv_tendsto ((mul_tendsto (tendsto_const_nhds (x := H)) (mul_tendsto hp (tendsto_const_nhds (x := Hᵀ)))).add_const R)
    (PD.det_ne (S_pd (predCov_psd ha hL hQ) hR))
  exact mul_tendsto (mul_tendsto hp (tendsto_const_nhds (x := Hᵀ))) hS

theorem riccati_tendsto {a : ℝ} (ha : 0 ≤ a) {F Q L : Mat n n} {H : Mat m n} {R : Mat m m} {P : ℕ → Mat n n}
    (hQ : Q.PosSemidef) (hR : R.PosDef) (hL : L.PosSemidef) (h : Tendsto P atTop (𝓝 L)) :
    Tendsto (fun k => riccati a F Q H R (P k)) atTop (𝓝 (riccati a F Q H R L)) := by
  have hp : Tendsto (fun k => a • (F * P k * Fᵀ) + Q) atTop (𝓝 (a • (F * L * Fᵀ) + Q)) :=
    ((mul_tendsto (mul_tendsto tendsto_const_nhds h) tendsto_const_nhds).const_smul a).add_const Q
  have hS := inv_tendsto ((mul_tendsto (tendsto_const_nhds (x := H)) (mul_tendsto hp (tendsto_const_nhds (x := Hᵀ)))).add_const R)
    (PD.det_ne (S_pd (predCov_psd ha hL hQ) hR))
  have hK := mul_tendsto (mul_tendsto hp (tendsto_const_nhds (x := Hᵀ))) hS
  have hI := (mul_tendsto hK (tendsto_const_nhds (x := H))).const_sub 1
  exact (mul_tendsto (mul_tendsto hI hp) (transpose_tendsto hI)).add
    (mul_tendsto (mul_tendsto hK (tendsto_const_nhds (x := R))) (transpose_tendsto hK))

/-- The iteration from no uncertainty, when bounded, climbs to the smallest fixed point. -/
theorem riccati_fixed {a : ℝ} (ha : 0 ≤ a) {F Q : Mat n n} {H : Mat m n} {R : Mat m m} (hQ : Q.PosSemidef)
    (hR : R.PosDef) {B : Mat n n} (hB : ∀ k, CovLE ((riccati a F Q H R)^[k] 0) B) :
    ∃ P : Mat n n, P.PosSemidef ∧ riccati a F Q H R P = P ∧ (∀ k, CovLE ((riccati a F Q H R)^[k] 0) P) ∧
      Tendsto (fun k => (riccati a F Q H R)^[k] 0) atTop (𝓝 P) ∧ CovLE P B := by
  have hz : CovLE 0 (riccati a F Q H R 0) := ⟨PosSemidef.zero, by
    rw [sub_zero]; exact riccati_psd ha PosSemidef.zero hQ hR⟩
  have hm : ∀ k, CovLE ((riccati a F Q H R)^[k] 0) ((riccati a F Q H R)^[k + 1] 0) := fun k => by
    rw [Function.iterate_succ_apply]
    exact riccati_iter_mono ha hQ hR hz k
  obtain ⟨P, hP, hpsd, hle, hPB⟩ := cov_limit hm hB
  refine ⟨P, hpsd, ?_, hle, hP, hPB⟩
  have h1 := riccati_tendsto (F := F) (H := H) ha hQ hR hpsd hP
  have h2 := (tendsto_add_atTop_iff_nat 1).2 hP
  simp only [Function.iterate_succ_apply'] at h2
  exact tendsto_nhds_unique h1 h2

/-! ## The filter -/

theorem cycle_semi (expf : ℝ → ℝ) (s : KF n m l) (z : Vec m) (hinv : s.inv = npInv) (ha : 0 ≤ s.alphaSq)
    (hP : s.P.PosSemidef) (hQ : s.Q.PosSemidef) (hR : s.R.PosDef) :
    ∃ s', s.run expf [.predict .none none none .none, .update (some z) .none none] = .ok s' ∧
      s'.P = riccati s.alphaSq s.F s.Q s.H s.R s.P ∧
      s'.K = steadyGain s.alphaSq s.F s.Q s.H s.R s.P ∧ s'.F = s.F ∧ s'.Q = s.Q ∧ s'.H = s.H ∧ s'.R = s.R ∧
      s'.alphaSq = s.alphaSq ∧ s'.inv = npInv := by
  have hp : ∃ s1, s.predict = .ok s1 := by
    cases hB : s.B <;> exact ⟨_, by simp only [KF.predict, KF.control, Option.or, hB]; rfl⟩
  obtain ⟨s1, h1⟩ := hp
  obtain ⟨x, e1⟩ := KF.predict_ok h1
  have hP1 : s1.P = s.alphaSq • (s.F * s.P * s.Fᵀ) + s.Q := by rw [e1]; rfl
  obtain ⟨i1, f1, q1, m1, r1, a1⟩ : s1.inv = npInv ∧ s1.F = s.F ∧ s1.Q = s.Q ∧ s1.H = s.H ∧ s1.R = s.R ∧
      s1.alphaSq = s.alphaSq := by rw [e1]; exact ⟨hinv, rfl, rfl, rfl, rfl, rfl⟩
  obtain ⟨s2, h2, -⟩ := update_semi s1 z .none none i1 (by rw [hP1]; exact predCov_psd ha hP hQ)
    (by show s1.R.PosDef; rw [r1]; exact hR)
  obtain ⟨SI, g, e2⟩ := KF.update_ok h2
  rw [i1] at g
  obtain ⟨-, rfl⟩ := npInv_eq_some.1 g
  refine ⟨s2, by simp only [KF.run, KF.step, h1, h2], ?_, ?_, ?_, ?_, ?_, ?_, ?_, ?_⟩
  · rw [e2, riccati, ← hP1, postCov, ← m1, ← r1]; rfl
  · rw [e2, steadyGain, ← hP1, ← m1, ← r1]; rfl
  all_goals rw [e2]; assumption

theorem cycles_semi (expf : ℝ → ℝ) (s : KF n m l) (z : ℕ → Vec m) (hinv : s.inv = npInv) (ha : 0 ≤ s.alphaSq)
    (hP : s.P.PosSemidef) (hQ : s.Q.PosSemidef) (hR : s.R.PosDef) (k : ℕ) :
    ∃ s', s.run expf (cycles z k) = .ok s' ∧
      s'.P = (riccati s.alphaSq s.F s.Q s.H s.R)^[k] s.P ∧
      (0 < k → s'.K = steadyGain s.alphaSq s.F s.Q s.H s.R ((riccati s.alphaSq s.F s.Q s.H s.R)^[k - 1] s.P)) ∧
      s'.P.PosSemidef ∧ s'.F = s.F ∧ s'.Q = s.Q ∧
      s'.H = s.H ∧ s'.R = s.R ∧ s'.alphaSq = s.alphaSq ∧ s'.inv = npInv := by
  induction k with
  | zero => exact ⟨s, rfl, rfl, fun h => absurd h (lt_irrefl _), hP, rfl, rfl, rfl, rfl, rfl, hinv⟩
  | succ k ih =>
    obtain ⟨s1, h1, p1, -, psd1, f1, q1, m1, r1, a1, i1⟩ := ih
    obtain ⟨s2, h2, p2, k2, f2, q2, m2, r2, a2, i2⟩ := cycle_semi expf s1 (z k) i1 (by rw [a1]; exact ha) psd1
      (by rw [q1]; exact hQ) (by rw [r1]; exact hR)
    refine ⟨s2, ?_, ?_, fun _ => ?_, ?_, f2.trans f1, q2.trans q1, m2.trans m1, r2.trans r1, a2.trans a1, i2⟩
    · rw [cycles_succ, KF.run_append, h1]; exact h2
    · rw [p2, Function.iterate_succ_apply', a1, f1, q1, m1, r1, p1]
    · rw [k2, a1, f1, q1, m1, r1, p1, Nat.add_sub_cancel]
    · rw [p2]; exact riccati_psd (by rw [a1]; exact ha) psd1 (by rw [q1]; exact hQ) (by rw [r1]; exact hR)

theorem steady_iff (expf : ℝ → ℝ) (s : KF n m l) (hinv : s.inv = npInv) (ha : 0 ≤ s.alphaSq)
    (hQ : s.Q.PosSemidef) (hR : s.R.PosDef) {P : Mat n n} (hP : P.PosSemidef) :
    IsSteady expf s P ↔ riccati s.alphaSq s.F s.Q s.H s.R P = P := by
  constructor
  · intro h
    obtain ⟨s', h1, h2, -⟩ := cycle_semi expf { s with P := P } 0 hinv ha hP hQ hR
    exact h2.symm.trans (h s.x 0 s' h1)
  · intro h x z s' hs'
    obtain ⟨s1, h1, h2, -⟩ := cycle_semi expf { s with x := x, P := P } z hinv ha hP hQ hR
    obtain rfl : s1 = s' := Except.ok.inj (h1.symm.trans hs')
    exact h2.trans h

/-- **C97 (bounded).** If the model is observable, one bound holds for the covariance that the filter
reports after any number of cycles, not smaller than the number of state variables, from any initial state
and covariance, however large, and with any data. -/
theorem C97_bounded (expf : ℝ → ℝ) (s : KF n m l) (hinv : s.inv = npInv) (ha : 0 ≤ s.alphaSq)
    (hQ : s.Q.PosSemidef) (hR : s.R.PosDef) (hO : Spec.Observable s.F s.H) :
    ∃ B : Mat n n, B.PosSemidef ∧ ∀ (x : Vec n) (P : Mat n n) (z : ℕ → Vec m) (k : ℕ), P.PosSemidef → n ≤ k →
      ∃ s', ({ s with x := x, P := P } : KF n m l).run expf (cycles z k) = .ok s' ∧ CovLE s'.P B ∧
        ∀ i, s'.P i i ≤ B i i := by
  obtain ⟨B, hB, h⟩ := riccati_uniform (F := s.F) (H := s.H) ha hQ hR hO
  refine ⟨B, hB, fun x P z k hP hk => ?_⟩
  obtain ⟨s', h1, h2, -⟩ := cycles_semi expf { s with x := x, P := P } z hinv ha hP hQ hR k
  have h3 : CovLE s'.P B := by rw [h2]; exact h P hP k hk
  exact ⟨s', h1, h3, fun i => sub_nonneg.1 (h3.2.diag_nonneg (i := i))⟩

/-- A start without uncertainty whose covariance stays bounded climbs to the smallest steady state. -/
theorem exists_of_bound (expf : ℝ → ℝ) (s : KF n m l) (hinv : s.inv = npInv) (ha : 0 ≤ s.alphaSq)
    (hQ : s.Q.PosSemidef) (hR : s.R.PosDef) {B : Mat n n}
    (hB : ∀ k, CovLE ((riccati s.alphaSq s.F s.Q s.H s.R)^[k] 0) B) :
    ∃ P : Mat n n, P.PosSemidef ∧ IsSteady expf s P ∧
      (∀ P' : Mat n n, P'.PosSemidef → IsSteady expf s P' → CovLE P P') ∧
      ∀ (x : Vec n) (z : ℕ → Vec m), ∃ run : ℕ → KF n m l,
        (∀ k, ({ s with x := x, P := 0 } : KF n m l).run expf (cycles z k) = .ok (run k)) ∧
        (∀ k, CovLE (run k).P (run (k + 1)).P) ∧ Tendsto (fun k => (run k).P) atTop (𝓝 P) := by
  have hz : CovLE 0 (riccati s.alphaSq s.F s.Q s.H s.R 0) := ⟨PosSemidef.zero, by
    rw [sub_zero]; exact riccati_psd ha PosSemidef.zero hQ hR⟩
  have hm : ∀ k, CovLE ((riccati s.alphaSq s.F s.Q s.H s.R)^[k] 0) ((riccati s.alphaSq s.F s.Q s.H s.R)^[k + 1] 0) :=
    fun k => by rw [Function.iterate_succ_apply]; exact riccati_iter_mono ha hQ hR hz k
  obtain ⟨P, hP, hfix, hle, hlim, hPB⟩ := riccati_fixed (F := s.F) (H := s.H) ha hQ hR (B := B) hB
  refine ⟨P, hP, (steady_iff expf s hinv ha hQ hR hP).2 hfix, fun P' hP' hst => ?_, fun x z => ?_⟩
  · have hf := (steady_iff expf s hinv ha hQ hR hP').1 hst
    have hb : ∀ k, CovLE ((riccati s.alphaSq s.F s.Q s.H s.R)^[k] 0) P' := by
      intro k
      have := riccati_iter_mono (F := s.F) (H := s.H) ha hQ hR (A := 0) (B := P') ⟨PosSemidef.zero, by simpa using hP'⟩ k
      rwa [Function.iterate_fixed hf] at this
    obtain ⟨P2, -, -, -, hlim2, hle2⟩ := riccati_fixed (F := s.F) (H := s.H) ha hQ hR hb
    obtain rfl := tendsto_nhds_unique hlim hlim2
    exact hle2
  · choose run hrun hPk _ using cycles_semi expf { s with x := x, P := 0 } z hinv ha PosSemidef.zero hQ hR
    refine ⟨run, hrun, fun k => ?_, ?_⟩
    · rw [hPk, hPk]; exact hm k
    · simp only [hPk]; exact hlim

/-- **C97 (existence).** If the model is observable there is a steady state covariance. Started from a
state that is known exactly, the reported covariance climbs to it, and it is the smallest one. -/
theorem C97_exists (expf : ℝ → ℝ) (s : KF n m l) (hinv : s.inv = npInv) (ha : 0 ≤ s.alphaSq)
    (hQ : s.Q.PosSemidef) (hR : s.R.PosDef) (hO : Spec.Observable s.F s.H) :
    ∃ P : Mat n n, P.PosSemidef ∧ IsSteady expf s P ∧
      (∀ P' : Mat n n, P'.PosSemidef → IsSteady expf s P' → CovLE P P') ∧
      ∀ (x : Vec n) (z : ℕ → Vec m), ∃ run : ℕ → KF n m l,
        (∀ k, ({ s with x := x, P := 0 } : KF n m l).run expf (cycles z k) = .ok (run k)) ∧
        (∀ k, CovLE (run k).P (run (k + 1)).P) ∧ Tendsto (fun k => (run k).P) atTop (𝓝 P) := by
  obtain ⟨B, hB, h⟩ := riccati_uniform (F := s.F) (H := s.H) ha hQ hR hO
  refine exists_of_bound expf s hinv ha hQ hR (B := B) fun k => ?_
  refine CovLE.trans ?_ (h 0 PosSemidef.zero (k + n) (Nat.le_add_left _ _))
  rw [Function.iterate_add_apply]
  exact riccati_iter_mono ha hQ hR ⟨PosSemidef.zero, by
    rw [sub_zero]; exact riccati_iter_psd ha PosSemidef.zero hQ hR n⟩ k

/-- **C97 (when).** A model has a steady state covariance exactly when some filter with a constant gain
keeps its error covariance bounded. -/
theorem C97_when (expf : ℝ → ℝ) (s : KF n m l) (hinv : s.inv = npInv) (ha : 0 ≤ s.alphaSq)
    (hQ : s.Q.PosSemidef) (hR : s.R.PosDef) :
    (∃ P : Mat n n, P.PosSemidef ∧ IsSteady expf s P) ↔
      ∃ (K : Mat n m) (X : Mat n n), X.PosSemidef ∧
        CovLE ((1 - K * s.H) * (s.alphaSq • (s.F * X * s.Fᵀ) + s.Q) * (1 - K * s.H)ᵀ + K * s.R * Kᵀ) X := by
  constructor
  · rintro ⟨P, hP, hst⟩
    have hfix := (steady_iff expf s hinv ha hQ hR hP).1 hst
    refine ⟨steadyGain s.alphaSq s.F s.Q s.H s.R P, P, hP, ?_⟩
    have e : (1 - steadyGain s.alphaSq s.F s.Q s.H s.R P * s.H) * (s.alphaSq • (s.F * P * s.Fᵀ) + s.Q)
        * (1 - steadyGain s.alphaSq s.F s.Q s.H s.R P * s.H)ᵀ
        + steadyGain s.alphaSq s.F s.Q s.H s.R P * s.R * (steadyGain s.alphaSq s.F s.Q s.H s.R P)ᵀ
        = riccati s.alphaSq s.F s.Q s.H s.R P := rfl
    rw [e, hfix]; exact CovLE.refl hP
  · rintro ⟨K, X, hX, h⟩
    obtain ⟨P, hP, hfix, -⟩ := riccati_fixed (F := s.F) (H := s.H) ha hQ hR (B := X)
      (riccati_gain_bound ha hQ hR hX h)
    exact ⟨P, hP, (steady_iff expf s hinv ha hQ hR hP).2 hfix⟩

/-- **C97 (convergence).** If the model is observable and the process noise reaches every direction, there
is one steady state covariance and one steady state gain, and from every initial state and covariance, with
any data, `kf.P` and `kf.K` converge to them. A filter given that covariance and gain is at the fixed point that
constant gain operation (C16, C98) asks for. -/
theorem C97_converges (expf : ℝ → ℝ) (s : KF n m l) (hinv : s.inv = npInv) (ha : 0 ≤ s.alphaSq)
    (hQ : s.Q.PosDef) (hR : s.R.PosDef) (hO : Spec.Observable s.F s.H) :
    ∃ (P : Mat n n) (K : Mat n m), P.PosDef ∧ IsSteady expf s P ∧ AtFixedPoint { s with P := P, K := K } ∧
      ∀ (x : Vec n) (P₀ : Mat n n) (z : ℕ → Vec m), P₀.PosSemidef → ∃ run : ℕ → KF n m l,
        (∀ k, ({ s with x := x, P := P₀ } : KF n m l).run expf (cycles z k) = .ok (run k)) ∧
        Tendsto (fun k => (run k).P) atTop (𝓝 P) ∧ Tendsto (fun k => (run k).K) atTop (𝓝 K) := by
  obtain ⟨P, hP, hst, -⟩ := C97_exists expf s hinv ha hQ.posSemidef hR hO
  have hfix := (steady_iff expf s hinv ha hQ.posSemidef hR hP).1 hst
  refine ⟨P, steadyGain s.alphaSq s.F s.Q s.H s.R P, by rw [← hfix]; exact riccati_pd ha hP hQ hR, hst,
    ⟨⟨hinv, ?_⟩, ?_, hfix.symm⟩, fun x P₀ z hP₀ => ?_⟩
  · rw [Matrix.mul_assoc]
    exact PD.det_ne (S_pd (predCov_psd ha hP hQ.posSemidef) hR)
  · show steadyGain s.alphaSq s.F s.Q s.H s.R P = _
    rw [steadyGain, ← Matrix.mul_assoc s.H]
  choose run hrun hPk hKk _ using cycles_semi expf { s with x := x, P := P₀ } z hinv ha hP₀ hQ.posSemidef hR
  obtain ⟨C, ρ, run', -, -, hrun', -, hlim⟩ :=
    C84_converges expf { s with x := x, P := P₀ } hinv ha hP₀ hQ hR P hP hst z
  have e : run' = run := funext fun k => Except.ok.inj ((hrun' k).symm.trans (hrun k))
  rw [e] at hlim
  refine ⟨run, hrun, hlim, ?_⟩
  rw [← tendsto_add_atTop_iff_nat 1]
  have := steadyGain_tendsto (F := s.F) (H := s.H) ha hQ.posSemidef hR hP hlim
  refine this.congr fun k => ?_
  rw [hKk (k + 1) k.succ_pos, Nat.add_sub_cancel, hPk k]

/-- Position and velocity, with the position measured: observable. -/
theorem cv_observable : Spec.Observable cvKF.F cvKF.H := by
  intro x hx
  have h0 := congrFun (hx 0) 0
  have h1 := congrFun (hx 1) 0
  simp [cvKF, Matrix.mulVec, dotProduct, Fin.sum_univ_two] at h0 h1
  ext i
  fin_cases i
  · exact h0
  · simp only [h0, zero_add] at h1; exact h1

example (expf : ℝ → ℝ) : ∃ (P : Mat 2 2) (K : Mat 2 1), P.PosDef ∧ IsSteady expf cvKF P ∧
    AtFixedPoint { cvKF with P := P, K := K } := by
  obtain ⟨P, K, h1, h2, h3, -⟩ := C97_converges expf cvKF rfl (by simp [cvKF, KF.fresh]) PosDef.one PosDef.one cv_observable
  exact ⟨P, K, h1, h2, h3⟩

/-- Without observability there need be no steady state: a random walk that no sensor sees. -/
theorem C97_needs (expf : ℝ → ℝ) : ¬ ∃ P : Mat 1 1, P.PosSemidef ∧ IsSteady expf (KF.fresh 1 1 0) P := by
  rintro ⟨P, hP, hst⟩
  have h := (steady_iff expf (KF.fresh 1 1 0) rfl (by simp [KF.fresh]) PosSemidef.one PosDef.one hP).1 hst
  simp only [KF.fresh, riccati, postCov, transpose_zero, Matrix.mul_zero, Matrix.zero_mul, sub_zero, one_smul,
    Matrix.one_mul, transpose_one, Matrix.mul_one, add_zero, add_eq_left] at h
  exact one_ne_zero h

/-! ## C98: constant gain operation -/

theorem quad_rect {j : ℕ} (A : Mat n j) (P : Mat j j) (v : Vec n) :
    v ⬝ᵥ ((A * P * Aᵀ) *ᵥ v) = (Aᵀ *ᵥ v) ⬝ᵥ (P *ᵥ (Aᵀ *ᵥ v)) := by
  rw [← mulVec_mulVec, ← mulVec_mulVec, dotProduct_mulVec, ← mulVec_transpose A v]

/-- The steady state covariance shrinks strictly under the error dynamics of the cycle. -/
theorem steady_lyapunov {s : KF n m l} (hs : AtFixedPoint s) (ha : 1 ≤ s.alphaSq) (hP : s.P.PosDef) (hQ : s.Q.PosDef)
    (hR : s.R.PosDef) : (s.P - (1 - s.K * s.H) * s.F * s.P * ((1 - s.K * s.H) * s.F)ᵀ).PosDef := by
  have hN : ((1 - s.K * s.H) * s.Q * (1 - s.K * s.H)ᵀ + s.K * s.R * s.Kᵀ).PosDef := by
    have hpsd := joseph_psd (H := s.H) hQ.posSemidef hR.posSemidef s.K
    refine PD.of_quad (PSD.symm hpsd) fun v hv => lt_of_le_of_ne (PSD.quad hpsd v) fun h0 => ?_
    rw [add_mulVec, dotProduct_add, quad_congr, quad_rect s.K] at h0
    have h1 := PSD.quad hQ.posSemidef ((1 - s.K * s.H)ᵀ *ᵥ v)
    have h2 := PSD.quad hR.posSemidef (s.Kᵀ *ᵥ v)
    have hk : s.Kᵀ *ᵥ v = 0 := by
      by_contra hne
      have := PD.quad hR hne; linarith
    have he : (1 - s.K * s.H)ᵀ *ᵥ v = v := by
      rw [transpose_sub, transpose_one, transpose_mul, sub_mulVec, one_mulVec, ← mulVec_mulVec, hk, mulVec_zero, sub_zero]
    rw [he] at h0 h1
    have := PD.quad hQ hv; linarith
  have e : s.P - (1 - s.K * s.H) * s.F * s.P * ((1 - s.K * s.H) * s.F)ᵀ
      = ((1 - s.K * s.H) * s.Q * (1 - s.K * s.H)ᵀ + s.K * s.R * s.Kᵀ)
        + (s.alphaSq - 1) • ((1 - s.K * s.H) * s.F * s.P * ((1 - s.K * s.H) * s.F)ᵀ) := by
    have h := hs.cov
    have e2 : (1 - s.K * s.H) * s.F * s.P * ((1 - s.K * s.H) * s.F)ᵀ
        = (1 - s.K * s.H) * (s.F * s.P * s.Fᵀ) * (1 - s.K * s.H)ᵀ := by
      rw [transpose_mul]; simp only [Matrix.mul_assoc]
    rw [Matrix.mul_add, Matrix.add_mul, Matrix.mul_smul, Matrix.smul_mul, ← e2] at h
    nth_rewrite 1 [h]
    rw [sub_smul, one_smul]; abel
  rw [e]
  exact hN.add_posSemidef (PSD.smul (PSD.congr hP.posSemidef _) (sub_nonneg.2 ha))

/-- The Kalman gain of a steady state makes the error dynamics of the cycle stable. -/
theorem steady_stable {s : KF n m l} (hs : AtFixedPoint s) (ha : 1 ≤ s.alphaSq) (hP : s.P.PosDef) (hQ : s.Q.PosDef)
    (hR : s.R.PosDef) : Tendsto (fun k => ((1 - s.K * s.H) * s.F) ^ k) atTop (𝓝 0) := by
  have hd := steady_lyapunov hs ha hP hQ hR
  exact pow_tendsto_zero hP hd.posSemidef 1 (by rw [pow_one]; exact hd)

/-- The first `k` entries of a history. -/
def firstOf {α : Type*} (h : ℕ → α) (k : ℕ) : List α := (List.range k).map h

theorem steadyCycles_succ (h : ℕ → UArg l × Vec m) (k : ℕ) :
    (steadyCycles (firstOf h (k + 1)) : List (KFOp n m l))
      = steadyCycles (firstOf h k) ++ [.predictSteadystate (h k).1 none, .updateSteadystate (some (h k).2)] := by
  simp [steadyCycles, firstOf, List.range_succ]

/-- One constant gain cycle. -/
theorem steady_cycle (expf : ℝ → ℝ) (s : KF n m l) (u : Vec l) (z : Vec m) :
    ∃ s', s.run expf [.predictSteadystate (.vec u) none, .updateSteadystate (some z)] = .ok s' ∧
      s'.x = (1 - s.K * s.H) *ᵥ (s.F *ᵥ s.x + Spec.controlEffect s.B (some u)) + s.K *ᵥ z ∧
      s'.B = s.B ∧ s'.F = s.F ∧ s'.H = s.H ∧ s'.K = s.K := by
  have key : ∀ p : Vec n, p + s.K *ᵥ (z - s.H *ᵥ p) = (1 - s.K * s.H) *ᵥ p + s.K *ᵥ z := by
    intro p
    rw [sub_mulVec, one_mulVec, mulVec_sub, mulVec_mulVec]; abel
  cases hB : s.B with
  | none =>
    have h1 : s.predictSteadystate (.vec u) none = .ok { s with x := s.F *ᵥ s.x, xPrior := s.F *ᵥ s.x, PPrior := s.P } := by
      simp only [KF.predictSteadystate, KF.steadyControl, KF.control, Option.or, hB]
    refine ⟨KF.updateSteadystate { s with x := s.F *ᵥ s.x, xPrior := s.F *ᵥ s.x, PPrior := s.P } (some z),
      by simp only [KF.run, KF.step, h1], ?_, hB, rfl, rfl, rfl⟩
    simp only [Spec.controlEffect, add_zero]
    exact key _
  | some B =>
    have h1 : s.predictSteadystate (.vec u) none
        = .ok { s with x := s.F *ᵥ s.x + B *ᵥ u, xPrior := s.F *ᵥ s.x + B *ᵥ u, PPrior := s.P } := by
      simp only [KF.predictSteadystate, KF.steadyControl, KF.control, Option.or, hB]
    refine ⟨KF.updateSteadystate
        { s with x := s.F *ᵥ s.x + B *ᵥ u, xPrior := s.F *ᵥ s.x + B *ᵥ u, PPrior := s.P } (some z),
      by simp only [KF.run, KF.step, h1], ?_, hB, rfl, rfl, rfl⟩
    simp only [Spec.controlEffect]
    exact key _

theorem steady_cycles (expf : ℝ → ℝ) (s : KF n m l) (u : ℕ → Vec l) (z : ℕ → Vec m) :
    ∃ run : ℕ → KF n m l, (∀ k, s.run expf (steadyCycles (firstOf (fun j => (.vec (u j), z j)) k)) = .ok (run k)) ∧
      (run 0).x = s.x ∧
      ∀ k, (run (k + 1)).x = (1 - s.K * s.H) *ᵥ (s.F *ᵥ (run k).x + Spec.controlEffect s.B (some (u k))) + s.K *ᵥ z k := by
  have key : ∀ k, ∃ s', s.run expf (steadyCycles (firstOf (fun j => (.vec (u j), z j)) k)) = .ok s' ∧
      s'.B = s.B ∧ s'.F = s.F ∧ s'.H = s.H ∧ s'.K = s.K := by
    intro k
    induction k with
    | zero => exact ⟨s, rfl, rfl, rfl, rfl, rfl⟩
    | succ k ih =>
      obtain ⟨s1, h1, b1, f1, m1, k1⟩ := ih
      obtain ⟨s2, h2, -, b2, f2, m2, k2⟩ := steady_cycle expf s1 (u k) (z k)
      refine ⟨s2, ?_, b2.trans b1, f2.trans f1, m2.trans m1, k2.trans k1⟩
      rw [steadyCycles_succ, KF.run_append, h1]; exact h2
  choose run hrun hB hF hH hK using key
  refine ⟨run, hrun, ?_, fun k => ?_⟩
  · have : run 0 = s := Except.ok.inj ((hrun 0).symm.trans rfl)
    rw [this]
  · obtain ⟨s2, h2, x2, -⟩ := steady_cycle expf (run k) (u k) (z k)
    have h3 := hrun (k + 1)
    rw [steadyCycles_succ, KF.run_append, hrun k] at h3
    obtain rfl : s2 = run (k + 1) := Except.ok.inj (h2.symm.trans h3)
    rw [x2, hB, hF, hH, hK]

/-- A constant gain with stable error dynamics forgets its initial state. -/
theorem stable_forgets (expf : ℝ → ℝ) (s : KF n m l)
    (hst : Tendsto (fun k => ((1 - s.K * s.H) * s.F) ^ k) atTop (𝓝 0)) (x x' : Vec n) (u : ℕ → Vec l) (z : ℕ → Vec m) :
    ∃ run run' : ℕ → KF n m l,
      (∀ k, ({ s with x := x } : KF n m l).run expf (steadyCycles (firstOf (fun j => (.vec (u j), z j)) k)) = .ok (run k)) ∧
      (∀ k, ({ s with x := x' } : KF n m l).run expf (steadyCycles (firstOf (fun j => (.vec (u j), z j)) k)) = .ok (run' k)) ∧
      Tendsto (fun k => (run k).x - (run' k).x) atTop (𝓝 0) := by
  obtain ⟨run, h1, -, h2⟩ := steady_cycles expf { s with x := x } u z
  obtain ⟨run', h1', -, h2'⟩ := steady_cycles expf { s with x := x' } u z
  refine ⟨run, run', h1, h1', lin_tendsto hst fun k => ?_⟩
  rw [h2, h2', add_sub_add_right_eq_sub, ← mulVec_sub, add_sub_add_right_eq_sub, ← mulVec_sub, mulVec_mulVec]

/-- **C98 (state).** Two filters run with the constant steady state gain that differ in their initial state
estimate and see the same data agree in the limit. -/
theorem C98_forgets (expf : ℝ → ℝ) (s : KF n m l) (hs : AtFixedPoint s) (ha : 1 ≤ s.alphaSq) (hP : s.P.PosDef)
    (hQ : s.Q.PosDef) (hR : s.R.PosDef) (x x' : Vec n) (u : ℕ → Vec l) (z : ℕ → Vec m) :
    ∃ run run' : ℕ → KF n m l,
      (∀ k, ({ s with x := x } : KF n m l).run expf (steadyCycles (firstOf (fun j => (.vec (u j), z j)) k)) = .ok (run k)) ∧
      (∀ k, ({ s with x := x' } : KF n m l).run expf (steadyCycles (firstOf (fun j => (.vec (u j), z j)) k)) = .ok (run' k)) ∧
      Tendsto (fun k => (run k).x - (run' k).x) atTop (𝓝 0) :=
   stable_forgets expf s (steady_stable hs ha hP hQ hR) x x' u z

section random
open MeasureTheory ProbabilityTheory Spec

variable {Ω : Type*} [MeasurableSpace Ω] {μ : Measure Ω} [IsProbabilityMeasure μ]

theorem covMat_of_const {j k : ℕ} (c : Vec j) (Y : Ω → Vec k) : covMat (fun _ => c) Y μ = 0 := by
  ext a b; simp [covMat, covariance_const_left]

/-- A linear system with the matrices of the filter `s`: state `X k` after `k` steps, noises `w k`, `v k` white
with the covariances the filter was told, uncorrelated with each other and with the initial state. The
initial state is arbitrary. -/
structure Spec.NoisySystem (s : KF n m l) (μ : Measure Ω) (u : ℕ → Vec l) (X w : ℕ → Ω → Vec n)
    (v : ℕ → Ω → Vec m) : Prop where
  state : ∀ k ω, X (k + 1) ω = s.F *ᵥ X k ω + controlEffect s.B (some (u k)) + w k ω
  start : SqInt (X 0) μ
  process : ∀ k, NoiseOK (w k) μ s.Q
  sensor : ∀ k, NoiseOK (v k) μ s.R
  process_white : ∀ j k, j ≠ k → covMat (w j) (w k) μ = 0
  sensor_white : ∀ j k, j ≠ k → covMat (v j) (v k) μ = 0
  separate : ∀ j k, covMat (w j) (v k) μ = 0
  start_process : ∀ k, covMat (X 0) (w k) μ = 0
  start_sensor : ∀ k, covMat (X 0) (v k) μ = 0

/-- The error of a constant gain filter with stable error dynamics. -/
theorem stable_error (expf : ℝ → ℝ) (s : KF n m l) (hs : AtFixedPoint s) (ha : s.alphaSq = 1)
    (hst : Tendsto (fun k => ((1 - s.K * s.H) * s.F) ^ k) atTop (𝓝 0)) (u : ℕ → Vec l) (X w : ℕ → Ω → Vec n) (v : ℕ → Ω → Vec m)
    (hsys : NoisySystem s μ u X w v) :
    ∃ run : ℕ → Ω → KF n m l,
      (∀ k ω, s.run expf (steadyCycles (firstOf (fun j => (.vec (u j), s.H *ᵥ X (j + 1) ω + v j ω)) k)) = .ok (run k ω)) ∧
      Tendsto (fun k => meanVec (fun ω => X k ω - (run k ω).x) μ) atTop (𝓝 0) ∧
      Tendsto (fun k => covMat (fun ω => X k ω - (run k ω).x) (fun ω => X k ω - (run k ω).x) μ) atTop (𝓝 s.P) := by
  have key := fun ω => steady_cycles expf s u fun j => s.H *ᵥ X (j + 1) ω + v j ω
  choose run hrun h0 hx using key
  refine ⟨fun k ω => run ω k, fun k ω => hrun ω k, ?_⟩
  set A := (1 - s.K * s.H) * s.F with hA
  set E : ℕ → Ω → Vec n := fun k ω => X k ω - (run ω k).x with hE
  have hrec : ∀ k ω, E (k + 1) ω = A *ᵥ E k ω + ((1 - s.K * s.H) *ᵥ w k ω - s.K *ᵥ v k ω) := by
    intro k ω
    simp only [hE, hx, hsys.state, hA]
    generalize controlEffect s.B (some (u k)) = c
    simp only [sub_mulVec, one_mulVec, mulVec_add, mulVec_sub, ← mulVec_mulVec]
    abel
  have hE0 : ∀ ω, E 0 ω = X 0 ω - s.x := fun ω => by simp only [hE, h0]
  have hwS : ∀ k, SqInt (fun ω => (1 - s.K * s.H) *ᵥ w k ω) μ := fun k => (hsys.process k).sq.mulVec _
  have hvS : ∀ k, SqInt (fun ω => s.K *ᵥ v k ω) μ := fun k => (hsys.sensor k).sq.mulVec _
  have hES : ∀ k, SqInt (E k) μ := by
    intro k
    induction k with
    | zero => rw [funext hE0]; exact hsys.start.sub (SqInt.const _)
    | succ k ih => rw [funext (hrec k)]; exact (ih.mulVec A).add ((hwS k).sub (hvS k))
  have hEw : ∀ k j, k ≤ j → covMat (E k) (w j) μ = 0 ∧ covMat (E k) (v j) μ = 0 := by
    intro k
    induction k with
    | zero =>
      intro j _
      rw [funext hE0, covMat_sub_left hsys.start (SqInt.const _) (hsys.process j).sq,
        covMat_sub_left hsys.start (SqInt.const _) (hsys.sensor j).sq, hsys.start_process, hsys.start_sensor,
        covMat_of_const, covMat_of_const]
      simp
    | succ k ih =>
      intro j hj
      obtain ⟨i1, i2⟩ := ih j (by omega)
      have e1 := hsys.process_white k j (by omega)
      have e2 := hsys.sensor_white k j (by omega)
      have e3 := hsys.separate k j
      have e4 : covMat (v k) (w j) μ = 0 := by rw [covMat_transpose, hsys.separate, transpose_zero]
      have wj := (hsys.process j).sq
      have vj := (hsys.sensor j).sq
      rw [funext (hrec k)]
      constructor
      · rw [covMat_add_left ((hES k).mulVec A) ((hwS k).sub (hvS k)) wj, covMat_sub_left (hwS k) (hvS k) wj,
          covMat_mulVec_left (hES k) wj, covMat_mulVec_left (hsys.process k).sq wj,
          covMat_mulVec_left (hsys.sensor k).sq wj, i1, e1, e4]
        simp
      · rw [covMat_add_left ((hES k).mulVec A) ((hwS k).sub (hvS k)) vj, covMat_sub_left (hwS k) (hvS k) vj,
          covMat_mulVec_left (hES k) vj, covMat_mulVec_left (hsys.process k).sq vj,
          covMat_mulVec_left (hsys.sensor k).sq vj, i2, e3, e2]
        simp
  constructor
  · refine lin_tendsto hst fun k => ?_
    show meanVec (E (k + 1)) μ = A *ᵥ meanVec (E k) μ
    rw [funext (hrec k), meanVec_add ((hES k).mulVec A) ((hwS k).sub (hvS k)), meanVec_sub (hwS k) (hvS k),
      meanVec_mulVec (hES k), meanVec_mulVec (hsys.process k).sq, meanVec_mulVec (hsys.sensor k).sq,
      (hsys.process k).mean, (hsys.sensor k).mean]
    simp
  · refine cov_tendsto hst (Q := (1 - s.K * s.H) * s.Q * (1 - s.K * s.H)ᵀ + s.K * s.R * s.Kᵀ) ?_ fun k => ?_
    · have h := hs.cov
      rw [ha, one_smul, Matrix.mul_add, Matrix.add_mul, add_assoc] at h
      rw [hA, transpose_mul]
      simp only [Matrix.mul_assoc] at h ⊢
      exact h
    · show covMat (E (k + 1)) (E (k + 1)) μ = A * covMat (E k) (E k) μ * Aᵀ + _
      obtain ⟨i1, i2⟩ := hEw k k le_rfl
      have i1' : covMat (w k) (E k) μ = 0 := by rw [covMat_transpose, i1, transpose_zero]
      have i2' : covMat (v k) (E k) μ = 0 := by rw [covMat_transpose, i2, transpose_zero]
      have e3 := hsys.separate k k
      have e4 : covMat (v k) (w k) μ = 0 := by rw [covMat_transpose, e3, transpose_zero]
      have wk := (hsys.process k).sq
      have vk := (hsys.sensor k).sq
      have hN := (hwS k).sub (hvS k)
      have hAE := (hES k).mulVec A
      have g1 : covMat (fun ω => A *ᵥ E k ω) (fun ω => (1 - s.K * s.H) *ᵥ w k ω - s.K *ᵥ v k ω) μ = 0 := by
        rw [covMat_sub_right hAE (hwS k) (hvS k), covMat_mulVec_right hAE wk, covMat_mulVec_right hAE vk,
          covMat_mulVec_left (hES k) wk, covMat_mulVec_left (hES k) vk, i1, i2]
        simp
      have g2 : covMat (fun ω => (1 - s.K * s.H) *ᵥ w k ω - s.K *ᵥ v k ω) (fun ω => A *ᵥ E k ω) μ = 0 := by
        rw [covMat_transpose, g1, transpose_zero]
      have g3 : covMat (fun ω => (1 - s.K * s.H) *ᵥ w k ω - s.K *ᵥ v k ω)
          (fun ω => (1 - s.K * s.H) *ᵥ w k ω - s.K *ᵥ v k ω) μ
          = (1 - s.K * s.H) * s.Q * (1 - s.K * s.H)ᵀ + s.K * s.R * s.Kᵀ := by
        rw [covMat_sub_left (hwS k) (hvS k) hN, covMat_sub_right (hwS k) (hwS k) (hvS k),
          covMat_sub_right (hvS k) (hwS k) (hvS k)]
        simp only [covMat_mulVec_right (hwS k) wk, covMat_mulVec_right (hwS k) vk, covMat_mulVec_right (hvS k) wk,
          covMat_mulVec_right (hvS k) vk, covMat_mulVec_left wk wk, covMat_mulVec_left wk vk, covMat_mulVec_left vk wk,
          covMat_mulVec_left vk vk, e3, e4, (hsys.process k).cov, (hsys.sensor k).cov]
        simp
      rw [funext (hrec k), covMat_add_left hAE hN (hAE.add hN), covMat_add_right hAE hAE hN,
        covMat_add_right hN hAE hN, g1, g2, g3, covMat_mulVec_right hAE (hES k), covMat_mulVec_left (hES k) (hES k)]
      simp

/-- **C98 (error).** Run with the constant steady state gain on such a system, from any initial estimate,
however wrong, the filter's estimate becomes unbiased in the limit and its error covariance tends to the steady
state covariance `kf.P`, which is what the full filter reports in the limit too (C97): in the long run constant
gain operation loses nothing. -/
theorem C98_error (expf : ℝ → ℝ) (s : KF n m l) (hs : AtFixedPoint s) (ha : s.alphaSq = 1) (hP : s.P.PosDef)
    (hQ : s.Q.PosDef) (hR : s.R.PosDef) (u : ℕ → Vec l) (X w : ℕ → Ω → Vec n) (v : ℕ → Ω → Vec m)
    (hsys : NoisySystem s μ u X w v) :
    ∃ run : ℕ → Ω → KF n m l,
      (∀ k ω, s.run expf (steadyCycles (firstOf (fun j => (.vec (u j), s.H *ᵥ X (j + 1) ω + v j ω)) k)) = .ok (run k ω)) ∧
      Tendsto (fun k => meanVec (fun ω => X k ω - (run k ω).x) μ) atTop (𝓝 0) ∧
      Tendsto (fun k => covMat (fun ω => X k ω - (run k ω).x) (fun ω => X k ω - (run k ω).x) μ) atTop (𝓝 s.P) :=
  stable_error expf s hs ha (steady_stable hs ha.ge hP hQ hR) u X w v hsys

/-- Independent standard normal variables are white noise of variance one. -/
theorem whiteNoise_gaussian :
    WhiteNoise (fun (k : ℕ) (ω : ℕ → ℝ) => ω k) 1 (Measure.infinitePi fun _ : ℕ => gaussianReal 0 1) := by
  let μ : ℕ → Measure ℝ := fun _ => gaussianReal 0 1
  have hm : ∀ k, MemLp (fun ω : ℕ → ℝ => ω k) 2 (Measure.infinitePi μ) := fun k => by
    have h : MemLp (id : ℝ → ℝ) 2 (gaussianReal 0 1) := memLp_id_gaussianReal 2
    exact h.comp_measurePreserving (measurePreserving_eval_infinitePi μ k)
  refine ⟨hm, fun k => ?_, fun j k hjk => ?_⟩
  · rw [covariance_self (hm k).aemeasurable]
    have := (measurePreserving_eval_infinitePi μ k).variance_fun_comp (f := id) aemeasurable_id
    simp only [id] at this
    rw [this]
    have h := variance_id_gaussianReal (μ := 0) (v := 1)
    exact h.trans (by simp)
  · have hi : iIndepFun (fun (i : ℕ) (ω : ℕ → ℝ) => ω i) (Measure.infinitePi μ) :=
      iIndepFun_infinitePi (X := fun _ ω => ω) (by fun_prop)
    exact (hi.indepFun hjk).covariance_eq_zero (hm j) (hm k)

/-- A moving object with unit noises, started at `c`. -/
noncomputable def cvState (c : Vec 2) : ℕ → (ℕ → ℝ) → Vec 2
  | 0, _ => c
  | k + 1, ω => cvKF.F *ᵥ cvState c k ω + controlEffect cvKF.B (some 0) + ![ω (3 * k), ω (3 * k + 1)]

theorem cv_system (c : Vec 2) (P : Mat 2 2) (K : Mat 2 1) :
    NoisySystem { cvKF with P := P, K := K } (Measure.infinitePi fun _ : ℕ => gaussianReal 0 1) (fun _ => 0) (cvState c)
      (fun k ω => ![ω (3 * k), ω (3 * k + 1)]) (fun k ω => ![ω (3 * k + 2)]) := by
  set μ := Measure.infinitePi fun _ : ℕ => gaussianReal 0 1
  have hv : WhiteNoise (fun (k : ℕ) (ω : ℕ → ℝ) => ω k) 1 μ := whiteNoise_gaussian
  have hm : ∀ k, ∫ ω, ω k ∂μ = 0 := by
    intro k
    have h := (measurePreserving_eval_infinitePi (fun _ : ℕ => gaussianReal 0 1) k).map_eq
    have h2 := integral_map (μ := μ) (φ := Function.eval k) (f := (id : ℝ → ℝ)) (measurable_pi_apply k).aemeasurable
      measurable_id.aestronglyMeasurable
    rw [h] at h2
    exact h2.symm.trans integral_id_gaussianReal
  have hc : ∀ i j : ℕ, cov[fun ω : ℕ → ℝ => ω i, fun ω : ℕ → ℝ => ω j; μ] = if i = j then 1 else 0 := by
    intro i j
    split_ifs with h
    · rw [h]; exact hv.var j
    · exact hv.uncorr i j h
  have hw : ∀ k, NoiseOK (fun ω : ℕ → ℝ => ![ω (3 * k), ω (3 * k + 1)]) μ (1 : Mat 2 2) := by
    intro k
    refine ⟨fun i => ?_, ?_, ?_⟩
    · fin_cases i <;> exact hv.memLp _
    · ext i; fin_cases i <;> simp [meanVec, hm]
    · ext i j; fin_cases i <;> fin_cases j <;> simp [covMat, hc]
  have hs : ∀ k, NoiseOK (fun ω : ℕ → ℝ => ![ω (3 * k + 2)]) μ (1 : Mat 1 1) := by
    intro k
    refine ⟨fun i => ?_, ?_, ?_⟩
    · fin_cases i; exact hv.memLp _
    · ext i; fin_cases i; simp [meanVec, hm]
    · ext i j; fin_cases i; fin_cases j; simp [covMat, hc]
  refine ⟨fun k ω => rfl, SqInt.const c, hw, hs, fun j k h => ?_, fun j k h => ?_, fun j k => ?_,
    fun k => covMat_of_const c _, fun k => covMat_of_const c _⟩
  · ext a b
    fin_cases a <;> fin_cases b <;> simp [covMat, hc] <;> omega
  · ext a b
    fin_cases a; fin_cases b; simp [covMat, hc]; omega
  · ext a b
    fin_cases a <;> fin_cases b <;> simp [covMat, hc] <;> omega

/-- Constant gain tracking of a moving object from a start estimate that is wrong by any amount. -/
example (expf : ℝ → ℝ) (c : Vec 2) : ∃ (P : Mat 2 2) (K : Mat 2 1) (run : ℕ → (ℕ → ℝ) → KF 2 1 1),
    (∀ k ω, ({ cvKF with P := P, K := K } : KF 2 1 1).run expf
      (steadyCycles (firstOf (fun j => (.vec 0, cvKF.H *ᵥ cvState c (j + 1) ω + ![ω (3 * j + 2)])) k)) = .ok (run k ω)) ∧
    Tendsto (fun k => covMat (fun ω => cvState c k ω - (run k ω).x) (fun ω => cvState c k ω - (run k ω).x)
      (Measure.infinitePi fun _ : ℕ => gaussianReal 0 1)) atTop (𝓝 P) := by
  obtain ⟨P, K, h1, -, h3, -⟩ := C97_converges expf cvKF rfl (by simp [cvKF, KF.fresh]) PosDef.one PosDef.one cv_observable
  obtain ⟨run, h4, -, h5⟩ := C98_error expf { cvKF with P := P, K := K } h3 (by simp [cvKF, KF.fresh]) h1 PosDef.one PosDef.one
    _ _ _ _ (cv_system c P K)
  exact ⟨P, K, run, h4, h5⟩

end random

end Filterpy
