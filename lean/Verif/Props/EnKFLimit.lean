import Verif.Props.EnKF
import Verif.Lemmas.Gauss
import Verif.Lemmas.Prob
import Verif.Lemmas.Limits
import Verif.Props.KalmanSettles
import Verif.Model.KalmanOps
import Mathlib.Topology.Instances.Matrix
import Mathlib.Probability.StrongLaw

/-!
# The ensemble filter tends to the Kalman filter as the ensemble grows: C107
-/

namespace Filterpy

open Matrix Filter Topology MeasureTheory ProbabilityTheory

/-- Sample cross covariance of two tables of draws with the same members. -/
noncomputable def Spec.SampleCross {N a b : ℕ} (A : Mat N a) (B : Mat N b) : Mat a b :=
  fun i j => (∑ k, (A k i - SampleMean A i) * (B k j - SampleMean B j)) / ((N : ℝ) - 1)

/-- The draws have, in the limit of large ensembles, the sample mean `c` and the sample covariance `C`. -/
def Spec.HasMoments {a : ℕ} (A : ∀ N, Mat (N + 2) a) (c : Vec a) (C : Mat a a) : Prop :=
  Tendsto (fun N => SampleMean (A N)) atTop (𝓝 c) ∧ Tendsto (fun N => SampleCov (A N)) atTop (𝓝 C)

/-- The sample correlation of two sets of draws vanishes in the limit of large ensembles. -/
def Spec.Uncorr {a b : ℕ} (A : ∀ N, Mat (N + 2) a) (B : ∀ N, Mat (N + 2) b) : Prop :=
  Tendsto (fun N => SampleCross (A N) (B N)) atTop (𝓝 0)

open Spec

variable {n m l N a b c : ℕ}

/-! ## Sample covariances -/

theorem cross_self (A : Mat N a) : SampleCross A A = SampleCov A := rfl

theorem cross_transpose (A : Mat N a) (B : Mat N b) : (SampleCross A B)ᵀ = SampleCross B A := by
  ext i j
  simp only [transpose_apply, SampleCross]
  congr 1
  exact Finset.sum_congr rfl fun k _ => mul_comm _ _

theorem sampleMean_affine (hN : 0 < N) (A : Mat N a) (B : Mat N b) (M : Mat c a) (L : Mat c b) (v : Vec c) :
    SampleMean (rows fun i => M *ᵥ A i + L *ᵥ B i + v) = M *ᵥ SampleMean A + L *ᵥ SampleMean B + v := by
  have h1 := sampleMean_add (rows fun i => M *ᵥ A i + L *ᵥ B i) (rows fun _ : Fin N => v)
  have h2 := sampleMean_add (rows fun i => M *ᵥ A i) (rows fun i => L *ᵥ B i)
  rw [sampleMean_const hN] at h1
  rw [sampleMean_linear, sampleMean_linear] at h2
  rw [← h2]
  exact h1

theorem cross_affine (hN : 0 < N) (A : Mat N a) (B : Mat N b) (M : Mat c a) (L : Mat c b) (v : Vec c) {d : ℕ}
    (D : Mat N d) : SampleCross (rows fun i => M *ᵥ A i + L *ᵥ B i + v) D = M * SampleCross A D + L * SampleCross B D := by
  ext i j
  have h := congrFun (sampleMean_affine hN A B M L v) i
  simp only [SampleCross, h, Matrix.add_apply, Matrix.mul_apply]
  simp only [rows, Pi.add_apply, mulVec, dotProduct, mul_div_assoc', ← Finset.sum_div, Finset.mul_sum, ← add_div]
  congr 1
  rw [Finset.sum_comm, Finset.sum_comm (s := Finset.univ (α := Fin b)), ← Finset.sum_add_distrib]
  refine Finset.sum_congr rfl fun k _ => ?_
  have e : (∑ x, M i x * A k x + ∑ x, L i x * B k x + v i -
      (∑ x, M i x * SampleMean A x + ∑ x, L i x * SampleMean B x + v i)) =
      ∑ x, M i x * (A k x - SampleMean A x) + ∑ x, L i x * (B k x - SampleMean B x) := by
    simp only [mul_sub, Finset.sum_sub_distrib]; ring
  rw [e, add_mul, Finset.sum_mul, Finset.sum_mul]
  simp only [mul_assoc]

theorem cov_affine (hN : 0 < N) (A : Mat N a) (B : Mat N b) (M : Mat c a) (L : Mat c b) (v : Vec c) :
    SampleCov (rows fun i => M *ᵥ A i + L *ᵥ B i + v) =
      M * SampleCov A * Mᵀ + M * SampleCross A B * Lᵀ + (L * SampleCross B A * Mᵀ + L * SampleCov B * Lᵀ) := by
  rw [← cross_self, cross_affine hN, ← cross_transpose _ A, ← cross_transpose _ B, cross_affine hN, cross_affine hN]
  have e : ∀ {d : ℕ} (D : Mat N d), (SampleCov D)ᵀ = SampleCov D := fun D => by rw [← cross_self, cross_transpose]
  simp only [transpose_add, transpose_mul, cross_transpose, cross_self, Matrix.mul_add, Matrix.mul_assoc, e]

theorem cov_linear (H : Mat c a) (A : Mat N a) : SampleCov (rows fun i => H *ᵥ A i) = H * SampleCov A * Hᵀ := by
  rcases Nat.eq_zero_or_pos N with rfl | hN
  · ext i j
    simp [SampleCov, Matrix.mul_apply]
  have h := cov_affine hN A A H 0 0
  simpa using h

/-- The cross covariance with the predicted measurements does not depend on the point the members are compared with. -/
theorem cross_any (H : Mat c a) (A : Mat N a) (x : Vec a) :
    ((1 : ℝ) / ((N : ℝ) - 1)) • outerSum (rows fun i => A i - x)
      (rows fun i => (rows fun i => H *ᵥ A i) i - meanRows (rows fun i => H *ᵥ A i)) = SampleCov A * Hᵀ := by
  have hd : ∀ i j, (rows fun i => H *ᵥ A i) i j - SampleMean (rows fun i => H *ᵥ A i) j =
      ∑ b, H j b * (A i b - SampleMean A b) := by
    intro i j
    rw [sampleMean_linear]
    simp only [rows, mulVec, dotProduct, mul_sub, Finset.sum_sub_distrib]
  ext a' j
  rw [Matrix.smul_apply, meanRows_eq]
  simp only [outerSum, Helpers.einsumOuter, Matrix.mul_apply, SampleCov, transpose_apply, smul_eq_mul]
  have h0 : ∀ b, ∑ i, (A i b - SampleMean A b) = 0 := by
    intro b
    rcases Nat.eq_zero_or_pos N with rfl | hN
    · simp
    have : (N : ℝ) ≠ 0 := by positivity
    simp only [Finset.sum_sub_distrib, SampleMean, Finset.sum_const, Finset.card_univ, Fintype.card_fin, nsmul_eq_mul]
    field_simp
    ring
  have e : ∑ i, (rows fun i => A i - x) i a' * (rows fun i => (rows fun i => H *ᵥ A i) i -
      SampleMean (rows fun i => H *ᵥ A i)) i j = ∑ b, (∑ i, (A i a' - SampleMean A a') * (A i b - SampleMean A b)) * H j b := by
    have e1 : ∀ i, (rows fun i => A i - x) i a' * (rows fun i => (rows fun i => H *ᵥ A i) i -
      SampleMean (rows fun i => H *ᵥ A i)) i j = ∑ b, ((A i a' - SampleMean A a') * (A i b - SampleMean A b) * H j b +
        (SampleMean A a' - x a') * H j b * (A i b - SampleMean A b)) := by
      intro i
      have := hd i j
      simp only [rows, Pi.sub_apply] at this ⊢
      rw [this, Finset.mul_sum]
      refine Finset.sum_congr rfl fun b _ => ?_
      ring
    simp only [e1]
    rw [Finset.sum_comm]
    refine Finset.sum_congr rfl fun b _ => ?_
    rw [Finset.sum_add_distrib, ← Finset.mul_sum, h0, mul_zero, add_zero, Finset.sum_mul]
  rw [e, Finset.mul_sum]
  refine Finset.sum_congr rfl fun b _ => ?_
  ring

/-! ## The two filters side by side -/

/-- One step of a history run at every ensemble size: the numbers drawn are part of the step. -/
inductive EnsStep (n m : ℕ)
  | predict (w : ∀ N, Mat (N + 2) n)
  | update (z : Vec m) (R : MatArg m) (v : ∀ N, Mat (N + 2) m)
  | missing

/-- The call made on the ensemble filter with `N + 2` members. -/
def EnsStep.op (N : ℕ) : EnsStep n m → EnkfOp n m (N + 2)
  | .predict w => .predict (w N)
  | .update z R v => .update (some z) R (v N)
  | .missing => .update none .none 0

/-- The call made on the Kalman filter. -/
def EnsStep.kf : EnsStep n m → KFOp n m l
  | .predict _ => .predict .none none none .none
  | .update z R _ => .update (some z) R none
  | .missing => .update none .none none

def EnsStep.width : EnsStep n m → ℕ
  | .predict _ => n
  | .update _ _ _ => m
  | .missing => 0

/-- The numbers drawn in the step. -/
def EnsStep.draw : (e : EnsStep n m) → ∀ N, Mat (N + 2) e.width
  | .predict w => w
  | .update _ _ v => v
  | .missing => fun _ => 0

/-- The draws have the mean and covariance asked of `multivariate_normal`. -/
def Spec.Fits (Q : Mat n n) (R : Mat m m) : EnsStep n m → Prop
  | .predict w => HasMoments w 0 Q
  | .update _ R' v => (R'.resolve R).PosDef ∧ HasMoments v 0 (R'.resolve R)
  | .missing => True

/-- The same linear model, and the same estimate in the limit. -/
structure Spec.SameLinear (s : ∀ N, EnKF n m (N + 2)) (k : KF n m l) : Prop where
  fx : ∀ N v, (s N).fx v (s N).dt = k.F *ᵥ v
  hx : ∀ N v, (s N).hx v = k.H *ᵥ v
  R : ∀ N, (s N).R = k.R
  inv : ∀ N, (s N).inv = npInv
  kinv : k.inv = npInv
  alpha : k.alphaSq = 1

/-- The ensembles and estimates of the growing filters approach those of the Kalman filter. -/
structure Spec.Approaches (s : ∀ N, EnKF n m (N + 2)) (k : KF n m l) : Prop where
  x : Tendsto (fun N => (s N).x) atTop (𝓝 k.x)
  P : Tendsto (fun N => (s N).P) atTop (𝓝 k.P)
  ensemble : HasMoments (fun N => (s N).sigmas) k.x k.P

theorem ens_predict (s : ∀ N, EnKF n m (N + 2)) (k : KF n m l) (hm : SameLinear s k) (ha : Approaches s k)
    (hP : k.P.PosSemidef) (hQ : k.Q.PosSemidef) (w : ∀ N, Mat (N + 2) n) (hw : HasMoments w 0 k.Q)
    (hu : Uncorr (fun N => (s N).sigmas) w) :
    ∃ (k' : KF n m l) (s' : ∀ N, EnKF n m (N + 2)), k.predict .none none none .none = .ok k' ∧
      (∀ N, (s N).predict (w N) = .ok (s' N)) ∧ SameLinear s' k' ∧ Approaches s' k' ∧ k'.P.PosSemidef ∧
      k'.Q = k.Q ∧ k'.R = k.R ∧
      ∀ {d : ℕ} (D : ∀ N, Mat (N + 2) d), Uncorr (fun N => (s N).sigmas) D → Uncorr w D →
        Uncorr (fun N => (s' N).sigmas) D := by
  have hinst : ∀ N : ℕ, N + 2 ≠ 1 := fun N => by omega
  have hσ : ∀ N, (rows fun i => (s N).fx ((s N).sigmas i) (s N).dt + w N i) =
      rows fun i => k.F *ᵥ (s N).sigmas i + (1 : Mat n n) *ᵥ w N i + 0 := by
    intro N
    simp only [hm.fx, one_mulVec, add_zero]
  have hmean : Tendsto (fun N => SampleMean (rows fun i => k.F *ᵥ (s N).sigmas i + (1 : Mat n n) *ᵥ w N i + 0)) atTop
      (𝓝 (k.F *ᵥ k.x)) := by
    simp only [sampleMean_affine (Nat.succ_pos _)]
    simp only [add_zero, one_mulVec]
    have := (tendsto_mulVec (tendsto_const_nhds (x := k.F)) ha.ensemble.1).add hw.1
    rwa [add_zero] at this
  have hcov : Tendsto (fun N => SampleCov (rows fun i => k.F *ᵥ (s N).sigmas i + (1 : Mat n n) *ᵥ w N i + 0)) atTop
      (𝓝 (k.F * k.P * k.Fᵀ + k.Q)) := by
    simp only [cov_affine (Nat.succ_pos _)]
    simp only [transpose_one, Matrix.mul_one, Matrix.one_mul]
    have hu' : Tendsto (fun N => SampleCross (w N) (s N).sigmas) atTop (𝓝 0) := by
      have := tendsto_transpose hu
      simpa only [cross_transpose, transpose_zero] using this
    have h1 := tendsto_mmul (tendsto_mmul (tendsto_const_nhds (x := k.F)) ha.ensemble.2) (tendsto_const_nhds (x := k.Fᵀ))
    have h2 := tendsto_mmul (tendsto_const_nhds (x := k.F)) hu
    have h3 := tendsto_mmul hu' (tendsto_const_nhds (x := k.Fᵀ))
    have := (h1.add h2).add (h3.add hw.2)
    simpa only [Matrix.mul_zero, Matrix.zero_mul, add_zero, zero_add] using this
  obtain ⟨k', hk, ek⟩ : ∃ k', k.predict .none none none .none = .ok k' ∧ k' = { k with
      x := k.F *ᵥ k.x, P := k.F * k.P * k.Fᵀ + k.Q, xPrior := k.F *ᵥ k.x, PPrior := k.F * k.P * k.Fᵀ + k.Q } := by
    refine ⟨_, ?_, rfl⟩
    cases hB : k.B <;> simp [KF.predict, KF.control, hm.alpha, MatArg.resolve, hB]
  refine ⟨k', fun N => { s N with
    sigmas := rows fun i => k.F *ᵥ (s N).sigmas i + (1 : Mat n n) *ᵥ w N i + 0
    x := SampleMean (rows fun i => k.F *ᵥ (s N).sigmas i + (1 : Mat n n) *ᵥ w N i + 0)
    P := SampleCov (rows fun i => k.F *ᵥ (s N).sigmas i + (1 : Mat n n) *ᵥ w N i + 0)
    xPrior := SampleMean (rows fun i => k.F *ᵥ (s N).sigmas i + (1 : Mat n n) *ᵥ w N i + 0)
    PPrior := SampleCov (rows fun i => k.F *ᵥ (s N).sigmas i + (1 : Mat n n) *ᵥ w N i + 0) }, hk, fun N => ?_, ?_, ?_, ?_,
    ?_, ?_, ?_⟩
  · simp only [EnKF.predict, if_neg (hinst N), hσ, sampleCov_eq]
    simp only [meanRows_eq]
  · subst ek; exact ⟨hm.fx, hm.hx, hm.R, hm.inv, hm.kinv, hm.alpha⟩
  · subst ek; exact ⟨hmean, hcov, hmean, hcov⟩
  · subst ek; exact (PSD.congr hP k.F).add hQ
  · subst ek; rfl
  · subst ek; rfl
  · intro d D h1 h2
    show Tendsto _ _ _
    simp only [cross_affine (Nat.succ_pos _), Matrix.one_mul]
    have := (tendsto_mmul (tendsto_const_nhds (x := k.F)) h1).add h2
    simpa only [Matrix.mul_zero, add_zero] using this

theorem ens_update (s : ∀ N, EnKF n m (N + 2)) (k : KF n m l) (hm : SameLinear s k) (ha : Approaches s k)
    (hP : k.P.PosSemidef) (z : Vec m) (R : MatArg m) (hR : (R.resolve k.R).PosDef) (v : ∀ N, Mat (N + 2) m)
    (hv : HasMoments v 0 (R.resolve k.R)) (hu : Uncorr (fun N => (s N).sigmas) v) :
    ∃ (k' : KF n m l) (s' : ∀ N, EnKF n m (N + 2)), k.update (some z) R none = .ok k' ∧
      (∀ N, (s N).update (some z) R (v N) = .ok (s' N)) ∧ SameLinear s' k' ∧ Approaches s' k' ∧ k'.P.PosSemidef ∧
      k'.Q = k.Q ∧ k'.R = k.R ∧
      ∀ {d : ℕ} (D : ∀ N, Mat (N + 2) d), Uncorr (fun N => (s N).sigmas) D → Uncorr v D →
        Uncorr (fun N => (s' N).sigmas) D := by
  have hinst : ∀ N : ℕ, N + 2 ≠ 1 := fun N => by omega
  set R' := R.resolve k.R with hR'
  have hS : (k.H * (k.P * k.Hᵀ) + R').PosDef := S_pd hP hR
  have hSN : ∀ N, (k.H * SampleCov (s N).sigmas * k.Hᵀ + R').PosDef := fun N => by
    rw [Matrix.mul_assoc]; exact S_pd (sampleCov_psd (by omega) _) hR
  set K : ℕ → Mat n m := fun N => SampleCov (s N).sigmas * k.Hᵀ * (k.H * SampleCov (s N).sigmas * k.Hᵀ + R')⁻¹ with hK
  set K' : Mat n m := k.P * k.Hᵀ * (k.H * (k.P * k.Hᵀ) + R')⁻¹ with hK'
  have hSlim : Tendsto (fun N => k.H * SampleCov (s N).sigmas * k.Hᵀ + R') atTop (𝓝 (k.H * (k.P * k.Hᵀ) + R')) := by
    rw [← Matrix.mul_assoc]
    exact (tendsto_mmul (tendsto_mmul (tendsto_const_nhds (x := k.H)) ha.ensemble.2)
      (tendsto_const_nhds (x := k.Hᵀ))).add tendsto_const_nhds
  have hKlim : Tendsto K atTop (𝓝 K') :=
    tendsto_mmul (tendsto_mmul ha.ensemble.2 (tendsto_const_nhds (x := k.Hᵀ))) (tendsto_minv hSlim (PD.det_ne hS))
  have hIlim : Tendsto (fun N => 1 - K N * k.H) atTop (𝓝 (1 - K' * k.H)) :=
    tendsto_const_nhds.sub (tendsto_mmul hKlim (tendsto_const_nhds (x := k.H)))
  have hσ : ∀ N, (rows fun i => (s N).sigmas i + K N *ᵥ (z + v N i - k.H *ᵥ (s N).sigmas i)) =
      rows fun i => (1 - K N * k.H) *ᵥ (s N).sigmas i + K N *ᵥ v N i + K N *ᵥ z := by
    intro N
    congr 1
    funext i
    simp only [mulVec_sub, mulVec_add, sub_mulVec, one_mulVec, mulVec_mulVec]
    abel
  have hmean : Tendsto (fun N => SampleMean (rows fun i => (1 - K N * k.H) *ᵥ (s N).sigmas i + K N *ᵥ v N i + K N *ᵥ z))
      atTop (𝓝 (k.x + K' *ᵥ (z - k.H *ᵥ k.x))) := by
    simp only [sampleMean_affine (Nat.succ_pos _)]
    have := ((tendsto_mulVec hIlim ha.ensemble.1).add (tendsto_mulVec hKlim hv.1)).add
      (tendsto_mulVec hKlim (tendsto_const_nhds (x := z)))
    convert this using 2
    simp only [mulVec_sub, sub_mulVec, one_mulVec, mulVec_mulVec, mulVec_zero]
    abel
  have hcov : Tendsto (fun N => SampleCov (rows fun i => (1 - K N * k.H) *ᵥ (s N).sigmas i + K N *ᵥ v N i + K N *ᵥ z))
      atTop (𝓝 ((1 - K' * k.H) * k.P * (1 - K' * k.H)ᵀ + K' * R' * K'ᵀ)) := by
    simp only [cov_affine (Nat.succ_pos _)]
    have hu' : Tendsto (fun N => SampleCross (v N) (s N).sigmas) atTop (𝓝 0) := by
      have := tendsto_transpose hu
      simpa only [cross_transpose, transpose_zero] using this
    have h1 := tendsto_mmul (tendsto_mmul hIlim ha.ensemble.2) (tendsto_transpose hIlim)
    have h2 := tendsto_mmul (tendsto_mmul hIlim hu) (tendsto_transpose hKlim)
    have h3 := tendsto_mmul (tendsto_mmul hKlim hu') (tendsto_transpose hIlim)
    have h4 := tendsto_mmul (tendsto_mmul hKlim hv.2) (tendsto_transpose hKlim)
    have := (h1.add h2).add (h3.add h4)
    simpa only [Matrix.mul_zero, Matrix.zero_mul, add_zero, zero_add] using this
  have hPlim : Tendsto (fun N => (s N).P - K N * (k.H * SampleCov (s N).sigmas * k.Hᵀ + R') * (K N)ᵀ)
      atTop (𝓝 ((1 - K' * k.H) * k.P * (1 - K' * k.H)ᵀ + K' * R' * K'ᵀ)) := by
    have h1 := ha.P.sub (tendsto_mmul (tendsto_mmul hKlim hSlim) (tendsto_transpose hKlim))
    convert h1 using 2
    have hPs : k.Pᵀ = k.P := hP.1
    have hSs : (k.H * (k.P * k.Hᵀ) + R')ᵀ = k.H * (k.P * k.Hᵀ) + R' := hS.1
    exact joseph_opt hPs rfl (nonsing_inv_mul _ (PD.isUnit_det hS)) (by rw [transpose_nonsing_inv, hSs]) hK'
  obtain ⟨k', hk, ek⟩ : ∃ k', k.update (some z) R none = .ok k' ∧ (k'.x = k.x + K' *ᵥ (z - k.H *ᵥ k.x) ∧
      k'.P = (1 - K' * k.H) * k.P * (1 - K' * k.H)ᵀ + K' * R' * K'ᵀ ∧ k'.F = k.F ∧ k'.H = k.H ∧ k'.R = k.R ∧ k'.Q = k.Q ∧
      k'.inv = k.inv ∧ k'.alphaSq = k.alphaSq) := by
    have hn : npInv (k.H * (k.P * k.Hᵀ) + R') = some (k.H * (k.P * k.Hᵀ) + R')⁻¹ := npInv_of_det_ne (PD.det_ne hS)
    obtain ⟨k', hk⟩ : ∃ k', k.update (some z) R none = .ok k' := by
      simp only [KF.update, hm.kinv, Option.getD_none, ← hR', hn]
      exact ⟨_, rfl⟩
    obtain ⟨SI, g, e⟩ := KF.update_ok hk
    simp only [hm.kinv, Option.getD_none, ← hR', hn, Option.some.injEq] at g
    subst g
    subst e
    exact ⟨_, hk, rfl, rfl, rfl, rfl, rfl, rfl, rfl, rfl⟩
  obtain ⟨ex, eP, eF, eH, eR, eQ, ei, ea⟩ := ek
  refine ⟨k', fun N => { s N with
    S := k.H * SampleCov (s N).sigmas * k.Hᵀ + R'
    SI := (k.H * SampleCov (s N).sigmas * k.Hᵀ + R')⁻¹
    K := K N
    sigmas := rows fun i => (1 - K N * k.H) *ᵥ (s N).sigmas i + K N *ᵥ v N i + K N *ᵥ z
    x := SampleMean (rows fun i => (1 - K N * k.H) *ᵥ (s N).sigmas i + K N *ᵥ v N i + K N *ᵥ z)
    P := (s N).P - K N * (k.H * SampleCov (s N).sigmas * k.Hᵀ + R') * (K N)ᵀ
    z := fun i => some (z i)
    xPost := SampleMean (rows fun i => (1 - K N * k.H) *ᵥ (s N).sigmas i + K N *ᵥ v N i + K N *ᵥ z)
    PPost := (s N).P - K N * (k.H * SampleCov (s N).sigmas * k.Hᵀ + R') * (K N)ᵀ }, hk, fun N => ?_, ?_, ?_, ?_,
    eQ, eR, ?_⟩
  · have hn : npInv (k.H * SampleCov (s N).sigmas * k.Hᵀ + R') = some (k.H * SampleCov (s N).sigmas * k.Hᵀ + R')⁻¹ :=
      npInv_of_det_ne (PD.det_ne (hSN N))
    have e1 : (rows fun i => (s N).hx ((s N).sigmas i)) = rows fun i => k.H *ᵥ (s N).sigmas i := by simp only [hm.hx]
    have e2 : ((1 : ℝ) / (((N + 2 : ℕ) : ℝ) - 1)) • outerSum (rows fun i => (rows fun i => k.H *ᵥ (s N).sigmas i) i -
        meanRows (rows fun i => k.H *ᵥ (s N).sigmas i)) (rows fun i => (rows fun i => k.H *ᵥ (s N).sigmas i) i -
        meanRows (rows fun i => k.H *ᵥ (s N).sigmas i)) = k.H * SampleCov (s N).sigmas * k.Hᵀ := by
      rw [sampleCov_eq, cov_linear]
    have e3 : ((1 : ℝ) / (((N + 2 : ℕ) : ℝ) - 1)) • outerSum (rows fun i => (s N).sigmas i - (s N).x)
        (rows fun i => (rows fun i => k.H *ᵥ (s N).sigmas i) i - meanRows (rows fun i => k.H *ᵥ (s N).sigmas i)) =
        SampleCov (s N).sigmas * k.Hᵀ := cross_any _ _ _
    simp only [EnKF.update, if_neg (hinst N), hm.R, ← hR', e1, e2, e3, hm.inv, hn]
    have e4 : (rows fun i => (s N).sigmas i + (SampleCov (s N).sigmas * k.Hᵀ * (k.H * SampleCov (s N).sigmas * k.Hᵀ + R')⁻¹) *ᵥ
        (z + v N i - (rows fun i => k.H *ᵥ (s N).sigmas i) i)) =
        rows fun i => (1 - K N * k.H) *ᵥ (s N).sigmas i + K N *ᵥ v N i + K N *ᵥ z := hσ N
    simp only [e4, meanRows_eq]
    rfl
  · exact ⟨fun N v => by rw [eF]; exact hm.fx N v, fun N v => by rw [eH]; exact hm.hx N v,
      fun N => by rw [eR]; exact hm.R N, hm.inv, by rw [ei]; exact hm.kinv, by rw [ea]; exact hm.alpha⟩
  · rw [← ex] at hmean
    rw [← eP] at hcov hPlim
    exact ⟨hmean, hPlim, hmean, hcov⟩
  · rw [eP]; exact joseph_psd hP hR.posSemidef _
  · intro d D h1 h2
    show Tendsto _ _ _
    simp only [cross_affine (Nat.succ_pos _)]
    have := (tendsto_mmul hIlim h1).add (tendsto_mmul hKlim h2)
    simpa only [Matrix.mul_zero, add_zero] using this

theorem ens_missing (s : ∀ N, EnKF n m (N + 2)) (k : KF n m l) (hm : SameLinear s k) (ha : Approaches s k) :
    ∃ (k' : KF n m l) (s' : ∀ N, EnKF n m (N + 2)), k.update none .none none = .ok k' ∧
      (∀ N, (s N).update none .none 0 = .ok (s' N)) ∧ SameLinear s' k' ∧ Approaches s' k' ∧ k'.P = k.P ∧
      k'.Q = k.Q ∧ k'.R = k.R ∧ ∀ N, (s' N).sigmas = (s N).sigmas :=
  ⟨_, _, rfl, fun _ => rfl, ⟨hm.fx, hm.hx, hm.R, hm.inv, hm.kinv, hm.alpha⟩, ⟨ha.x, ha.P, ha.ensemble⟩, rfl, rfl, rfl,
    fun _ => rfl⟩

/-- **C107 (draws).** As the ensemble grows, the estimate and the covariance of the ensemble filter tend to those of
the Kalman filter with the same linear model, through every history of predictions, measurements and missed
measurements.  Nothing is assumed about how the numbers are drawn except that in the limit the draws
of each call have the sample mean and covariance asked for and those of different calls are uncorrelated. -/
theorem C107_draws (expf : ℝ → ℝ) (steps : List (EnsStep n m)) (s : ∀ N, EnKF n m (N + 2)) (k : KF n m l)
    (hm : SameLinear s k) (ha : Approaches s k) (hP : k.P.PosSemidef) (hQ : k.Q.PosSemidef)
    (hfit : ∀ e ∈ steps, Fits k.Q k.R e) (hstart : ∀ e ∈ steps, Uncorr (fun N => (s N).sigmas) e.draw)
    (hpair : steps.Pairwise fun e e' => Uncorr e.draw e'.draw) :
    ∃ (k' : KF n m l) (s' : ∀ N, EnKF n m (N + 2)), k.run expf (steps.map EnsStep.kf) = .ok k' ∧
      (∀ N, runList EnkfOp.run (s N) (steps.map (EnsStep.op N)) = .ok (s' N)) ∧ Approaches s' k' := by
  induction steps generalizing s k with
  | nil => exact ⟨k, s, rfl, fun N => rfl, ha⟩
  | cons e steps ih =>
    rw [List.pairwise_cons] at hpair
    have he := hfit e List.mem_cons_self
    have hu := hstart e List.mem_cons_self
    have htail : ∀ f ∈ steps, Uncorr (fun N => (s N).sigmas) f.draw := fun f hf => hstart f (List.mem_cons_of_mem _ hf)
    have hfit' : ∀ f ∈ steps, Fits k.Q k.R f := fun f hf => hfit f (List.mem_cons_of_mem _ hf)
    obtain ⟨k1, s1, h1, h2, m1, a1, p1, q1, r1, u1⟩ : ∃ (k1 : KF n m l) (s1 : ∀ N, EnKF n m (N + 2)),
        k.step expf e.kf = .ok k1 ∧ (∀ N, EnkfOp.run (s N) (e.op N) = .ok (s1 N)) ∧ SameLinear s1 k1 ∧ Approaches s1 k1 ∧
        k1.P.PosSemidef ∧ k1.Q = k.Q ∧ k1.R = k.R ∧ ∀ f ∈ steps, Uncorr (fun N => (s1 N).sigmas) f.draw := by
      cases e with
      | predict w =>
        obtain ⟨k1, s1, h1, h2, m1, a1, p1, q1, r1, u1⟩ := ens_predict s k hm ha hP hQ w he hu
        exact ⟨k1, s1, h1, h2, m1, a1, p1, q1, r1, fun f hf => u1 f.draw (htail f hf) (hpair.1 f hf)⟩
      | update z R v =>
        obtain ⟨k1, s1, h1, h2, m1, a1, p1, q1, r1, u1⟩ := ens_update s k hm ha hP z R he.1 v he.2 hu
        exact ⟨k1, s1, h1, h2, m1, a1, p1, q1, r1, fun f hf => u1 f.draw (htail f hf) (hpair.1 f hf)⟩
      | missing =>
        obtain ⟨k1, s1, h1, h2, m1, a1, p1, q1, r1, u1⟩ := ens_missing s k hm ha
        exact ⟨k1, s1, h1, h2, m1, a1, by rw [p1]; exact hP, q1, r1, fun f hf => by simp only [u1]; exact htail f hf⟩
    obtain ⟨k2, s2, g1, g2, a2⟩ := ih s1 k1 m1 a1 p1 (by rw [q1]; exact hQ) (by rw [q1, r1]; exact hfit') u1 hpair.2
    refine ⟨k2, s2, ?_, fun N => ?_, a2⟩
    · simp only [List.map_cons, KF.run, h1]; exact g1
    · simp only [List.map_cons, runList, h2]; exact g2 N

/-! ## Members drawn independently -/

section Independent

variable {Ω E : Type*} [MeasurableSpace Ω] [MeasurableSpace E] {μ : Measure Ω} {ν : Measure E}

/-- `Ξ i` is everything drawn for member `i`: the members are independent and all have the law `ν`. -/
structure Spec.IndepMembers (Ξ : ℕ → Ω → E) (ν : Measure E) (μ : Measure Ω) : Prop where
  measurable : ∀ i, Measurable (Ξ i)
  law : ∀ i, μ.map (Ξ i) = ν
  indep : Pairwise fun i j => IndepFun (Ξ i) (Ξ j) μ

/-- The table of the numbers `φ` draws for the members of an ensemble. -/
def Spec.table (Ξ : ℕ → Ω → E) (φ : E → Vec a) (ω : Ω) (N : ℕ) : Mat (N + 2) a := fun i => φ (Ξ i ω)

theorem lln {Ξ : ℕ → Ω → E} (h : IndepMembers Ξ ν μ) {f : E → ℝ} (hf : Measurable f) (hi : Integrable f ν) :
    ∀ᵐ ω ∂μ, Tendsto (fun N : ℕ => (∑ i : Fin (N + 2), f (Ξ i ω)) / ((N + 2 : ℕ) : ℝ)) atTop (𝓝 (∫ e, f e ∂ν)) := by
  have h0 : Integrable (fun ω => f (Ξ 0 ω)) μ := by
    have : Integrable f (μ.map (Ξ 0)) := by rw [h.law]; exact hi
    exact this.comp_measurable (h.measurable 0)
  have hI : ∫ ω, f (Ξ 0 ω) ∂μ = ∫ e, f e ∂ν := by
    rw [← h.law 0, integral_map (h.measurable 0).aemeasurable hf.aestronglyMeasurable]
  have hs := strong_law_ae_real (fun i ω => f (Ξ i ω)) h0 (fun i j hij => (h.indep hij).comp hf hf)
    (fun i => (IdentDistrib.mk (h.measurable i).aemeasurable (h.measurable 0).aemeasurable (by rw [h.law, h.law])).comp hf)
  filter_upwards [hs] with ω hω
  rw [hI] at hω
  have := hω.comp (tendsto_add_atTop_nat 2)
  refine this.congr fun N => ?_
  simp only [Function.comp_apply, Finset.sum_range]

variable [IsProbabilityMeasure ν]

theorem table_mean {Ξ : ℕ → Ω → E} (h : IndepMembers Ξ ν μ) {φ : E → Vec a} (hf : Measurable φ) (hi : SqInt φ ν) :
    ∀ᵐ ω ∂μ, Tendsto (fun N => SampleMean (table Ξ φ ω N)) atTop (𝓝 (meanVec φ ν)) := by
  have : ∀ j, ∀ᵐ ω ∂μ, Tendsto (fun N : ℕ => (∑ i : Fin (N + 2), φ (Ξ i ω) j) / ((N + 2 : ℕ) : ℝ)) atTop
      (𝓝 (∫ e, φ e j ∂ν)) := fun j => lln h ((measurable_pi_apply j).comp hf) (hi.integrable j)
  filter_upwards [ae_all_iff.2 this] with ω hω
  rw [tendsto_pi_nhds]
  refine fun j => (hω j).congr fun N => ?_
  simp only [SampleMean, table]
  ring

theorem table_cross {Ξ : ℕ → Ω → E} (h : IndepMembers Ξ ν μ) {φ : E → Vec a} {ψ : E → Vec b} (hf : Measurable φ)
    (hg : Measurable ψ) (hi : SqInt φ ν) (hj : SqInt ψ ν) :
    ∀ᵐ ω ∂μ, Tendsto (fun N => SampleCross (table Ξ φ ω N) (table Ξ ψ ω N)) atTop (𝓝 (covMat φ ψ ν)) := by
  have h2 : ∀ p q, ∀ᵐ ω ∂μ, Tendsto (fun N : ℕ => (∑ i : Fin (N + 2), φ (Ξ i ω) p * ψ (Ξ i ω) q) / ((N + 2 : ℕ) : ℝ)) atTop
      (𝓝 (∫ e, φ e p * ψ e q ∂ν)) := fun p q =>
    lln h (((measurable_pi_apply p).comp hf).mul ((measurable_pi_apply q).comp hg)) ((hi p).integrable_mul (hj q))
  filter_upwards [table_mean h hf hi, table_mean h hg hj, ae_all_iff.2 fun p => ae_all_iff.2 (h2 p)] with ω h1 h1' h2
  refine tendsto_pi_nhds.2 fun p => tendsto_pi_nhds.2 fun q => ?_
  have hfac : Tendsto (fun N : ℕ => ((N + 2 : ℕ) : ℝ) / (((N + 2 : ℕ) : ℝ) - 1)) atTop (𝓝 1) := by
    have h0 : Tendsto (fun N : ℕ => 1 + 1 / ((N : ℝ) + 1)) atTop (𝓝 (1 + 0)) :=
      tendsto_one_div_add_atTop_nhds_zero_nat.const_add 1
    rw [add_zero] at h0
    refine h0.congr fun N => ?_
    have : (N : ℝ) + 1 ≠ 0 := by positivity
    push_cast
    have h3 : (N : ℝ) + 2 - 1 ≠ 0 := by ring_nf; ring_nf at this; exact this
    field_simp
    ring
  have hcov : covMat φ ψ ν p q = 1 * (∫ e, φ e p * ψ e q ∂ν - meanVec φ ν p * meanVec ψ ν q) := by
    rw [one_mul]
    exact covariance_eq_sub (hi p) (hj q)
  rw [hcov]
  have hlim := hfac.mul ((h2 p q).sub (((tendsto_pi_nhds.1 h1) p).mul ((tendsto_pi_nhds.1 h1') q)))
  refine hlim.congr fun N => ?_
  have hN : ((N + 2 : ℕ) : ℝ) ≠ 0 := by positivity
  have hN1 : ((N + 2 : ℕ) : ℝ) - 1 ≠ 0 := by
    push_cast
    have : (0 : ℝ) < (N : ℝ) + 2 - 1 := by linarith [(Nat.cast_nonneg N : (0 : ℝ) ≤ N)]
    exact this.ne'
  simp only [SampleCross, sub_mul, mul_sub, Finset.sum_sub_distrib, ← Finset.sum_mul, ← Finset.mul_sum, SampleMean, table,
    Finset.sum_const, Finset.card_univ, Fintype.card_fin, nsmul_eq_mul]
  field_simp
  ring

/-- One step of a history in which the numbers drawn for a member are a function of that member's randomness. -/
inductive DrawStep (E : Type*) (n m : ℕ)
  | predict (w : E → Vec n)
  | update (z : Vec m) (R : MatArg m) (v : E → Vec m)
  | missing

/-- The calls made when the members' randomness is `Ξ · ω`. -/
def DrawStep.at (Ξ : ℕ → Ω → E) (ω : Ω) : DrawStep E n m → EnsStep n m
  | .predict w => .predict (table Ξ w ω)
  | .update z R v => .update z R (table Ξ v ω)
  | .missing => .missing

def DrawStep.width : DrawStep E n m → ℕ
  | .predict _ => n
  | .update _ _ _ => m
  | .missing => 0

/-- What the step draws for one member. -/
def DrawStep.draw : (e : DrawStep E n m) → E → Vec e.width
  | .predict w => w
  | .update _ _ v => v
  | .missing => 0

/-- The draws of a step are centred with the covariance asked of `multivariate_normal`. -/
def Spec.Drawn (Q : Mat n n) (R : Mat m m) (ν : Measure E) : DrawStep E n m → Prop
  | .predict w => meanVec w ν = 0 ∧ covMat w w ν = Q
  | .update _ R' v => (R'.resolve R).PosDef ∧ meanVec v ν = 0 ∧ covMat v v ν = R'.resolve R
  | .missing => True

/-- The call made on the Kalman filter. -/
def DrawStep.kf : DrawStep E n m → KFOp n m l
  | .predict _ => .predict .none none none .none
  | .update z R _ => .update (some z) R none
  | .missing => .update none .none none

/-- **C107 (independent members).** Give the members of the ensemble independent draws: a start with mean `x` and
covariance `P`, process errors with covariance `Q`, measurement errors with the covariance `R` of the measurement,
uncorrelated with one another.  Then with probability one, as the ensemble grows, the estimate and the covariance of
the ensemble filter tend to those of the Kalman filter that was given the same calls. -/
theorem C107_almost_surely (expf : ℝ → ℝ) {Ξ : ℕ → Ω → E} (h : IndepMembers Ξ ν μ) (k : KF n m l)
    (hkinv : k.inv = npInv) (halpha : k.alphaSq = 1) (hQ : k.Q.PosSemidef) (dt : ℝ) (fx : Vec n → ℝ → Vec n)
    (hx : Vec n → Vec m) (hF : ∀ v, fx v dt = k.F *ᵥ v) (hH : ∀ v, hx v = k.H *ᵥ v)
    (start : E → Vec n) (hm0 : Measurable start) (hs0 : SqInt start ν) (hmean : meanVec start ν = k.x)
    (hcov : covMat start start ν = k.P) (steps : List (DrawStep E n m))
    (hmeas : ∀ e ∈ steps, Measurable e.draw) (hsq : ∀ e ∈ steps, SqInt e.draw ν) (hfit : ∀ e ∈ steps, Drawn k.Q k.R ν e)
    (hun0 : ∀ e ∈ steps, covMat start e.draw ν = 0)
    (hun : steps.Pairwise fun e e' => covMat e.draw e'.draw ν = 0) :
    ∃ k' : KF n m l, k.run expf (steps.map DrawStep.kf) = .ok k' ∧ ∀ᵐ ω ∂μ, ∃ s' : ∀ N, EnKF n m (N + 2),
      (∀ N, runList EnkfOp.run { EnKF.fresh k.x k.P dt hx fx (table Ξ start ω N) with R := k.R }
        (steps.map fun e => (e.at Ξ ω).op N) = .ok (s' N)) ∧
      Tendsto (fun N => (s' N).x) atTop (𝓝 k'.x) ∧ Tendsto (fun N => (s' N).P) atTop (𝓝 k'.P) := by
  have hμ : IsProbabilityMeasure μ := by
    constructor
    rw [← Set.preimage_univ (f := Ξ 0), ← Measure.map_apply (h.measurable 0) MeasurableSet.univ, h.law]
    exact measure_univ
  have hP : k.P.PosSemidef := by rw [← hcov]; exact covMat_psd hs0
  have hat : ∀ (e : DrawStep E n m) (ω : Ω), (e.at Ξ ω).kf (l := l) = e.kf := fun e ω => by cases e <;> rfl
  have hdraw : ∀ (e : DrawStep E n m) (f : DrawStep E n m) (ω : Ω),
      Tendsto (fun N => SampleCross (table Ξ e.draw ω N) (table Ξ f.draw ω N)) atTop (𝓝 0) →
      Uncorr (e.at Ξ ω).draw (f.at Ξ ω).draw := by
    intro e f ω
    cases e <;> cases f <;> exact fun hh => hh
  have hdraw0 : ∀ (f : DrawStep E n m) (ω : Ω),
      Tendsto (fun N => SampleCross (table Ξ start ω N) (table Ξ f.draw ω N)) atTop (𝓝 0) →
      Uncorr (table Ξ start ω) (f.at Ξ ω).draw := by
    intro f ω
    cases f <;> exact fun hh => hh
  have a0 : ∀ᵐ ω ∂μ, HasMoments (table Ξ start ω) k.x k.P := by
    have h1 := table_mean h hm0 hs0
    have h2 := table_cross h hm0 hm0 hs0 hs0
    rw [hmean] at h1
    rw [hcov] at h2
    filter_upwards [h1, h2] with ω g1 g2
    exact ⟨g1, g2⟩
  have aec : ∀ {p : DrawStep E n m → Ω → Prop}, (∀ e ∈ steps, ∀ᵐ ω ∂μ, p e ω) → ∀ᵐ ω ∂μ, ∀ e ∈ steps, p e ω := by
    intro p hp
    have := (ae_ball_iff (μ := μ) (S := {e | e ∈ steps}) steps.finite_toSet.countable
      (p := fun ω e _ => p e ω)).2 hp
    exact this
  have a1 : ∀ᵐ ω ∂μ, ∀ e ∈ steps, Fits k.Q k.R (e.at Ξ ω) := by
    refine aec fun e he => ?_
    have g1 := table_mean h (hmeas e he) (hsq e he)
    have g2 := table_cross h (hmeas e he) (hmeas e he) (hsq e he) (hsq e he)
    have g3 := hfit e he
    cases e with
    | predict w =>
      rw [show meanVec (DrawStep.predict w : DrawStep E n m).draw ν = 0 from g3.1] at g1
      rw [show covMat (DrawStep.predict w : DrawStep E n m).draw (DrawStep.predict w : DrawStep E n m).draw ν = k.Q from g3.2] at g2
      filter_upwards [g1, g2] with ω g1 g2
      exact ⟨g1, g2⟩
    | update z R v =>
      rw [show meanVec (DrawStep.update z R v : DrawStep E n m).draw ν = 0 from g3.2.1] at g1
      rw [show covMat (DrawStep.update z R v : DrawStep E n m).draw (DrawStep.update z R v : DrawStep E n m).draw ν =
        R.resolve k.R from g3.2.2] at g2
      filter_upwards [g1, g2] with ω g1 g2
      exact ⟨g3.1, g1, g2⟩
    | missing => exact Eventually.of_forall fun _ => trivial
  have a2 : ∀ᵐ ω ∂μ, ∀ e ∈ steps, Uncorr (table Ξ start ω) (e.at Ξ ω).draw := by
    refine aec fun e he => ?_
    have g2 := table_cross h hm0 (hmeas e he) hs0 (hsq e he)
    rw [hun0 e he] at g2
    filter_upwards [g2] with ω g2
    exact hdraw0 e ω g2
  have a3 : ∀ᵐ ω ∂μ, steps.Pairwise fun e e' => Uncorr (e.at Ξ ω).draw (e'.at Ξ ω).draw := by
    have : ∀ᵐ ω ∂μ, ∀ e ∈ steps, ∀ e' ∈ steps, covMat e.draw e'.draw ν = 0 → Uncorr (e.at Ξ ω).draw (e'.at Ξ ω).draw := by
      refine aec fun e he => aec fun e' he' => ?_
      have g2 := table_cross h (hmeas e he) (hmeas e' he') (hsq e he) (hsq e' he')
      filter_upwards [g2] with ω g2 h0
      rw [h0] at g2
      exact hdraw e e' ω g2
    filter_upwards [this] with ω hω
    exact hun.imp_of_mem fun he he' h0 => hω _ he _ he' h0
  have key : ∀ᵐ ω ∂μ, ∃ (k' : KF n m l) (s' : ∀ N, EnKF n m (N + 2)), k.run expf (steps.map DrawStep.kf) = .ok k' ∧
      (∀ N, runList EnkfOp.run { EnKF.fresh k.x k.P dt hx fx (table Ξ start ω N) with R := k.R }
        (steps.map fun e => (e.at Ξ ω).op N) = .ok (s' N)) ∧ Approaches s' k' := by
    filter_upwards [a0, a1, a2, a3] with ω a0 a1 a2 a3
    have := C107_draws expf (steps.map (DrawStep.at Ξ ω))
      (fun N => { EnKF.fresh k.x k.P dt hx fx (table Ξ start ω N) with R := k.R }) k
      ⟨fun N v => hF v, fun N v => hH v, fun N => rfl, fun N => rfl, hkinv, halpha⟩
      ⟨tendsto_const_nhds, tendsto_const_nhds, a0⟩ hP hQ
      (by simpa only [List.forall_mem_map] using a1) (by rw [List.forall_mem_map]; exact a2)
      (by rw [List.pairwise_map]; exact a3)
    simpa only [List.map_map, Function.comp_def, hat] using this
  obtain ⟨ω0, k', _, hk, _⟩ := key.exists
  refine ⟨k', hk, ?_⟩
  filter_upwards [key] with ω ⟨k'', s', hk', hs', ha⟩
  rw [hk] at hk'
  obtain rfl : k' = k'' := by injection hk'
  exact ⟨s', hs', ha.x, ha.P⟩

end Independent

/-! ## A concrete case: a random walk measured with unit noise, all draws standard normal -/

/-- The coordinates of a sequence of standard normal numbers, as vectors of length one. -/
def normalDraw (i : ℕ) (e : ℕ → ℝ) : Vec 1 := fun _ => e i

/-- The steps of the example: predict, measure 3, lose a measurement, predict, measure 5. -/
def driftSteps : List (DrawStep (ℕ → ℝ) 1 1) :=
  [.predict (normalDraw 1), .update (fun _ => 3) .none (normalDraw 2), .missing, .predict (normalDraw 3),
    .update (fun _ => 5) .none (normalDraw 4)]

/-- The Kalman filter of the example. -/
noncomputable def driftKF : KF 1 1 1 := { KF.fresh 1 1 1 with H := 1 }

example : ∃ k' : KF 1 1 1, driftKF.run Real.exp (driftSteps.map DrawStep.kf) = .ok k' ∧
    ∀ᵐ ω ∂(Measure.infinitePi fun _ : ℕ => Measure.infinitePi fun _ : ℕ => gaussianReal 0 1),
      ∃ s' : ∀ N, EnKF 1 1 (N + 2),
        (∀ N, runList EnkfOp.run { EnKF.fresh driftKF.x driftKF.P 1 (fun v => v) (fun v _ => v)
          (table (fun (i : ℕ) ω => ω i) (normalDraw 0) ω N) with R := driftKF.R }
          (driftSteps.map fun e => (e.at (fun (i : ℕ) ω => ω i) ω).op N) = .ok (s' N)) ∧
        Tendsto (fun N => (s' N).x) atTop (𝓝 k'.x) ∧ Tendsto (fun N => (s' N).P) atTop (𝓝 k'.P) := by
  have hw := whiteNoise_gaussian
  have hcov : ∀ i j, covMat (normalDraw i) (normalDraw j) (Measure.infinitePi fun _ : ℕ => gaussianReal 0 1) =
      if i = j then 1 else 0 := by
    intro i j
    ext p q
    obtain rfl : p = 0 := Subsingleton.elim _ _
    obtain rfl : q = 0 := Subsingleton.elim _ _
    split_ifs with h
    · subst h; exact hw.var i
    · exact hw.uncorr i j h
  have hmean : ∀ i, meanVec (normalDraw i) (Measure.infinitePi fun _ : ℕ => gaussianReal 0 1) = 0 := by
    intro i
    ext p
    have h1 := integral_map (μ := Measure.infinitePi fun _ : ℕ => gaussianReal 0 1) (φ := Function.eval i)
      (measurable_pi_apply i).aemeasurable (f := fun x : ℝ => x) measurable_id.aestronglyMeasurable
    rw [(measurePreserving_eval_infinitePi (fun _ : ℕ => gaussianReal 0 1) i).map_eq, integral_id_gaussianReal] at h1
    exact h1.symm
  have hsq : ∀ i, SqInt (normalDraw i) (Measure.infinitePi fun _ : ℕ => gaussianReal 0 1) := fun i _ => hw.memLp i
  have hme : ∀ i, Measurable (normalDraw i) := fun i => measurable_pi_lambda _ fun _ => measurable_pi_apply i
  have hne : ∀ {i j : ℕ}, i ≠ j → covMat (normalDraw i) (normalDraw j) (Measure.infinitePi fun _ : ℕ => gaussianReal 0 1) = 0 :=
    fun h => by rw [hcov, if_neg h]
  have hself : ∀ i, covMat (normalDraw i) (normalDraw i) (Measure.infinitePi fun _ : ℕ => gaussianReal 0 1) = 1 :=
    fun i => by rw [hcov, if_pos rfl]
  have h0 : ∀ i, covMat (normalDraw i) (0 : (ℕ → ℝ) → Vec 0) (Measure.infinitePi fun _ : ℕ => gaussianReal 0 1) = 0 :=
    fun i => by ext p q; exact q.elim0
  have h0' : ∀ i, covMat (0 : (ℕ → ℝ) → Vec 0) (normalDraw i) (Measure.infinitePi fun _ : ℕ => gaussianReal 0 1) = 0 :=
    fun i => by ext p q; exact p.elim0
  refine C107_almost_surely Real.exp ⟨fun i => measurable_pi_apply i, fun i => ?_, fun i j hij => ?_⟩ driftKF rfl rfl
    PosSemidef.one 1 (fun v _ => v) (fun v => v) (fun v => (one_mulVec v).symm) (fun v => (one_mulVec v).symm)
    (normalDraw 0) (hme 0) (hsq 0) (hmean 0) (hself 0) driftSteps ?_ ?_ ?_ ?_ ?_
  · exact (measurePreserving_eval_infinitePi (fun _ : ℕ => Measure.infinitePi fun _ : ℕ => gaussianReal 0 1) i).map_eq
  · have hi : iIndepFun (fun (i : ℕ) (ω : ℕ → ℕ → ℝ) => ω i)
      (Measure.infinitePi fun _ : ℕ => Measure.infinitePi fun _ : ℕ => gaussianReal 0 1) :=
      iIndepFun_infinitePi (X := fun _ ω => ω) (by fun_prop)
    exact hi.indepFun hij
  · simp only [driftSteps, List.forall_mem_cons, List.not_mem_nil, false_imp_iff, implies_true, and_true]
    exact ⟨hme 1, hme 2, measurable_const, hme 3, hme 4⟩
  · simp only [driftSteps, List.forall_mem_cons, List.not_mem_nil, false_imp_iff, implies_true, and_true]
    exact ⟨hsq 1, hsq 2, fun i => i.elim0, hsq 3, hsq 4⟩
  · simp only [driftSteps, List.forall_mem_cons, List.not_mem_nil, false_imp_iff, implies_true, and_true]
    exact ⟨⟨hmean 1, hself 1⟩, ⟨PosDef.one, hmean 2, hself 2⟩, trivial, ⟨hmean 3, hself 3⟩, PosDef.one, hmean 4, hself 4⟩
  · simp only [driftSteps, List.forall_mem_cons, List.not_mem_nil, false_imp_iff, implies_true, and_true]
    exact ⟨hne (by decide), hne (by decide), h0 0, hne (by decide), hne (by decide)⟩
  · simp only [driftSteps, List.pairwise_cons, List.forall_mem_cons, List.not_mem_nil, false_imp_iff, implies_true, and_true,
      List.Pairwise.nil]
    exact ⟨⟨hne (by decide), h0 1, hne (by decide), hne (by decide)⟩, ⟨h0 2, hne (by decide), hne (by decide)⟩,
      ⟨h0' 3, h0' 4⟩, hne (by decide)⟩

end Filterpy
