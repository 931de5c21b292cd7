import Verif.Model.Cubature
import Verif.Props.UKF

/-!
# C25: the cubature filter
-/

namespace Filterpy

open Matrix Spec

variable {n m l : ℕ}

/-- Equal weights `1/k`. -/
noncomputable def eqW (k : ℕ) : Vec k := fun _ => 1 / (k : ℝ)

theorem sum_eqW {k : ℕ} (hk : 0 < k) : ∑ i, eqW k i = 1 := by
  have : (k : ℝ) ≠ 0 := by positivity
  simp [eqW, Finset.sum_const, this]

theorem outerSum_eq {N n m : ℕ} (A : Mat N n) (B : Mat N m) :
    outerSum A B = ∑ i, vecMulVec (A i) (B i) := by
  ext a b
  simp [outerSum, Helpers.einsumOuter, Matrix.sum_apply, vecMulVec_apply]

/-- `outer_product_sum` with arrays of different widths. -/
theorem C58_outer_product_sum_rect {N n m : ℕ} (A : Mat N n) (B : Mat N m) :
    outerSum A B = Aᵀ * B ∧ outerSum A B = ∑ i, vecMulVec (A i) (B i) := by
  refine ⟨?_, outerSum_eq A B⟩
  ext a b
  simp [outerSum, Helpers.einsumOuter, mul_apply]

theorem ckf_fold {k n : ℕ} (Xs : Mat k n) (x : Vec n) :
    (List.finRange k).foldl (ckfStep Xs x) 0
      = ∑ i, (vecMulVec (Xs i) (Xs i) - vecMulVec x x) := by
  have h : ∀ (l : List (Fin k)) (A : Mat n n), l.foldl (ckfStep Xs x) A
      = A + (l.map fun i => vecMulVec (Xs i) (Xs i) - vecMulVec x x).sum := by
    intro l
    induction l with
    | nil => intro A; simp
    | cons a l ih =>
      intro A
      rw [List.foldl_cons, ih, List.map_cons, List.sum_cons]
      unfold ckfStep
      abel
  rw [h, zero_add, ← List.ofFn_eq_map, List.sum_ofFn]

/-- `ckf_transform` returns the mean and the covariance of the points, plus the noise. -/
theorem C25_transform {k n : ℕ} (hk : 0 < k) (Xs : Mat k n) (Q : Mat n n) :
    ckfTransform Xs Q = (WMean (eqW k) Xs, WCov (eqW k) Xs (WMean (eqW k) Xs) + Q) := by
  have hk' : (k : ℝ) ≠ 0 := by positivity
  have hm : (fun j => (∑ i, Xs i j) / k) = WMean (eqW k) Xs := by
    funext j
    simp only [WMean, eqW, Finset.sum_apply, Pi.smul_apply, smul_eq_mul, ← Finset.mul_sum]
    ring
  unfold ckfTransform
  simp only [hm, ckf_fold]
  refine Prod.ext rfl ?_
  show _ + Q = _ + Q
  congr 1
  set x := WMean (eqW k) Xs with hx
  ext a b
  have hs : ∀ j, ∑ i, Xs i j = k * x j := by
    intro j
    rw [← hm]
    field_simp
  rw [Matrix.smul_apply, Matrix.sum_apply]
  simp only [Matrix.sub_apply, vecMulVec_apply]
  simp only [WCov, eqW, smul_eq_mul, ← Finset.mul_sum, Finset.sum_sub_distrib, Finset.sum_const, Finset.card_univ,
    Fintype.card_fin, nsmul_eq_mul]
  congr 1
  have e : ∀ i, (Xs i a - x a) * (Xs i b - x b)
      = Xs i a * Xs i b - Xs i a * x b - x a * Xs i b + x a * x b := fun i => by ring
  simp only [e, Finset.sum_add_distrib, Finset.sum_sub_distrib, ← Finset.sum_mul, ← Finset.mul_sum, hs,
    Finset.sum_const, Finset.card_univ, Fintype.card_fin, nsmul_eq_mul]
  ring

theorem sum_two_mul {M : Type*} [AddCommMonoid M] (g : ℕ → M) (n : ℕ) :
    ∑ i : Fin (2 * n), g i = ∑ k : Fin n, (g k + g (n + k)) := by
  rw [Fin.sum_univ_eq_sum_range (fun i => g i) (2 * n), two_mul, Finset.sum_range_add,
    Finset.sum_add_distrib, Fin.sum_univ_eq_sum_range (fun i => g i) n,
    Fin.sum_univ_eq_sum_range (fun i => g (n + i)) n]

def radialRow (x : Vec n) (U : Mat n n) (i : ℕ) : Vec n :=
  if i < n then x + rowOf U i else x - rowOf U (i - n)

/-- **C25 (points).**  The cubature points of `(x, P)` have mean `x` and covariance `P`. -/
theorem C25_points (hn : 0 < n) (chol : Mat n n → Except Err (Mat n n)) (hc : IsCholUpper chol)
    (x : Vec n) (P : Mat n n) (hP : P.PosDef) :
    ∃ s, sphericalRadialSigmas chol x P = .ok s ∧ WMean (eqW (2 * n)) s = x ∧
      WCov (eqW (2 * n)) s x = P ∧ ckfTransform s 0 = (x, P) := by
  obtain ⟨C, hC, hCC⟩ := hc P hP
  have hn' : (n : ℝ) ≠ 0 := by positivity
  set U : Mat n n := Real.sqrt n • C with hU
  have hUU : Uᵀ * U = (n : ℝ) • P := by
    rw [hU, transpose_smul, Matrix.smul_mul, Matrix.mul_smul, hCC, smul_smul,
      Real.mul_self_sqrt (by positivity)]
  have hrow : ∀ i : Fin (2 * n), (if h : (i : ℕ) < n then x + U ⟨i, h⟩ else x - U ⟨i - n, by omega⟩)
      = radialRow x U i := by
    intro i
    unfold radialRow rowOf
    by_cases h : (i : ℕ) < n
    · simp only [h, dif_pos, if_true]
    · simp only [h, dif_neg, not_false_iff, if_false]
      rw [dif_pos (show (i : ℕ) - n < n by omega)]
  have hup : ∀ k : Fin n, radialRow x U k = x + U k := by
    intro k; unfold radialRow; rw [if_pos k.2, rowOf_fin]
  have hdn : ∀ k : Fin n, radialRow x U (n + k) = x - U k := by
    intro k
    unfold radialRow
    rw [if_neg (by omega), Nat.add_sub_cancel_left, rowOf_fin]
  have hs : sphericalRadialSigmas chol x P = .ok (rows fun i => radialRow x U i) := by
    simp only [sphericalRadialSigmas, hC]
    congr 1
    funext i
    exact hrow i
  have hm : WMean (eqW (2 * n)) (rows fun i => radialRow x U i) = x := by
    unfold WMean eqW rows
    rw [sum_two_mul (fun i => (1 / ((2 * n : ℕ) : ℝ)) • radialRow x U i)]
    simp only [hup, hdn, ← smul_add, add_add_sub_cancel, ← two_smul ℝ x, smul_smul, Finset.sum_const,
      Finset.card_univ, Fintype.card_fin]
    rw [← Nat.cast_smul_eq_nsmul ℝ, smul_smul]
    have : (n : ℝ) * (1 / ((2 * n : ℕ) : ℝ) * 2) = 1 := by push_cast; field_simp
    rw [this, one_smul]
  have hcov : WCov (eqW (2 * n)) (rows fun i => radialRow x U i) x = P := by
    rw [wcov_eq]
    unfold eqW rows
    rw [sum_two_mul (fun i => (1 / ((2 * n : ℕ) : ℝ)) •
      vecMulVec (radialRow x U i - x) (radialRow x U i - x))]
    simp only [hup, hdn, add_sub_cancel_left, sub_sub_cancel_left]
    have : ∀ k : Fin n, (1 / ((2 * n : ℕ) : ℝ)) • vecMulVec (U k) (U k)
        + (1 / ((2 * n : ℕ) : ℝ)) • vecMulVec (-U k) (-U k) = (1 / (n : ℝ)) • vecMulVec (U k) (U k) := by
      intro k
      rw [neg_vecMulVec, vecMulVec_neg, neg_neg, ← add_smul]
      congr 1
      push_cast; field_simp; norm_num
    simp only [this, ← Finset.smul_sum, sum_outer_rows, hUU, smul_smul]
    rw [one_div, inv_mul_cancel₀ hn', one_smul]
  refine ⟨_, hs, hm, hcov, ?_⟩
  rw [C25_transform (by omega), hm, hcov, add_zero]

theorem ckf_affine {k n m : ℕ} (hk : 0 < k) (s : Mat k n) {x : Vec n} {P : Mat n n}
    (hm : WMean (eqW k) s = x) (hc : WCov (eqW k) s x = P) (A : Mat m n) (N : Mat m m) :
    ckfTransform (rows fun i => A *ᵥ s i) N = (A *ᵥ x, A * P * Aᵀ + N) ∧
    WMean (eqW k) (rows fun i => A *ᵥ s i) = A *ᵥ x ∧
    WCov (eqW k) (rows fun i => A *ᵥ s i) (A *ᵥ x) = A * P * Aᵀ := by
  have e : (rows fun i => A *ᵥ s i) = mapRows (fun v => A *ᵥ v + 0) s := by
    funext i; simp [mapRows, rows]
  have h1 : WMean (eqW k) (rows fun i => A *ᵥ s i) = A *ᵥ x := by
    rw [e, wmean_affine s _ (sum_eqW hk), hm, add_zero]
  have h2 : WCov (eqW k) (rows fun i => A *ᵥ s i) (A *ᵥ x) = A * P * Aᵀ := by
    have := wcov_affine s (eqW k) x A 0
    rw [add_zero] at this
    rw [e, this, hc]
  exact ⟨by rw [C25_transform hk, h1, h2], h1, h2⟩

theorem ckf_cross {k n m : ℕ} (s : Mat k n) {x : Vec n} {P : Mat n n}
    (hc : WCov (eqW k) s x = P) (A : Mat m n) :
    ((1 : ℝ) / k) • outerSum (rows fun i => s i - x) (rows fun i => A *ᵥ s i - A *ᵥ x)
      = P * Aᵀ := by
  rw [outerSum_eq, ← hc, wcov_eq, Matrix.sum_mul, Finset.smul_sum]
  refine Finset.sum_congr rfl fun i _ => ?_
  rw [Matrix.smul_mul, vecMulVec_mul, vecMul_transpose, mulVec_sub]
  rfl

/-- The configuration of a linear `CubatureKalmanFilter`. -/
structure LinearCkf (F : ℝ → Mat n n) (H : Mat m n) (s : CKF n m) : Prop where
  fx : s.fx = fun v t => F t *ᵥ v
  hx : s.hx = fun v => H *ᵥ v
  resZ : s.residualZ = none

/-- `predict` on a linear system. -/
theorem ckf_predict (hn : 0 < n) {chol : Mat n n → Except Err (Mat n n)} (hc : IsCholUpper chol)
    {F : ℝ → Mat n n} {H : Mat m n} {s : CKF n m} (hl : LinearCkf F H s) (hP : s.P.PosDef)
    (dt : Option ℝ) :
    ∃ sf, s.predict chol dt = .ok { s with
        sigmasF := sf
        x := F (dt.getD s.dt) *ᵥ s.x
        P := F (dt.getD s.dt) * s.P * (F (dt.getD s.dt))ᵀ + s.Q
        xPrior := F (dt.getD s.dt) *ᵥ s.x
        PPrior := F (dt.getD s.dt) * s.P * (F (dt.getD s.dt))ᵀ + s.Q } ∧
      WMean (eqW (2 * n)) sf = F (dt.getD s.dt) *ᵥ s.x ∧
      WCov (eqW (2 * n)) sf (F (dt.getD s.dt) *ᵥ s.x)
        = F (dt.getD s.dt) * s.P * (F (dt.getD s.dt))ᵀ := by
  obtain ⟨σ, hσ, hm, hcv, -⟩ := C25_points hn chol hc s.x s.P hP
  obtain ⟨h1, h2, h3⟩ := ckf_affine (by omega) σ hm hcv (F (dt.getD s.dt)) s.Q
  refine ⟨_, ?_, h2, h3⟩
  simp only [CKF.predict, hσ, hl.fx, h1]

/-- `update` on a linear system, when the stored points have mean `x` and covariance `C`. -/
theorem ckf_update (hn : 0 < n) {F : ℝ → Mat n n} {H : Mat m n} {s : CKF n m} (hl : LinearCkf F H s)
    {C : Mat n n} (hC : C.PosSemidef) (hm : WMean (eqW (2 * n)) s.sigmasF = s.x)
    (hcv : WCov (eqW (2 * n)) s.sigmasF s.x = C) (z : Vec m) (R : MatArg m)
    (hR : (R.resolve s.R).PosDef) :
    ∃ sh, s.update (some (.col z)) R = .ok { s with
        sigmasH := sh
        S := H * (C * Hᵀ) + R.resolve s.R
        SI := (H * (C * Hᵀ) + R.resolve s.R)⁻¹
        K := C * Hᵀ * (H * (C * Hᵀ) + R.resolve s.R)⁻¹
        y := z - H *ᵥ s.x
        x := s.x + (C * Hᵀ * (H * (C * Hᵀ) + R.resolve s.R)⁻¹) *ᵥ (z - H *ᵥ s.x)
        P := s.P - C * Hᵀ * (H * (C * Hᵀ) + R.resolve s.R)⁻¹ * (H * (C * Hᵀ) + R.resolve s.R) *
          (C * Hᵀ * (H * (C * Hᵀ) + R.resolve s.R)⁻¹)ᵀ
        z := fun i => some (z i)
        xPost := s.x + (C * Hᵀ * (H * (C * Hᵀ) + R.resolve s.R)⁻¹) *ᵥ (z - H *ᵥ s.x)
        PPost := s.P - C * Hᵀ * (H * (C * Hᵀ) + R.resolve s.R)⁻¹ * (H * (C * Hᵀ) + R.resolve s.R) *
          (C * Hᵀ * (H * (C * Hᵀ) + R.resolve s.R)⁻¹)ᵀ
        logLik := none, lik := none, mahal := none, yArray := true } := by
  have hS : (H * (C * Hᵀ) + R.resolve s.R).PosDef := S_pd hC hR
  have hSi := npInv_of_det_ne (PD.det_ne hS)
  obtain ⟨h1, -, -⟩ := ckf_affine (by omega) s.sigmasF hm hcv H (R.resolve s.R)
  have h2 : ((1 : ℝ) / (2 * n : ℕ)) • outerSum (rows fun k => s.sigmasF k - s.x)
      (rows fun k => rows (fun k => H *ᵥ s.sigmasF k) k - H *ᵥ s.x) = C * Hᵀ :=
    ckf_cross s.sigmasF hcv H
  rw [Matrix.mul_assoc] at h1
  refine ⟨rows fun k => H *ᵥ s.sigmasF k, ?_⟩
  simp only [CKF.update, hl.hx, hl.resZ, h1, hSi, h2, Option.getD_none]

/-- **C25 (one cycle, any process noise).**  `predict(dt)` followed by a measurement gives the Kalman
filter's result for *zero* process noise, with `Q` added to the covariance afterwards: the cubature points
are not redrawn after the prediction, so the innovation covariance and the gain do not see `Q`. -/
theorem C25_cycle_partial (hn : 0 < n) {chol : Mat n n → Except Err (Mat n n)} (hc : IsCholUpper chol)
    {F : ℝ → Mat n n} {H : Mat m n} {s : CKF n m} (hl : LinearCkf F H s) (hP : s.P.PosDef)
    (dt : Option ℝ) (z : Vec m) (R : MatArg m) (hR : (R.resolve s.R).PosDef)
    (k : KF n m l) (hx : k.x = s.x) (hkP : k.P = s.P) (hH : k.H = H) (hkR : k.R = s.R)
    (ha : k.alphaSq = 1) (hinv : k.inv = npInv) (hB : k.B = none) :
    ∃ s1 s2 k1 k2, s.predict chol dt = .ok s1 ∧ s1.update (some (.col z)) R = .ok s2 ∧
      k.predict .none none (some (F (dt.getD s.dt))) (.mat 0) = .ok k1 ∧
      k1.update (some z) R none = .ok k2 ∧
      s1.x = k1.x ∧ s1.P = k1.P + s.Q ∧ s2.x = k2.x ∧ s2.P = k2.P + s.Q ∧ s2.S = k2.S ∧ s2.K = k2.K ∧
      s2.y = k2.y := by
  obtain ⟨sf, h1, hm, hcv⟩ := ckf_predict hn hc hl hP dt
  have hC : (F (dt.getD s.dt) * s.P * (F (dt.getD s.dt))ᵀ).PosSemidef := PSD.congr hP.posSemidef _
  set s1 : CKF n m := { s with
        sigmasF := sf
        x := F (dt.getD s.dt) *ᵥ s.x
        P := F (dt.getD s.dt) * s.P * (F (dt.getD s.dt))ᵀ + s.Q
        xPrior := F (dt.getD s.dt) *ᵥ s.x
        PPrior := F (dt.getD s.dt) * s.P * (F (dt.getD s.dt))ᵀ + s.Q } with hs1
  obtain ⟨sh, h2⟩ := ckf_update hn (s := s1) (F := F) (H := H) ⟨hl.fx, hl.hx, hl.resZ⟩ hC hm hcv z R hR
  have hk1 : k.predict .none none (some (F (dt.getD s.dt))) (.mat 0) = .ok { k with
      x := F (dt.getD s.dt) *ᵥ s.x
      P := F (dt.getD s.dt) * s.P * (F (dt.getD s.dt))ᵀ
      xPrior := F (dt.getD s.dt) *ᵥ s.x
      PPrior := F (dt.getD s.dt) * s.P * (F (dt.getD s.dt))ᵀ } := by
    simp only [KF.predict, KF.control, MatArg.resolve, ha, one_smul, Option.getD_some, hB, Option.or, hx,
      hkP, add_zero]
  set k1 : KF n m l := { k with
      x := F (dt.getD s.dt) *ᵥ s.x
      P := F (dt.getD s.dt) * s.P * (F (dt.getD s.dt))ᵀ
      xPrior := F (dt.getD s.dt) *ᵥ s.x
      PPrior := F (dt.getD s.dt) * s.P * (F (dt.getD s.dt))ᵀ } with hk1d
  have hS : (H * (F (dt.getD s.dt) * s.P * (F (dt.getD s.dt))ᵀ * Hᵀ) + R.resolve s.R).PosDef := S_pd hC hR
  have hk2 : ∃ k2, k1.update (some z) R none = .ok k2 := by
    have e : k1.H = H := hH
    have e' : k1.R = s.R := hkR
    have e'' : k1.inv = npInv := hinv
    simp only [KF.update, Option.getD_none, e, e', e'']
    rw [npInv_of_det_ne (PD.det_ne hS)]
    exact ⟨_, rfl⟩
  obtain ⟨k2, hk2⟩ := hk2
  obtain ⟨SI, g1, rfl⟩ := KF.update_ok hk2
  have e : k1.H = H := hH
  have e' : k1.R = s.R := hkR
  have e'' : k1.inv = npInv := hinv
  rw [e''] at g1
  simp only [Option.getD_none, e, e'] at g1
  have hJ := joseph_opt (P := F (dt.getD s.dt) * s.P * (F (dt.getD s.dt))ᵀ) (H := H) (R := R.resolve s.R)
    (PSD.symm hC) rfl (nonsing_inv_mul _ (PD.isUnit_det hS)) (inv_symm (PD.symm hS)) rfl
  have g2 : SI = (H * (F (dt.getD s.dt) * s.P * (F (dt.getD s.dt))ᵀ * Hᵀ) + R.resolve s.R)⁻¹ :=
    (npInv_eq_some.1 g1).2
  refine ⟨s1, _, k1, _, h1, h2, hk1, hk2, rfl, rfl, ?_, ?_, ?_, ?_, ?_⟩
  · simp only [Option.getD_none, e, e', g2]; rfl
  · simp only [Option.getD_none, e, e', g2]
    have : ({ k1 with P := k1.P } : KF n m l).P
        = F (dt.getD s.dt) * s.P * (F (dt.getD s.dt))ᵀ := rfl
    show F (dt.getD s.dt) * s.P * (F (dt.getD s.dt))ᵀ + s.Q - _ = _
    rw [show k1.P = F (dt.getD s.dt) * s.P * (F (dt.getD s.dt))ᵀ from rfl, hJ]
    show F (dt.getD s.dt) * s.P * (F (dt.getD s.dt))ᵀ + s.Q - _ = _ - _ + s.Q
    abel_nf
    rfl
  · simp only [Option.getD_none, e, e']; rfl
  · simp only [Option.getD_none, e, e', g2]; rfl
  · simp only [Option.getD_none, e]; rfl

/-! ### Histories without process noise -/

/-- A call: `predict(dt)`, or `update(z, R)` with `z` a column or `None`. -/
inductive CkfOp (m : ℕ)
  | predict (dt : Option ℝ)
  | update (z : Option (Vec m)) (R : MatArg m)

noncomputable def CkfOp.onCkf (chol : Mat n n → Except Err (Mat n n)) (s : CKF n m) :
    CkfOp m → Exec (CKF n m)
  | .predict dt => s.predict chol dt
  | .update z R => s.update (z.map .col) R

noncomputable def CkfOp.onKf (F : ℝ → Mat n n) (dt0 : ℝ) (s : KF n m l) : CkfOp m → Exec (KF n m l)
  | .predict dt => s.predict .none none (some (F (dt.getD dt0)))
  | .update z R => s.update z R none

/-- At most one measurement between two predictions, and a prediction before the first. -/
def CkfOp.Alternating : Bool → List (CkfOp m) → Prop
  | _, [] => True
  | _, .predict _ :: ops => Alternating true ops
  | b, .update none _ :: ops => Alternating b ops
  | b, .update (some _) _ :: ops => b = true ∧ Alternating false ops

def CkfOp.GoodR (R0 : Mat m m) : CkfOp m → Prop
  | .update (some _) R => (R.resolve R0).PosDef
  | _ => True

/-- What is compared. -/
structure CkfSame (s : CKF n m) (k : KF n m l) : Prop where
  x : s.x = k.x
  P : s.P = k.P
  xPrior : s.xPrior = k.xPrior
  PPrior : s.PPrior = k.PPrior
  xPost : s.xPost = k.xPost
  PPost : s.PPost = k.PPost
  z : s.z = k.z
  K : s.K = k.K
  S : s.S = k.S
  SI : s.SI = k.SI

structure CkfInv (F : ℝ → Mat n n) (dt0 : ℝ) (b : Bool) (s : CKF n m) (k : KF n m l) : Prop where
  lin : LinearCkf F k.H s
  same : CkfSame s k
  Q : s.Q = 0
  kQ : k.Q = 0
  R : s.R = k.R
  alpha : k.alphaSq = 1
  inv : k.inv = npInv
  dt : s.dt = dt0
  pd : k.P.PosDef
  ready : b = true → WMean (eqW (2 * n)) s.sigmasF = s.x ∧ WCov (eqW (2 * n)) s.sigmasF s.x = s.P

theorem ckf_predict_step (hn : 0 < n) {chol : Mat n n → Except Err (Mat n n)} (hc : IsCholUpper chol)
    {F : ℝ → Mat n n} (hF : ∀ t, (F t).det ≠ 0) {dt0 : ℝ} {b : Bool} {s : CKF n m} {k : KF n m l}
    (h : CkfInv F dt0 b s k) (dt : Option ℝ) :
    ∃ s' k', (CkfOp.predict dt).onCkf chol s = .ok s' ∧ (CkfOp.predict dt).onKf F dt0 k = .ok k' ∧
      CkfInv F dt0 true s' k' ∧ k'.R = k.R := by
  obtain ⟨sf, h1, hm, hcv⟩ := ckf_predict hn hc h.lin (by rw [h.same.P]; exact h.pd) dt
  have hpd := pred_pd (F := F) (Q := 0) (Or.inr ⟨PosSemidef.zero, hF⟩) h.pd (dt.getD dt0)
  have hk : (CkfOp.predict dt).onKf F dt0 k = .ok { k with
      x := F (dt.getD dt0) *ᵥ k.x
      P := F (dt.getD dt0) * k.P * (F (dt.getD dt0))ᵀ + 0
      xPrior := F (dt.getD dt0) *ᵥ k.x
      PPrior := F (dt.getD dt0) * k.P * (F (dt.getD dt0))ᵀ + 0 } := by
    simp only [CkfOp.onKf, KF.predict, KF.control, MatArg.resolve, h.alpha, one_smul,
      Option.getD_some, Option.or, h.kQ]
    cases k.B <;> rfl
  rw [h.dt, h.same.x, h.same.P, h.Q] at h1
  rw [h.dt, h.same.x] at hm
  rw [h.dt, h.same.x, h.same.P] at hcv
  refine ⟨_, _, h1, hk, ?_, rfl⟩
  exact
    { lin := ⟨h.lin.fx, h.lin.hx, h.lin.resZ⟩
      same := { h.same with x := rfl, P := rfl, xPrior := rfl, PPrior := rfl }
      Q := rfl, kQ := h.kQ, R := h.R, alpha := h.alpha, inv := h.inv, dt := rfl
      pd := hpd
      ready := fun _ => ⟨hm, by rw [hcv]; exact (add_zero _).symm⟩ }

theorem ckf_update_step (hn : 0 < n)
    {F : ℝ → Mat n n} {dt0 : ℝ} {s : CKF n m} {k : KF n m l}
    (h : CkfInv F dt0 true s k) (z : Vec m) (R : MatArg m) (hR : (R.resolve k.R).PosDef)
    (chol : Mat n n → Except Err (Mat n n)) :
    ∃ s' k', (CkfOp.update (some z) R).onCkf chol s = .ok s' ∧
      (CkfOp.update (some z) R).onKf F dt0 k = .ok k' ∧ CkfInv F dt0 false s' k' ∧ k'.R = k.R := by
  obtain ⟨hm, hcv⟩ := h.ready rfl
  rw [h.same.P] at hcv
  obtain ⟨sh, h1⟩ := ckf_update hn h.lin h.pd.posSemidef hm hcv z R (by rw [h.R]; exact hR)
  obtain ⟨k', hk', hpd', -⟩ := C02_bayes_product k z R none h.inv h.pd hR
  obtain ⟨SI, g1, rfl⟩ := KF.update_ok hk'
  have hS : (k.H * (k.P * k.Hᵀ) + R.resolve k.R).PosDef := S_pd h.pd.posSemidef hR
  rw [h.inv] at g1
  have g2 : SI = (k.H * (k.P * k.Hᵀ) + R.resolve k.R)⁻¹ := (npInv_eq_some.1 g1).2
  subst g2
  have hJ := joseph_opt (P := k.P) (H := k.H) (R := R.resolve k.R) (PD.symm h.pd) rfl
    (nonsing_inv_mul _ (PD.isUnit_det hS)) (inv_symm (PD.symm hS)) rfl
  rw [h.same.x, h.same.P, h.R] at h1
  refine ⟨_, _, h1, hk', ?_, rfl⟩
  exact
    { lin := ⟨h.lin.fx, h.lin.hx, h.lin.resZ⟩
      same := { h.same with
        x := rfl, P := hJ.symm, xPost := rfl, PPost := hJ.symm, z := rfl, K := rfl, S := rfl, SI := rfl }
      Q := h.Q, kQ := h.kQ, R := rfl, alpha := h.alpha, inv := h.inv, dt := h.dt
      pd := hpd'
      ready := by simp }

/-- **C25 (partial).**  Without process noise, a linear cubature filter and the corresponding Kalman
filter agree after every alternating history.  Missing: process noise, for which the code's gain is that
of a filter without it (`C25_cycle_partial`, `C25_process_noise_refuted`). -/
theorem C25_linear_partial (hn : 0 < n) (chol : Mat n n → Except Err (Mat n n)) (hc : IsCholUpper chol)
    (F : ℝ → Mat n n) (hF : ∀ t, (F t).det ≠ 0) (s : CKF n m) (k : KF n m l)
    (hl : LinearCkf F k.H s) (h0 : CkfSame s k) (hQ : s.Q = 0) (hkQ : k.Q = 0) (hRR : s.R = k.R)
    (ha : k.alphaSq = 1) (hinv : k.inv = npInv) (hP : k.P.PosDef)
    (ops : List (CkfOp m)) (halt : CkfOp.Alternating false ops) (hR : ∀ op ∈ ops, op.GoodR k.R) :
    ∃ s' k', runList (CkfOp.onCkf chol) s ops = .ok s' ∧ runList (CkfOp.onKf F s.dt) k ops = .ok k' ∧
      CkfSame s' k' := by
  have main : ∀ (ops : List (CkfOp m)) (b : Bool) (s : CKF n m) (k : KF n m l) (dt0 : ℝ),
      CkfInv F dt0 b s k → CkfOp.Alternating b ops → (∀ op ∈ ops, op.GoodR k.R) →
      ∃ s' k', runList (CkfOp.onCkf chol) s ops = .ok s' ∧ runList (CkfOp.onKf F dt0) k ops = .ok k' ∧
        CkfSame s' k' := by
    intro ops
    induction ops with
    | nil => intro b s k dt0 h _ _; exact ⟨s, k, rfl, rfl, h.same⟩
    | cons op ops ih =>
      intro b s k dt0 h ha hR
      have hR' : ∀ op ∈ ops, op.GoodR k.R := fun o ho => hR o (by simp [ho])
      have go : ∀ (b1 : Bool) (s1 : CKF n m) (k1 : KF n m l), op.onCkf chol s = .ok s1 →
          op.onKf F dt0 k = .ok k1 → CkfInv F dt0 b1 s1 k1 → k1.R = k.R →
          CkfOp.Alternating b1 ops → ∃ s' k', runList (CkfOp.onCkf chol) s (op :: ops) = .ok s' ∧
            runList (CkfOp.onKf F dt0) k (op :: ops) = .ok k' ∧ CkfSame s' k' := by
        intro b1 s1 k1 h1 h2 h3 h4 h5
        obtain ⟨s', k', g1, g2, g3⟩ := ih b1 s1 k1 dt0 h3 h5 (by rw [h4]; exact hR')
        exact ⟨s', k', by simp only [runList, h1, g1], by simp only [runList, h2, g2], g3⟩
      match op, ha, hR, go with
      | .predict dt, ha, hR, go =>
        obtain ⟨s1, k1, h1, h2, h3, h4⟩ := ckf_predict_step hn hc hF h dt
        exact go true s1 k1 h1 h2 h3 h4 ha
      | .update none R, ha, hR, go =>
        refine go b _ _ rfl rfl ?_ rfl ha
        exact
          { lin := ⟨h.lin.fx, h.lin.hx, h.lin.resZ⟩
            same := { h.same with z := rfl, xPost := h.same.x, PPost := h.same.P }
            Q := h.Q, kQ := h.kQ, R := h.R, alpha := h.alpha, inv := h.inv, dt := h.dt
            pd := h.pd, ready := h.ready }
      | .update (some z) R, ha, hR, go =>
        obtain ⟨hb, ha'⟩ := ha
        subst hb
        obtain ⟨s1, k1, h1, h2, h3, h4⟩ := ckf_update_step hn h z R
          (hR (.update (some z) R) (by simp)) chol
        exact go false s1 k1 h1 h2 h3 h4 ha'
  exact main ops false s k s.dt ⟨hl, h0, hQ, hkQ, hRR, ha, hinv, rfl, hP, by simp⟩ halt hR

/-- Non-vacuity: a constant velocity tracker. -/
example (chol : Mat 2 2 → Except Err (Mat 2 2)) (hc : IsCholUpper chol) (z : Vec 1) :
    let F : ℝ → Mat 2 2 := fun t => !![1, t; 0, 1]
    let H : Mat 1 2 := !![1, 0]
    ∃ s' k', runList (CkfOp.onCkf chol)
        { CKF.fresh 2 1 0.1 (fun v => H *ᵥ v) (fun v t => F t *ᵥ v) with Q := 0 }
        [.predict none, .update (some z) .none, .predict (some 2), .update none .none,
          .update (some z) (.scalar 2)] = .ok s' ∧
      runList (CkfOp.onKf F 0.1) { KF.fresh 2 1 0 with H := H, Q := 0 }
        [.predict none, .update (some z) .none, .predict (some 2), .update none .none,
          .update (some z) (.scalar 2)] = .ok k' ∧ CkfSame s' k' := by
  intro F H
  refine C25_linear_partial (by norm_num) chol hc F (by intro t; simp [F, det_fin_two])
    { CKF.fresh 2 1 0.1 (fun v => H *ᵥ v) (fun v t => F t *ᵥ v) with Q := 0 }
    { KF.fresh 2 1 0 with H := H, Q := 0 } ⟨rfl, rfl, rfl⟩ (by constructor <;> rfl) rfl rfl rfl rfl rfl
    PosDef.one _ (by simp [CkfOp.Alternating]) ?_
  intro op hop
  simp only [List.mem_cons, List.not_mem_nil, or_false] at hop
  rcases hop with rfl | rfl | rfl | rfl | rfl <;>
    simp [CkfOp.GoodR, MatArg.resolve, KF.fresh, PosDef.one, PosDef.one.smul]

/-- **C25 (refuted with process noise).**  A random walk with unit noises, started at `x = 0, P = 1`: after
one prediction and one measurement of 1 the Kalman filter holds `x = 2/3, P = 2/3`, the cubature filter
`x = 1/2, P = 3/2`. -/
theorem C25_process_noise_refuted (chol : Mat 1 1 → Except Err (Mat 1 1)) (hc : IsCholUpper chol) :
    ∃ s' k', runList (CkfOp.onCkf chol)
        (CKF.fresh 1 1 1 (fun v => (1 : Mat 1 1) *ᵥ v) (fun v _ => (1 : Mat 1 1) *ᵥ v))
        [.predict none, .update (some 1) .none] = .ok s' ∧
      runList (CkfOp.onKf (fun _ => 1) 1) { KF.fresh 1 1 0 with H := 1 }
        [.predict none, .update (some 1) .none] = .ok k' ∧
      s'.x 0 = 1 / 2 ∧ s'.P 0 0 = 3 / 2 ∧ k'.x 0 = 2 / 3 ∧ k'.P 0 0 = 2 / 3 := by
  have e2 : (1 : Mat 1 1) * (1 * (1 : Mat 1 1)ᵀ) + 1 = (2 : ℝ) • 1 := by
    ext i j; fin_cases i; fin_cases j; simp; norm_num
  have hi : ∀ c : ℝ, 0 < c → (c • (1 : Mat 1 1))⁻¹ = c⁻¹ • 1 := by
    intro c hc
    apply inv_eq_right_inv
    ext i j; fin_cases i; fin_cases j; simp [hc.ne']
  obtain ⟨s1, s2, k1, k2, h1, h2, h3, h4, hx1, hP1, hx2, hP2, -⟩ := C25_cycle_partial (l := 0)
    (by norm_num) hc
    (F := fun _ => 1) (H := 1)
    (s := CKF.fresh 1 1 1 (fun v => (1 : Mat 1 1) *ᵥ v) (fun v _ => (1 : Mat 1 1) *ᵥ v))
    ⟨rfl, rfl, rfl⟩ PosDef.one none 1 .none PosDef.one { KF.fresh 1 1 0 with H := 1 }
    rfl rfl rfl rfl rfl rfl rfl
  have hk1 : k1 = { KF.fresh 1 1 0 with
      H := 1, x := (1 : Mat 1 1) *ᵥ 0, P := (1 : ℝ) • (1 * 1 * (1 : Mat 1 1)ᵀ) + 0
      xPrior := (1 : Mat 1 1) *ᵥ 0, PPrior := (1 : ℝ) • (1 * 1 * (1 : Mat 1 1)ᵀ) + 0 } :=
    (Except.ok.inj h3).symm
  obtain ⟨k2', g1, g2, g3, g4, g5, g6, -⟩ := update_pd k1 1 .none none (by rw [hk1]; rfl)
    (by rw [hk1]; simpa using PosDef.one) (by rw [hk1]; exact PosDef.one)
  obtain rfl : k2 = k2' := Except.ok.inj (h4.symm.trans g1)
  have hkk : ∃ k', runList (CkfOp.onKf (fun _ => 1) 1) { KF.fresh 1 1 0 with H := 1 }
        [.predict none, .update (some 1) .none] = .ok k' ∧ k'.x 0 = 2 / 3 ∧ k'.P 0 0 = 2 / 3 := by
    set q1 : KF 1 1 0 := { KF.fresh 1 1 0 with
      H := 1, x := (1 : Mat 1 1) *ᵥ 0, P := (1 : ℝ) • (1 * 1 * (1 : Mat 1 1)ᵀ) + 1
      xPrior := (1 : Mat 1 1) *ᵥ 0, PPrior := (1 : ℝ) • (1 * 1 * (1 : Mat 1 1)ᵀ) + 1 } with hq1
    have hq : (CkfOp.predict none : CkfOp 1).onKf (fun _ => 1) 1 { KF.fresh 1 1 0 with H := 1 } = .ok q1 := rfl
    have hqP : q1.P = (2 : ℝ) • 1 := by
      ext i j; fin_cases i; fin_cases j; simp [hq1]; norm_num
    obtain ⟨q2, a1, a2, a3, a4, a5, a6, -⟩ := update_pd q1 1 .none none rfl
      (by rw [hqP]; exact PosDef.one.smul (by norm_num)) PosDef.one
    have hH : q1.H = 1 := rfl
    have hR1 : q1.R = 1 := rfl
    have hx0 : q1.x = 0 := by simp [hq1]
    simp only [Option.getD_none, MatArg.resolve, hH, hR1, hx0, hqP] at a2 a5 a6
    have e3 : (1 : Mat 1 1) * ((2 : ℝ) • 1 * (1 : Mat 1 1)ᵀ) + 1 = (3 : ℝ) • 1 := by
      ext i j; fin_cases i; fin_cases j; simp; norm_num
    rw [e3] at a2
    rw [a2, hi 3 (by norm_num)] at a5 a6
    refine ⟨q2, by rw [runList, hq]; simp only [runList, CkfOp.onKf, a1], ?_, ?_⟩
    · rw [a5]; simp [smul_mulVec]; norm_num
    · rw [a6]; simp; norm_num
  obtain ⟨k', hk', hkx, hkP⟩ := hkk
  refine ⟨s2, k', ?_, hk', ?_, ?_, hkx, hkP⟩
  · simp only [runList, CkfOp.onCkf, h1, Option.map_some, h2]
  · have hH : k1.H = 1 := by rw [hk1]
    have hR1 : k1.R = 1 := by rw [hk1]; rfl
    have hx0 : k1.x = 0 := by rw [hk1]; simp
    have hP0 : k1.P = 1 := by rw [hk1]; simp
    simp only [Option.getD_none, MatArg.resolve, hH, hR1, hx0, hP0, e2] at g2 g5
    rw [hx2, g5, g2, hi 2 (by norm_num)]
    simp [smul_mulVec]
  · have hH : k1.H = 1 := by rw [hk1]
    have hR1 : k1.R = 1 := by rw [hk1]; rfl
    have hx0 : k1.x = 0 := by rw [hk1]; simp
    have hP0 : k1.P = 1 := by rw [hk1]; simp
    simp only [Option.getD_none, MatArg.resolve, hH, hR1, hx0, hP0, e2] at g2 g6
    rw [hP2, g6, g2, hi 2 (by norm_num)]
    simp [CKF.fresh]
    norm_num

/-- **C25 (refuted for 1-D measurements).**  The documented measurement, a 1-D array of length `dim_z`,
never leads to a vector state when `dim_z ≥ 2`. -/
theorem C25_flat_measurement_refuted (hm : 2 ≤ m) (s : CKF n m) (z : Vec m) (R : MatArg m) :
    ∀ s', s.update (some (.flat z)) R ≠ .ok s' := by
  intro s' h
  simp only [CKF.update] at h
  split at h
  · simp at h
  · rw [if_neg (by omega)] at h
    simp at h

end Filterpy
