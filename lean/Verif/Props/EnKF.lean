import Verif.Model.EnKF
import Verif.Props.Cubature

/-!
# C26: the ensemble filter
-/

namespace Filterpy

open Matrix Spec

variable {n m l N : ℕ}

theorem meanRows_eq (A : Mat N n) : meanRows A = SampleMean A := by
  funext j
  simp only [meanRows, SampleMean]
  ring

theorem sampleCov_eq (A : Mat N n) :
    ((1 : ℝ) / ((N : ℝ) - 1)) • outerSum (rows fun i => A i - meanRows A) (rows fun i => A i - meanRows A)
      = SampleCov A := by
  ext a b
  rw [Matrix.smul_apply, meanRows_eq]
  simp only [outerSum, Helpers.einsumOuter, SampleCov, rows, Pi.sub_apply, smul_eq_mul]
  ring

theorem sampleCov_psd (hN : 2 ≤ N) (A : Mat N n) : (SampleCov A).PosSemidef := by
  rw [← sampleCov_eq, (C58_outer_product_sum_rect _ _).1]
  have : (0 : ℝ) ≤ 1 / ((N : ℝ) - 1) := by
    have : (2 : ℝ) ≤ N := by exact_mod_cast hN
    apply div_nonneg <;> linarith
  have h := posSemidef_conjTranspose_mul_self (rows fun i => A i - meanRows A)
  rw [conjTranspose_eq_transpose_of_trivial] at h
  exact h.smul this

/-- **C26.**  After `predict()`, `x` and `P` are the sample mean and the sample covariance of the
propagated and perturbed ensemble, `P` is positive semidefinite, and the priors mirror them. -/
theorem C26_predict (hN : 2 ≤ N) (s : EnKF n m N) (e : Mat N n) :
    ∃ s', s.predict e = .ok s' ∧ (∀ i, s'.sigmas i = s.fx (s.sigmas i) s.dt + e i) ∧
      s'.x = SampleMean s'.sigmas ∧ s'.P = SampleCov s'.sigmas ∧ s'.P.PosSemidef ∧
      s'.xPrior = s'.x ∧ s'.PPrior = s'.P ∧ s'.xPost = s.xPost ∧ s'.PPost = s.PPost ∧
      s'.hx = s.hx ∧ s'.R = s.R ∧ s'.inv = s.inv := by
  set σ : Mat N n := rows fun i => s.fx (s.sigmas i) s.dt + e i with hσ
  have h : s.predict e = .ok { s with
      sigmas := σ, x := SampleMean σ, P := SampleCov σ, xPrior := SampleMean σ, PPrior := SampleCov σ } := by
    simp only [EnKF.predict, if_neg (show N ≠ 1 by omega), ← hσ, sampleCov_eq]
    simp only [meanRows_eq]
  exact ⟨_, h, fun i => rfl, rfl, rfl, sampleCov_psd hN _, rfl, rfl, rfl, rfl, rfl, rfl, rfl⟩

/-- **C26.**  After a successful `update`, `x` is the mean of the ensemble and the posteriors mirror `x`
and `P`; each member moved by the gain times its own perturbed innovation. -/
theorem C26_update_mean (s s' : EnKF n m N) (z : Vec m) (R : MatArg m) (e : Mat N m)
    (h : s.update (some z) R e = .ok s') :
    s'.x = SampleMean s'.sigmas ∧ s'.xPost = s'.x ∧ s'.PPost = s'.P ∧ s'.xPrior = s.xPrior ∧
      s'.PPrior = s.PPrior ∧ (∀ i, s'.z i = some (z i)) ∧
      ∀ i, s'.sigmas i = s.sigmas i + s'.K *ᵥ (z + e i - s.hx (s.sigmas i)) := by
  simp only [EnKF.update] at h
  by_cases h1 : N = 1
  · rw [if_pos h1] at h; simp at h
  rw [if_neg h1] at h
  split at h
  · simp at h
  · obtain rfl := Except.ok.inj h
    exact ⟨meanRows_eq _, rfl, rfl, rfl, rfl, fun _ => rfl, fun _ => rfl⟩

/-- **C26.**  With the default inverse and positive definite measurement noise, `update` cannot fail,
whatever the measurement function. -/
theorem C26_update_ok (hN : 2 ≤ N) (s : EnKF n m N) (hinv : s.inv = npInv) (z : Vec m) (R : MatArg m)
    (hR : (R.resolve s.R).PosDef) (e : Mat N m) : ∃ s', s.update (some z) R e = .ok s' := by
  have hS := PosDef.posSemidef_add (sampleCov_psd hN (rows fun i => s.hx (s.sigmas i))) hR
  rw [← sampleCov_eq] at hS
  simp only [EnKF.update, if_neg (show N ≠ 1 by omega), hinv, npInv_of_det_ne (PD.det_ne hS)]
  exact ⟨_, rfl⟩

theorem sampleMean_linear (H : Mat m n) (A : Mat N n) :
    SampleMean (rows fun i => H *ᵥ A i) = H *ᵥ SampleMean A := by
  funext j
  simp only [SampleMean, rows, mulVec, dotProduct, Finset.mul_sum]
  rw [Finset.sum_comm]
  exact Finset.sum_congr rfl fun a _ => Finset.sum_congr rfl fun b _ => by ring

theorem sampleMean_add (A B : Mat N n) : SampleMean (rows fun i => A i + B i) = SampleMean A + SampleMean B := by
  funext j
  simp only [SampleMean, rows, Pi.add_apply, Finset.sum_add_distrib, mul_add]

theorem sampleMean_const (hN : 0 < N) (c : Vec n) : SampleMean (rows fun _ : Fin N => c) = c := by
  have : (N : ℝ) ≠ 0 := by positivity
  funext j
  simp [SampleMean, rows, this]

/-- **C26.**  With a linear measurement function, an update that follows a prediction is the Kalman update of
the ensemble's mean and covariance, with the mean of the perturbed measurements as the measurement: the same
state, covariance, gain and innovation covariance. -/
theorem C26_linear_update (hN : 2 ≤ N) (s s1 : EnKF n m N) (hinv : s.inv = npInv) (H : Mat m n)
    (hx : s.hx = fun v => H *ᵥ v) (ep : Mat N n) (h1 : s.predict ep = .ok s1)
    (z : Vec m) (R : MatArg m) (hR : (R.resolve s.R).PosDef) (e : Mat N m)
    (k : KF n m l) (hkx : k.x = SampleMean s1.sigmas) (hkP : k.P = SampleCov s1.sigmas) (hkH : k.H = H)
    (hkR : k.R = s.R) (hki : k.inv = npInv) :
    ∃ s' k', s1.update (some z) R e = .ok s' ∧
      k.update (some (SampleMean (rows fun i => z + e i))) R none = .ok k' ∧
      s'.x = k'.x ∧ s'.P = k'.P ∧ s'.K = k'.K ∧ s'.S = k'.S ∧ s'.SI = k'.SI ∧
      s'.xPost = k'.xPost ∧ s'.PPost = k'.PPost := by
  obtain ⟨s1', h1', -, hx1, hP1, -, -, -, -, -, hh, hRR, hi1⟩ := C26_predict hN s ep
  obtain rfl : s1 = s1' := Except.ok.inj (h1.symm.trans h1')
  rw [← hP1] at hkP
  rw [← hx1] at hkx
  rw [hx] at hh
  rw [← hRR] at hR hkR
  rw [hinv] at hi1
  have hN1 : N ≠ 1 := by omega
  have hN0 : ((N : ℝ) - 1) ≠ 0 := by
    have : (2 : ℝ) ≤ N := by exact_mod_cast hN
    intro h; linarith
  have hPpsd : s1.P.PosSemidef := by rw [hP1]; exact sampleCov_psd hN _
  have hz : meanRows (rows fun i => H *ᵥ s1.sigmas i) = H *ᵥ s1.x := by
    rw [meanRows_eq, sampleMean_linear, hx1]
  have hd : (rows fun i => (rows fun i => H *ᵥ s1.sigmas i) i - H *ᵥ s1.x)
      = (rows fun i => s1.sigmas i - s1.x) * Hᵀ := by
    funext i
    show H *ᵥ s1.sigmas i - H *ᵥ s1.x = (rows fun i => s1.sigmas i - s1.x) i ᵥ* Hᵀ
    rw [vecMul_transpose, ← mulVec_sub]
    rfl
  have hP2 : ((1 : ℝ) / ((N : ℝ) - 1)) • ((rows fun i => s1.sigmas i - s1.x)ᵀ * (rows fun i => s1.sigmas i - s1.x))
      = s1.P := by
    rw [← (C58_outer_product_sum_rect _ _).1, hP1, ← sampleCov_eq, meanRows_eq, hx1]
  set D : Mat N n := rows fun i => s1.sigmas i - s1.x with hD
  have hPzz : ((1 : ℝ) / ((N : ℝ) - 1)) • outerSum (D * Hᵀ) (D * Hᵀ) + R.resolve s1.R
      = H * (s1.P * Hᵀ) + R.resolve s1.R := by
    rw [(C58_outer_product_sum_rect _ _).1, transpose_mul, transpose_transpose, ← hP2, Matrix.smul_mul,
      Matrix.mul_smul, Matrix.mul_assoc, Matrix.mul_assoc]
  have hPxz : ((1 : ℝ) / ((N : ℝ) - 1)) • outerSum D (D * Hᵀ) = s1.P * Hᵀ := by
    rw [(C58_outer_product_sum_rect _ _).1, ← hP2, Matrix.smul_mul, Matrix.mul_assoc]
  have hS : (H * (s1.P * Hᵀ) + R.resolve s1.R).PosDef := S_pd hPpsd hR
  set S := H * (s1.P * Hᵀ) + R.resolve s1.R with hSd
  have hu : ∃ sg : Mat N n, s1.update (some z) R e = .ok { s1 with
      S := S, SI := S⁻¹, K := s1.P * Hᵀ * S⁻¹
      sigmas := sg
      x := s1.x + (s1.P * Hᵀ * S⁻¹) *ᵥ (SampleMean (rows fun i => z + e i) - H *ᵥ s1.x)
      P := s1.P - s1.P * Hᵀ * S⁻¹ * S * (s1.P * Hᵀ * S⁻¹)ᵀ
      z := fun i => some (z i)
      xPost := s1.x + (s1.P * Hᵀ * S⁻¹) *ᵥ (SampleMean (rows fun i => z + e i) - H *ᵥ s1.x)
      PPost := s1.P - s1.P * Hᵀ * S⁻¹ * S * (s1.P * Hᵀ * S⁻¹)ᵀ } := by
    set K := s1.P * Hᵀ * S⁻¹ with hK
    have hm : meanRows (rows fun i => s1.sigmas i + K *ᵥ (z + e i - (rows fun i => H *ᵥ s1.sigmas i) i))
        = s1.x + K *ᵥ (SampleMean (rows fun i => z + e i) - H *ᵥ s1.x) := by
      rw [meanRows_eq]
      have e1 : (rows fun i => s1.sigmas i + K *ᵥ (z + e i - (rows fun i => H *ᵥ s1.sigmas i) i))
          = rows fun i => s1.sigmas i + (rows fun i => K *ᵥ ((rows fun i => z + e i) i
              + (rows fun i => (-H) *ᵥ s1.sigmas i) i)) i := by
        funext i
        simp only [rows, neg_mulVec, sub_eq_add_neg]
      rw [e1, sampleMean_add, ← hx1]
      congr 1
      have e2 := sampleMean_linear K (rows fun i => (rows fun i => z + e i) i
              + (rows fun i => (-H) *ᵥ s1.sigmas i) i)
      refine e2.trans ?_
      rw [sampleMean_add, sampleMean_linear, ← hx1, neg_mulVec, ← sub_eq_add_neg]
    refine ⟨rows fun i => s1.sigmas i + K *ᵥ (z + e i - (rows fun i => H *ᵥ s1.sigmas i) i), ?_⟩
    simp only [EnKF.update, if_neg hN1, hh, hz, hd, ← hD, hPzz, hPxz, hi1, npInv_of_det_ne (PD.det_ne hS)]
    rw [← hK, hm]
  have hk : k.update (some (SampleMean (rows fun i => z + e i))) R none = .ok { k with
      y := SampleMean (rows fun i => z + e i) - H *ᵥ s1.x
      S := S, SI := S⁻¹, K := s1.P * Hᵀ * S⁻¹
      x := s1.x + (s1.P * Hᵀ * S⁻¹) *ᵥ (SampleMean (rows fun i => z + e i) - H *ᵥ s1.x)
      P := s1.P - s1.P * Hᵀ * S⁻¹ * S * (s1.P * Hᵀ * S⁻¹)ᵀ
      z := fun i => some (SampleMean (rows fun i => z + e i) i)
      xPost := s1.x + (s1.P * Hᵀ * S⁻¹) *ᵥ (SampleMean (rows fun i => z + e i) - H *ᵥ s1.x)
      PPost := s1.P - s1.P * Hᵀ * S⁻¹ * S * (s1.P * Hᵀ * S⁻¹)ᵀ
      logLik := none, lik := none, mahal := none } := by
    have hJ := joseph_opt (P := s1.P) (H := H) (R := R.resolve s1.R) (PSD.symm hPpsd) rfl
      (nonsing_inv_mul _ (PD.isUnit_det hS)) (inv_symm (PD.symm hS)) rfl
    rw [← hSd] at hJ
    simp only [KF.update, Option.getD_none, hkH, hkP, hkx, hkR, hki, ← hSd, npInv_of_det_ne (PD.det_ne hS), hJ]
  obtain ⟨sg, hu⟩ := hu
  exact ⟨_, _, hu, hk, rfl, rfl, rfl, rfl, rfl, rfl, rfl⟩

/-- The mean perturbed measurement is the measurement plus the mean of the draws. -/
theorem sampleMean_perturbed (hN : 0 < N) (z : Vec m) (e : Mat N m) :
    SampleMean (rows fun i => z + e i) = z + SampleMean e := by
  have := sampleMean_add (rows fun _ : Fin N => z) e
  rw [sampleMean_const hN] at this
  exact this

/-- **C26.**  `x` moves by the gain times the innovation of the mean perturbed measurement, and the covariance
drops by `K S Kᵀ`, which is never more than all of it. -/
theorem C26_linear_update_explicit (hN : 2 ≤ N) (s s1 : EnKF n m N) (hinv : s.inv = npInv) (H : Mat m n)
    (hx : s.hx = fun v => H *ᵥ v) (ep : Mat N n) (h1 : s.predict ep = .ok s1)
    (z : Vec m) (R : MatArg m) (hR : (R.resolve s.R).PosDef) (e : Mat N m) :
    ∃ s', s1.update (some z) R e = .ok s' ∧
      s'.x = s1.x + s'.K *ᵥ ((z + SampleMean e) - H *ᵥ s1.x) ∧
      s'.S = H * SampleCov s1.sigmas * Hᵀ + R.resolve s.R ∧
      s'.K = SampleCov s1.sigmas * Hᵀ * s'.S⁻¹ ∧
      s'.P = (1 - s'.K * H) * SampleCov s1.sigmas * (1 - s'.K * H)ᵀ + s'.K * R.resolve s.R * s'.Kᵀ ∧
      s'.P.PosSemidef := by
  let k : KF n m 0 := { KF.fresh n m 0 with
    x := SampleMean s1.sigmas, P := SampleCov s1.sigmas, H := H, R := s.R }
  obtain ⟨s', k', hs, hk, ex, eP, eK, eS, -⟩ := C26_linear_update hN s s1 hinv H hx ep h1 z R hR e k
    rfl rfl rfl rfl rfl
  obtain ⟨s1', h1', -, hx1, hP1, hpsd, -⟩ := C26_predict hN s ep
  obtain rfl : s1 = s1' := Except.ok.inj (h1.symm.trans h1')
  obtain ⟨SI, g1, rfl⟩ := KF.update_ok hk
  have hSI : SI = (H * (SampleCov s1.sigmas * Hᵀ) + R.resolve s.R)⁻¹ := (npInv_eq_some.1 g1).2
  have eK' : s'.K = SampleCov s1.sigmas * Hᵀ * SI := eK
  have eP' : s'.P = (1 - SampleCov s1.sigmas * Hᵀ * SI * H) * SampleCov s1.sigmas *
      (1 - SampleCov s1.sigmas * Hᵀ * SI * H)ᵀ
      + SampleCov s1.sigmas * Hᵀ * SI * R.resolve s.R * (SampleCov s1.sigmas * Hᵀ * SI)ᵀ := eP
  rw [← eK'] at eP'
  refine ⟨s', hs, ?_, ?_, ?_, eP', ?_⟩
  · rw [← sampleMean_perturbed (by omega) z e, hx1, eK']
    exact ex
  · rw [Matrix.mul_assoc]; exact eS
  · rw [eK', eS, hSI]; rfl
  · rw [eP', ← hP1]
    exact joseph_psd hpsd hR.posSemidef _

/-- **C26.**  `update(None)` changes only the recorded measurement and the posterior copies. -/
theorem C26_none (s : EnKF n m N) (R : MatArg m) (e : Mat N m) :
    s.update none R e = .ok { s with z := fun _ => none, xPost := s.x, PPost := s.P } := rfl

/-- **C26.**  The constructor refuses non-positive sizes and arrays `x` that are not 1-D, and otherwise starts
from the given mean and covariance. -/
theorem C26_init (ndim : ℕ) (x : Vec n) (P : Mat n n) (dimZ : ℤ) (dt : ℝ) (M : ℤ)
    (hx : ∀ m, Vec n → Vec m) (fx : Vec n → ℝ → Vec n) (draw : ∀ N, Vec n → Mat n n → Mat N n) :
    ((dimZ ≤ 0 ∨ M ≤ 0 ∨ ndim ≠ 1) →
      EnKF.init ndim x P dimZ dt M hx fx draw = .error .valueError) ∧
    (0 < dimZ → 0 < M → ndim = 1 → ∃ r, EnKF.init ndim x P dimZ dt M hx fx draw = .ok r ∧
      (r.m : ℤ) = dimZ ∧ (r.N : ℤ) = M ∧ r.kf.x = x ∧ r.kf.P = P ∧ r.kf.sigmas = draw r.N x P ∧
      r.kf.xPrior = x ∧ r.kf.PPrior = P ∧ r.kf.xPost = x ∧ r.kf.PPost = P ∧ r.kf.Q = 1 ∧ r.kf.R = 1) := by
  unfold EnKF.init
  constructor
  · intro h
    by_cases h1 : dimZ ≤ 0
    · rw [if_pos h1]
    by_cases h2 : M ≤ 0
    · rw [if_neg h1, if_pos h2]
    rw [if_neg h1, if_neg h2, if_pos (by tauto)]
  · intro h1 h2 h3
    rw [if_neg (by omega), if_neg (by omega), if_neg (by simp [h3])]
    exact ⟨_, rfl, Int.toNat_of_nonneg h1.le, Int.toNat_of_nonneg h2.le, rfl, rfl, rfl, rfl, rfl, rfl, rfl, rfl, rfl⟩

/-- An ensemble of one member is accepted by the constructor but its first prediction or measurement divides by
zero. -/
theorem C26_single_member (s : EnKF n m 1) (e : Mat 1 n) (z : Vec m) (R : MatArg m) (e' : Mat 1 m) :
    (∃ s', s.predict e = .error (.nonFinite, s')) ∧
    (∃ s', s.update (some z) R e' = .error (.nonFinite, s')) := by
  constructor
  · exact ⟨_, by simp only [EnKF.predict, if_true]; rfl⟩
  · exact ⟨_, by simp only [EnKF.update, if_true]; rfl⟩

/-! ### Histories -/

/-- A call with the numbers the generator returns during it. -/
inductive EnkfOp (n m N : ℕ)
  | predict (e : Mat N n)
  | update (z : Option (Vec m)) (R : MatArg m) (e : Mat N m)

noncomputable def EnkfOp.run (s : EnKF n m N) : EnkfOp n m N → Exec (EnKF n m N)
  | .predict e => s.predict e
  | .update z R e => s.update z R e

/-- **C26 (re-initialising).**  `initialize(x, P)` on a used filter sets the estimate, the ensemble and both
copies of the estimate, and nothing else: the model, the noises and what the last measurement left stay.  An
`x` that is not one-dimensional raises `ValueError` and leaves the filter as it was. -/
theorem C26_initialize (s : EnKF n m N) (ndim : ℕ) (x : Vec n) (P : Mat n n) (draw : Mat N n) :
    (∀ s', s.reinit ndim x P draw = .ok s' →
      ndim = 1 ∧ (s'.x, s'.P) = (x, P) ∧ (s'.xPrior, s'.PPrior) = (x, P) ∧ (s'.xPost, s'.PPost) = (x, P) ∧
      s'.sigmas = draw ∧ s'.Q = s.Q ∧ s'.R = s.R ∧ s'.dt = s.dt ∧ s'.hx = s.hx ∧ s'.fx = s.fx ∧ s'.z = s.z ∧
      s'.K = s.K ∧ s'.S = s.S ∧ s'.SI = s.SI) ∧
    (ndim ≠ 1 → s.reinit ndim x P draw = .error (.valueError, s)) ∧
    (ndim = 1 → ∃ s', s.reinit ndim x P draw = .ok s') := by
  refine ⟨fun s' h => ?_, fun h => if_pos h, fun h => ⟨_, if_neg (not_not.2 h)⟩⟩
  unfold EnKF.reinit at h
  split_ifs at h with hd
  obtain rfl := Except.ok.inj h
  exact ⟨not_not.1 hd, rfl, rfl, rfl, rfl, rfl, rfl, rfl, rfl, rfl, rfl, rfl, rfl, rfl⟩

/-- Calls that move the ensemble. -/
def EnkfOp.Moves : EnkfOp n m N → Prop
  | .predict _ => True
  | .update (some _) _ _ => True
  | .update none _ _ => False

/-- **C26.**  After every history with at least one prediction or measurement, `x` is the mean of the
ensemble, for every draw. -/
theorem C26_history_mean (hN : 2 ≤ N) (s s' : EnKF n m N) (ops : List (EnkfOp n m N))
    (h : runList EnkfOp.run s ops = .ok s') (hm : ∃ op ∈ ops, op.Moves) :
    s'.x = SampleMean s'.sigmas := by
  have step : ∀ (s s1 : EnKF n m N) (op : EnkfOp n m N), op.run s = .ok s1 →
      (op.Moves ∨ s.x = SampleMean s.sigmas) → s1.x = SampleMean s1.sigmas := by
    intro s s1 op h ho
    match op, h, ho with
    | .predict e, h, _ =>
      obtain ⟨s2, h2, -, h3, -⟩ := C26_predict hN s e
      obtain rfl : s1 = s2 := Except.ok.inj (h.symm.trans h2)
      exact h3
    | .update (some z) R e, h, _ => exact (C26_update_mean s s1 z R e h).1
    | .update none R e, h, ho =>
      obtain rfl := Except.ok.inj h
      exact ho.resolve_left (by simp [EnkfOp.Moves])
  have main : ∀ (ops : List (EnkfOp n m N)) (s : EnKF n m N), runList EnkfOp.run s ops = .ok s' →
      ((∃ op ∈ ops, op.Moves) ∨ s.x = SampleMean s.sigmas) → s'.x = SampleMean s'.sigmas := by
    intro ops
    induction ops with
    | nil =>
      intro s h ho
      obtain rfl := Except.ok.inj h
      simpa using ho
    | cons op ops ih =>
      intro s h ho
      simp only [runList] at h
      split at h
      · rename_i s1 h1
        refine ih s1 h ?_
        rcases ho with ⟨o, hmem, hmv⟩ | ho
        · rcases List.mem_cons.1 hmem with rfl | hmem
          · exact Or.inr (step _ _ _ h1 (Or.inl hmv))
          · exact Or.inl ⟨o, hmem, hmv⟩
        · exact Or.inr (step _ _ _ h1 (Or.inr ho))
      · simp at h
  exact main ops s h (Or.inl hm)

/-- One update of a symmetric two-member ensemble of scalars. -/
theorem enkf_pair (s : EnKF 1 1 2) (a c : ℝ) (hσ : s.sigmas = !![a; -a]) (hx : s.x = 0)
    (hh : s.hx = fun v => v) (hR : s.R = 1) (hi : s.inv = npInv) :
    ∃ s', s.update (some 0) .none !![c; -c] = .ok s' ∧
      s'.sigmas = !![a + 2 * a ^ 2 / (2 * a ^ 2 + 1) * (c - a); -(a + 2 * a ^ 2 / (2 * a ^ 2 + 1) * (c - a))] ∧
      s'.x = 0 ∧ s'.P 0 0 = s.P 0 0 - (2 * a ^ 2) ^ 2 / (2 * a ^ 2 + 1) ∧ s'.hx = s.hx ∧ s'.R = s.R ∧
      s'.inv = s.inv := by
  have hpos : 2 * a ^ 2 + 1 ≠ 0 := by positivity
  have hrow : (rows fun i : Fin 2 => (!![a; -a] : Mat 2 1) i) = !![a; -a] := rfl
  have hm : meanRows (!![a; -a] : Mat 2 1) = 0 := by
    funext j; fin_cases j; simp [meanRows, Fin.sum_univ_two]
  have hd : (rows fun i : Fin 2 => (!![a; -a] : Mat 2 1) i - 0) = !![a; -a] := by
    funext i; simp [rows]
  have hS : ((1 : ℝ) / (((2 : ℕ) : ℝ) - 1)) • outerSum (!![a; -a] : Mat 2 1) !![a; -a]
      = (2 * a ^ 2) • (1 : Mat 1 1) := by
    ext i j; fin_cases i; fin_cases j
    simp [outerSum, Helpers.einsumOuter, Fin.sum_univ_two]; ring
  have hS1 : (2 * a ^ 2) • (1 : Mat 1 1) + 1 = (2 * a ^ 2 + 1) • 1 := by rw [add_smul, one_smul]
  have hinv : npInv ((2 * a ^ 2 + 1) • (1 : Mat 1 1)) = some ((2 * a ^ 2 + 1)⁻¹ • 1) := by
    refine npInv_eq_some.2 ⟨by simp [hpos], ?_⟩
    symm
    apply inv_eq_right_inv
    ext i j; fin_cases i; fin_cases j; simp [hpos]
  have hu : s.update (some 0) .none !![c; -c] = .ok { s with
      S := (2 * a ^ 2 + 1) • 1, SI := (2 * a ^ 2 + 1)⁻¹ • 1
      K := (2 * a ^ 2) • (1 : Mat 1 1) * ((2 * a ^ 2 + 1)⁻¹ • 1)
      sigmas := rows fun i => (!![a; -a] : Mat 2 1) i +
        ((2 * a ^ 2) • (1 : Mat 1 1) * ((2 * a ^ 2 + 1)⁻¹ • 1)) *ᵥ (0 + (!![c; -c] : Mat 2 1) i - (!![a; -a] : Mat 2 1) i)
      x := meanRows (rows fun i => (!![a; -a] : Mat 2 1) i +
        ((2 * a ^ 2) • (1 : Mat 1 1) * ((2 * a ^ 2 + 1)⁻¹ • 1)) *ᵥ (0 + (!![c; -c] : Mat 2 1) i - (!![a; -a] : Mat 2 1) i))
      P := s.P - (2 * a ^ 2) • (1 : Mat 1 1) * ((2 * a ^ 2 + 1)⁻¹ • 1) * ((2 * a ^ 2 + 1) • 1) *
        ((2 * a ^ 2) • (1 : Mat 1 1) * ((2 * a ^ 2 + 1)⁻¹ • 1))ᵀ
      z := fun i => some ((0 : Vec 1) i)
      xPost := meanRows (rows fun i => (!![a; -a] : Mat 2 1) i +
        ((2 * a ^ 2) • (1 : Mat 1 1) * ((2 * a ^ 2 + 1)⁻¹ • 1)) *ᵥ (0 + (!![c; -c] : Mat 2 1) i - (!![a; -a] : Mat 2 1) i))
      PPost := s.P - (2 * a ^ 2) • (1 : Mat 1 1) * ((2 * a ^ 2 + 1)⁻¹ • 1) * ((2 * a ^ 2 + 1) • 1) *
        ((2 * a ^ 2) • (1 : Mat 1 1) * ((2 * a ^ 2 + 1)⁻¹ • 1))ᵀ } := by
    simp only [EnKF.update, MatArg.resolve, if_neg (show (2 : ℕ) ≠ 1 by norm_num), hh, hσ, hx, hR, hi, hrow, hm, hd,
      hS, hS1, hinv]
  have hsig : (rows fun i => (!![a; -a] : Mat 2 1) i +
        ((2 * a ^ 2) • (1 : Mat 1 1) * ((2 * a ^ 2 + 1)⁻¹ • 1)) *ᵥ (0 + (!![c; -c] : Mat 2 1) i - (!![a; -a] : Mat 2 1) i))
      = !![a + 2 * a ^ 2 / (2 * a ^ 2 + 1) * (c - a); -(a + 2 * a ^ 2 / (2 * a ^ 2 + 1) * (c - a))] := by
    ext i j; fin_cases j; fin_cases i <;> simp [rows, smul_mulVec] <;> ring
  refine ⟨_, hu, hsig, ?_, ?_, rfl, rfl, rfl⟩
  · show meanRows _ = 0
    rw [hsig]
    funext j; fin_cases j; simp [meanRows, Fin.sum_univ_two]
  · show (s.P - _) 0 0 = _
    simp
    field_simp

/-- **C26 (a second measurement).**  Two measurements in a row: the second gain is computed from the perturbed
ensemble, but is subtracted from the reported covariance.  With unit noises, an ensemble `{1, -1}` and draws
`±10` the reported variance becomes negative. -/
theorem C26_second_update_refuted :
    ∃ s1 s2 s3 : EnKF 1 1 2,
      (EnKF.fresh (m := 1) 0 1 1 (fun v => v) (fun v _ => v) !![1; -1]).predict 0 = .ok s1 ∧
      s1.update (some 0) .none !![10; -10] = .ok s2 ∧ s2.update (some 0) .none 0 = .ok s3 ∧
      s3.P 0 0 < 0 := by
  obtain ⟨s1, h1, hσ, hx, hP, -, -, -, -, -, hh, hR, hi⟩ := C26_predict (le_refl 2)
    (EnKF.fresh (m := 1) (0 : Vec 1) 1 1 (fun v => v) (fun v _ => v) !![1; -1]) 0
  have hσ' : s1.sigmas = !![1; -1] := by
    funext i
    rw [hσ i]
    exact add_zero _
  have hx' : s1.x = 0 := by
    rw [hx, hσ']
    funext j; fin_cases j; simp [SampleMean, Fin.sum_univ_two]
  have hP' : s1.P 0 0 = 2 := by
    rw [hP, hσ']
    simp [SampleCov, SampleMean, Fin.sum_univ_two]; norm_num
  obtain ⟨s2, h2, hσ2, hx2, hP2, hh2, hR2, hi2⟩ := enkf_pair s1 1 10 hσ' hx' hh hR hi
  obtain ⟨s3, h3, -, -, hP3, -⟩ := enkf_pair s2 7 0 (by rw [hσ2]; norm_num) hx2 (by rw [hh2, hh]; rfl)
    (by rw [hR2, hR]; rfl) (by rw [hi2, hi]; rfl)
  have e0 : (!![(0 : ℝ); -0] : Mat 2 1) = 0 := by
    ext i j; fin_cases i <;> fin_cases j <;> simp
  rw [e0] at h3
  refine ⟨s1, s2, s3, h1, h2, h3, ?_⟩
  rw [hP3, hP2, hP']
  norm_num

/-- Non-vacuity: a two-member ensemble, two different draws. -/
example (e : Mat 2 1) (z : Vec 1) (e' : Mat 2 1) :
    ∃ s1 s2, (EnKF.fresh (m := 1) 0 1 0.1 (fun v => (1 : Mat 1 1) *ᵥ v) (fun v _ => v)
        !![1; -1]).predict e = .ok s1 ∧ s1.update (some z) .none e' = .ok s2 ∧ s2.P.PosSemidef := by
  obtain ⟨s1, h1, -⟩ := C26_predict (le_refl 2) (EnKF.fresh (m := 1) 0 1 0.1 (fun v => (1 : Mat 1 1) *ᵥ v)
    (fun v _ => v) !![1; -1]) e
  obtain ⟨s2, h2, -, -, -, -, h3⟩ := C26_linear_update_explicit (le_refl 2) _ s1 rfl 1 rfl e h1 z .none
    PosDef.one e'
  exact ⟨s1, s2, h1, h2, h3⟩

end Filterpy
