import Verif.Props.KalmanUnits

/-!
# Only the ratios of the covariances matter (C87)
-/

namespace Filterpy
open Matrix

variable {n m l : ℕ}

/-- A noise argument multiplied by `c`. -/
noncomputable def MatArg.times {k : ℕ} (c : ℝ) : MatArg k → MatArg k
  | .none => .none
  | .scalar a => .scalar (c * a)
  | .mat A => .mat (c • A)

theorem MatArg.times_resolve {k : ℕ} (c : ℝ) (a : MatArg k) (A : Mat k k) :
    (a.times c).resolve (c • A) = c • a.resolve A := by
  cases a <;> simp only [MatArg.times, MatArg.resolve, smul_smul]

/-- The call with every noise covariance in it multiplied by `c`. -/
noncomputable def timesOp (c : ℝ) : KFOp n m l → KFOp n m l
  | .predict u B F Q => .predict u B F (Q.times c)
  | .update z R H => .update z (R.times c) H
  | .updateSequential start len zi Ri Hi => .updateSequential start len zi (Ri.times c) Hi
  | .updateCorrelated z R H => .updateCorrelated z (R.times c) H
  | op => op

/-- The calls C87 ranges over: everything but reading the likelihood properties. -/
def NoReads : KFOp n m l → Prop
  | .readLogLik | .readLik | .readMahal => False
  | _ => True

/-- The second filter has all covariances of the first one multiplied by `c`, and the same state,
gain and residual. -/
structure InScale (c : ℝ) (s t : KF n m l) : Prop where
  x : t.x = s.x
  P : t.P = c • s.P
  Q : t.Q = c • s.Q
  B : t.B = s.B
  F : t.F = s.F
  H : t.H = s.H
  R : t.R = c • s.R
  M : t.M = c • s.M
  alpha : t.alphaSq = s.alphaSq
  z : t.z = s.z
  K : t.K = s.K
  y : t.y = s.y
  S : t.S = c • s.S
  SI : t.SI = c⁻¹ • s.SI
  xPrior : t.xPrior = s.xPrior
  PPrior : t.PPrior = c • s.PPrior
  xPost : t.xPost = s.xPost
  PPost : t.PPost = c • s.PPost
  inv : s.inv = npInv
  inv' : t.inv = npInv

theorem scale_inv {c : ℝ} (hc : c ≠ 0) (S : Mat m m) :
    npInv (c • S) = (npInv S).map fun SI => c⁻¹ • SI := by
  by_cases h : S.det = 0
  · rw [npInv_eq_none.2 h]
    have h' : (c • S).det = 0 := by rw [det_smul, h, mul_zero]
    rw [npInv_eq_none.2 h']; rfl
  · have h' : (c • S).det ≠ 0 := by rw [det_smul]; exact mul_ne_zero (pow_ne_zero _ hc) h
    rw [npInv_of_det_ne h, npInv_of_det_ne h']
    simp only [Option.map_some, Option.some.injEq]
    apply inv_eq_right_inv
    rw [Matrix.smul_mul, Matrix.mul_smul, smul_smul, mul_inv_cancel₀ hc, one_smul,
      mul_nonsing_inv _ (isUnit_iff_ne_zero.2 h)]

theorem scale_K {c : ℝ} (hc : c ≠ 0) {k : ℕ} (A : Mat n k) (SI : Mat k k) :
    (c • A) * (c⁻¹ • SI) = A * SI := by
  rw [Matrix.smul_mul, Matrix.mul_smul, smul_smul, mul_inv_cancel₀ hc, one_smul]

theorem scale_step {c : ℝ} (hc : c ≠ 0) (expf : ℝ → ℝ) {s t : KF n m l} (h : InScale c s t)
    {op : KFOp n m l} (ho : NoReads op) :
    Agree (InScale c) (s.step expf op) (t.step expf (timesOp c op)) := by
  rcases s with ⟨x, P, Q, B, F, H, R, al, M, zs, K, y, S, SI, xp, PP, xq, PQ, ll, lk, mh, iv⟩
  rcases t with ⟨x', P', Q', B', F', H', R', al', M', zs', K', y', S', SI', xp', PP', xq', PQ', ll', lk', mh', iv'⟩
  obtain ⟨h1, h2, h3, h4, h5, h6, h7, h8, h9, h10, h11, h12, h13, h14, h15, h16, h17, h18, h19, h20⟩ := h
  simp only at h1 h2 h3 h4 h5 h6 h7 h8 h9 h10 h11 h12 h13 h14 h15 h16 h17 h18 h19 h20
  subst h1 h2 h3 h4 h5 h6 h7 h8 h9 h10 h11 h12 h13 h14 h15 h16 h17 h18 h19 h20
  have hj {k : ℕ} (A : Mat n n) (K : Mat n k) (R : Mat k k) (P : Mat n n) :
      A * (c • P) * Aᵀ + K * (c • R) * Kᵀ = c • (A * P * Aᵀ + K * R * Kᵀ) := by
    simp only [Matrix.mul_smul, Matrix.smul_mul, smul_add]
  have hS {k : ℕ} (H : Mat k n) (R : Mat k k) (P : Mat n n) :
      H * ((c • P) * Hᵀ) + c • R = c • (H * (P * Hᵀ) + R) := by
    simp only [Matrix.mul_smul, Matrix.smul_mul, smul_add]
  cases op with
  | predict u Ba Fa Qa =>
    have e1 : al' • (Fa.getD F' * (c • P) * (Fa.getD F')ᵀ) + c • Qa.resolve Q =
        c • (al' • (Fa.getD F' * P * (Fa.getD F')ᵀ) + Qa.resolve Q) := by
      simp only [Matrix.mul_smul, Matrix.smul_mul, smul_add, smul_smul, mul_comm c]
    simp only [KF.step, timesOp, KF.predict, MatArg.times_resolve, e1]
    cases KF.control (Ba.or B') u with
    | error e => exact ⟨rfl, by constructor <;> rfl⟩
    | ok bu => cases bu <;> constructor <;> rfl
  | update z Ra Ha =>
    cases z with
    | none => constructor <;> rfl
    | some z =>
      simp only [KF.step, timesOp, KF.update, MatArg.times_resolve, hS, scale_inv hc]
      cases npInv (Ha.getD H' * (P * (Ha.getD H')ᵀ) + Ra.resolve R) with
      | none => exact ⟨rfl, by constructor <;> rfl⟩
      | some SI =>
        simp only [Option.map_some, Matrix.smul_mul c P, scale_K hc, hj]
        constructor <;> rfl
  | updateSequential st k zi Ra Ha =>
    simp only [KF.step, timesOp, KF.updateSequential]
    by_cases hk : st + k ≤ m
    · have e0 : (c • R).submatrix (KF.sliceIdx hk) (KF.sliceIdx hk) =
          c • R.submatrix (KF.sliceIdx hk) (KF.sliceIdx hk) := rfl
      simp only [dif_pos hk, e0, MatArg.times_resolve, hS]
      generalize Ha.getD (H'.submatrix (KF.sliceIdx hk) id) = Hi
      generalize Ra.resolve (R.submatrix (KF.sliceIdx hk) (KF.sliceIdx hk)) = Ri
      by_cases h1 : k = 1
      · simp only [dif_pos h1, Matrix.smul_apply, smul_eq_mul, mul_eq_zero, hc, false_or]
        generalize (Hi * (P * Hiᵀ) + Ri) ⟨0, _⟩ ⟨0, _⟩ = s00
        by_cases h0 : s00 = 0
        · simp only [h0, if_true]
          exact ⟨rfl, by constructor <;> rfl⟩
        · have e2 : (1.0 / (c * s00)) • ((c • P) * Hiᵀ) = (1.0 / s00) • (P * Hiᵀ) := by
            rw [Matrix.smul_mul, smul_smul]; congr 1; field_simp
          simp only [h0, if_false, e2, hj]
          constructor <;> rfl
      · simp only [dif_neg h1, scale_inv hc]
        cases npInv (Hi * (P * Hiᵀ) + Ri) with
        | none => exact ⟨rfl, by constructor <;> rfl⟩
        | some SI =>
          simp only [Option.map_some, Matrix.smul_mul c P, scale_K hc, hj]
          constructor <;> rfl
    · simp only [dif_neg hk]
      refine ⟨?_, by constructor <;> rfl⟩
      match k, Ra, Ha with
      | 0, _, _ => rfl
      | 1, .none, none => rfl
      | 1, .scalar _, none => rfl
      | 1, .mat _, none => rfl
      | 1, .none, some _ => rfl
      | 1, .scalar _, some _ => rfl
      | 1, .mat _, some _ => rfl
      | _ + 2, _, _ => rfl
  | predictSteadystate u Ba =>
    simp only [KF.step, timesOp, KF.predictSteadystate]
    cases KF.steadyControl (Ba.or B') u with
    | error e => exact ⟨rfl, by constructor <;> rfl⟩
    | ok bu => cases bu <;> constructor <;> rfl
  | updateSteadystate z =>
    cases z with
    | none => constructor <;> rfl
    | some z => constructor <;> rfl
  | updateCorrelated z Ra Ha =>
    cases z with
    | none => constructor <;> rfl
    | some z =>
      have e1 (A : Mat m n) (R : Mat m m) : A * ((c • P) * Aᵀ) + A * (c • M) + (c • M)ᵀ * Aᵀ + c • R =
          c • (A * (P * Aᵀ) + A * M + Mᵀ * Aᵀ + R) := by
        simp only [Matrix.mul_smul, Matrix.smul_mul, smul_add, transpose_smul]
      have e2 (A : Mat m n) (SI : Mat m m) : ((c • P) * Aᵀ + c • M) * (c⁻¹ • SI) = (P * Aᵀ + M) * SI := by
        rw [Matrix.smul_mul, ← smul_add, scale_K hc]
      have e3 (A : Mat m n) (K : Mat n m) : c • P - K * (A * (c • P) + (c • M)ᵀ) = c • (P - K * (A * P + Mᵀ)) := by
        simp only [Matrix.mul_smul, smul_sub, transpose_smul, ← smul_add]
      simp only [KF.step, timesOp, KF.updateCorrelated, MatArg.times_resolve, e1, scale_inv hc]
      cases npInv (Ha.getD H' * (P * (Ha.getD H')ᵀ) + Ha.getD H' * M + Mᵀ * (Ha.getD H')ᵀ + Ra.resolve R) with
      | none => exact ⟨rfl, by constructor <;> rfl⟩
      | some SI =>
        simp only [Option.map_some, e2, e3]
        constructor <;> rfl
  | readLogLik => exact ho.elim
  | readLik => exact ho.elim
  | readMahal => exact ho.elim
  | setAlpha v =>
    simp only [KF.step, timesOp, KF.setAlpha]
    by_cases hv : v < 1
    · simp only [if_pos hv]
      exact ⟨rfl, by constructor <;> rfl⟩
    · simp only [if_neg hv]
      constructor <;> rfl

/-- **C87.** Multiply the initial covariance `P`, the noise covariances `Q`, `R`, the cross
covariance `M` and every covariance given in a call by the same number `c ≠ 0`: after any history
of calls the state, the gain, the residual and the recorded states are unchanged, and every
covariance is multiplied by `c`; if an exception is raised, it is the same one after the same
call. -/
theorem C87_ratios {c : ℝ} (hc : c ≠ 0) (expf : ℝ → ℝ) {s t : KF n m l} (h : InScale c s t)
    (ops : List (KFOp n m l)) (ho : ∀ op ∈ ops, NoReads op) :
    Agree (InScale c) (s.run expf ops) (t.run expf (ops.map (timesOp c))) := by
  induction ops generalizing s t with
  | nil => exact h
  | cons op ops ih =>
    have h1 := scale_step hc expf h (ho op (by simp))
    simp only [KF.run, List.map_cons]
    revert h1
    cases s.step expf op <;> cases t.step expf (timesOp c op) <;> intro h1 <;>
      first | exact h1.elim | exact h1 | exact ih h1 fun o hm => ho o (by simp [hm])

/-- **C87 (likelihood).** The quantities that judge the model are *not* invariant, so the scale can
be found from the data: the log-likelihood of a measurement changes by
`- m/2 log c + (1 - 1/c) d / 2`, where `d` is the squared Mahalanobis length of the residual. -/
theorem C87_likelihood {c : ℝ} (hc : 0 < c) {s t : KF n m l} (h : InScale c s t)
    (hl : s.logLik = none) (hl' : t.logLik = none) (hS : s.S.PosDef) :
    t.readLogLik.1 = s.readLogLik.1 - m / 2 * Real.log c +
      (1 - 1 / c) / 2 * (s.y ⬝ᵥ (s.S⁻¹ *ᵥ s.y)) := by
  have e1 : (c • s.S)⁻¹ = c⁻¹ • s.S⁻¹ := by
    apply inv_eq_right_inv
    rw [Matrix.smul_mul, Matrix.mul_smul, smul_smul, mul_inv_cancel₀ hc.ne', one_smul,
      mul_nonsing_inv _ (PD.isUnit_det hS)]
  simp only [KF.readLogLik, hl, hl', logpdf, h.S, h.y, e1, det_smul, Fintype.card_fin, smul_mulVec,
    dotProduct_smul, smul_eq_mul]
  rw [Real.log_mul (pow_ne_zero _ hc.ne') hS.det_pos.ne', Real.log_pow]
  field_simp
  ring

/-- The filter with all its covariances multiplied by `c`. -/
noncomputable def KF.timesCov (c : ℝ) (s : KF n m l) : KF n m l :=
  { s with
    P := c • s.P, Q := c • s.Q, R := c • s.R, M := c • s.M, S := c • s.S, SI := c⁻¹ • s.SI
    PPrior := c • s.PPrior, PPost := c • s.PPost }

theorem inScale_self (c : ℝ) (s : KF n m l) (h : s.inv = npInv) : InScale c s (s.timesCov c) := by
  constructor <;> first | rfl | exact h

/-- Non-vacuity of C87: a constant-velocity filter with covariances multiplied by nine. -/
example (expf : ℝ → ℝ) (z : Vec 1) : Agree (InScale 9)
    (cvKF.run expf [.predict (.vec 1) none none (.scalar 2), .update (some z) .none none, .setAlpha 1.5,
      .updateSequential 0 1 z (.scalar 3) none])
    ((cvKF.timesCov 9).run expf [.predict (.vec 1) none none (.scalar (9 * 2)), .update (some z) .none none,
      .setAlpha 1.5, .updateSequential 0 1 z (.scalar (9 * 3)) none]) :=
  C87_ratios (by norm_num) expf (inScale_self 9 cvKF rfl)
    [.predict (.vec 1) none none (.scalar 2), .update (some z) .none none, .setAlpha 1.5,
      .updateSequential 0 1 z (.scalar 3) none] (by simp [NoReads])

end Filterpy
