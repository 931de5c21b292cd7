import Verif.Props.KalmanBasic
import Verif.Lemmas.Sim
import Mathlib.Analysis.SpecialFunctions.Log.Basic

/-!
# Changing the units of state and measurement (C74)
-/

namespace Filterpy
open Matrix

variable {n m l : ℕ}

/-- A noise argument expressed in new units. -/
noncomputable def MatArg.conj {k : ℕ} (T : Mat k k) : MatArg k → MatArg k
  | .none => .none
  | .scalar c => .mat (T * (c • (1 : Mat k k)) * Tᵀ)
  | .mat A => .mat (T * A * Tᵀ)

theorem MatArg.conj_resolve {k : ℕ} (T : Mat k k) (a : MatArg k) {A A' : Mat k k}
    (h : A' = T * A * Tᵀ) : (a.conj T).resolve A' = T * a.resolve A * Tᵀ := by
  cases a <;> simp only [MatArg.conj, MatArg.resolve, h]

/-- A call expressed in new units: `x' = T x` for the state, `z' = U z` for the measurement. -/
noncomputable def unitsOp (T : Mat n n) (U : Mat m m) : KFOp n m l → KFOp n m l
  | .predict u B F Q => .predict u (B.map (T * ·)) (F.map (T * · * T⁻¹)) (Q.conj T)
  | .update z R H => .update (z.map (U *ᵥ ·)) (R.conj U) (H.map (U * · * T⁻¹))
  | .predictSteadystate u B => .predictSteadystate u (B.map (T * ·))
  | .updateSteadystate z => .updateSteadystate (z.map (U *ᵥ ·))
  | .updateCorrelated z R H => .updateCorrelated (z.map (U *ᵥ ·)) (R.conj U) (H.map (U * · * T⁻¹))
  | op => op

/-- The calls C74 ranges over: every predict and update method except `update_sequential`, which
refers to single entries of the measurement. -/
def WholeOp : KFOp n m l → Prop
  | .updateSequential .. => False
  | .readLogLik | .readLik | .readMahal | .setAlpha _ => False
  | _ => True

/-- The second filter is the first one in the units `x' = T x`, `z' = U z`; with `A := False` nothing is asked of the records
`x_prior`, `P_prior`, `x_post`, `P_post`, which a new filter keeps from `__init__`. -/
structure InUnits (A : Prop) (T : Mat n n) (U : Mat m m) (s t : KF n m l) : Prop where
  x : t.x = T *ᵥ s.x
  P : t.P = T * s.P * Tᵀ
  Q : t.Q = T * s.Q * Tᵀ
  B : t.B = s.B.map fun B : Mat n l => T * B
  F : t.F = T * s.F * T⁻¹
  H : t.H = U * s.H * T⁻¹
  R : t.R = U * s.R * Uᵀ
  M : t.M = T * s.M * Uᵀ
  alpha : t.alphaSq = s.alphaSq
  K : t.K = T * s.K * U⁻¹
  y : t.y = U *ᵥ s.y
  S : t.S = U * s.S * Uᵀ
  SI : t.SI = (U⁻¹)ᵀ * s.SI * U⁻¹
  xPrior : A → t.xPrior = T *ᵥ s.xPrior
  PPrior : A → t.PPrior = T * s.PPrior * Tᵀ
  xPost : A → t.xPost = T *ᵥ s.xPost
  PPost : A → t.PPost = T * s.PPost * Tᵀ
  logLik : t.logLik = none ↔ s.logLik = none
  mahal : t.mahal = s.mahal
  inv : s.inv = npInv
  inv' : t.inv = npInv

theorem units_control (T : Mat n n) (B : Option (Mat n l)) (u : UArg l) :
    KF.control (B.map fun B : Mat n l => T * B) u =
      (KF.control B u).map (Option.map (T *ᵥ ·)) := by
  cases B with
  | none => rfl
  | some B =>
    cases u with
    | none => rfl
    | vec u => simp [KF.control, Except.map]
    | scalar c =>
      by_cases hl : l = 1
      · subst hl
        simp only [KF.control, Option.map, dif_pos, Except.map]
        congr 2
        funext i
        simp only [mulVec, dotProduct, Matrix.mul_apply, Finset.mul_sum]
        exact Finset.sum_congr rfl fun j _ => by ring
      · simp [KF.control, hl, Except.map]

theorem units_steadyControl (T : Mat n n) (B : Option (Mat n l)) (u : UArg l) :
    KF.steadyControl (B.map fun B : Mat n l => T * B) u =
      (KF.steadyControl B u).map (Option.map (T *ᵥ ·)) := by
  cases u with
  | none => cases B <;> rfl
  | vec u => rw [KF.steadyControl_of_ne _ (by simp), KF.steadyControl_of_ne _ (by simp), units_control]
  | scalar c => rw [KF.steadyControl_of_ne _ (by simp), KF.steadyControl_of_ne _ (by simp), units_control]

theorem units_or (T : Mat n n) (B B' : Option (Mat n l)) :
    (B.map fun B : Mat n l => T * B).or (B'.map fun B : Mat n l => T * B) =
      (B.or B').map fun B : Mat n l => T * B := by
  cases B <;> rfl

/-- The prediction in new units. -/
theorem units_predict {T : Mat n n} (hT : IsUnit T.det) (F : Mat n n) (P Q : Mat n n) (x : Vec n)
    (a : ℝ) :
    a • ((T * F * T⁻¹) * (T * P * Tᵀ) * (T * F * T⁻¹)ᵀ) + T * Q * Tᵀ =
      T * (a • (F * P * Fᵀ) + Q) * Tᵀ ∧ (T * F * T⁻¹) *ᵥ (T *ᵥ x) = T *ᵥ (F *ᵥ x) := by
  have h1 : T * F * T⁻¹ * T = T * F := by rw [Matrix.mul_assoc, nonsing_inv_mul _ hT, Matrix.mul_one]
  have h2 : Tᵀ * (T * F * T⁻¹)ᵀ = Fᵀ * Tᵀ := by rw [← transpose_mul, h1, transpose_mul]
  constructor
  · rw [show (T * F * T⁻¹) * (T * P * Tᵀ) * (T * F * T⁻¹)ᵀ =
        (T * F * T⁻¹ * T) * P * (Tᵀ * (T * F * T⁻¹)ᵀ) by simp only [Matrix.mul_assoc], h1, h2]
    simp only [Matrix.mul_add, Matrix.add_mul, Matrix.mul_smul, Matrix.smul_mul, Matrix.mul_assoc]
  · rw [mulVec_mulVec, h1, mulVec_mulVec]

/-- Inverting the innovation covariance in new units. -/
theorem units_inv {U : Mat m m} (hU : U.det ≠ 0) (S : Mat m m) :
    npInv (U * S * Uᵀ) = (npInv S).map fun SI => (U⁻¹)ᵀ * SI * U⁻¹ := by
  by_cases h : S.det = 0
  · rw [npInv_eq_none.2 h, npInv_eq_none.2 (by simp [h])]; rfl
  · have h' : (U * S * Uᵀ).det ≠ 0 := by
      rw [det_mul, det_mul, det_transpose]; exact mul_ne_zero (mul_ne_zero hU h) hU
    rw [npInv_of_det_ne h, npInv_of_det_ne h', Matrix.mul_inv_rev, Matrix.mul_inv_rev, ← transpose_nonsing_inv,
      ← Matrix.mul_assoc]
    rfl

/-- Algebra shared by the update methods. -/
structure UnitsRel (T : Mat n n) (U : Mat m m) (H H' : Mat m n) : Prop where
  left : H' * T = U * H
  right : Tᵀ * H'ᵀ = Hᵀ * Uᵀ

theorem unitsRel {T : Mat n n} (hT : IsUnit T.det) (U : Mat m m) (H : Mat m n) :
    UnitsRel T U H (U * H * T⁻¹) := by
  have h1 : U * H * T⁻¹ * T = U * H := by rw [Matrix.mul_assoc, nonsing_inv_mul _ hT, Matrix.mul_one]
  exact ⟨h1, by rw [← transpose_mul, h1, transpose_mul]⟩

theorem units_S {T : Mat n n} {U : Mat m m} {H H' : Mat m n} (h : UnitsRel T U H H') (P : Mat n n)
    (R : Mat m m) : H' * (T * P * Tᵀ * H'ᵀ) + U * R * Uᵀ = U * (H * (P * Hᵀ) + R) * Uᵀ := by
  rw [show H' * (T * P * Tᵀ * H'ᵀ) = (H' * T) * P * (Tᵀ * H'ᵀ) by simp only [Matrix.mul_assoc],
    h.left, h.right]
  simp only [Matrix.mul_add, Matrix.add_mul, Matrix.mul_assoc]

theorem units_resid {T : Mat n n} {U : Mat m m} {H H' : Mat m n} (h : UnitsRel T U H H') (z : Vec m)
    (x : Vec n) : U *ᵥ z - H' *ᵥ (T *ᵥ x) = U *ᵥ (z - H *ᵥ x) := by
  rw [mulVec_mulVec, h.left, mulVec_sub, mulVec_mulVec]

theorem units_K {T : Mat n n} {U : Mat m m} {H H' : Mat m n} (h : UnitsRel T U H H')
    (hU : IsUnit U.det) (P : Mat n n) (SI : Mat m m) :
    T * P * Tᵀ * H'ᵀ * ((U⁻¹)ᵀ * SI * U⁻¹) = T * (P * Hᵀ * SI) * U⁻¹ := by
  have hu : Uᵀ * (U⁻¹)ᵀ = 1 := by rw [← transpose_mul, nonsing_inv_mul _ hU, transpose_one]
  rw [show T * P * Tᵀ * H'ᵀ * ((U⁻¹)ᵀ * SI * U⁻¹) = T * P * (Tᵀ * H'ᵀ) * (U⁻¹)ᵀ * SI * U⁻¹ by
    simp only [Matrix.mul_assoc], h.right]
  rw [show T * P * (Hᵀ * Uᵀ) * (U⁻¹)ᵀ * SI * U⁻¹ = T * P * Hᵀ * (Uᵀ * (U⁻¹)ᵀ) * SI * U⁻¹ by
    simp only [Matrix.mul_assoc], hu, Matrix.mul_one]
  simp only [Matrix.mul_assoc]

theorem units_x {T : Mat n n} {U : Mat m m} (hU : IsUnit U.det) (K : Mat n m) (x : Vec n) (y : Vec m) :
    T *ᵥ x + (T * K * U⁻¹) *ᵥ (U *ᵥ y) = T *ᵥ (x + K *ᵥ y) := by
  rw [mulVec_mulVec, Matrix.mul_assoc, nonsing_inv_mul _ hU, Matrix.mul_one, mulVec_add,
    mulVec_mulVec]

theorem units_joseph {T : Mat n n} {U : Mat m m} {H H' : Mat m n} (h : UnitsRel T U H H')
    (hU : IsUnit U.det) (P : Mat n n) (R : Mat m m) (K : Mat n m) :
    (1 - T * K * U⁻¹ * H') * (T * P * Tᵀ) * (1 - T * K * U⁻¹ * H')ᵀ +
        T * K * U⁻¹ * (U * R * Uᵀ) * (T * K * U⁻¹)ᵀ =
      T * ((1 - K * H) * P * (1 - K * H)ᵀ + K * R * Kᵀ) * Tᵀ := by
  have hk : T * K * U⁻¹ * U = T * K := by rw [Matrix.mul_assoc, nonsing_inv_mul _ hU, Matrix.mul_one]
  have hk' : Uᵀ * (T * K * U⁻¹)ᵀ = Kᵀ * Tᵀ := by rw [← transpose_mul, hk, transpose_mul]
  have h1 : (1 - T * K * U⁻¹ * H') * T = T * (1 - K * H) := by
    rw [Matrix.sub_mul, Matrix.one_mul, Matrix.mul_assoc _ H' T, h.left, ← Matrix.mul_assoc, hk,
      Matrix.mul_sub, Matrix.mul_one, Matrix.mul_assoc]
  have h2 : Tᵀ * (1 - T * K * U⁻¹ * H')ᵀ = (1 - K * H)ᵀ * Tᵀ := by
    rw [← transpose_mul, h1, transpose_mul]
  rw [show (1 - T * K * U⁻¹ * H') * (T * P * Tᵀ) * (1 - T * K * U⁻¹ * H')ᵀ =
      ((1 - T * K * U⁻¹ * H') * T) * P * (Tᵀ * (1 - T * K * U⁻¹ * H')ᵀ) by
        simp only [Matrix.mul_assoc], h1, h2,
    show T * K * U⁻¹ * (U * R * Uᵀ) * (T * K * U⁻¹)ᵀ =
      (T * K * U⁻¹ * U) * R * (Uᵀ * (T * K * U⁻¹)ᵀ) by simp only [Matrix.mul_assoc], hk, hk']
  simp only [Matrix.mul_add, Matrix.add_mul, Matrix.mul_assoc]

theorem units_S_corr {T : Mat n n} {U : Mat m m} {H H' : Mat m n} (h : UnitsRel T U H H')
    (P : Mat n n) (M : Mat n m) (R : Mat m m) :
    H' * (T * P * Tᵀ * H'ᵀ) + H' * (T * M * Uᵀ) + (T * M * Uᵀ)ᵀ * H'ᵀ + U * R * Uᵀ =
      U * (H * (P * Hᵀ) + H * M + Mᵀ * Hᵀ + R) * Uᵀ := by
  rw [show H' * (T * P * Tᵀ * H'ᵀ) = (H' * T) * P * (Tᵀ * H'ᵀ) by simp only [Matrix.mul_assoc],
    show H' * (T * M * Uᵀ) = (H' * T) * M * Uᵀ by simp only [Matrix.mul_assoc],
    show (T * M * Uᵀ)ᵀ * H'ᵀ = U * Mᵀ * (Tᵀ * H'ᵀ) by
      simp only [transpose_mul, transpose_transpose, Matrix.mul_assoc],
    h.left, h.right]
  simp only [Matrix.mul_add, Matrix.add_mul, Matrix.mul_assoc]

theorem units_K_corr {T : Mat n n} {U : Mat m m} {H H' : Mat m n} (h : UnitsRel T U H H')
    (hU : IsUnit U.det) (P : Mat n n) (M : Mat n m) (SI : Mat m m) :
    (T * P * Tᵀ * H'ᵀ + T * M * Uᵀ) * ((U⁻¹)ᵀ * SI * U⁻¹) = T * ((P * Hᵀ + M) * SI) * U⁻¹ := by
  have hu : Uᵀ * (U⁻¹)ᵀ = 1 := by rw [← transpose_mul, nonsing_inv_mul _ hU, transpose_one]
  rw [show T * P * Tᵀ * H'ᵀ + T * M * Uᵀ = T * (P * Hᵀ + M) * Uᵀ by
    rw [show T * P * Tᵀ * H'ᵀ = T * P * (Tᵀ * H'ᵀ) by simp only [Matrix.mul_assoc], h.right]
    simp only [Matrix.mul_add, Matrix.add_mul, Matrix.mul_assoc]]
  rw [show T * (P * Hᵀ + M) * Uᵀ * ((U⁻¹)ᵀ * SI * U⁻¹) =
      T * (P * Hᵀ + M) * (Uᵀ * (U⁻¹)ᵀ) * SI * U⁻¹ by simp only [Matrix.mul_assoc], hu, Matrix.mul_one]
  simp only [Matrix.mul_assoc]

theorem units_P_corr {T : Mat n n} {U : Mat m m} {H H' : Mat m n} (h : UnitsRel T U H H')
    (hU : IsUnit U.det) (P : Mat n n) (M K : Mat n m) :
    T * P * Tᵀ - T * K * U⁻¹ * (H' * (T * P * Tᵀ) + (T * M * Uᵀ)ᵀ) =
      T * (P - K * (H * P + Mᵀ)) * Tᵀ := by
  have hk : T * K * U⁻¹ * U = T * K := by rw [Matrix.mul_assoc, nonsing_inv_mul _ hU, Matrix.mul_one]
  rw [show H' * (T * P * Tᵀ) + (T * M * Uᵀ)ᵀ = U * ((H * P + Mᵀ) * Tᵀ) by
    rw [show H' * (T * P * Tᵀ) = (H' * T) * P * Tᵀ by simp only [Matrix.mul_assoc], h.left]
    simp only [transpose_mul, transpose_transpose, Matrix.mul_add, Matrix.add_mul, Matrix.mul_assoc],
    ← Matrix.mul_assoc, hk]
  simp only [Matrix.mul_sub, Matrix.sub_mul, Matrix.mul_assoc]

theorem units_step {A : Prop} {T : Mat n n} {U : Mat m m} (hT : T.det ≠ 0) (hU : U.det ≠ 0) (expf : ℝ → ℝ)
    {s t : KF n m l} (h : InUnits A T U s t) {op : KFOp n m l} (ho : WholeOp op) :
    Agree (InUnits A T U) (s.step expf op) (t.step expf (unitsOp T U op)) := by
  have hT' := isUnit_det_of_ne hT
  have hU' := isUnit_det_of_ne hU
  rcases s with ⟨x, P, Q, B, F, H, R, al, M, zs, K, y, S, SI, xp, PP, xq, PQ, ll, lk, mh, iv⟩
  rcases t with ⟨x', P', Q', B', F', H', R', al', M', zs', K', y', S', SI', xp', PP', xq', PQ', ll', lk', mh', iv'⟩
  obtain ⟨h1, h2, h3, h4, h5, h6, h7, h8, h9, h10, h11, h12, h13, h14, h15, h16, h17, hl, h19, h20, h21⟩ := h
  simp only at h1 h2 h3 h4 h5 h6 h7 h8 h9 h10 h11 h12 h13 h14 h15 h16 h17 hl h19 h20 h21
  subst h1 h2 h3 h4 h5 h6 h7 h8 h9 h10 h11 h12 h13 h19 h20 h21
  have hHd (A : Option (Mat m n)) : (A.map (U * · * T⁻¹)).getD (U * H * T⁻¹) = U * A.getD H * T⁻¹ := by
    cases A <;> rfl
  have hFd (A : Option (Mat n n)) : (A.map (T * · * T⁻¹)).getD (T * F * T⁻¹) = T * A.getD F * T⁻¹ := by
    cases A <;> rfl
  cases op with
  | predict u Ba Fa Qa =>
    obtain ⟨e1, e2⟩ := units_predict hT' (Fa.getD F) P (Qa.resolve Q) x al'
    simp only [KF.step, unitsOp, KF.predict, units_or, units_control, hFd,
      MatArg.conj_resolve T Qa rfl, e1, e2]
    cases KF.control (Ba.or B) u with
    | error e => exact ⟨rfl, by constructor <;> first | rfl | assumption | exact fun _ => rfl⟩
    | ok bu =>
      cases bu with
      | none => constructor <;> first | rfl | assumption | exact fun _ => rfl
      | some b => constructor <;> first | rfl | assumption | exact fun _ => rfl | exact (mulVec_add _ _ _).symm | exact fun _ => (mulVec_add _ _ _).symm
  | update z Ra Ha =>
    cases z with
    | none => constructor <;> first | rfl | assumption | exact fun _ => rfl | exact (mulVec_zero _).symm
    | some z =>
      have hr := unitsRel hT' U (Ha.getD H)
      simp only [KF.step, unitsOp, KF.update, Option.map_some, hHd, MatArg.conj_resolve U Ra rfl,
        units_S hr, units_inv hU, units_resid hr]
      cases npInv (Ha.getD H * (P * (Ha.getD H)ᵀ) + Ra.resolve R) with
      | none => exact ⟨rfl, by constructor <;> first | rfl | assumption | exact fun _ => rfl⟩
      | some SI =>
        simp only [Option.map_some, units_K hr hU', units_x hU', units_joseph hr hU']
        constructor <;> first | rfl | assumption | exact fun _ => rfl
  | updateSequential => exact ho.elim
  | predictSteadystate u Ba =>
    have e2 := (units_predict hT' F P Q x al').2
    simp only [KF.step, unitsOp, KF.predictSteadystate, units_or, units_steadyControl, e2]
    cases KF.steadyControl (Ba.or B) u with
    | error e => exact ⟨rfl, by constructor <;> first | rfl | assumption | exact fun _ => rfl⟩
    | ok bu =>
      cases bu with
      | none => constructor <;> first | rfl | assumption | exact fun _ => rfl
      | some b => constructor <;> first | rfl | assumption | exact fun _ => rfl | exact (mulVec_add _ _ _).symm | exact fun _ => (mulVec_add _ _ _).symm
  | updateSteadystate z =>
    cases z with
    | none => constructor <;> first | rfl | assumption | exact fun _ => rfl | exact (mulVec_zero _).symm
    | some z =>
      have hr := unitsRel hT' U H
      simp only [KF.step, unitsOp, KF.updateSteadystate, Option.map_some,
        units_resid hr, units_x hU']
      constructor <;> first | rfl | assumption | exact fun _ => rfl
  | updateCorrelated z Ra Ha =>
    cases z with
    | none => constructor <;> first | rfl | assumption | exact fun _ => rfl | exact (mulVec_zero _).symm
    | some z =>
      have hr := unitsRel hT' U (Ha.getD H)
      simp only [KF.step, unitsOp, KF.updateCorrelated, Option.map_some, hHd,
        MatArg.conj_resolve U Ra rfl, units_S_corr hr, units_inv hU, units_resid hr]
      cases npInv (Ha.getD H * (P * (Ha.getD H)ᵀ) + Ha.getD H * M + Mᵀ * (Ha.getD H)ᵀ +
          Ra.resolve R) with
      | none => exact ⟨rfl, by constructor <;> first | rfl | assumption | exact fun _ => rfl⟩
      | some SI =>
        simp only [Option.map_some, units_K_corr hr hU', units_x hU', units_P_corr hr hU']
        constructor <;> first | rfl | assumption | exact fun _ => rfl
  | readLogLik => exact ho.elim
  | readLik => exact ho.elim
  | readMahal => exact ho.elim
  | setAlpha v => exact ho.elim

/-- **C74.** Express a filter and every call on it in other units, `x' = T x` for the state and
`z' = U z` for the measurement (any invertible `T`, `U`, so rescaled, permuted, rotated or otherwise
mixed): after any history of calls both objects describe the same estimate, `x' = T x` and
`P' = T P Tᵀ`, with gains, residual and innovation covariance in the new units; and if an exception
is raised, it is the same one after the same call. -/
theorem C74_units {A : Prop} {T : Mat n n} {U : Mat m m} (hT : T.det ≠ 0) (hU : U.det ≠ 0) (expf : ℝ → ℝ)
    {s t : KF n m l} (h : InUnits A T U s t) (ops : List (KFOp n m l)) (ho : ∀ op ∈ ops, WholeOp op) :
    Agree (InUnits A T U) (s.run expf ops) (t.run expf (ops.map (unitsOp T U))) := by
  induction ops generalizing s t with
  | nil => exact h
  | cons op ops ih =>
    have h1 := units_step hT hU expf h (ho op (by simp))
    simp only [KF.run, List.map_cons]
    revert h1
    cases s.step expf op <;> cases t.step expf (unitsOp T U op) <;> intro h1 <;>
      first | exact h1.elim | exact h1 | exact ih h1 fun o hm => ho o (by simp [hm])

/-- **C74 (likelihood).** In the new units the log-likelihood of the last measurement is shifted by
the constant `- log |det U|` (a density scales by the Jacobian), and the Mahalanobis distance is
unchanged. -/
theorem C74_likelihood {A : Prop} {T : Mat n n} {U : Mat m m} (hU : U.det ≠ 0) {s t : KF n m l}
    (h : InUnits A T U s t) (hl : s.logLik = none) (hS : s.S.PosDef) :
    t.readLogLik.1 = s.readLogLik.1 - Real.log |U.det| ∧
    t.readMahal.map Prod.fst = s.readMahal.map Prod.fst := by
  have hU' := isUnit_det_of_ne hU
  have hu : Uᵀ * (U⁻¹)ᵀ = 1 := by rw [← transpose_mul, nonsing_inv_mul _ hU', transpose_one]
  have hq (A : Mat m m) : (U *ᵥ s.y) ⬝ᵥ (((U⁻¹)ᵀ * A * U⁻¹) *ᵥ (U *ᵥ s.y)) = s.y ⬝ᵥ (A *ᵥ s.y) := by
    rw [mulVec_mulVec, Matrix.mul_assoc, nonsing_inv_mul _ hU', Matrix.mul_one, dotProduct_mulVec,
      ← mulVec_transpose]
    rw [mulVec_mulVec, transpose_mul, transpose_transpose, Matrix.mul_assoc, nonsing_inv_mul _ hU',
      Matrix.mul_one, mulVec_transpose, ← dotProduct_mulVec]
  constructor
  · have hdet : (U * s.S * Uᵀ).det = U.det ^ 2 * s.S.det := by
      rw [det_mul, det_mul, det_transpose]; ring
    have hSd := hS.det_pos
    have hinv : (U * s.S * Uᵀ)⁻¹ = (U⁻¹)ᵀ * s.S⁻¹ * U⁻¹ := by
      rw [Matrix.mul_inv_rev, Matrix.mul_inv_rev, ← transpose_nonsing_inv, ← Matrix.mul_assoc]
    simp only [KF.readLogLik, hl, h.logLik.2 hl, logpdf, h.S, h.y, hdet, hinv, hq]
    rw [Real.log_mul (pow_ne_zero 2 hU) hSd.ne', Real.log_pow, Real.log_abs]
    push_cast
    ring
  · simp only [KF.readMahal, h.mahal, h.SI, h.y, hq]
    cases s.mahal with
    | some v => rfl
    | none =>
      simp only
      split <;> rfl

/-- The filter in other units. -/
noncomputable def KF.inUnits (T : Mat n n) (U : Mat m m) (s : KF n m l) : KF n m l :=
  { s with
    x := T *ᵥ s.x
    P := T * s.P * Tᵀ
    Q := T * s.Q * Tᵀ
    B := s.B.map fun B : Mat n l => T * B
    F := T * s.F * T⁻¹
    H := U * s.H * T⁻¹
    R := U * s.R * Uᵀ
    M := T * s.M * Uᵀ
    K := T * s.K * U⁻¹
    y := U *ᵥ s.y
    S := U * s.S * Uᵀ
    SI := (U⁻¹)ᵀ * s.SI * U⁻¹
    xPrior := T *ᵥ s.xPrior
    PPrior := T * s.PPrior * Tᵀ
    xPost := T *ᵥ s.xPost
    PPost := T * s.PPost * Tᵀ }

/-- Every filter that uses the default inverse can be expressed in other units. -/
theorem inUnits_self {A : Prop} (T : Mat n n) (U : Mat m m) (s : KF n m l) (hinv : s.inv = npInv) :
    InUnits A T U s (s.inUnits T U) := by
  constructor <;> first | rfl | exact hinv | exact fun _ => rfl

/-- Two filters just built, in two systems of units. -/
theorem inUnits_fresh (T : Mat n n) (U : Mat m m) (x : Vec n) (P Q F : Mat n n) (B : Option (Mat n l)) (H : Mat m n) (R : Mat m m) :
    InUnits False T U { KF.fresh n m l with x := x, P := P, Q := Q, F := F, B := B, H := H, R := R }
      { KF.fresh n m l with
        x := T *ᵥ x, P := T * P * Tᵀ, Q := T * Q * Tᵀ, F := T * F * T⁻¹, B := B.map (T * ·), H := U * H * T⁻¹, R := U * R * Uᵀ } := by
  constructor <;> first | exact False.elim | rfl | (simp [KF.fresh]; done)

/-- Metres to millimetres and swapped state entries, on a history with an update and a control. -/
example (expf : ℝ → ℝ) (z : Vec 1) :
    Agree (InUnits True !![0, 1000; 1, 0] ((1000 : ℝ) • 1))
      (cvKF.run expf [.predict (.vec 1) none none (.scalar 2), .update (some z) .none none])
      ((cvKF.inUnits !![0, 1000; 1, 0] ((1000 : ℝ) • 1)).run expf
        ([.predict (.vec 1) none none (.scalar 2), .update (some z) .none none].map
          (unitsOp !![0, 1000; 1, 0] ((1000 : ℝ) • 1)))) := by
  refine C74_units ?_ ?_ expf (inUnits_self _ _ _ rfl) _ ?_
  · rw [det_fin_two_of]; norm_num
  · simp
  · simp [WholeOp]

end Filterpy
