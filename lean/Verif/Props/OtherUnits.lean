import Verif.Props.KalmanUnits
import Verif.Props.FilterBooks
import Verif.Props.HInfinity
import Verif.Props.EnKF
import Verif.Props.InformationFilter
import Verif.Props.IMM
import Verif.Props.MMAE

/-!
# Units do not matter for the other filters and for banks (C129)
-/

namespace Filterpy
open Matrix

variable {n m l N : ℕ} {A : Prop}

theorem units_fkf_control (T : Mat n n) (B : Option (Mat n l)) (u : UArg l) :
    FKF.control (B.map fun B : Mat n l => T * B) u = (FKF.control B u).map (T *ᵥ ·) := by
  cases B with
  | none =>
    cases u with
    | none => rfl
    | scalar c => simp [FKF.control, Except.map]
    | vec v =>
      by_cases h : l = n ∨ l = 1
      · simp [FKF.control, Except.map, h]
      · simp [FKF.control, Except.map, h]
  | some B =>
    cases u with
    | none => rfl
    | vec u => simp [FKF.control, Except.map]
    | scalar c =>
      by_cases hl : l = 1
      · subst hl
        simp only [FKF.control, Option.map, dif_pos, Except.map]
        congr 1
        funext i
        simp only [mulVec, dotProduct, Matrix.mul_apply, Finset.mul_sum]
        exact Finset.sum_congr rfl fun j _ => by ring
      · simp [FKF.control, hl, Except.map]

/-- The Mahalanobis distance does not depend on the units. -/
theorem units_mahal {U : Mat m m} (hU : IsUnit U.det) (y : Vec m) (A : Mat m m) :
    (U *ᵥ y) ⬝ᵥ (((U⁻¹)ᵀ * A * U⁻¹) *ᵥ (U *ᵥ y)) = y ⬝ᵥ (A *ᵥ y) := by
  rw [mulVec_mulVec, Matrix.mul_assoc, nonsing_inv_mul _ hU, Matrix.mul_one, dotProduct_mulVec,
    ← mulVec_transpose]
  rw [mulVec_mulVec, transpose_mul, transpose_transpose, Matrix.mul_assoc, nonsing_inv_mul _ hU,
    Matrix.mul_one, mulVec_transpose, ← dotProduct_mulVec]

/-- A density is divided by the Jacobian. -/
theorem units_logpdf {U : Mat m m} (hU : U.det ≠ 0) (y : Vec m) {S : Mat m m} (hS : S.det ≠ 0) :
    logpdf (U *ᵥ y) (U * S * Uᵀ) = logpdf y S - Real.log |U.det| := by
  have hinv : (U * S * Uᵀ)⁻¹ = (U⁻¹)ᵀ * S⁻¹ * U⁻¹ := by
    rw [Matrix.mul_inv_rev, Matrix.mul_inv_rev, ← transpose_nonsing_inv, ← Matrix.mul_assoc]
  have hdet : (U * S * Uᵀ).det = U.det ^ 2 * S.det := by
    rw [det_mul, det_mul, det_transpose]; ring
  simp only [logpdf, hdet, hinv, units_mahal (isUnit_det_of_ne hU)]
  rw [Real.log_mul (pow_ne_zero 2 hU) hS, Real.log_pow, Real.log_abs]
  push_cast
  ring

/-! ## `FadingKalmanFilter` -/

/-- The second filter is the first one in the units `x' = T x`, `z' = U z`, the records of the last prediction and
update only if `A`. -/
structure FKF.InUnits (A : Prop) (T : Mat n n) (U : Mat m m) (s t : FKF n m l) : Prop where
  x : t.x = T *ᵥ s.x
  P : t.P = T * s.P * Tᵀ
  Q : t.Q = T * s.Q * Tᵀ
  B : t.B = s.B.map fun B : Mat n l => T * B
  F : t.F = T * s.F * T⁻¹
  H : t.H = U * s.H * T⁻¹
  R : t.R = U * s.R * Uᵀ
  alpha : t.alphaSq = s.alphaSq
  K : t.K = T * s.K * U⁻¹
  y : t.y = U *ᵥ s.y
  S : t.S = U * s.S * Uᵀ
  SI : t.SI = (U⁻¹)ᵀ * s.SI * U⁻¹
  xPrior : A → t.xPrior = T *ᵥ s.xPrior
  PPrior : A → t.PPrior = T * s.PPrior * Tᵀ
  xPost : A → t.xPost = T *ᵥ s.xPost
  PPost : A → t.PPost = T * s.PPost * Tᵀ
  mahal : t.mahal = s.mahal

/-- A call expressed in new units. -/
noncomputable def FkfOp.units (U : Mat m m) : FkfOp n m l → FkfOp n m l
  | .update z R => .update (z.map (U *ᵥ ·)) (R.conj U)
  | op => op

theorem FKF.InUnits.caches {T : Mat n n} {U : Mat m m} {s t : FKF n m l} (h : FKF.InUnits A T U s t)
    (a a' b b' c : Option ℝ) :
    FKF.InUnits A T U { s with logLik := a, lik := b, mahal := c } { t with logLik := a', lik := b', mahal := c } := by
  obtain ⟨⟩ := h
  constructor <;> first | assumption | rfl

theorem fkf_units_step {T : Mat n n} {U : Mat m m} (hT : T.det ≠ 0) (hU : U.det ≠ 0) (expf : ℝ → ℝ)
    {s t : FKF n m l} (h : FKF.InUnits A T U s t) (op : FkfOp n m l) :
    Agree (FKF.InUnits A T U) (op.on expf s) ((op.units U).on expf t) := by
  have hT' := isUnit_det_of_ne hT
  have hU' := isUnit_det_of_ne hU
  rcases s with ⟨al, x, P, Q, B, F, H, R, z0, K, y, S, SI, ll, lk, mh, xp, Pp, xq, Pq⟩
  rcases t with ⟨al', x', P', Q', B', F', H', R', z0', K', y', S', SI', ll', lk', mh', xp', Pp', xq', Pq'⟩
  have hc := h.caches
  obtain ⟨h1, h2, h3, h4, h5, h6, h7, h8, h9, h10, h11, h12, h13, h14, h15, h16, h17⟩ := h
  simp only at h1 h2 h3 h4 h5 h6 h7 h8 h9 h10 h11 h12 h13 h14 h15 h16 h17
  subst h1 h2 h3 h4 h5 h6 h7 h8 h9 h10 h11 h12 h17
  cases op with
  | readLL => cases ll <;> cases ll' <;> exact hc ..
  | readLik => cases lk <;> cases lk' <;> cases ll <;> cases ll' <;> exact hc ..
  | readMahal =>
    cases mh' with
    | some v => exact hc ..
    | none =>
      simp only [FkfOp.on, FkfOp.units, FKF.readMahal, units_mahal hU']
      by_cases hd : y ⬝ᵥ (SI *ᵥ y) < 0
      · simp only [if_pos hd]; exact ⟨rfl, hc ..⟩
      · simp only [if_neg hd]; exact hc ..
  | predict u =>
    obtain ⟨e1, e2⟩ := units_predict hT' F P Q x al'
    simp only [FkfOp.on, FkfOp.units, FKF.predict, units_fkf_control, e1, e2]
    cases FKF.control B u with
    | error e => exact ⟨rfl, hc ..⟩
    | ok b => constructor <;> first | rfl | assumption | exact fun _ => rfl | exact (mulVec_add _ _ _).symm | exact fun _ => (mulVec_add _ _ _).symm
  | update z Ra =>
    cases z with
    | none => constructor <;> first | rfl | assumption | exact fun _ => rfl
    | some z =>
      have hr := unitsRel hT' U H
      simp only [FkfOp.on, FkfOp.units, FKF.update, Option.map_some, MatArg.conj_resolve U Ra rfl,
        units_S hr, units_inv hU, units_resid hr]
      cases npInv (H * (P * Hᵀ) + Ra.resolve R) with
      | none => exact ⟨rfl, by constructor <;> first | rfl | assumption | exact fun _ => rfl⟩
      | some SI =>
        simp only [Option.map_some, units_K hr hU', units_x hU', units_joseph hr hU']
        constructor <;> first | rfl | assumption | exact fun _ => rfl

theorem runList_units {σ τ ι κ : Type*} {R : σ → τ → Prop} {f : σ → ι → Exec σ}
    {g : τ → κ → Exec τ} (c : ι → κ) (is : List ι)
    (step : ∀ s t, ∀ i ∈ is, R s t → Agree R (f s i) (g t (c i))) {s : σ} {t : τ} (h : R s t) :
    Agree R (runList f s is) (runList g t (is.map c)) := by
  induction is generalizing s t with
  | nil => exact h
  | cons i is ih =>
    have h1 := step s t i (by simp) h
    simp only [runList, List.map_cons]
    cases hf : f s i <;> cases hg : g t (c i) <;> rw [hf, hg] at h1 <;> simp only [Agree] at h1
    · exact h1
    · exact ih (fun s t j hj => step s t j (by simp [hj])) h1

/-- **C129 (`FadingKalmanFilter`).** Express the filter and every call on it in other units, `x' = T x` for the
state and `z' = U z` for the measurement: after any history of calls the two objects describe the same
estimate, with the same Mahalanobis distances, and a call raises an exception in one exactly when it
raises the same one in the other. -/
theorem C129_fading {T : Mat n n} {U : Mat m m} (hT : T.det ≠ 0) (hU : U.det ≠ 0) (expf : ℝ → ℝ)
    {s t : FKF n m l} (h : FKF.InUnits A T U s t) (ops : List (FkfOp n m l)) :
    Agree (FKF.InUnits A T U) (runList (FkfOp.on expf) s ops) (runList (FkfOp.on expf) t (ops.map (FkfOp.units U))) :=
  runList_units _ ops (fun _ _ i _ h => fkf_units_step hT hU expf h i) h

/-! ## `ExtendedKalmanFilter` -/

/-- The second filter is the first one in the units `x' = T x`, `z' = U z`, the records of the last prediction and
update only if `A`. -/
structure EKF.InUnits (A : Prop) (T : Mat n n) (U : Mat m m) (s t : EKF n m l) : Prop where
  x : t.x = T *ᵥ s.x
  P : t.P = T * s.P * Tᵀ
  Q : t.Q = T * s.Q * Tᵀ
  B : t.B = s.B.map fun B : Mat n l => T * B
  F : t.F = T * s.F * T⁻¹
  R : t.R = U * s.R * Uᵀ
  K : t.K = T * s.K * U⁻¹
  y : t.y = U *ᵥ s.y
  S : t.S = U * s.S * Uᵀ
  SI : t.SI = (U⁻¹)ᵀ * s.SI * U⁻¹
  xPrior : A → t.xPrior = T *ᵥ s.xPrior
  PPrior : A → t.PPrior = T * s.PPrior * Tᵀ
  xPost : A → t.xPost = T *ᵥ s.xPost
  PPost : A → t.PPost = T * s.PPost * Tᵀ
  mahal : t.mahal = s.mahal

/-- The calls on an `ExtendedKalmanFilter`, also of a subclass with its own motion `f`. -/
inductive EkfUnitCall (n m l : ℕ)
  | call (op : EkfOp n m l)
  | predictBy (f : Vec n → Vec n)
  | predictUpdate (z : Option (Vec m)) (HJ : Vec n → Mat m n) (hx : Vec n → Vec m) (u : UArg l)

/-- What they do. -/
noncomputable def EkfUnitCall.on (expf : ℝ → ℝ) (s : EKF n m l) : EkfUnitCall n m l → Exec (EKF n m l)
  | .call op => op.on expf s
  | .predictBy f => s.predictBy f
  | .predictUpdate z HJ hx u => s.predictUpdate z HJ hx u

/-- The user's functions in new units. -/
noncomputable def unitsFn (A : Mat m m) (T : Mat n n) (f : Vec n → Vec m) (v : Vec n) : Vec m := A *ᵥ f (T⁻¹ *ᵥ v)

noncomputable def unitsJac (U : Mat m m) (T : Mat n n) (J : Vec n → Mat m n) (v : Vec n) : Mat m n :=
  U * J (T⁻¹ *ᵥ v) * T⁻¹

noncomputable def unitsResidual (U : Mat m m) (r : Vec m → Vec m → Vec m) (a b : Vec m) : Vec m :=
  U *ᵥ r (U⁻¹ *ᵥ a) (U⁻¹ *ᵥ b)

/-- A call expressed in new units. -/
noncomputable def EkfUnitCall.units (T : Mat n n) (U : Mat m m) : EkfUnitCall n m l → EkfUnitCall n m l
  | .call (.update z HJ hx R r) =>
      .call (.update (z.map (U *ᵥ ·)) (unitsJac U T HJ) (unitsFn U T hx) (R.conj U) (unitsResidual U r))
  | .predictBy f => .predictBy (unitsFn T T f)
  | .predictUpdate z HJ hx u => .predictUpdate (z.map (U *ᵥ ·)) (unitsJac U T HJ) (unitsFn U T hx) u
  | op => op

/-- The default residual, a difference, is the same function in every system of units. -/
theorem units_default_residual {U : Mat m m} (hU : U.det ≠ 0) :
    unitsResidual U (fun a b => a - b) = fun a b => a - b := by
  funext a b
  simp only [unitsResidual, mulVec_sub, mulVec_mulVec, mul_nonsing_inv _ (isUnit_det_of_ne hU), one_mulVec]

theorem inv_mulVec_cancel {T : Mat n n} (hT : IsUnit T.det) (x : Vec n) : T⁻¹ *ᵥ (T *ᵥ x) = x := by
  rw [mulVec_mulVec, nonsing_inv_mul _ hT, one_mulVec]

theorem EKF.InUnits.caches {T : Mat n n} {U : Mat m m} {s t : EKF n m l} (h : EKF.InUnits A T U s t)
    (a a' b b' c : Option ℝ) :
    EKF.InUnits A T U { s with logLik := a, lik := b, mahal := c } { t with logLik := a', lik := b', mahal := c } := by
  obtain ⟨⟩ := h
  constructor <;> first | assumption | rfl

theorem ekf_units_step {T : Mat n n} {U : Mat m m} (hT : T.det ≠ 0) (hU : U.det ≠ 0) (expf : ℝ → ℝ)
    {s t : EKF n m l} (h : EKF.InUnits A T U s t) (op : EkfUnitCall n m l) :
    Agree (EKF.InUnits A T U) (op.on expf s) ((op.units T U).on expf t) := by
  have hT' := isUnit_det_of_ne hT
  have hU' := isUnit_det_of_ne hU
  rcases s with ⟨x, P, B, F, R, Q, y, z0, K, S, SI, ll, lk, mh, xp, Pp, xq, Pq⟩
  rcases t with ⟨x', P', B', F', R', Q', y', z0', K', S', SI', ll', lk', mh', xp', Pp', xq', Pq'⟩
  have hc := h.caches
  obtain ⟨h1, h2, h3, h4, h5, h6, h7, h8, h9, h10, h11, h12, h13, h14, h15⟩ := h
  simp only at h1 h2 h3 h4 h5 h6 h7 h8 h9 h10 h11 h12 h13 h14 h15
  subst h1 h2 h3 h4 h5 h6 h7 h8 h9 h10 h15
  obtain ⟨e1, e2⟩ := units_predict hT' F P Q x 1
  simp only [one_smul] at e1
  cases op with
  | call op =>
    cases op with
    | readLL => cases ll <;> cases ll' <;> exact hc ..
    | readLik => cases lk <;> cases lk' <;> cases ll <;> cases ll' <;> exact hc ..
    | readMahal =>
      cases mh' with
      | some v => exact hc ..
      | none =>
        simp only [EkfUnitCall.on, EkfUnitCall.units, EkfOp.on, EKF.readMahal, units_mahal hU']
        by_cases hd : y ⬝ᵥ (SI *ᵥ y) < 0
        · simp only [if_pos hd]; exact ⟨rfl, hc ..⟩
        · simp only [if_neg hd]; exact hc ..
    | predict u =>
      simp only [EkfUnitCall.on, EkfUnitCall.units, EkfOp.on, EKF.predict, units_fkf_control, e1, e2]
      cases FKF.control B u with
      | error e => exact ⟨rfl, hc ..⟩
      | ok b => constructor <;> first | rfl | assumption | exact fun _ => rfl | exact (mulVec_add _ _ _).symm | exact fun _ => (mulVec_add _ _ _).symm
    | update z HJ hx Ra r =>
      cases z with
      | none => constructor <;> first | rfl | assumption | exact fun _ => rfl
      | some z =>
        have hr := unitsRel hT' U (HJ x)
        simp only [EkfUnitCall.on, EkfUnitCall.units, EkfOp.on, EKF.update, Option.map_some, MatArg.conj_resolve U Ra rfl,
          unitsJac, unitsFn, unitsResidual, inv_mulVec_cancel hT', inv_mulVec_cancel hU', units_S hr, units_inv hU]
        cases npInv (HJ x * (P * (HJ x)ᵀ) + Ra.resolve R) with
        | none => exact ⟨rfl, by constructor <;> first | rfl | assumption | exact fun _ => rfl⟩
        | some SI =>
          simp only [Option.map_some, units_K hr hU', units_x hU', units_joseph hr hU']
          constructor <;> first | rfl | assumption | exact fun _ => rfl
  | predictBy f =>
    simp only [EkfUnitCall.on, EkfUnitCall.units, EKF.predictBy, unitsFn, inv_mulVec_cancel hT', e1]
    constructor <;> first | rfl | assumption | exact fun _ => rfl
  | predictUpdate z HJ hx u =>
    have hr := unitsRel hT' U (HJ x)
    simp only [EkfUnitCall.on, EkfUnitCall.units, EKF.predictUpdate, units_fkf_control, e1, e2, unitsJac, unitsFn,
      inv_mulVec_cancel hT']
    cases FKF.control B u with
    | error e => exact ⟨rfl, hc ..⟩
    | ok b =>
      simp only [Except.map, ← mulVec_add, inv_mulVec_cancel hT', units_S hr, units_inv hU]
      cases npInv (HJ x * ((F * P * Fᵀ + Q) * (HJ x)ᵀ) + R) with
      | none => exact ⟨rfl, by constructor <;> first | rfl | assumption | exact fun _ => rfl⟩
      | some SI =>
        cases z with
        | none =>
          simp only [Option.map_some, Option.map_none, units_K hr hU']
          exact ⟨rfl, by constructor <;> first | rfl | assumption | exact fun _ => rfl⟩
        | some z =>
          simp only [Option.map_some, units_K hr hU', ← mulVec_sub, units_x hU', units_joseph hr hU']
          constructor <;> first | rfl | assumption | exact fun _ => rfl

/-- **C129 (`ExtendedKalmanFilter`).** The same with user supplied measurement functions, Jacobians, residual
functions and motions, each expressed in the new units; the default residual needs no translation
(`units_default_residual`). -/
theorem C129_ekf {T : Mat n n} {U : Mat m m} (hT : T.det ≠ 0) (hU : U.det ≠ 0) (expf : ℝ → ℝ)
    {s t : EKF n m l} (h : EKF.InUnits A T U s t) (ops : List (EkfUnitCall n m l)) :
    Agree (EKF.InUnits A T U) (runList (EkfUnitCall.on expf) s ops) (runList (EkfUnitCall.on expf) t (ops.map (EkfUnitCall.units T U))) :=
  runList_units _ ops (fun _ _ i _ h => ekf_units_step hT hU expf h i) h

/-! ## `HInfinityFilter` -/

/-- The second filter is the first one in the units `x' = T x`, `z' = U z`; the weights `Q` of the estimation
error are those of the same quantities. -/
structure HInf.InUnits (T : Mat n n) (U : Mat m m) (s t : HInf n m l) : Prop where
  gamma : t.gamma = s.gamma
  x : t.x = T *ᵥ s.x
  B : t.B = s.B.map fun B : Mat n l => T * B
  F : t.F = T * s.F * T⁻¹
  H : t.H = U * s.H * T⁻¹
  P : t.P = T * s.P * Tᵀ
  Q : t.Q = (T⁻¹)ᵀ * s.Q * T⁻¹
  V : t.V = U * s.V * Uᵀ
  VInv : t.VInv = (U⁻¹)ᵀ * s.VInv * U⁻¹
  W : t.W = T * s.W * Tᵀ
  y : t.y = U *ᵥ s.y
  z : t.z = U *ᵥ s.z

/-- A call expressed in new units. -/
noncomputable def HInfOp.units (U : Mat m m) : HInfOp m l → HInfOp m l
  | .update z => .update (z.map (U *ᵥ ·))
  | op => op

theorem hinf_control_eq (B : Option (Mat n l)) (u : UArg l) : HInf.control B u = FKF.control B u := by
  cases B <;> cases u <;> rfl

theorem npInv_sim {T : Mat n n} (hT : T.det ≠ 0) (A : Mat n n) :
    npInv ((T⁻¹)ᵀ * A * Tᵀ) = (npInv A).map fun L => (T⁻¹)ᵀ * L * Tᵀ := by
  have hT' := isUnit_det_of_ne hT
  have hdet : ((T⁻¹)ᵀ * A * Tᵀ).det = A.det := by
    rw [det_mul, det_mul, det_transpose, det_transpose, det_nonsing_inv, Ring.inverse_eq_inv', mul_right_comm,
      inv_mul_cancel₀ hT, one_mul]
  by_cases h : A.det = 0
  · rw [npInv_eq_none.2 h, npInv_eq_none.2 (hdet.trans h)]; rfl
  · rw [npInv_of_det_ne h, npInv_of_det_ne (hdet ▸ h), Matrix.mul_inv_rev, Matrix.mul_inv_rev,
      ← transpose_nonsing_inv, ← transpose_nonsing_inv, nonsing_inv_nonsing_inv _ hT', ← Matrix.mul_assoc]
    rfl

theorem hinf_units_step {T : Mat n n} {U : Mat m m} (hT : T.det ≠ 0) (hU : U.det ≠ 0)
    {s t : HInf n m l} (h : HInf.InUnits T U s t) (op : HInfOp m l) :
    Agree (HInf.InUnits T U) (op.run s) ((op.units U).run t) := by
  have hT' := isUnit_det_of_ne hT
  have hU' := isUnit_det_of_ne hU
  have hc := h
  rcases s with ⟨ga, x, B, F, H, P, Q, V, VI, W, y, z0⟩
  rcases t with ⟨ga', x', B', F', H', P', Q', V', VI', W', y', z0'⟩
  obtain ⟨h1, h2, h3, h4, h5, h6, h7, h8, h9, h10, h11, h12⟩ := h
  simp only at h1 h2 h3 h4 h5 h6 h7 h8 h9 h10 h11 h12
  subst h1 h2 h3 h4 h5 h6 h7 h8 h9 h10 h11 h12
  cases op with
  | predict u =>
    have e2 := (units_predict hT' F P Q x 1).2
    simp only [HInfOp.run, HInfOp.units, HInf.predict, hinf_control_eq, units_fkf_control, e2]
    cases FKF.control B u with
    | error e => exact ⟨rfl, hc⟩
    | ok b => constructor <;> first | rfl | exact (mulVec_add _ _ _).symm
  | update z =>
    cases z with
    | none => exact hc
    | some z =>
      have hr := unitsRel hT' U H
      have tt : Tᵀ * (T⁻¹)ᵀ = 1 := by rw [← transpose_mul, nonsing_inv_mul _ hT', transpose_one]
      have uu : Uᵀ * (U⁻¹)ᵀ = 1 := by rw [← transpose_mul, nonsing_inv_mul _ hU', transpose_one]
      have tt' : (T⁻¹)ᵀ * Tᵀ = 1 := by rw [← transpose_mul, mul_nonsing_inv _ hT', transpose_one]
      have tT (A : Mat n n) : T⁻¹ * (T * A) = A := nonsing_inv_mul_cancel_left _ _ hT'
      have tTm (A : Mat n m) : Tᵀ * ((T⁻¹)ᵀ * A) = A := by rw [← Matrix.mul_assoc, tt, Matrix.one_mul]
      have tTn (A : Mat n n) : Tᵀ * ((T⁻¹)ᵀ * A) = A := by rw [← Matrix.mul_assoc, tt, Matrix.one_mul]
      have uU (A : Mat m n) : U⁻¹ * (U * A) = A := nonsing_inv_mul_cancel_left _ _ hU'
      have uUn (A : Mat m n) : Uᵀ * ((U⁻¹)ᵀ * A) = A := by rw [← Matrix.mul_assoc, uu, Matrix.one_mul]
      have uUm (A : Mat m m) : Uᵀ * ((U⁻¹)ᵀ * A) = A := by rw [← Matrix.mul_assoc, uu, Matrix.one_mul]
      have hA : 1 - ga' • ((T⁻¹)ᵀ * Q * T⁻¹ * (T * P * Tᵀ)) +
            (U * H * T⁻¹)ᵀ * ((U⁻¹)ᵀ * VI * U⁻¹) * (U * H * T⁻¹) * (T * P * Tᵀ) =
          (T⁻¹)ᵀ * (1 - ga' • (Q * P) + Hᵀ * VI * H * P) * Tᵀ := by
        rw [Matrix.mul_add, Matrix.mul_sub, Matrix.add_mul, Matrix.sub_mul, Matrix.mul_one, tt']
        simp only [transpose_mul, Matrix.mul_assoc, tT, uU, uUn, Matrix.mul_smul, Matrix.smul_mul]
      simp only [HInfOp.run, HInfOp.units, HInf.update, Option.map_some, hA, npInv_sim hT, units_resid hr]
      cases npInv (1 - ga' • (Q * P) + Hᵀ * VI * H * P) with
      | none => exact ⟨rfl, hc⟩
      | some L =>
        have hK : T * F * T⁻¹ * (T * P * Tᵀ * ((T⁻¹)ᵀ * L * Tᵀ)) * ((U * H * T⁻¹)ᵀ * ((U⁻¹)ᵀ * VI * U⁻¹)) =
            T * (F * (P * L) * (Hᵀ * VI)) * U⁻¹ := by
          simp only [transpose_mul, Matrix.mul_assoc, tT, tTn, tTm, uUm]
        have hP : T * F * T⁻¹ * (T * P * Tᵀ * ((T⁻¹)ᵀ * L * Tᵀ)) * (T * F * T⁻¹)ᵀ + T * W * Tᵀ =
            T * (F * (P * L) * Fᵀ + W) * Tᵀ := by
          simp only [transpose_mul, Matrix.mul_assoc, tT, tTn, Matrix.mul_add, Matrix.add_mul]
        simp only [Option.map_some, hK, hP, units_x hU']
        constructor <;> try rfl
        simp only [transpose_mul, transpose_transpose, Matrix.mul_assoc, Matrix.mul_add, Matrix.add_mul,
          Matrix.mul_smul, Matrix.smul_mul, transpose_add]

/-- **C129 (`HInfinityFilter`).** The same for the H-infinity filter, whose `Q` weighs estimation errors and so
transforms like an inverse covariance. -/
theorem C129_hinfinity {T : Mat n n} {U : Mat m m} (hT : T.det ≠ 0) (hU : U.det ≠ 0)
    {s t : HInf n m l} (h : HInf.InUnits T U s t) (ops : List (HInfOp m l)) :
    Agree (HInf.InUnits T U) (runList HInfOp.run s ops) (runList HInfOp.run t (ops.map (HInfOp.units U))) :=
  runList_units _ ops (fun _ _ i _ h => hinf_units_step hT hU h i) h

/-! ## `EnsembleKalmanFilter` -/

/-- The second filter is the first one in the units `x' = T x`, `z' = U z`, the records of the last prediction and
update only if `A`. -/
structure EnKF.InUnits (A : Prop) (T : Mat n n) (U : Mat m m) (s t : EnKF n m N) : Prop where
  x : t.x = T *ᵥ s.x
  P : t.P = T * s.P * Tᵀ
  Q : t.Q = T * s.Q * Tᵀ
  R : t.R = U * s.R * Uᵀ
  dt : t.dt = s.dt
  hx : t.hx = unitsFn U T s.hx
  fx : t.fx = fun v d => T *ᵥ s.fx (T⁻¹ *ᵥ v) d
  sigmas : t.sigmas = fun i => T *ᵥ s.sigmas i
  K : t.K = T * s.K * U⁻¹
  S : t.S = U * s.S * Uᵀ
  SI : t.SI = (U⁻¹)ᵀ * s.SI * U⁻¹
  xPrior : A → t.xPrior = T *ᵥ s.xPrior
  PPrior : A → t.PPrior = T * s.PPrior * Tᵀ
  xPost : A → t.xPost = T *ᵥ s.xPost
  PPost : A → t.PPost = T * s.PPost * Tᵀ
  inv : s.inv = npInv
  inv' : t.inv = npInv

/-- A call and the draws made during it in new units. -/
noncomputable def EnkfOp.units (T : Mat n n) (U : Mat m m) : EnkfOp n m N → EnkfOp n m N
  | .predict e => .predict fun i => T *ᵥ e i
  | .update z R e => .update (z.map (U *ᵥ ·)) (R.conj U) fun i => U *ᵥ e i

theorem units_meanRows {k : ℕ} (T : Mat k k) (A : Fin N → Vec k) :
    meanRows (rows fun i => T *ᵥ A i) = T *ᵥ meanRows (rows A) := by
  funext j
  simp only [meanRows, rows, mulVec, dotProduct, Finset.mul_sum, Finset.sum_div, mul_div_assoc]
  rw [Finset.sum_comm]

theorem units_outerSum {k : ℕ} (T : Mat n n) (U : Mat k k) (A : Fin N → Vec n) (B : Fin N → Vec k) :
    outerSum (rows fun i => T *ᵥ A i) (rows fun i => U *ᵥ B i) = T * outerSum (rows A) (rows B) * Uᵀ := by
  have h1 (a b : ℕ) (A : Mat N a) (B : Mat N b) : outerSum A B = Aᵀ * B := by
    ext j k; simp [outerSum, Helpers.einsumOuter, Matrix.mul_apply]
  have h2 (k : ℕ) (T : Mat k k) (A : Fin N → Vec k) : (rows fun i => T *ᵥ A i) = rows A * Tᵀ := by
    ext i j
    simp only [rows, mulVec, dotProduct, Matrix.mul_apply, transpose_apply]
    exact Finset.sum_congr rfl fun _ _ => mul_comm _ _
  rw [h1, h1, h2, h2, transpose_mul, transpose_transpose]
  simp only [Matrix.mul_assoc]

theorem enkf_units_step {T : Mat n n} {U : Mat m m} (hT : T.det ≠ 0) (hU : U.det ≠ 0)
    {s t : EnKF n m N} (h : EnKF.InUnits A T U s t) (op : EnkfOp n m N) :
    Agree (EnKF.InUnits A T U) (op.run s) ((op.units T U).run t) := by
  have hT' := isUnit_det_of_ne hT
  have hU' := isUnit_det_of_ne hU
  have hc := h
  rcases s with ⟨x, P, Q, R, dt, hx, fx, sg, z0, K, S, SI, xp, Pp, xq, Pq, iv⟩
  rcases t with ⟨x', P', Q', R', dt', hx', fx', sg', z0', K', S', SI', xp', Pp', xq', Pq', iv'⟩
  obtain ⟨h1, h2, h3, h4, h5, h6, h7, h8, h9, h10, h11, h12, h13, h14, h15, h16, h17⟩ := h
  simp only at h1 h2 h3 h4 h5 h6 h7 h8 h9 h10 h11 h12 h13 h14 h15 h16 h17
  subst h1 h2 h3 h4 h5 h6 h7 h8 h9 h10 h11 h16 h17
  cases op with
  | predict e =>
    simp only [EnkfOp.run, EnkfOp.units, EnKF.predict, inv_mulVec_cancel hT', ← mulVec_add, units_meanRows]
    by_cases hN : N = 1
    · rw [if_pos hN, if_pos hN]
      exact ⟨rfl, by constructor <;> first | rfl | assumption | exact fun _ => rfl⟩
    · rw [if_neg hN, if_neg hN]
      have hd : (rows fun i => rows (fun i => T *ᵥ (fx (sg i) dt' + e i)) i - T *ᵥ meanRows (rows fun i => fx (sg i) dt' + e i)) =
          rows fun i => T *ᵥ (fx (sg i) dt' + e i - meanRows (rows fun i => fx (sg i) dt' + e i)) := by
        funext i; simp only [rows, mulVec_sub]
      simp only [hd, units_outerSum]
      constructor <;> first | rfl | assumption | exact fun _ => rfl | (simp only [Matrix.mul_smul, Matrix.smul_mul]; first | rfl | exact fun _ => rfl)
  | update z Ra e =>
    cases z with
    | none => constructor <;> first | rfl | assumption | exact fun _ => rfl
    | some z =>
      simp only [EnkfOp.run, EnkfOp.units, EnKF.update, Option.map_some, unitsFn, inv_mulVec_cancel hT', units_meanRows,
        MatArg.conj_resolve U Ra rfl]
      by_cases hN : N = 1
      · rw [if_pos hN, if_pos hN]
        exact ⟨rfl, hc⟩
      rw [if_neg hN, if_neg hN]
      have hd : (rows fun i => rows (fun i => U *ᵥ hx (sg i)) i - U *ᵥ meanRows (rows fun i => hx (sg i))) =
          rows fun i => U *ᵥ (rows (fun i => hx (sg i)) i - meanRows (rows fun i => hx (sg i))) := by
        funext i; simp only [rows, mulVec_sub]
      have hx' : (rows fun i => T *ᵥ sg i - T *ᵥ x) = rows fun i => T *ᵥ (sg i - x) := by
        funext i; simp only [rows, mulVec_sub]
      have hS (a : ℝ) (A R : Mat m m) : a • (U * A * Uᵀ) + U * R * Uᵀ = U * (a • A + R) * Uᵀ := by
        simp only [Matrix.mul_add, Matrix.add_mul, Matrix.mul_smul, Matrix.smul_mul]
      simp only [hd, hx', units_outerSum, hS, units_inv hU]
      cases npInv ((1 / ((N : ℝ) - 1)) • outerSum (rows fun i => rows (fun i => hx (sg i)) i - meanRows (rows fun i => hx (sg i)))
          (rows fun i => rows (fun i => hx (sg i)) i - meanRows (rows fun i => hx (sg i))) + Ra.resolve R) with
      | none => exact ⟨rfl, by constructor <;> first | rfl | assumption | exact fun _ => rfl⟩
      | some SI =>
        have uu : Uᵀ * (U⁻¹)ᵀ = 1 := by rw [← transpose_mul, nonsing_inv_mul _ hU', transpose_one]
        have uUm (A : Mat m m) : Uᵀ * ((U⁻¹)ᵀ * A) = A := by rw [← Matrix.mul_assoc, uu, Matrix.one_mul]
        have uUn (A : Mat m n) : Uᵀ * ((U⁻¹)ᵀ * A) = A := by rw [← Matrix.mul_assoc, uu, Matrix.one_mul]
        have uU (A : Mat m n) : U⁻¹ * (U * A) = A := nonsing_inv_mul_cancel_left _ _ hU'
        have uU' (A : Mat m m) : U⁻¹ * (U * A) = A := nonsing_inv_mul_cancel_left _ _ hU'
        have hK (a : ℝ) (A : Mat n m) : a • (T * A * Uᵀ) * ((U⁻¹)ᵀ * SI * U⁻¹) = T * (a • A * SI) * U⁻¹ := by
          simp only [Matrix.mul_assoc, uUm, Matrix.mul_smul, Matrix.smul_mul]
        have hP (K : Mat n m) (A : Mat m m) : T * P * Tᵀ - T * K * U⁻¹ * (U * A * Uᵀ) * (T * K * U⁻¹)ᵀ =
            T * (P - K * A * Kᵀ) * Tᵀ := by
          simp only [transpose_mul, Matrix.mul_assoc, uU', uUn, Matrix.mul_sub, Matrix.sub_mul]
        have hs (K : Mat n m) : (rows fun i => T *ᵥ sg i + (T * K * U⁻¹) *ᵥ (U *ᵥ z + U *ᵥ e i - rows (fun i => U *ᵥ hx (sg i)) i)) =
            rows fun i => T *ᵥ (sg i + K *ᵥ (z + e i - rows (fun i => hx (sg i)) i)) := by
          funext i
          simp only [rows, ← mulVec_add, ← mulVec_sub, units_x hU']
        simp only [Option.map_some, hK, hP, hs, units_meanRows]
        constructor <;> first | rfl | assumption | exact fun _ => rfl

/-- **C129 (`EnsembleKalmanFilter`).** The same for every outcome of the random draws, translated like the
quantities they perturb. -/
theorem C129_enkf {T : Mat n n} {U : Mat m m} (hT : T.det ≠ 0) (hU : U.det ≠ 0)
    {s t : EnKF n m N} (h : EnKF.InUnits A T U s t) (ops : List (EnkfOp n m N)) :
    Agree (EnKF.InUnits A T U) (runList EnkfOp.run s ops) (runList EnkfOp.run t (ops.map (EnkfOp.units T U))) :=
  runList_units _ ops (fun _ _ i _ h => enkf_units_step hT hU h i) h

/-! ## `IMMEstimator` and `MMAEFilterBank` -/

/-- A method called on every filter of two banks. -/
theorem bankMap_agree {σ τ : Type} {R : σ → τ → Prop} {g : Fin N → σ → Exec σ} {g' : Fin N → τ → Exec τ}
    (step : ∀ i a b, R a b → Agree R (g i a) (g' i b)) {fs : Fin N → σ} {fs' : Fin N → τ}
    (h : ∀ i, R (fs i) (fs' i)) : Agree (fun (a : Fin N → σ) (b : Fin N → τ) => ∀ i, R (a i) (b i)) (bankMap g fs) (bankMap g' fs') := by
  refine runList_agree (R := fun (a : Fin N → σ) (b : Fin N → τ) => ∀ i, R (a i) (b i)) _ (fun s t i _ hst => ?_) _ _ h
  have h1 := step i _ _ (hst i)
  have key (a : σ) (b : τ) (hab : R a b) (j : Fin N) : R (Function.update s i a j) (Function.update t i b j) := by
    by_cases hj : j = i
    · subst hj; simpa using hab
    · simpa [hj] using hst j
  simp only [bankStep]
  revert h1
  cases g i (s i) <;> cases g' i (t i) <;> intro h1
  · exact ⟨h1.1, key _ _ h1.2⟩
  · exact h1.elim
  · exact h1.elim
  · exact key _ _ h1

/-- The likelihood of a measurement in new units: divided by `|det U|`. -/
theorem units_readLik {T : Mat n n} {U : Mat m m} (hU : U.det ≠ 0) {s t a b : KF n m l}
    (h : InUnits A T U a b) (hs : s.inv = npInv) {z z' : Vec m} {R R' : MatArg m} {H H' : Option (Mat m n)}
    (ha : s.update (some z) R H = .ok a) (hb : t.update (some z') R' H' = .ok b) :
    InUnits A T U (a.readLik Real.exp).2 (b.readLik Real.exp).2 ∧
      (b.readLik Real.exp).1 = |U.det|⁻¹ * (a.readLik Real.exp).1 := by
  obtain ⟨SI, hSI, ea⟩ := KF.update_ok ha
  obtain ⟨_, -, eb⟩ := KF.update_ok hb
  have hS : a.S.det ≠ 0 := by
    rw [ea]
    intro h0
    rw [hs, npInv_eq_none.2 h0] at hSI
    cases hSI
  have la : a.lik = none ∧ a.logLik = none := by rw [ea]; exact ⟨rfl, rfl⟩
  have lb : b.lik = none ∧ b.logLik = none := by rw [eb]; exact ⟨rfl, rfl⟩
  have key (f : KF n m l) (h1 : f.lik = none) (h2 : f.logLik = none) :
      f.readLik Real.exp = (Real.exp (logpdf f.y f.S),
        { f with logLik := some (logpdf f.y f.S), lik := some (Real.exp (logpdf f.y f.S)) }) := by
    simp only [KF.readLik, h1, KF.readLogLik, h2, if_neg (Real.exp_ne_zero _)]
  rw [key a la.1 la.2, key b lb.1 lb.2]
  constructor
  · obtain ⟨⟩ := h
    constructor <;> first | assumption | simp
  · simp only [h.y, h.S, units_logpdf hU _ hS, Real.exp_sub, Real.exp_log (abs_pos.2 hU), div_eq_inv_mul]

/-- Two `IMMEstimator`s of `KalmanFilter`s, the second in the units `x' = T x`, `z' = U z`: the same mode
probabilities, the same estimate, likelihoods divided by `|det U|`. -/
structure IMM.InUnits (A : Prop) (T : Mat n n) (U : Mat m m) (s t : IMM (KF n m l) n N) : Prop where
  filters : ∀ i, Filterpy.InUnits A T U (s.filters i) (t.filters i)
  mu : t.mu = s.mu
  M : t.M = s.M
  cbar : t.cbar = s.cbar
  omega : t.omega = s.omega
  likelihood : ∀ i, t.likelihood i = |U.det|⁻¹ * s.likelihood i
  x : t.x = T *ᵥ s.x
  P : t.P = T * s.P * Tᵀ
  xPrior : t.xPrior = T *ᵥ s.xPrior
  PPrior : t.PPrior = T * s.PPrior * Tᵀ
  xPost : t.xPost = T *ᵥ s.xPost
  PPost : t.PPost = T * s.PPost * Tᵀ

/-- Weighted means and spreads in new units. -/
theorem units_mean {ι : Type*} [Fintype ι] (T : Mat n n) (w : ι → ℝ) (x : ι → Vec n) :
    ∑ i, w i • (T *ᵥ x i) = T *ᵥ ∑ i, w i • x i := by
  rw [mulVec_sum]; simp only [mulVec_smul]

theorem units_spread {ι : Type*} [Fintype ι] (T : Mat n n) (w : ι → ℝ) (x : ι → Vec n) (c : Vec n) (P : ι → Mat n n) :
    ∑ i, w i • (vecMulVec (T *ᵥ x i - T *ᵥ c) (T *ᵥ x i - T *ᵥ c) + T * P i * Tᵀ) =
      T * (∑ i, w i • (vecMulVec (x i - c) (x i - c) + P i)) * Tᵀ := by
  have h (v : Vec n) : vecMulVec (T *ᵥ v) (T *ᵥ v) = T * vecMulVec v v * Tᵀ := by
    rw [mul_vecMulVec, vecMulVec_mul, vecMul_transpose]
  simp only [Matrix.mul_sum, Matrix.sum_mul, ← mulVec_sub, h, Matrix.mul_add, Matrix.add_mul, Matrix.mul_smul,
    Matrix.smul_mul]

theorem units_bank {T : Mat n n} {U : Mat m m} {f f' : Fin N → KF n m l}
    (h : ∀ i, Filterpy.InUnits A T U (f i) (f' i)) (w : Vec N) :
    ∑ i, w i • (f' i).x = T *ᵥ ∑ i, w i • (f i).x ∧
    ∑ i, w i • (vecMulVec ((f' i).x - ∑ i, w i • (f' i).x) ((f' i).x - ∑ i, w i • (f' i).x) + (f' i).P) =
      T * (∑ i, w i • (vecMulVec ((f i).x - ∑ i, w i • (f i).x) ((f i).x - ∑ i, w i • (f i).x) + (f i).P)) * Tᵀ := by
  simp only [fun i => (h i).x, fun i => (h i).P, units_mean, units_spread, and_self]

theorem IMM.InUnits.estimate {T : Mat n n} {U : Mat m m} {s t : IMM (KF n m l) n N}
    (h : ∀ i, Filterpy.InUnits A T U (s.filters i) (t.filters i)) (hmu : t.mu = s.mu) (expf : ℝ → ℝ) :
    (t.estimate (kfClassZ expf n m l)).x = T *ᵥ (s.estimate (kfClassZ expf n m l)).x ∧
      (t.estimate (kfClassZ expf n m l)).P = T * (s.estimate (kfClassZ expf n m l)).P * Tᵀ := by
  simp only [IMM.estimate, kfClassZ, hmu, fun i => (h i).x, fun i => (h i).P, units_mean, units_spread, and_self]

/-- A call on the bank in new units. -/
noncomputable def ImmOp.units (U : Mat m m) : ImmOp (Option (Vec m)) (UArg l) → ImmOp (Option (Vec m)) (UArg l)
  | .update z => .update (z.map (U *ᵥ ·))
  | op => op

/-- Every update has a measurement. -/
def ImmOp.measured : ImmOp (Option (Vec m)) (UArg l) → Prop
  | .update z => z ≠ none
  | .predict _ => True

theorem imm_units_step {T : Mat n n} {U : Mat m m} (hT : T.det ≠ 0) (hU : U.det ≠ 0)
    {s t : IMM (KF n m l) n N} (h : IMM.InUnits A T U s t) (op : ImmOp (Option (Vec m)) (UArg l)) (ho : op.measured) :
    Agree (IMM.InUnits A T U) (op.run (kfClassZ Real.exp n m l) s) ((op.units U).run (kfClassZ Real.exp n m l) t) := by
  cases op with
  | predict u =>
    have hmx (i : Fin N) : IMM.mixX (kfClassZ Real.exp n m l) t i = T *ᵥ IMM.mixX (kfClassZ Real.exp n m l) s i := by
      simp only [IMM.mixX, kfClassZ, h.omega, fun i => (h.filters i).x, units_mean]
    have hmP (i : Fin N) : IMM.mixP (kfClassZ Real.exp n m l) t i = T * IMM.mixP (kfClassZ Real.exp n m l) s i * Tᵀ := by
      simp only [IMM.mixP, hmx]
      simp only [kfClassZ, h.omega, fun i => (h.filters i).x, fun i => (h.filters i).P, units_spread]
    have hb := bankMap_agree (R := Filterpy.InUnits A T U)
      (g := fun i f => (kfClassZ Real.exp n m l).predict ((kfClassZ Real.exp n m l).setXP f
        (IMM.mixX (kfClassZ Real.exp n m l) s i) (IMM.mixP (kfClassZ Real.exp n m l) s i)) u)
      (g' := fun i f => (kfClassZ Real.exp n m l).predict ((kfClassZ Real.exp n m l).setXP f
        (IMM.mixX (kfClassZ Real.exp n m l) t i) (IMM.mixP (kfClassZ Real.exp n m l) t i)) u)
      (fun i a b hab => by
        have h1 : Filterpy.InUnits A T U ((kfClassZ Real.exp n m l).setXP a
            (IMM.mixX (kfClassZ Real.exp n m l) s i) (IMM.mixP (kfClassZ Real.exp n m l) s i))
            ((kfClassZ Real.exp n m l).setXP b
            (IMM.mixX (kfClassZ Real.exp n m l) t i) (IMM.mixP (kfClassZ Real.exp n m l) t i)) := by
          obtain ⟨⟩ := hab
          constructor <;> first | assumption | exact hmx i | exact hmP i
        exact units_step hT hU Real.exp h1 (op := .predict u none none .none) trivial) h.filters
    simp only [ImmOp.run, ImmOp.units, IMM.predict]
    revert hb
    generalize bankMap _ s.filters = A
    generalize bankMap _ t.filters = A'
    intro hb
    cases A <;> cases A' <;> simp only [Agree] at hb
    · refine ⟨hb.1, ?_⟩
      obtain ⟨⟩ := h
      constructor <;> first | assumption | exact hb.2
    · have he := IMM.InUnits.estimate (s := { s with filters := _ }) (t := { t with filters := _ }) hb h.mu Real.exp
      obtain ⟨⟩ := h
      constructor <;> first | assumption | exact hb | exact he.1 | exact he.2
  | update z =>
    cases z with
    | none => exact (ho rfl).elim
    | some z =>
    have hk : (0 : ℝ) < |U.det|⁻¹ := inv_pos.2 (abs_pos.2 hU)
    have hb := bankMap_agree
      (R := fun (a b : KF n m l × ℝ) => Filterpy.InUnits A T U a.1 b.1 ∧ b.2 = |U.det|⁻¹ * a.2)
      (g := fun _ => (kfClassZ Real.exp n m l).updLik (fun _ L => L) (some z))
      (g' := fun _ => (kfClassZ Real.exp n m l).updLik (fun _ L => L) (some (U *ᵥ z)))
      (fun i a b hab => by
        have h1 := units_step hT hU Real.exp hab.1 (op := .update (some z) .none none) trivial
        simp only [KF.step, unitsOp, Option.map_some, Option.map_none, MatArg.conj] at h1
        simp only [FilterClass.updLik, kfClassZ]
        cases ha : a.1.update (some z) <;> cases hb : b.1.update (some (U *ᵥ z)) <;> rw [ha, hb] at h1 <;>
          simp only [Agree] at h1
        · exact ⟨h1.1, h1.2, hab.2⟩
        · exact units_readLik hU h1 hab.1.inv ha hb)
      (fs := fun i => (s.filters i, s.likelihood i)) (fs' := fun i => (t.filters i, t.likelihood i))
      (fun i => ⟨h.filters i, h.likelihood i⟩)
    simp only [ImmOp.run, ImmOp.units, IMM.update, Option.map_some]
    revert hb
    generalize bankMap _ (fun i => (s.filters i, s.likelihood i)) = A
    generalize bankMap _ (fun i => (t.filters i, t.likelihood i)) = A'
    intro hb
    cases A <;> cases A' <;> simp only [Agree] at hb
    · refine ⟨hb.1, ?_⟩
      obtain ⟨⟩ := h
      constructor <;> first | assumption | exact fun i => (hb.2 i).1 | exact fun i => (hb.2 i).2
    · rename_i fl fl'
      have hw (i : Fin N) : t.cbar i * (fl' i).2 = |U.det|⁻¹ * (s.cbar i * (fl i).2) := by
        rw [h.cbar, (hb i).2]; ring
      simp only [hw, ← Finset.mul_sum, mul_div_mul_left _ _ hk.ne', mul_eq_zero, hk.ne', false_or]
      by_cases h0 : ∑ i, s.cbar i * (fl i).2 = 0
      · rw [if_pos h0, if_pos h0]
        refine ⟨rfl, ?_⟩
        obtain ⟨⟩ := h
        constructor <;> first | assumption | exact fun i => (hb i).1 | exact fun i => (hb i).2
      rw [if_neg h0, if_neg h0]
      simp only [IMM.mixing, h.M]
      by_cases hj : ∃ j, ((fun i => s.cbar i * (fl i).2 / ∑ i, s.cbar i * (fl i).2) ᵥ* s.M) j = 0
      · simp only [if_pos hj]
        refine ⟨rfl, ?_⟩
        obtain ⟨⟩ := h
        constructor <;> first | assumption | rfl | exact fun i => (hb i).1 | exact fun i => (hb i).2
      · simp only [if_neg hj]
        have he := units_bank (fun i => (hb i).1)
        obtain ⟨⟩ := h
        have hb1 := fun i => (hb i).1
        have hb2 := fun i => (hb i).2
        constructor <;> first | assumption | rfl | (with_unfolding_all exact (he _).1) | (with_unfolding_all exact (he _).2)

/-- **C129 (`IMMEstimator`).** After any history of predictions and measurements the two banks hold the same mode
probabilities and mixing weights and describe the same estimate.  (The exponential is the exact one: see
`C129_underflow_refuted`.) -/
theorem C129_imm {T : Mat n n} {U : Mat m m} (hT : T.det ≠ 0) (hU : U.det ≠ 0)
    {s t : IMM (KF n m l) n N} (h : IMM.InUnits A T U s t) (ops : List (ImmOp (Option (Vec m)) (UArg l)))
    (ho : ∀ op ∈ ops, op.measured) :
    Agree (IMM.InUnits A T U) (runList (ImmOp.run (kfClassZ Real.exp n m l)) s ops)
      (runList (ImmOp.run (kfClassZ Real.exp n m l)) t (ops.map (ImmOp.units U))) :=
  runList_units _ ops (fun _ _ i hi h => imm_units_step hT hU h i (ho i hi)) h


/-- **C129 (`IMMEstimator`).** Building the bank from filters in other units. -/
theorem C129_imm_init {T : Mat n n} {U : Mat m m} {fs ft : Fin N → KF n m l}
    (h : ∀ i, InUnits A T U (fs i) (ft i)) (shape : Fin N → List ℕ) (mu : Vec N) (M : Mat N N) :
    (∃ s t, IMM.init (kfClassZ Real.exp n m l) shape fs mu M = .ok s ∧
        IMM.init (kfClassZ Real.exp n m l) shape ft mu M = .ok t ∧ IMM.InUnits A T U s t) ∨
      (∃ e, IMM.init (kfClassZ Real.exp n m l) shape fs mu M = .error e ∧
        IMM.init (kfClassZ Real.exp n m l) shape ft mu M = .error e) := by
  simp only [IMM.init]
  by_cases h1 : N < 2
  · exact .inr ⟨_, if_pos h1, if_pos h1⟩
  by_cases h2 : ∃ i j, shape i ≠ shape j
  · simp only [if_neg h1, if_pos h2]; exact .inr ⟨_, rfl, rfl⟩
  by_cases h3 : ∑ i, mu i = 0
  · simp only [if_neg h1, if_neg h2, if_pos h3]; exact .inr ⟨_, rfl, rfl⟩
  simp only [if_neg h1, if_neg h2, if_neg h3, IMM.mixing]
  by_cases hj : ∃ j, ((fun i => mu i / ∑ i, mu i) ᵥ* M) j = 0
  · simp only [if_pos hj]; exact .inr ⟨_, rfl, rfl⟩
  · simp only [if_neg hj]
    have he := units_bank h
    refine .inl ⟨_, _, rfl, rfl, ?_⟩
    constructor <;> first | exact h | rfl | (exact fun i => (mul_zero _).symm) |
      (with_unfolding_all exact (he _).1) | (with_unfolding_all exact (he _).2)

/-- Two `MMAEFilterBank`s of `KalmanFilter`s, the second in the units `x' = T x`, `z' = U z`: the same
probabilities and the same estimate. -/
structure MMAE.InUnits (A : Prop) (T : Mat n n) (U : Mat m m) (s t : MMAE (KF n m l) n N (Option (Vec m)) (Mat m n)) : Prop where
  filters : ∀ i, Filterpy.InUnits A T U (s.filters i) (t.filters i)
  p : t.p = s.p
  H : t.H = s.H.map (U * · * T⁻¹)
  z : t.z = s.z.map (Option.map (U *ᵥ ·))
  x : t.x = T *ᵥ s.x
  xPrior : t.xPrior = T *ᵥ s.xPrior
  xPost : t.xPost = T *ᵥ s.xPost

/-- A call on the bank in new units. -/
noncomputable def MmaeOp.units (T : Mat n n) (U : Mat m m) :
    MmaeOp (Option (Vec m)) (MatArg m) (Mat m n) (UArg l) → MmaeOp (Option (Vec m)) (MatArg m) (Mat m n) (UArg l)
  | .predict u => .predict u
  | .update z R H => .update (z.map (U *ᵥ ·)) (R.conj U) (H.map (U * · * T⁻¹))

/-- Every update has a measurement. -/
def MmaeOp.measured : MmaeOp (Option (Vec m)) (MatArg m) (Mat m n) (UArg l) → Prop
  | .predict _ => True
  | .update z _ _ => z ≠ none

/-- Both runs end normally in related states, or both with the same exception. -/
def Spec.SameOutcome {σ τ : Type*} (R : σ → τ → Prop) (a : Exec σ) (b : Exec τ) : Prop :=
  (∃ s t, a = .ok s ∧ b = .ok t ∧ R s t) ∨ ∃ e s t, a = .error (e, s) ∧ b = .error (e, t)

theorem mmae_units_step {T : Mat n n} {U : Mat m m} (hT : T.det ≠ 0) (hU : U.det ≠ 0)
    {s t : MMAE (KF n m l) n N (Option (Vec m)) (Mat m n)} (h : MMAE.InUnits A T U s t)
    (op : MmaeOp (Option (Vec m)) (MatArg m) (Mat m n) (UArg l)) (ho : op.measured) :
    Spec.SameOutcome (MMAE.InUnits A T U) (op.run (kfClass Real.exp n m l) s)
      ((op.units T U).run (kfClass Real.exp n m l) t) := by
  cases op with
  | predict u =>
    have hb := bankMap_agree (R := Filterpy.InUnits A T U)
      (g := fun _ f => (kfClass Real.exp n m l).predict f u) (g' := fun _ f => (kfClass Real.exp n m l).predict f u)
      (fun i a b hab => units_step hT hU Real.exp hab (op := .predict u none none .none) trivial) h.filters
    simp only [MmaeOp.run, MmaeOp.units, MMAE.predict]
    revert hb
    generalize bankMap _ s.filters = A
    generalize bankMap _ t.filters = A'
    intro hb
    cases A with
    | error e =>
      cases A' with
      | error e' => exact .inr ⟨_, _, _, rfl, by rw [hb.1]⟩
      | ok fs' => exact hb.elim
    | ok fs =>
      cases A' with
      | error e' => exact hb.elim
      | ok fs' =>
        refine .inl ⟨_, _, rfl, rfl, ?_⟩
        obtain ⟨⟩ := h
        constructor <;> assumption
  | update z R H =>
    cases z with
    | none => exact (ho rfl).elim
    | some z =>
    have hk : (0 : ℝ) < |U.det|⁻¹ := inv_pos.2 (abs_pos.2 hU)
    have hH : (H.map (U * · * T⁻¹)).or t.H = (H.or s.H).map (U * · * T⁻¹) := by
      rw [h.H]; cases H <;> rfl
    have hstep (a b : KF n m l) (hab : Filterpy.InUnits A T U a b) := units_step hT hU Real.exp hab
      (op := .update (some z) R (H.or s.H)) trivial
    simp only [KF.step, unitsOp, Option.map_some] at hstep
    have hb := bankMap_agree
      (R := fun (a b : KF n m l × ℝ) => Filterpy.InUnits A T U a.1 b.1)
      (g := fun _ => (kfClass Real.exp n m l).updLik (fun p L => p * L) (some z, R, H.or s.H))
      (g' := fun _ => (kfClass Real.exp n m l).updLik (fun p L => p * L)
        (some (U *ᵥ z), R.conj U, (H.or s.H).map (U * · * T⁻¹)))
      (fun i a b hab => by
        have h1 := hstep _ _ hab
        simp only [FilterClass.updLik, kfClass]
        cases ha : a.1.update (some z) R (H.or s.H) <;>
          cases hb : b.1.update (some (U *ᵥ z)) (R.conj U) ((H.or s.H).map (U * · * T⁻¹)) <;> rw [ha, hb] at h1 <;>
          simp only [Agree] at h1
        · exact h1
        · exact (units_readLik hU h1 hab.inv ha hb).1)
      (fs := fun i => (s.filters i, s.p i)) (fs' := fun i => (t.filters i, t.p i)) h.filters
    simp only [MmaeOp.run, MmaeOp.units, MMAE.update, Option.map_some, hH]
    cases hA : bankMap (fun _ => (kfClass Real.exp n m l).updLik (fun p L => p * L) (some z, R, H.or s.H))
        (fun i => (s.filters i, s.p i)) with
    | error e =>
      cases hA' : bankMap (fun _ => (kfClass Real.exp n m l).updLik (fun p L => p * L)
          (some (U *ᵥ z), R.conj U, (H.or s.H).map (U * · * T⁻¹))) (fun i => (t.filters i, t.p i)) with
      | error e' => rw [hA, hA'] at hb; exact .inr ⟨_, _, _, rfl, by rw [hb.1]⟩
      | ok fs' => rw [hA, hA'] at hb; exact hb.elim
    | ok fl =>
      cases hA' : bankMap (fun _ => (kfClass Real.exp n m l).updLik (fun p L => p * L)
          (some (U *ᵥ z), R.conj U, (H.or s.H).map (U * · * T⁻¹))) (fun i => (t.filters i, t.p i)) with
      | error e' => rw [hA, hA'] at hb; exact hb.elim
      | ok fl' =>
        rw [hA, hA'] at hb
        have hw (i : Fin N) : (fl' i).2 = |U.det|⁻¹ * (fl i).2 := by
          obtain ⟨a, ha, ea⟩ := updLik_ok.1 (bankMap_ok.1 hA i)
          obtain ⟨b, hb', eb⟩ := updLik_ok.1 (bankMap_ok.1 hA' i)
          have h1 := hstep _ _ (h.filters i)
          rw [show (s.filters i).update (some z) R (H.or s.H) = .ok a from ha,
            show (t.filters i).update (some (U *ᵥ z)) (R.conj U) ((H.or s.H).map (U * · * T⁻¹)) = .ok b from hb'] at h1
          rw [ea, eb]
          have h2 := (units_readLik hU h1 (h.filters i).inv ha hb').2
          show t.p i * (b.readLik Real.exp).1 = |U.det|⁻¹ * (s.p i * (a.readLik Real.exp).1)
          rw [h2, h.p]; ring
        simp only [hw, ← Finset.mul_sum, mul_div_mul_left _ _ hk.ne', mul_eq_zero, hk.ne', false_or]
        by_cases h0 : ∑ i, (fl i).2 = 0
        · rw [if_pos h0, if_pos h0]
          exact .inr ⟨_, _, _, rfl, rfl⟩
        rw [if_neg h0, if_neg h0]
        refine .inl ⟨_, _, rfl, rfl, ?_⟩
        have hx : ∑ i, ((fl i).2 / ∑ i, (fl i).2) • (fl' i).1.x =
            T *ᵥ ∑ i, ((fl i).2 / ∑ i, (fl i).2) • (fl i).1.x := by
          simp only [fun i => (hb i).x, units_mean]
        obtain ⟨⟩ := h
        constructor <;> first | assumption | rfl

/-- **C129 (`MMAEFilterBank`).** After any history of predictions and measurements the two banks hold the same
probabilities and describe the same state.  Missing for the full property: the bank's covariance, see
`C129_mmae_covariance_refuted`. -/
theorem C129_mmae_partial {T : Mat n n} {U : Mat m m} (hT : T.det ≠ 0) (hU : U.det ≠ 0)
    {s t : MMAE (KF n m l) n N (Option (Vec m)) (Mat m n)} (h : MMAE.InUnits A T U s t)
    (ops : List (MmaeOp (Option (Vec m)) (MatArg m) (Mat m n) (UArg l))) (ho : ∀ op ∈ ops, op.measured) :
    Spec.SameOutcome (MMAE.InUnits A T U) (runList (MmaeOp.run (kfClass Real.exp n m l)) s ops)
      (runList (MmaeOp.run (kfClass Real.exp n m l)) t (ops.map (MmaeOp.units T U))) := by
  induction ops generalizing s t with
  | nil => exact .inl ⟨s, t, rfl, rfl, h⟩
  | cons op ops ih =>
    simp only [runList, List.map_cons]
    rcases mmae_units_step hT hU h op (ho op (by simp)) with ⟨a, b, ha, hb, hab⟩ | ⟨e, a, b, ha, hb⟩
    · rw [ha, hb]; exact ih hab fun o hm => ho o (by simp [hm])
    · rw [ha, hb]; exact .inr ⟨e, a, b, rfl, rfl⟩

/-! ## `InformationFilter` -/

/-- The second filter is the first one in the units `x' = T x`, `z' = U z`, the records of the last prediction and
update only if `A`, and neither has lost its
information. -/
structure IF.InUnits (A : Prop) (T : Mat n n) (U : Mat m m) (s t : IF n m l) : Prop where
  x : t.x = T *ᵥ s.x
  Pinv : t.Pinv = (T⁻¹)ᵀ * s.Pinv * T⁻¹
  Q : t.Q = T * s.Q * Tᵀ
  B : t.B = s.B.map fun B : Mat n l => T * B
  F : t.F = s.F.map fun F : Mat n n => T * F * T⁻¹
  Finv : t.Finv = s.Finv.map fun F : Mat n n => T * F * T⁻¹
  FinvDet : ∀ Fi, s.Finv = some Fi → Fi.det ≠ 0
  H : t.H = U * s.H * T⁻¹
  Rinv : t.Rinv = (U⁻¹)ᵀ * s.Rinv * U⁻¹
  K : t.K = T * s.K * U⁻¹
  y : t.y = U *ᵥ s.y
  S : t.S = (T⁻¹)ᵀ * s.S * T⁻¹
  info : s.noInformation = false
  info' : t.noInformation = false
  computeLL : t.computeLL = s.computeLL
  inv : s.inv = npInv
  inv' : t.inv = npInv
  xPrior : A → t.xPrior = T *ᵥ s.xPrior
  PinvPrior : A → t.PinvPrior = (T⁻¹)ᵀ * s.PinvPrior * T⁻¹
  xPost : A → t.xPost = T *ᵥ s.xPost
  PinvPost : A → t.PinvPost = (T⁻¹)ᵀ * s.PinvPost * T⁻¹

/-- A call in new units; the filter is given the inverse noise covariance. -/
noncomputable def IfCall.units (U : Mat m m) : IfCall m l → IfCall m l
  | .predict u => .predict u
  | .update z R => .update (z.map (U *ᵥ ·)) (R.conj (U⁻¹)ᵀ)

theorem llOf_same (y y' : Vec m) (S S' : Mat n n) :
    (∃ v v', IF.llOf y S = .ok v ∧ IF.llOf y' S' = .ok v') ∨
      ∃ e, IF.llOf y S = .error e ∧ IF.llOf y' S' = .error e := by
  unfold IF.llOf
  by_cases h1 : m = n
  · simp only [dif_pos h1]; exact .inl ⟨_, _, rfl, rfl⟩
  by_cases h2 : m = 1
  · simp only [dif_neg h1, dif_pos h2]; exact .inl ⟨_, _, rfl, rfl⟩
  by_cases h3 : n = 1
  · simp only [dif_neg h1, dif_neg h2, if_pos h3]; exact .inr ⟨_, rfl, rfl⟩
  · simp only [dif_neg h1, dif_neg h2, if_neg h3]; exact .inr ⟨_, rfl, rfl⟩

theorem units_inv_info {T : Mat n n} (hT : T.det ≠ 0) (A : Mat n n) :
    npInv ((T⁻¹)ᵀ * A * T⁻¹) = (npInv A).map fun AI => T * AI * Tᵀ := by
  have hT' := isUnit_det_of_ne hT
  have hd : ((T⁻¹)ᵀ).det ≠ 0 := by
    rw [det_transpose, det_nonsing_inv, Ring.inverse_eq_inv']; exact inv_ne_zero hT
  have h := units_inv hd A
  rw [transpose_transpose, ← transpose_nonsing_inv, transpose_transpose, nonsing_inv_nonsing_inv _ hT'] at h
  exact h

theorem units_inv_cov {T : Mat n n} (hT : T.det ≠ 0) (A : Mat n n) :
    npInv (T * A * Tᵀ) = (npInv A).map fun AI => (T⁻¹)ᵀ * AI * T⁻¹ := units_inv hT A

theorem if_units_step {T : Mat n n} {U : Mat m m} (hT : T.det ≠ 0) (hU : U.det ≠ 0) (expf : ℝ → ℝ)
    {s t : IF n m l} (h : IF.InUnits A T U s t) (hP : s.Pinv.det ≠ 0) (op : IfCall m l) :
    Agree (IF.InUnits A T U) (op.on expf s) ((op.units U).on expf t) := by
  have hT' := isUnit_det_of_ne hT
  have hU' := isUnit_det_of_ne hU
  have hc := h
  have tt : Tᵀ * (T⁻¹)ᵀ = 1 := by rw [← transpose_mul, nonsing_inv_mul _ hT', transpose_one]
  have uu : Uᵀ * (U⁻¹)ᵀ = 1 := by rw [← transpose_mul, nonsing_inv_mul _ hU', transpose_one]
  have tT (A : Mat n n) : T⁻¹ * (T * A) = A := nonsing_inv_mul_cancel_left _ _ hT'
  have tTm (A : Mat n m) : Tᵀ * ((T⁻¹)ᵀ * A) = A := by rw [← Matrix.mul_assoc, tt, Matrix.one_mul]
  have tTn (A : Mat n n) : Tᵀ * ((T⁻¹)ᵀ * A) = A := by rw [← Matrix.mul_assoc, tt, Matrix.one_mul]
  have uU (A : Mat m n) : U⁻¹ * (U * A) = A := nonsing_inv_mul_cancel_left _ _ hU'
  have uUm (A : Mat m m) : Uᵀ * ((U⁻¹)ᵀ * A) = A := by rw [← Matrix.mul_assoc, uu, Matrix.one_mul]
  rcases s with ⟨x, Pi, Q, B, F, Fi, H, Ri, z0, K, y, S, ni, cl, ll, lk, iv, xp, Pp, xq, Pq⟩
  rcases t with ⟨x', Pi', Q', B', F', Fi', H', Ri', z0', K', y', S', ni', cl', ll', lk', iv', xp', Pp', xq', Pq'⟩
  obtain ⟨h1, h2, h3, h4, h5, h6, hFd, h7, h8, h9, h10, h11, h12, h13, h14, h15, h16, h17, h18, h19, h20⟩ := h
  simp only at h1 h2 h3 h4 h5 h6 hFd h7 h8 h9 h10 h11 h12 h13 h14 h15 h16 h17 h18 h19 h20 hP
  subst h1 h2 h3 h4 h5 h6 h7 h8 h9 h10 h11 h12 h13 h14 h15 h16
  cases op with
  | predict u =>
    cases F with
    | none => exact ⟨rfl, hc⟩
    | some F =>
    cases Fi with
    | none => exact ⟨rfl, hc⟩
    | some Fi =>
      have hA : (T * Fi * T⁻¹)ᵀ * ((T⁻¹)ᵀ * Pi * T⁻¹) * (T * Fi * T⁻¹) = (T⁻¹)ᵀ * (Fiᵀ * Pi * Fi) * T⁻¹ := by
        simp only [transpose_mul, Matrix.mul_assoc, tT, tTn]
      have hd : (Fiᵀ * Pi * Fi).det ≠ 0 := by
        rw [det_mul, det_mul, det_transpose]
        exact mul_ne_zero (mul_ne_zero (hFd _ rfl) hP) (hFd _ rfl)
      have e2 := (units_predict hT' F 0 0 x 1).2
      have hQ (A Q : Mat n n) : T * A * Tᵀ + T * Q * Tᵀ = T * (A + Q) * Tᵀ := by
        simp only [Matrix.mul_add, Matrix.add_mul]
      simp only [IfCall.on, IfCall.units, IF.predict, Option.map_some, hA, units_inv_info hT, npInv_of_det_ne hd,
        IF.recover, Bool.false_eq_true, if_false, IF.predictInv, units_fkf_control, e2, hQ, units_inv_cov hT]
      cases FKF.control B u with
      | error e => exact ⟨rfl, hc⟩
      | ok b =>
        simp only [Except.map, ← mulVec_add]
        cases npInv ((Fiᵀ * Pi * Fi)⁻¹ + Q) with
        | none => exact ⟨rfl, by constructor <;> first | rfl | assumption | exact fun _ => rfl⟩
        | some P => constructor <;> first | rfl | assumption | exact fun _ => rfl
  | update z Ra =>
    cases z with
    | none => constructor <;> first | rfl | assumption | exact fun _ => rfl
    | some z =>
      have hr := unitsRel hT' U H
      have hR : (Ra.conj (U⁻¹)ᵀ).resolve ((U⁻¹)ᵀ * Ri * U⁻¹) = (U⁻¹)ᵀ * Ra.resolve Ri * U⁻¹ := by
        have := MatArg.conj_resolve (U⁻¹)ᵀ Ra (A := Ri) (A' := (U⁻¹)ᵀ * Ri * U⁻¹) (by rw [transpose_transpose])
        rwa [transpose_transpose] at this
      have hS (A : Mat m m) : (T⁻¹)ᵀ * Pi * T⁻¹ + (U * H * T⁻¹)ᵀ * ((U⁻¹)ᵀ * A * U⁻¹) * (U * H * T⁻¹) =
          (T⁻¹)ᵀ * (Pi + Hᵀ * A * H) * T⁻¹ := by
        simp only [transpose_mul, Matrix.mul_assoc, uU, uUm, Matrix.mul_add, Matrix.add_mul]
      have hK (SI : Mat n n) (A : Mat m m) : T * SI * Tᵀ * (U * H * T⁻¹)ᵀ * ((U⁻¹)ᵀ * A * U⁻¹) =
          T * (SI * Hᵀ * A) * U⁻¹ := by
        simp only [transpose_mul, Matrix.mul_assoc, tTm, uUm]
      simp only [IfCall.on, IfCall.units, IF.update, Option.map_some, hR, Bool.false_eq_true, if_false, hS,
        units_inv_info hT, units_resid hr]
      cases npInv (Pi + Hᵀ * Ra.resolve Ri * H) with
      | none => exact ⟨rfl, by constructor <;> first | rfl | assumption | exact fun _ => rfl⟩
      | some SI =>
        simp only [Option.map_some, hK, units_x hU']
        cases cl' with
        | false => constructor <;> first | rfl | assumption | exact fun _ => rfl
        | true =>
          simp only [if_true]
          rcases llOf_same (z - H *ᵥ x) (U *ᵥ (z - H *ᵥ x)) (Pi + Hᵀ * Ra.resolve Ri * H)
            ((T⁻¹)ᵀ * (Pi + Hᵀ * Ra.resolve Ri * H) * T⁻¹) with ⟨v, v', e, e'⟩ | ⟨er, e, e'⟩
          · rw [e, e']; constructor <;> first | rfl | assumption | exact fun _ => rfl
          · rw [e, e']; exact ⟨rfl, by constructor <;> first | rfl | assumption | exact fun _ => rfl⟩

/-- **C129 (`InformationFilter`).** The same for every history in which the information matrix stays
invertible.  Missing for the full property: what happens after the information is lost, see
`C129_information_lost_refuted`, and the likelihood, which is not that of the measurement (C27). -/
theorem C129_information_partial {T : Mat n n} {U : Mat m m} (hT : T.det ≠ 0) (hU : U.det ≠ 0) (expf : ℝ → ℝ)
    {s t : IF n m l} (h : IF.InUnits A T U s t) (ops : List (IfCall m l))
    (hP : ∀ k s', runList (IfCall.on expf) s (ops.take k) = .ok s' → s'.Pinv.det ≠ 0) :
    Agree (IF.InUnits A T U) (runList (IfCall.on expf) s ops)
      (runList (IfCall.on expf) t (ops.map (IfCall.units U))) := by
  induction ops generalizing s t with
  | nil => exact h
  | cons op ops ih =>
    have h1 := if_units_step hT hU expf h (hP 0 s rfl) op
    simp only [runList, List.map_cons]
    cases hs : op.on expf s <;> cases ht : (op.units U).on expf t <;> rw [hs, ht] at h1 <;> simp only [Agree] at h1
    · exact h1
    · refine ih h1 fun k s' hk => hP (k + 1) s' ?_
      simp only [List.take_succ_cons, runList, hs, hk]

/-- **C129 refuted (`InformationFilter`).** Once the information matrix is singular, `predict` adds a covariance to
an information matrix and subtracts a product of them from the identity, so the state it leaves depends on the
units: with `x' = diag(2, 1) x` one filter ends with state `0`, the other does not. -/
theorem C129_information_lost_refuted :
    ∃ (s t a b : IF 2 1 0), IF.InUnits True !![2, 0; 0, 1] (1 : Mat 1 1) s t ∧ s.predict = .ok a ∧ t.predict = .ok b ∧
      b.x = 0 ∧ a.x ≠ 0 := by
  have hT : (!![2, 0; 0, 1] : Mat 2 2)⁻¹ = !![1/2, 0; 0, 1] :=
    inv_eq_right_inv (by ext i j; fin_cases i <;> fin_cases j <;> simp)
  let s : IF 2 1 0 := { IF.fresh 2 1 0 with F := some 1, Finv := some 1, Pinv := !![4, 0; 0, 0], x := ![1, 0] }
  let t : IF 2 1 0 := { IF.fresh 2 1 0 with
    F := some 1, Finv := some 1, Pinv := !![1, 0; 0, 0], x := ![2, 0], Q := !![4, 0; 0, 1]
    PinvPrior := !![1/4, 0; 0, 1], PinvPost := !![1/4, 0; 0, 1], Rinv := 1 }
  have i1 : npInv (1 : Mat 2 2) = some 1 := by rw [npInv_of_det_ne (by simp)]; simp
  have n1 : npInv (!![4, 0; 0, 0] : Mat 2 2) = none := npInv_eq_none.2 (by simp [det_fin_two_of])
  have n2 : npInv (!![1, 0; 0, 0] : Mat 2 2) = none := npInv_eq_none.2 (by simp [det_fin_two_of])
  have i2 : npInv (!![4, 0; 0, 0] + 1 : Mat 2 2) = some !![1/5, 0; 0, 1] := by
    rw [npInv_of_det_ne (by simp [det_fin_two]; norm_num)]
    congr 1
    refine inv_eq_right_inv ?_
    ext i j; fin_cases i <;> fin_cases j <;> simp [Matrix.mul_apply, Fin.sum_univ_two] <;> norm_num
  have i3 : npInv (!![1, 0; 0, 0] + !![4, 0; 0, 1] : Mat 2 2) = some !![1/5, 0; 0, 1] := by
    rw [npInv_of_det_ne (by simp [det_fin_two]; norm_num)]
    congr 1
    refine inv_eq_right_inv ?_
    ext i j; fin_cases i <;> fin_cases j <;> simp [Matrix.mul_apply, Fin.sum_univ_two] <;> norm_num
  have h1 : ∃ a, s.predict = .ok a ∧ a.x ≠ 0 := by
    simp only [s, IF.predict, IF.fresh, IF.predictNoInfo, transpose_one, Matrix.one_mul, Matrix.mul_one, n1, i1, i2]
    refine ⟨_, rfl, fun h => ?_⟩
    have := congrFun h 0
    simp [Matrix.mul_apply, Fin.sum_univ_two, mulVec, dotProduct] at this
    norm_num at this
  have h2 : ∃ b, t.predict = .ok b ∧ b.x = 0 := by
    simp only [t, IF.predict, IF.fresh, IF.predictNoInfo, transpose_one, Matrix.one_mul, Matrix.mul_one, n2, i1, i3]
    refine ⟨_, rfl, ?_⟩
    funext i; fin_cases i <;> simp [Matrix.mul_apply, Fin.sum_univ_two, mulVec, dotProduct]
  obtain ⟨a, ha, ha'⟩ := h1
  obtain ⟨b, hb, hb'⟩ := h2
  refine ⟨s, t, a, b, ?_, ha, hb, hb', ha'⟩
  have e1 : (!![2, 0; 0, 1] : Mat 2 2) * !![1/2, 0; 0, 1] = 1 := by
    ext i j; fin_cases i <;> fin_cases j <;> simp
  constructor <;> simp only [s, t, IF.fresh, hT, inv_one, Option.map_some, Option.map_none, Matrix.mul_one, Matrix.mul_zero, Matrix.zero_mul,
    mulVec_zero, transpose_one, e1] <;>
    first | rfl | trivial | exact fun _ => trivial | (ext i j; fin_cases i <;> fin_cases j <;> simp [Matrix.mul_apply, Fin.sum_univ_two] <;> norm_num) |
      (funext i; fin_cases i <;> simp) | (intro Fi h; rw [← Option.some.inj h]; simp) |
      (intro _; first | trivial | rfl | (ext i j; fin_cases i <;> fin_cases j <;> simp [Matrix.mul_apply, Fin.sum_univ_two] <;> norm_num) |
        (funext i; fin_cases i <;> simp))

/-- A measurement of nothing. -/
theorem blind_update {f : KF n m l} (hH : f.H = 0) (hi : f.inv = npInv) (hR : f.R.det ≠ 0) :
    ∃ g, f.update (some 0) = .ok g ∧ g.y = 0 ∧ g.S = f.R ∧ g.x = f.x ∧ g.P = f.P ∧ g.lik = none ∧ g.logLik = none := by
  have hS : f.H * (f.P * f.Hᵀ) + f.R = f.R := by rw [hH]; simp
  cases hu : f.update (some 0) with
  | error e =>
    simp only [KF.update, Option.getD_none, MatArg.resolve, hi, hS, npInv_of_det_ne hR] at hu
    cases hu
  | ok g =>
    refine ⟨g, rfl, ?_⟩
    obtain ⟨SI, -, rfl⟩ := KF.update_ok hu
    simp only [Option.getD_none, MatArg.resolve]
    refine ⟨by simp [hH], hS, by simp [hH], by simp [hH], trivial, trivial⟩

theorem readLik_fresh (expf : ℝ → ℝ) {g : KF n m l} (h1 : g.lik = none) (h2 : g.logLik = none) :
    (g.readLik expf).1 = (if expf (logpdf g.y g.S) = 0 then floatMin else expf (logpdf g.y g.S)) ∧
      (g.readLik expf).2.x = g.x ∧ (g.readLik expf).2.P = g.P := by
  simp only [KF.readLik, h1, KF.readLogLik, h2, and_self]

/-- A bank of one filter that measures nothing. -/
theorem mmae_blind (s : MMAE (KF 2 1 0) 2 1 (Option (Vec 1)) (Mat 1 2)) (hs : s.H = none) (hH : (s.filters 0).H = 0)
    (hi : (s.filters 0).inv = npInv) (hR : (s.filters 0).R.det ≠ 0) (hp : s.p 0 = 1) :
    ∃ a, s.update (kfClass Real.exp 2 1 0) (some 0) .none none = .ok a ∧
      a.P 1 1 = ((s.filters 0).x 1 - (s.filters 0).x 0) ^ 2 + (s.filters 0).P 1 1 := by
  obtain ⟨g, hg, hy, hS, hx, hP, h1, h2⟩ := blind_update hH hi hR
  obtain ⟨hL, hgx, hgP⟩ := readLik_fresh Real.exp h1 h2
  have hL0 : (g.readLik Real.exp).1 ≠ 0 := by
    rw [hL, if_neg (Real.exp_ne_zero _)]; exact Real.exp_ne_zero _
  have hb : bankMap (fun _ => (kfClass Real.exp 2 1 0).updLik (fun p L => p * L) (some (0 : Vec 1), MatArg.none, none))
      (fun i => (s.filters i, s.p i)) = .ok fun _ => ((g.readLik Real.exp).2, (g.readLik Real.exp).1) := by
    refine bankMap_ok.2 fun i => updLik_ok.2 ⟨g, ?_, ?_⟩
    · rw [Fin.eq_zero i]; exact hg
    · rw [Fin.eq_zero i]
      show _ = (_, s.p 0 * (g.readLik Real.exp).1)
      rw [hp, one_mul]; rfl
  simp only [MMAE.update, hs, Option.or_none, hb, if_neg hL0, div_self hL0, one_smul, Finset.univ_unique,
    Finset.sum_singleton]
  refine ⟨_, rfl, ?_⟩
  simp only [MMAE.bankP, kfClass, hgx, hgP, hx, hP, Finset.univ_unique, Finset.sum_singleton]
  rw [dif_pos (by simp)]
  simp [vecMulVec_apply, pow_two]

/-- **C129 refuted (`MMAEFilterBank`).** The bank's covariance depends on the units: filter `i` is paired with the
`i`-th entry of the state instead of with the state. -/
theorem C129_mmae_covariance_refuted :
    ∃ (s t a b : MMAE (KF 2 1 0) 2 1 (Option (Vec 1)) (Mat 1 2)),
      MMAE.InUnits True !![1, 0; 0, 2] (1 : Mat 1 1) s t ∧ t.P = !![1, 0; 0, 2] * s.P * (!![1, 0; 0, 2])ᵀ ∧
      s.update (kfClass Real.exp 2 1 0) (some 0) .none none = .ok a ∧
      t.update (kfClass Real.exp 2 1 0) (some 0) .none none = .ok b ∧
      b.P ≠ !![1, 0; 0, 2] * a.P * (!![1, 0; 0, 2])ᵀ := by
  let f : KF 2 1 0 := { KF.fresh 2 1 0 with x := ![1, 1] }
  let g : KF 2 1 0 := f.inUnits !![1, 0; 0, 2] 1
  let s : MMAE (KF 2 1 0) 2 1 (Option (Vec 1)) (Mat 1 2) := ⟨fun _ => f, 1, none, none, f.x, f.P, f.x, f.P, f.x, f.P⟩
  let t : MMAE (KF 2 1 0) 2 1 (Option (Vec 1)) (Mat 1 2) := ⟨fun _ => g, 1, none, none, g.x, g.P, g.x, g.P, g.x, g.P⟩
  obtain ⟨a, ha, ha'⟩ := mmae_blind s rfl rfl rfl (by simp [s, f, KF.fresh]) rfl
  obtain ⟨b, hb, hb'⟩ := mmae_blind t rfl (by simp [t, g, f, KF.inUnits, KF.fresh]) rfl
    (by simp [t, g, f, KF.inUnits, KF.fresh]) rfl
  refine ⟨s, t, a, b, ?_, rfl, ha, hb, fun h => ?_⟩
  · constructor <;> first | rfl | exact fun _ => inUnits_self _ _ f rfl
  · have key (A : Mat 2 2) : ((!![1, 0; 0, 2] : Mat 2 2) * A * (!![1, 0; 0, 2] : Mat 2 2)ᵀ) 1 1 = 4 * A 1 1 := by
      simp only [Matrix.mul_apply, Fin.sum_univ_two, transpose_apply]
      simp
      ring
    have h1 := congrFun (congrFun h 1) 1
    rw [hb', key, ha'] at h1
    have e1 : (t.filters 0).P 1 1 = 4 * (s.filters 0).P 1 1 := key _
    rw [e1] at h1
    simp [s, t, g, f, KF.inUnits, KF.fresh] at h1
    norm_num at h1

/-- Floating-point `exp`: results below about `5e-324` are `0`. -/
noncomputable def expUnderflow (t : ℝ) : ℝ := if t < -745 then 0 else Real.exp t

/-- A bank of two filters that measure only noise. -/
theorem imm_blind (E : ℝ → ℝ) (hE : ∀ t, 0 ≤ E t) (s : IMM (KF n m l) n 2) (hM : s.M = fun _ _ => 1/2) (hc : s.cbar = fun _ => 1/2)
    (hH : ∀ i, (s.filters i).H = 0) (hi : ∀ i, (s.filters i).inv = npInv) (hR : ∀ i, (s.filters i).R.det ≠ 0) :
    ∃ (a : IMM (KF n m l) n 2) (L : Vec 2), s.update (kfClassZ E n m l) (some 0) = .ok a ∧ (∀ i, 0 < L i) ∧
      (∀ i, L i = if E (logpdf 0 (s.filters i).R) = 0 then floatMin else E (logpdf 0 (s.filters i).R)) ∧
      a.mu = fun i => L i / (L 0 + L 1) := by
  choose g hg hy hS hx hP h1 h2 using fun i => blind_update (hH i) (hi i) (hR i)
  have hL (i : Fin 2) := (readLik_fresh E (h1 i) (h2 i)).1
  simp only [hy, hS] at hL
  have hpos (i : Fin 2) : 0 < ((g i).readLik E).1 := by
    rw [hL]
    split_ifs with h0
    · unfold floatMin; positivity
    · exact lt_of_le_of_ne (hE _) (Ne.symm h0)
  have hb : bankMap (fun _ => (kfClassZ E n m l).updLik (fun _ L => L) (some (0 : Vec m)))
      (fun i => (s.filters i, s.likelihood i)) = .ok fun i => (((g i).readLik E).2, ((g i).readLik E).1) :=
    bankMap_ok.2 fun i => updLik_ok.2 ⟨g i, hg i, rfl⟩
  have hsum : ∑ i, s.cbar i * ((g i).readLik E).1 ≠ 0 := by
    rw [hc, Fin.sum_univ_two]; have := hpos 0; have := hpos 1; positivity
  have hmu : (fun i => s.cbar i * ((g i).readLik E).1 / ∑ i, s.cbar i * ((g i).readLik E).1) =
      fun i => ((g i).readLik E).1 / (((g 0).readLik E).1 + ((g 1).readLik E).1) := by
    funext i
    rw [hc, Fin.sum_univ_two, ← mul_add, mul_div_mul_left _ _ (by norm_num)]
  have hcb : ¬ ∃ j, ((fun i => ((g i).readLik E).1 / (((g 0).readLik E).1 + ((g 1).readLik E).1)) ᵥ* s.M) j = 0 := by
    rintro ⟨j, hj⟩
    simp only [hM, vecMul, dotProduct, Fin.sum_univ_two] at hj
    have := hpos 0; have := hpos 1
    have : 0 < ((g 0).readLik E).1 / (((g 0).readLik E).1 + ((g 1).readLik E).1) * (1/2) +
      ((g 1).readLik E).1 / (((g 0).readLik E).1 + ((g 1).readLik E).1) * (1/2) := by positivity
    linarith
  simp only [IMM.update, hb, if_neg hsum, hmu, IMM.mixing, if_neg hcb]
  exact ⟨_, fun i => ((g i).readLik E).1, rfl, hpos, hL, rfl⟩

/-- **C129 refuted (underflow).** With the exponential of floating-point numbers the units do matter: two models
that differ in the noise of 100 sensors are told apart by a measurement in metres; the same measurement in
micrometres makes both likelihoods underflow; they are replaced by the same number and the bank learns nothing. -/
theorem C129_underflow_refuted :
    ∃ (s t a b : IMM (KF 1 100 0) 1 2) (z : Vec 100), IMM.InUnits True 1 ((10 ^ 6 : ℝ) • (1 : Mat 100 100)) s t ∧
      s.update (kfClassZ expUnderflow 1 100 0) (some z) = .ok a ∧
      t.update (kfClassZ expUnderflow 1 100 0) (some (((10 ^ 6 : ℝ) • (1 : Mat 100 100)) *ᵥ z)) = .ok b ∧
      b.mu 0 = 1/2 ∧ 1/2 < a.mu 0 := by
  let f (r : ℝ) : KF 1 100 0 := { KF.fresh 1 100 0 with R := r • 1 }
  let U : Mat 100 100 := (10 ^ 6 : ℝ) • 1
  let fs : Fin 2 → KF 1 100 0 := ![f 1, f 4]
  let s : IMM (KF 1 100 0) 1 2 := ⟨fs, fun _ => 1/2, fun _ _ => 1/2, 0, 0, 0, fun _ => 1/2, fun _ _ => 1/2, 0, 0, 0, 0⟩
  let t : IMM (KF 1 100 0) 1 2 :=
    ⟨fun i => (fs i).inUnits 1 U, fun _ => 1/2, fun _ _ => 1/2, 0, 0, 0, fun _ => 1/2, fun _ _ => 1/2, 0, 0, 0, 0⟩
  have hfs (i : Fin 2) : ∃ r : ℝ, 1 ≤ r ∧ fs i = f r := by
    fin_cases i
    · exact ⟨1, le_refl _, rfl⟩
    · exact ⟨4, by norm_num, rfl⟩
  have hE (v : ℝ) : 0 ≤ expUnderflow v := by
    unfold expUnderflow; split_ifs
    · exact le_refl _
    · exact (Real.exp_pos _).le
  have hlp (r : ℝ) (hr : 0 < r) : logpdf (0 : Vec 100) (r • (1 : Mat 100 100)) =
      -50 * Real.log (2 * Real.pi) - 50 * Real.log r := by
    simp [logpdf]
    ring
  have hUR (r : ℝ) : U * (r • (1 : Mat 100 100)) * Uᵀ = (10 ^ 12 * r) • 1 := by
    simp only [U, transpose_smul, transpose_one, Matrix.smul_mul, Matrix.mul_smul, Matrix.one_mul, smul_smul]
    congr 1
    ring
  obtain ⟨a, L, ha, hLp, hL, hmu⟩ := imm_blind expUnderflow hE s rfl rfl
    (fun i => by obtain ⟨r, -, e⟩ := hfs i; simp only [s, e]; rfl)
    (fun i => by obtain ⟨r, -, e⟩ := hfs i; simp only [s, e]; rfl)
    (fun i => by
      obtain ⟨r, hr, e⟩ := hfs i
      simp only [s, e, f, det_smul, det_one, mul_one]; positivity)
  obtain ⟨b, L', hb, hLp', hL', hmu'⟩ := imm_blind expUnderflow hE t rfl rfl
    (fun i => by obtain ⟨r, -, e⟩ := hfs i; simp only [t, e, KF.inUnits, f, KF.fresh]; simp)
    (fun i => by obtain ⟨r, -, e⟩ := hfs i; simp only [t, e]; rfl)
    (fun i => by
      obtain ⟨r, hr, e⟩ := hfs i
      simp only [t, e, f, KF.inUnits, hUR, det_smul, det_one, mul_one]; positivity)
  have h2pi : 0 < Real.log (2 * Real.pi) := Real.log_pos (by linarith [Real.pi_gt_three])
  have h2pi' : Real.log (2 * Real.pi) ≤ 7 := by
    have := Real.log_le_sub_one_of_pos (show 0 < 2 * Real.pi by positivity)
    linarith [Real.pi_le_four]
  have h4 : Real.log 4 ≤ 3 := by
    have := Real.log_le_sub_one_of_pos (show (0 : ℝ) < 4 by norm_num)
    linarith
  have h4' : 0 < Real.log 4 := Real.log_pos (by norm_num)
  have h12 (r : ℝ) (hr : 1 ≤ r) : 39 * Real.log 2 ≤ Real.log (10 ^ 12 * r) := by
    rw [← Real.log_rpow (by norm_num)]
    refine Real.log_le_log (by positivity) ?_
    norm_num
    linarith
  have hsmall (i : Fin 2) : L' i = floatMin := by
    obtain ⟨r, hr, e⟩ := hfs i
    rw [hL' i]
    have : logpdf 0 (t.filters i).R = -50 * Real.log (2 * Real.pi) - 50 * Real.log (10 ^ 12 * r) := by
      rw [show (t.filters i).R = U * (fs i).R * Uᵀ from rfl, e, ← hlp _ (by positivity)]
      exact congrArg _ (hUR r)
    rw [this, if_pos]
    unfold expUnderflow
    refine if_pos ?_
    have := h12 r hr
    have := Real.one_sub_inv_le_log_of_pos (show (0 : ℝ) < 2 by norm_num)
    linarith
  have hbig (v : ℝ) (hv : -745 ≤ v) : (if expUnderflow v = 0 then floatMin else expUnderflow v) = Real.exp v := by
    have : expUnderflow v = Real.exp v := if_neg (not_lt.2 hv)
    rw [this, if_neg (Real.exp_ne_zero _)]
  have hL0 : L 0 = Real.exp (-50 * Real.log (2 * Real.pi)) := by
    rw [hL 0, show (s.filters 0).R = (1 : ℝ) • 1 from rfl, hlp 1 one_pos, hbig _ (by simp; linarith)]
    simp
  have hL1 : L 1 = Real.exp (-50 * Real.log (2 * Real.pi) - 50 * Real.log 4) := by
    rw [hL 1, show (s.filters 1).R = (4 : ℝ) • 1 from rfl, hlp 4 (by norm_num), hbig _ (by linarith)]
  refine ⟨s, t, a, b, 0, ?_, ha, by rw [mulVec_zero]; exact hb, ?_, ?_⟩
  · have hf (i : Fin 2) : InUnits True 1 U (s.filters i) (t.filters i) := by
      obtain ⟨r, -, e⟩ := hfs i
      exact inUnits_self 1 U (fs i) (by rw [e]; rfl)
    constructor <;> first | exact hf | rfl | simp [s, t]
  · rw [hmu']
    have : (0 : ℝ) < floatMin := by unfold floatMin; positivity
    simp only [hsmall]
    field_simp
    norm_num
  · rw [hmu]
    have : L 1 < L 0 := by rw [hL0, hL1]; exact Real.exp_lt_exp.2 (by linarith)
    simp only
    rw [div_lt_div_iff₀ two_pos (add_pos (hLp 0) (hLp 1))]
    linarith

/-- **C129 (likelihood).** In the new units the log-likelihood of a measurement is shifted by `- log |det U|`. -/
theorem C129_likelihood {T : Mat n n} {U : Mat m m} (hU : U.det ≠ 0) :
    (∀ s t : FKF n m l, FKF.InUnits A T U s t → s.logLik = none → t.logLik = none → s.S.det ≠ 0 →
      t.readLogLik.1 = s.readLogLik.1 - Real.log |U.det|) ∧
    (∀ s t : EKF n m l, EKF.InUnits A T U s t → s.logLik = none → t.logLik = none → s.S.det ≠ 0 →
      t.readLogLik.1 = s.readLogLik.1 - Real.log |U.det|) := by
  constructor <;> intro s t h hs ht hS
  · simp only [FKF.readLogLik, hs, ht, h.y, h.S, units_logpdf hU _ hS]
  · simp only [EKF.readLogLik, hs, ht, h.y, h.S, units_logpdf hU _ hS]

/-! ### Filters to which the theorems apply -/

/-- Any `FadingKalmanFilter`. -/
example (T : Mat n n) (U : Mat m m) (s : FKF n m l) : ∃ t, FKF.InUnits A T U s t :=
  ⟨{ s with
    x := T *ᵥ s.x, P := T * s.P * Tᵀ, Q := T * s.Q * Tᵀ, B := s.B.map fun B : Mat n l => T * B, F := T * s.F * T⁻¹
    H := U * s.H * T⁻¹, R := U * s.R * Uᵀ, K := T * s.K * U⁻¹, y := U *ᵥ s.y, S := U * s.S * Uᵀ
    SI := (U⁻¹)ᵀ * s.SI * U⁻¹, xPrior := T *ᵥ s.xPrior, PPrior := T * s.PPrior * Tᵀ, xPost := T *ᵥ s.xPost
    PPost := T * s.PPost * Tᵀ }, by constructor <;> first | rfl | exact fun _ => rfl⟩

/-- Any `ExtendedKalmanFilter`. -/
example (T : Mat n n) (U : Mat m m) (s : EKF n m l) : ∃ t, EKF.InUnits A T U s t :=
  ⟨{ s with
    x := T *ᵥ s.x, P := T * s.P * Tᵀ, Q := T * s.Q * Tᵀ, B := s.B.map fun B : Mat n l => T * B, F := T * s.F * T⁻¹
    R := U * s.R * Uᵀ, K := T * s.K * U⁻¹, y := U *ᵥ s.y, S := U * s.S * Uᵀ
    SI := (U⁻¹)ᵀ * s.SI * U⁻¹, xPrior := T *ᵥ s.xPrior, PPrior := T * s.PPrior * Tᵀ, xPost := T *ᵥ s.xPost
    PPost := T * s.PPost * Tᵀ }, by constructor <;> first | rfl | exact fun _ => rfl⟩

/-- Two `FadingKalmanFilter`s just built and set up, in two systems of units. -/
example (alpha : ℝ) (T : Mat n n) (U : Mat m m) (x : Vec n) (P Q F : Mat n n) (H : Mat m n) (R : Mat m m) :
    FKF.InUnits False T U { FKF.fresh alpha n m l with x := x, P := P, Q := Q, F := F, H := H, R := R }
      { FKF.fresh alpha n m l with
        x := T *ᵥ x, P := T * P * Tᵀ, Q := T * Q * Tᵀ, F := T * F * T⁻¹, H := U * H * T⁻¹, R := U * R * Uᵀ } := by
  constructor <;> first | exact False.elim | rfl | (simp [FKF.fresh]; done)

/-- Two `ExtendedKalmanFilter`s just built and set up, in two systems of units. -/
example (T : Mat n n) (U : Mat m m) (x : Vec n) (P Q F : Mat n n) (R : Mat m m) :
    EKF.InUnits False T U { EKF.fresh n m l with x := x, P := P, Q := Q, F := F, R := R }
      { EKF.fresh n m l with
        x := T *ᵥ x, P := T * P * Tᵀ, Q := T * Q * Tᵀ, F := T * F * T⁻¹, R := U * R * Uᵀ } := by
  constructor <;> first | exact False.elim | rfl | (simp [EKF.fresh]; done)

/-- Any `HInfinityFilter`. -/
example (T : Mat n n) (U : Mat m m) (s : HInf n m l) : ∃ t, HInf.InUnits T U s t :=
  ⟨{ s with
    x := T *ᵥ s.x, P := T * s.P * Tᵀ, Q := (T⁻¹)ᵀ * s.Q * T⁻¹, B := s.B.map fun B : Mat n l => T * B
    F := T * s.F * T⁻¹, H := U * s.H * T⁻¹, V := U * s.V * Uᵀ, VInv := (U⁻¹)ᵀ * s.VInv * U⁻¹, W := T * s.W * Tᵀ
    y := U *ᵥ s.y, z := U *ᵥ s.z }, by constructor <;> first | rfl | exact fun _ => rfl⟩

/-- Any `EnsembleKalmanFilter` with the default inverse. -/
example (T : Mat n n) (U : Mat m m) (s : EnKF n m N) (hs : s.inv = npInv) : ∃ t, EnKF.InUnits A T U s t :=
  ⟨{ s with
    x := T *ᵥ s.x, P := T * s.P * Tᵀ, Q := T * s.Q * Tᵀ, R := U * s.R * Uᵀ, hx := unitsFn U T s.hx
    fx := fun v d => T *ᵥ s.fx (T⁻¹ *ᵥ v) d, sigmas := fun i => T *ᵥ s.sigmas i, K := T * s.K * U⁻¹
    S := U * s.S * Uᵀ, SI := (U⁻¹)ᵀ * s.SI * U⁻¹, xPrior := T *ᵥ s.xPrior, PPrior := T * s.PPrior * Tᵀ
    xPost := T *ᵥ s.xPost, PPost := T * s.PPost * Tᵀ }, by constructor <;> first | rfl | exact hs | exact fun _ => rfl⟩

/-- An `InformationFilter` that has been given a transition; its first prediction needs no more than `P_inv = I`. -/
example (U : Mat 1 1) (T : Mat 2 2) (hT : T.det ≠ 0) (hU : U.det ≠ 0) (expf : ℝ → ℝ) :
    ∃ s t : IF 2 1 0, IF.InUnits A T U s t ∧
      Agree (IF.InUnits A T U) (runList (IfCall.on expf) s [.predict (.scalar 0)])
        (runList (IfCall.on expf) t ([.predict (.scalar 0)].map (IfCall.units U))) := by
  let s : IF 2 1 0 := { IF.fresh 2 1 0 with F := some !![1, 1; 0, 1], Finv := some !![1, -1; 0, 1] }
  have h : IF.InUnits A T U s { s with
      x := T *ᵥ s.x, Pinv := (T⁻¹)ᵀ * s.Pinv * T⁻¹, Q := T * s.Q * Tᵀ, B := s.B.map fun B : Mat 2 0 => T * B
      F := s.F.map fun F : Mat 2 2 => T * F * T⁻¹, Finv := s.Finv.map fun F : Mat 2 2 => T * F * T⁻¹
      H := U * s.H * T⁻¹, Rinv := (U⁻¹)ᵀ * s.Rinv * U⁻¹, K := T * s.K * U⁻¹, y := U *ᵥ s.y
      S := (T⁻¹)ᵀ * s.S * T⁻¹, xPrior := T *ᵥ s.xPrior, PinvPrior := (T⁻¹)ᵀ * s.PinvPrior * T⁻¹
      xPost := T *ᵥ s.xPost, PinvPost := (T⁻¹)ᵀ * s.PinvPost * T⁻¹ } := by
    constructor <;> try first | rfl | exact fun _ => rfl
    intro Fi hF
    rw [← Option.some.inj hF, det_fin_two_of]
    norm_num
  exact ⟨s, _, h, by
    have h1 := if_units_step hT hU expf h (by simp [s, IF.fresh]) (.predict (.scalar 0))
    simp only [runList, List.map_cons, List.map_nil]
    revert h1
    cases IfCall.on expf s _ <;> cases IfCall.on expf _ (IfCall.units U _) <;> exact id⟩

/-- An `IMMEstimator` of two tracking filters built in other units. -/
example (T : Mat 2 2) (U : Mat 1 1) (shape : Fin 2 → List ℕ) (mu : Vec 2) (M : Mat 2 2) :
    (∃ s t, IMM.init (kfClassZ Real.exp 2 1 1) shape (fun _ => cvKF) mu M = .ok s ∧
        IMM.init (kfClassZ Real.exp 2 1 1) shape (fun _ => cvKF.inUnits T U) mu M = .ok t ∧ IMM.InUnits A T U s t) ∨
      (∃ e, IMM.init (kfClassZ Real.exp 2 1 1) shape (fun _ => cvKF) mu M = .error e ∧
        IMM.init (kfClassZ Real.exp 2 1 1) shape (fun _ => cvKF.inUnits T U) mu M = .error e) :=
  C129_imm_init (fun _ => inUnits_self T U cvKF rfl) shape mu M

end Filterpy
