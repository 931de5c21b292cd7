import Verif.Lemmas.Sim
import Verif.Lemmas.Scalar1
import Verif.Model.EKF
import Verif.Props.KalmanBasic

/-!
# ExtendedKalmanFilter: C21
-/

namespace Filterpy

open Matrix

variable {n m l : ℕ}

/-- The calls compared: `predict()` / `predict(u)`, and `update` with a linear measurement
function `x ↦ H x` (which may change from call to call). -/
inductive LinOp (n m l : ℕ)
  | predict (u : Option (Vec l))
  | update (z : Option (Vec m)) (H : Mat m n) (R : MatArg m)

/-- The call on an `ExtendedKalmanFilter`: `Hx = λ x. H x`, `HJacobian = λ x. H`. -/
noncomputable def LinOp.onEKF (s : EKF n m l) : LinOp n m l → Exec (EKF n m l)
  | .predict none => s.predict
  | .predict (some u) => s.predict (.vec u)
  | .update z H R => s.update z (fun _ => H) (fun x => H *ᵥ x) R

/-- The call on a `KalmanFilter`. -/
noncomputable def LinOp.onKF (s : KF n m l) : LinOp n m l → Exec (KF n m l)
  | .predict none => s.predict
  | .predict (some u) => s.predict (.vec u)
  | .update z H R => s.update z R (some H)

/-- Control arguments for which numpy keeps the state a vector. -/
def LinOp.Shaped (B : Option (Mat n l)) : LinOp n m l → Prop
  | .predict none => B = none ∨ l = 1
  | .predict (some _) => B ≠ none ∨ l = n ∨ l = 1
  | .update .. => True

/-- An `ExtendedKalmanFilter` and a `KalmanFilter` with the same model, estimate and records. -/
structure EKFSame (a : EKF n m l) (b : KF n m l) : Prop where
  x : a.x = b.x
  P : a.P = b.P
  F : a.F = b.F
  Q : a.Q = b.Q
  R : a.R = b.R
  B : a.B = b.B
  z : a.z = b.z
  K : a.K = b.K
  S : a.S = b.S
  SI : a.SI = b.SI
  xPrior : a.xPrior = b.xPrior
  PPrior : a.PPrior = b.PPrior
  xPost : a.xPost = b.xPost
  PPost : a.PPost = b.PPost
  alphaSq : b.alphaSq = 1
  inv : b.inv = npInv

theorem ekf_step (a : EKF n m l) (b : KF n m l) (op : LinOp n m l) (h : EKFSame a b)
    (hs : op.Shaped b.B) : Agree EKFSame (op.onEKF a) (op.onKF b) := by
  obtain ⟨ax, aP, aB, aF, aR, aQ, ay, az, aK, aS, aSI, all, al, am, axp, aPp, axq, aPq⟩ := a
  obtain ⟨bx, bP, bQ, bB, bF, bH, bR, balpha, bM, bz, bK, by', bS, bSI, bxp, bPp, bxq, bPq, bll,
    bl, bm, binv⟩ := b
  obtain ⟨h1, h2, h3, h4, h6, h7, h9, h10, h11, h12, h13, h14, h15, h16, h8, h17⟩ := h
  simp only at h1 h2 h3 h4 h6 h7 h8 h9 h10 h11 h12 h13 h14 h15 h16 h17
  subst h1 h2 h3 h4 h6 h7 h8 h9 h10 h11 h12 h13 h14 h15 h16 h17
  cases op with
  | update z H R =>
    cases z with
    | none =>
      simp only [LinOp.onEKF, LinOp.onKF, EKF.update, KF.update, KF.updateNone, Agree]
      constructor <;> rfl
    | some z =>
      simp only [LinOp.onEKF, LinOp.onKF, EKF.update, KF.update, Option.getD_some]
      cases npInv (H * (aP * Hᵀ) + R.resolve aR) with
      | none => simp only [Agree]; exact ⟨trivial, by constructor <;> rfl⟩
      | some SI => simp only [Agree]; constructor <;> rfl
  | predict u =>
    cases u with
    | none =>
      simp only [LinOp.Shaped] at hs
      cases aB with
      | none =>
        simp only [LinOp.onEKF, LinOp.onKF, EKF.predict, KF.predict, FKF.control, KF.control,
          Option.or_none, Option.none_or]
        simp only [add_zero, one_smul, Option.getD_none, MatArg.resolve, Agree]
        constructor <;> rfl
      | some B =>
        have hl : l = 1 := by simpa using hs
        simp only [LinOp.onEKF, LinOp.onKF, EKF.predict, KF.predict, FKF.control, KF.control,
          Option.or_none, Option.none_or, dif_pos hl, zero_mul]
        rw [show (fun _ : Fin n => (0 : ℝ)) = 0 from rfl]
        simp only [add_zero, one_smul, Option.getD_none, MatArg.resolve, Agree]
        constructor <;> rfl
    | some u =>
      cases aB with
      | none =>
        have hl : l = n ∨ l = 1 := by simpa [LinOp.Shaped] using hs
        simp only [LinOp.onEKF, LinOp.onKF, EKF.predict, KF.predict, FKF.control, KF.control,
          Option.or_none, Option.none_or, if_pos hl]
        simp only [add_zero, one_smul, Option.getD_none, MatArg.resolve, Agree]
        constructor <;> rfl
      | some B =>
        simp only [LinOp.onEKF, LinOp.onKF, EKF.predict, KF.predict, FKF.control, KF.control,
          Option.or_none, Option.none_or]
        simp only [one_smul, Option.getD_none, MatArg.resolve, Agree]
        constructor <;> rfl

theorem linOp_keeps_B (b : KF n m l) (op : LinOp n m l) : (op.onKF b).left.B = b.B := by
  cases op with
  | update z H R =>
    simp only [LinOp.onKF]
    cases z with
    | none => rfl
    | some z =>
      simp only [KF.update]
      split <;> rfl
  | predict u =>
    have key : ∀ v : UArg l, (b.predict v).left.B = b.B := by
      intro v
      unfold KF.predict
      simp only
      split <;> rfl
    cases u with
    | none => exact key _
    | some u => exact key _

/-- **C21.** With a linear measurement function an `ExtendedKalmanFilter` runs, for every
sequence of `predict` / `update` calls (per-call `H`, `R`, missing measurements, calls that raise
included), exactly like a `KalmanFilter` with the same attributes: same outcome, same `x`, `P`,
`K`, `S`, `SI`, `z`, priors and posteriors. -/
theorem C21_linear (a : EKF n m l) (b : KF n m l) (h : EKFSame a b)
    (ops : List (LinOp n m l)) (hs : ∀ op ∈ ops, op.Shaped b.B) :
    Agree EKFSame (runList LinOp.onEKF a ops) (runList LinOp.onKF b ops) := by
  have := runList_agree (R := fun (s : EKF n m l) (t : KF n m l) => EKFSame s t ∧ t.B = b.B)
    (f := LinOp.onEKF) (g := LinOp.onKF) ops ?_ a b ⟨h, rfl⟩
  · exact this.mono fun _ _ h => h.1
  · intro s t op hop ⟨h1, h2⟩
    have h3 := ekf_step s t op h1 (by rw [h2]; exact hs op hop)
    have h4 := linOp_keeps_B t op
    cases hf : op.onEKF s <;> cases hg : op.onKF t <;> rw [hf, hg] at h3 <;> rw [hg] at h4 <;>
      simp only [Agree] at h3 ⊢
    · exact ⟨h3.1, h3.2, h4.trans h2⟩
    · exact ⟨h3, h4.trans h2⟩

/-- **C21.** After an `update` with a measurement the residual `y` and the likelihood caches
agree as well (so `log_likelihood`, `likelihood`, `mahalanobis` do). -/
theorem C21_linear_y (a a' : EKF n m l) (b b' : KF n m l) (h : EKFSame a b) (z : Vec m) (H R)
    (ha : LinOp.onEKF a (.update (some z) H R) = .ok a')
    (hb : LinOp.onKF b (.update (some z) H R) = .ok b') :
    a'.y = b'.y ∧ a'.logLik = b'.logLik ∧ a'.lik = b'.lik ∧ a'.mahal = b'.mahal := by
  simp only [LinOp.onEKF, LinOp.onKF, EKF.update, KF.update, Option.getD_some] at ha hb
  split at ha <;> cases ha
  split at hb <;> cases hb
  exact ⟨by rw [h.x], rfl, rfl, rfl⟩

/-- **C21 refuted** for `y` after a missing measurement: `KalmanFilter.update(None)` resets the
residual, `ExtendedKalmanFilter.update(None)` keeps the previous one. -/
theorem C21_none_y_refuted :
    ∃ (a a' : EKF 1 1 1) (b b' : KF 1 1 1), EKFSame a b ∧ a.y = b.y ∧
      a.update none (fun _ => 1) id = .ok a' ∧ b.update none = .ok b' ∧ a'.y ≠ b'.y := by
  refine ⟨{ EKF.fresh 1 1 1 with y := ![1] }, _, { KF.fresh 1 1 1 with y := ![1] }, _, ?_, rfl,
    rfl, rfl, ?_⟩
  · constructor <;> rfl
  · intro h
    have := congrFun h 0
    simp [KF.updateNone] at this

/-- **C21** (any measurement function): `ExtendedKalmanFilter.update` is the Kalman update of the
linearisation: with `H = HJacobian(x)` it is `KalmanFilter.update` on the measurement
`residual(z, Hx(x)) + H x`. -/
theorem C21_nonlinear (a : EKF n m l) (b : KF n m l) (h : EKFSame a b) (z : Vec m)
    (HJ : Vec n → Mat m n) (hx : Vec n → Vec m) (R : MatArg m) (residual : Vec m → Vec m → Vec m) :
    match a.update (some z) HJ hx R residual,
      b.update (some (residual z (hx a.x) + HJ a.x *ᵥ a.x)) R (some (HJ a.x)) with
    | .ok a', .ok b' => a'.x = b'.x ∧ a'.P = b'.P ∧ a'.y = b'.y ∧ a'.K = b'.K ∧ a'.S = b'.S ∧
        a'.xPost = b'.xPost ∧ a'.PPost = b'.PPost
    | .error e, .error e' => e.1 = e'.1
    | _, _ => False := by
  simp only [EKF.update, KF.update, Option.getD_some, h.inv, ← h.x, ← h.P, ← h.R]
  cases npInv (HJ a.x * (a.P * (HJ a.x)ᵀ) + R.resolve a.R) with
  | none => trivial
  | some SI => simp

/-- **C21.** `predict_update(z)` with a linear measurement function gives the same `x`, `P`,
`K`, `S`, `y` and posterior as `predict` followed by `update`, and raises in the same cases. -/
theorem C21_predict_update_partial (a : EKF n m l) (z : Vec m) (H : Mat m n) (u : UArg l) :
    match a.predictUpdate (some z) (fun _ => H) (fun x => H *ᵥ x) u,
      (match a.predict u with
        | .ok a1 => a1.update (some z) (fun _ => H) (fun x => H *ᵥ x)
        | .error e => .error e) with
    | .ok a', .ok b' => a'.x = b'.x ∧ a'.P = b'.P ∧ a'.K = b'.K ∧ a'.S = b'.S ∧ a'.SI = b'.SI ∧
        a'.y = b'.y ∧ a'.z = b'.z ∧ a'.xPost = b'.xPost ∧ a'.PPost = b'.PPost
    | .error e, .error e' => e.1 = e'.1
    | _, _ => False := by
  simp only [EKF.predictUpdate, EKF.predict]
  cases FKF.control a.B u with
  | error e => simp
  | ok bu =>
    simp only [EKF.update, MatArg.resolve]
    cases npInv (H * ((a.F * a.P * a.Fᵀ + a.Q) * Hᵀ) + a.R) with
    | none => simp
    | some SI => simp

/-- **C21 refuted**: `predict_update` records the state *before* the prediction as the prior. -/
theorem C21_prior_refuted :
    ∃ (a a1 a2 a' : EKF 1 1 1), a.predict = .ok a1 ∧
      a1.update (some ![1]) (fun _ => 1) (fun x => (1 : Mat 1 1) *ᵥ x) = .ok a2 ∧
      a.predictUpdate (some ![1]) (fun _ => 1) (fun x => (1 : Mat 1 1) *ᵥ x) = .ok a' ∧
      a'.PPrior ≠ a2.PPrior := by
  have hS : ((1 : Mat 1 1) * (((1 : Mat 1 1) * 1 * (1 : Mat 1 1)ᵀ + 1) * (1 : Mat 1 1)ᵀ) + 1).det ≠ 0 := by
    simp; norm_num
  refine ⟨EKF.fresh 1 1 1, _, ?_, ?_, rfl, ?_, ?_, ?_⟩
  rotate_left 2
  · simp only [EKF.update, EKF.fresh, MatArg.resolve]
    rw [npInv_of_det_ne hS]
  · simp only [EKF.predictUpdate, EKF.fresh, FKF.control]
    rw [npInv_of_det_ne hS]
  · intro h
    have := congrFun (congrFun h 0) 0
    simp at this

/-- **C21 refuted**: the documented `predict_update(None)` ("only the predict step is performed")
raises `TypeError`. -/
theorem C21_predict_update_none_refuted :
    ∃ e, (EKF.fresh 1 1 1).predictUpdate none (fun _ => 1) (fun x => (1 : Mat 1 1) *ᵥ x)
      = .error (.typeError, e) := by
  have hS : ((1 : Mat 1 1) * (((1 : Mat 1 1) * 1 * (1 : Mat 1 1)ᵀ + 1) * (1 : Mat 1 1)ᵀ) + 1).det ≠ 0 := by
    simp; norm_num
  simp only [EKF.predictUpdate, EKF.fresh, FKF.control]
  rw [npInv_of_det_ne hS]
  exact ⟨_, rfl⟩

/-- **C21 refuted** for state-dependent Jacobians: `predict_update` linearises at the state before
the prediction, so with `Hx(x) = x²` its gain is not that of `predict` followed by `update`. -/
theorem C21_predict_update_nonlinear_refuted :
    ∃ (a a1 a2 a' : EKF 1 1 1), a.predict = .ok a1 ∧
      a1.update (some ![1]) (fun x => sc (2 * x 0)) (fun x => ![x 0 ^ 2]) = .ok a2 ∧
      a.predictUpdate (some ![1]) (fun x => sc (2 * x 0)) (fun x => ![x 0 ^ 2]) = .ok a' ∧
      a'.S ≠ a2.S := by
  refine ⟨{ EKF.fresh 1 1 1 with x := vc 1, F := sc 2 }, _, ?_, ?_, rfl, ?_, ?_, ?_⟩
  rotate_left 2
  · simp only [EKF.update, EKF.fresh, MatArg.resolve, sc_one, sc_mulVec, sc_mul, sc_add,
      sc_transpose, vc_zero, vc_add, vc, sc_npInv 81 (by norm_num)]
    norm_num [sc_npInv 81]
    rfl
  · simp only [EKF.predictUpdate, EKF.fresh, FKF.control, sc_one, sc_mulVec, sc_mul, sc_add,
      sc_transpose, vc_zero, vc_add, vc]
    norm_num [sc_npInv 21]
    rfl
  · simp only [ne_eq]
    intro h
    have := congrFun (congrFun h 0) 0
    norm_num [sc] at this

/-- Non-vacuity of C21: a run with a prediction, two different sensors and a lost measurement. -/
example : Agree EKFSame
    (runList LinOp.onEKF (EKF.fresh 2 1 1)
      [.predict none, .update (some ![1]) !![1, 0] .none, .update none !![1, 0] .none,
        .update (some ![2]) !![0, 1] (.scalar 3)])
    (runList LinOp.onKF (KF.fresh 2 1 1)
      [.predict none, .update (some ![1]) !![1, 0] .none, .update none !![1, 0] .none,
        .update (some ![2]) !![0, 1] (.scalar 3)]) := by
  apply C21_linear
  · constructor <;> rfl
  · intro op hop
    simp only [List.mem_cons, List.not_mem_nil, or_false] at hop
    rcases hop with rfl | rfl | rfl | rfl <;> simp [LinOp.Shaped, KF.fresh]

end Filterpy
