import Verif.Props.FilterBooks
import Verif.Props.HInfinity

/-!
# Missing measurements in every filter class (C127)

`update(None)` says that there is no measurement.  Here it is compared, for every filter class, with not making the call,
and, for the two classes that take the inverse of the measurement noise, with a measurement that carries no information.
-/

namespace Filterpy

open Matrix

/-- The outcome of a run, looked at through `core`. -/
def Spec.Through {σ : Type*} (core : σ → σ) : Exec σ → Exec σ
  | .ok s => .ok (core s)
  | .error (e, s) => .error (e, core s)

/-- Deleting the calls `missing` from a history makes no difference, seen through `core`: it raises the same exception
at the same place, or ends in the same state. -/
def Spec.DeletesMissing {σ ι : Type*} (step : σ → ι → Exec σ) (missing : ι → Bool) (core : σ → σ) : Prop :=
  ∀ (s : σ) (ops : List ι),
    Spec.Through core (runList step s ops) = Spec.Through core (runList step s (ops.filter fun i => !missing i))

open Spec

theorem deletes_of_step {σ ι : Type*} {step : σ → ι → Exec σ} {missing : ι → Bool} {core : σ → σ}
    (h1 : ∀ s i, missing i = false → Through core (step s i) = Through core (step (core s) i))
    (h2 : ∀ s i, missing i = true → ∃ s', step s i = .ok s' ∧ core s' = core s) : DeletesMissing step missing core := by
  have key : ∀ (ops : List ι) (s t : σ), core s = core t →
      Through core (runList step s ops) = Through core (runList step t (ops.filter fun i => !missing i)) := by
    intro ops
    induction ops with
    | nil => intro s t h; simp only [List.filter_nil, runList, Through, h]
    | cons i ops ih =>
      intro s t h
      cases hm : missing i with
      | true =>
        obtain ⟨s', e1, e2⟩ := h2 s i hm
        simp only [List.filter_cons, hm, Bool.not_true, Bool.false_eq_true, if_false, runList, e1]
        exact ih s' t (e2.trans h)
      | false =>
        simp only [List.filter_cons, hm, Bool.not_false, if_true, runList]
        have e : Through core (step s i) = Through core (step t i) := by rw [h1 s i hm, h1 t i hm, h]
        cases ha : step s i with
        | error a =>
          cases hb : step t i with
          | error b => rw [ha, hb] at e; exact e
          | ok b => rw [ha, hb] at e; cases e
        | ok a =>
          cases hb : step t i with
          | error b => rw [ha, hb] at e; cases e
          | ok b =>
            rw [ha, hb] at e
            exact ih a b (Except.ok.inj e)
  exact fun s ops => key ops s s rfl

variable {n m l N : ℕ} {p : SigmaPts n}

/-- The filters without the attributes that record the call: `z`, `x_post` and `P_post`. -/
def EKF.core (s : EKF n m l) : EKF n m l := { s with z := fun _ => none, xPost := 0, PPost := 0 }
@[inherit_doc EKF.core] def FKF.core (s : FKF n m l) : FKF n m l := { s with z := fun _ => none, xPost := 0, PPost := 0 }
@[inherit_doc EKF.core] def UKF.core (s : UKF n m p) : UKF n m p := { s with z := fun _ => none, xPost := 0, PPost := 0 }
@[inherit_doc EKF.core] def CKF.core (s : CKF n m) : CKF n m := { s with z := fun _ => none, xPost := 0, PPost := 0 }
@[inherit_doc EKF.core] def EnKF.core (s : EnKF n m N) : EnKF n m N := { s with z := fun _ => none, xPost := 0, PPost := 0 }
@[inherit_doc EKF.core] def SRKF.core (s : SRKF n m l) : SRKF n m l := { s with z := fun _ => none, xPost := 0, P12Post := 0 }
@[inherit_doc EKF.core] def IF.core (s : IF n m l) : IF n m l := { s with z := none, xPost := 0, PinvPost := 0 }

/-- Which calls are `update(None)`. -/
def EkfOp.isMissing : EkfOp n m l → Bool
  | .update none .. => true
  | _ => false
@[inherit_doc EkfOp.isMissing] def FkfOp.isMissing : FkfOp n m l → Bool
  | .update none _ => true
  | _ => false
@[inherit_doc EkfOp.isMissing] def UkfCall.isMissing : UkfCall n m → Bool
  | .update none .. => true
  | _ => false
@[inherit_doc EkfOp.isMissing] def CkfCall.isMissing : CkfCall n m → Bool
  | .update none _ => true
  | _ => false
@[inherit_doc EkfOp.isMissing] def EnkfOp.isMissing : EnkfOp n m N → Bool
  | .update none .. => true
  | _ => false
@[inherit_doc EkfOp.isMissing] def SrCall.isMissing : SrCall m l → Bool
  | .update none _ => true
  | _ => false
@[inherit_doc EkfOp.isMissing] def IfCall.isMissing : IfCall m l → Bool
  | .update none _ => true
  | _ => false
@[inherit_doc EkfOp.isMissing] def HInfOp.isMissing : HInfOp m l → Bool
  | .update none => true
  | _ => false

theorem EKF.readLogLik_core (s : EKF n m l) : s.core.readLogLik = (s.readLogLik.1, s.readLogLik.2.core) := by
  unfold EKF.readLogLik
  rw [show s.core.logLik = s.logLik from rfl]
  cases s.logLik <;> rfl

theorem EKF.readLik_core (expf : ℝ → ℝ) (s : EKF n m l) :
    s.core.readLik expf = ((s.readLik expf).1, (s.readLik expf).2.core) := by
  unfold EKF.readLik
  rw [show s.core.lik = s.lik from rfl, EKF.readLogLik_core]
  cases s.lik <;> rfl

theorem FKF.readLogLik_core (s : FKF n m l) : s.core.readLogLik = (s.readLogLik.1, s.readLogLik.2.core) := by
  unfold FKF.readLogLik
  rw [show s.core.logLik = s.logLik from rfl]
  cases s.logLik <;> rfl

theorem FKF.readLik_core (expf : ℝ → ℝ) (s : FKF n m l) :
    s.core.readLik expf = ((s.readLik expf).1, (s.readLik expf).2.core) := by
  unfold FKF.readLik
  rw [show s.core.lik = s.lik from rfl, FKF.readLogLik_core]
  cases s.lik <;> rfl

theorem UKF.readLogLik_core (s : UKF n m p) : s.core.readLogLik = (s.readLogLik.1, s.readLogLik.2.core) := by
  unfold UKF.readLogLik
  rw [show s.core.logLik = s.logLik from rfl]
  cases s.logLik <;> rfl

theorem UKF.readLik_core (expf : ℝ → ℝ) (s : UKF n m p) :
    s.core.readLik expf = ((s.readLik expf).1, (s.readLik expf).2.core) := by
  unfold UKF.readLik
  rw [show s.core.lik = s.lik from rfl, UKF.readLogLik_core]
  cases s.lik <;> rfl

theorem CKF.readLogLik_core (s : CKF n m) : s.core.readLogLik = (s.readLogLik.1, s.readLogLik.2.core) := by
  unfold CKF.readLogLik
  rw [show s.core.logLik = s.logLik from rfl]
  cases s.logLik <;> rfl

theorem CKF.readLik_core (expf : ℝ → ℝ) (s : CKF n m) :
    s.core.readLik expf = ((s.readLik expf).1, (s.readLik expf).2.core) := by
  unfold CKF.readLik
  rw [show s.core.lik = s.lik from rfl, CKF.readLogLik_core]
  cases s.lik <;> rfl

theorem EKF.readMahal_core (s : EKF n m l) : s.core.readMahal = match s.readMahal with
    | .ok (v, t) => .ok (v, t.core)
    | .error e => .error e := by
  have key : ∀ t : EKF n m l, t.mahal = none → t.readMahal = if t.y ⬝ᵥ (t.SI *ᵥ t.y) < 0 then .error .valueError else
      .ok (Real.sqrt (t.y ⬝ᵥ (t.SI *ᵥ t.y)), { t with mahal := some (Real.sqrt (t.y ⬝ᵥ (t.SI *ᵥ t.y))) }) := by
    intro t h; unfold EKF.readMahal; rw [h]
  cases h : s.mahal with
  | some v =>
    have e1 : s.readMahal = .ok (v, s) := by unfold EKF.readMahal; rw [h]
    have e2 : s.core.readMahal = .ok (v, s.core) := by
      unfold EKF.readMahal; rw [show s.core.mahal = some v from h]
    rw [e1, e2]
  | none =>
    rw [key s h, key s.core h]
    by_cases hd : s.y ⬝ᵥ (s.SI *ᵥ s.y) < 0
    · rw [if_pos hd, if_pos (show s.core.y ⬝ᵥ (s.core.SI *ᵥ s.core.y) < 0 from hd)]
    · rw [if_neg hd, if_neg (show ¬ s.core.y ⬝ᵥ (s.core.SI *ᵥ s.core.y) < 0 from hd)]; rfl

theorem FKF.readMahal_core (s : FKF n m l) : s.core.readMahal = match s.readMahal with
    | .ok (v, t) => .ok (v, t.core)
    | .error e => .error e := by
  have key : ∀ t : FKF n m l, t.mahal = none → t.readMahal = if t.y ⬝ᵥ (t.SI *ᵥ t.y) < 0 then .error .valueError else
      .ok (Real.sqrt (t.y ⬝ᵥ (t.SI *ᵥ t.y)), { t with mahal := some (Real.sqrt (t.y ⬝ᵥ (t.SI *ᵥ t.y))) }) := by
    intro t h; unfold FKF.readMahal; rw [h]
  cases h : s.mahal with
  | some v =>
    have e1 : s.readMahal = .ok (v, s) := by unfold FKF.readMahal; rw [h]
    have e2 : s.core.readMahal = .ok (v, s.core) := by
      unfold FKF.readMahal; rw [show s.core.mahal = some v from h]
    rw [e1, e2]
  | none =>
    rw [key s h, key s.core h]
    by_cases hd : s.y ⬝ᵥ (s.SI *ᵥ s.y) < 0
    · rw [if_pos hd, if_pos (show s.core.y ⬝ᵥ (s.core.SI *ᵥ s.core.y) < 0 from hd)]
    · rw [if_neg hd, if_neg (show ¬ s.core.y ⬝ᵥ (s.core.SI *ᵥ s.core.y) < 0 from hd)]; rfl

theorem UKF.readMahal_core (s : UKF n m p) : s.core.readMahal = match s.readMahal with
    | .ok (v, t) => .ok (v, t.core)
    | .error e => .error e := by
  have key : ∀ t : UKF n m p, t.mahal = none → t.readMahal = if t.y ⬝ᵥ (t.SI *ᵥ t.y) < 0 then .error .valueError else
      .ok (Real.sqrt (t.y ⬝ᵥ (t.SI *ᵥ t.y)), { t with mahal := some (Real.sqrt (t.y ⬝ᵥ (t.SI *ᵥ t.y))) }) := by
    intro t h; unfold UKF.readMahal; rw [h]
  cases h : s.mahal with
  | some v =>
    have e1 : s.readMahal = .ok (v, s) := by unfold UKF.readMahal; rw [h]
    have e2 : s.core.readMahal = .ok (v, s.core) := by
      unfold UKF.readMahal; rw [show s.core.mahal = some v from h]
    rw [e1, e2]
  | none =>
    rw [key s h, key s.core h]
    by_cases hd : s.y ⬝ᵥ (s.SI *ᵥ s.y) < 0
    · rw [if_pos hd, if_pos (show s.core.y ⬝ᵥ (s.core.SI *ᵥ s.core.y) < 0 from hd)]
    · rw [if_neg hd, if_neg (show ¬ s.core.y ⬝ᵥ (s.core.SI *ᵥ s.core.y) < 0 from hd)]; rfl

theorem CKF.readMahal_core (s : CKF n m) : s.core.readMahal = match s.readMahal with
    | .ok (v, t) => .ok (v, t.core)
    | .error e => .error e := by
  have key : ∀ t : CKF n m, t.mahal = none → t.readMahal = if t.yArray = false then .error .attributeError else
      if t.y ⬝ᵥ (t.SI *ᵥ t.y) < 0 then .error .valueError else
      .ok (Real.sqrt (t.y ⬝ᵥ (t.SI *ᵥ t.y)), { t with mahal := some (Real.sqrt (t.y ⬝ᵥ (t.SI *ᵥ t.y))) }) := by
    intro t h; unfold CKF.readMahal; rw [h]
  cases h : s.mahal with
  | some v =>
    have e1 : s.readMahal = .ok (v, s) := by unfold CKF.readMahal; rw [h]
    have e2 : s.core.readMahal = .ok (v, s.core) := by
      unfold CKF.readMahal; rw [show s.core.mahal = some v from h]
    rw [e1, e2]
  | none =>
    rw [key s h, key s.core h]
    by_cases hy : s.yArray = false
    · rw [if_pos hy, if_pos (show s.core.yArray = false from hy)]
    rw [if_neg hy, if_neg (show ¬ s.core.yArray = false from hy)]
    by_cases hd : s.y ⬝ᵥ (s.SI *ᵥ s.y) < 0
    · rw [if_pos hd, if_pos (show s.core.y ⬝ᵥ (s.core.SI *ᵥ s.core.y) < 0 from hd)]
    · rw [if_neg hd, if_neg (show ¬ s.core.y ⬝ᵥ (s.core.SI *ᵥ s.core.y) < 0 from hd)]; rfl

/-- **C127 (`ExtendedKalmanFilter`).** Deleting the missing measurements from any history of calls and readings changes
nothing but `z`, `x_post` and `P_post`. -/
theorem C127_ekf (expf : ℝ → ℝ) : DeletesMissing (EkfOp.on expf (n := n) (m := m) (l := l)) EkfOp.isMissing EKF.core := by
  refine deletes_of_step (fun s i hi => ?_) fun s i hi => ?_
  · cases i with
    | predict u =>
      simp only [EkfOp.on, EKF.predict, EKF.core]
      cases FKF.control s.B u <;> rfl
    | update z HJ hx R res =>
      cases z with
      | none => cases hi
      | some z =>
        simp only [EkfOp.on, EKF.update, EKF.core]
        cases npInv (HJ s.x * (s.P * (HJ s.x)ᵀ) + R.resolve s.R) <;> rfl
    | readLL =>
      simp only [EkfOp.on, EKF.readLogLik_core]; rfl
    | readLik =>
      simp only [EkfOp.on, EKF.readLik_core]; rfl
    | readMahal =>
      simp only [EkfOp.on, EKF.readMahal_core]
      cases s.readMahal <;> rfl
  · cases i with
    | update z HJ hx R res =>
      cases z with
      | none => exact ⟨_, rfl, rfl⟩
      | some z => cases hi
    | _ => cases hi

/-- **C127 (`FadingKalmanFilter`).** Deleting the missing measurements from any history of calls changes nothing but `z` and
the two attributes that mirror the last update. -/
theorem C127_fading (expf : ℝ → ℝ) : DeletesMissing (FkfOp.on expf (n := n) (m := m) (l := l)) FkfOp.isMissing FKF.core := by
  refine deletes_of_step (fun s i hi => ?_) fun s i hi => ?_
  · cases i with
    | predict u =>
      simp only [FkfOp.on, FKF.predict, FKF.core]
      cases FKF.control s.B u <;> rfl
    | update z R =>
      cases z with
      | none => cases hi
      | some z =>
        simp only [FkfOp.on, FKF.update, FKF.core]
        cases npInv (s.H * (s.P * s.Hᵀ) + R.resolve s.R) <;> rfl
    | readLL =>
      simp only [FkfOp.on, FKF.readLogLik_core]; rfl
    | readLik =>
      simp only [FkfOp.on, FKF.readLik_core]; rfl
    | readMahal =>
      simp only [FkfOp.on, FKF.readMahal_core]
      cases s.readMahal <;> rfl
  · cases i with
    | update z R =>
      cases z with
      | none => exact ⟨_, rfl, rfl⟩
      | some z => cases hi
    | _ => cases hi

/-- **C127 (`UnscentedKalmanFilter`).** Deleting the missing measurements from any history of calls changes nothing but `z` and
the two attributes that mirror the last update. -/
theorem C127_ukf (expf : ℝ → ℝ) : DeletesMissing (UkfCall.on expf (m := m) (p := p)) UkfCall.isMissing UKF.core := by
  refine deletes_of_step (fun s i hi => ?_) fun s i hi => ?_
  · cases i with
    | predict dt fx =>
      simp only [UkfCall.on, UKF.predict, UKF.computeProcessSigmas, UKF.core]
      cases p.points s.x s.P with
      | error e => rfl
      | ok sg =>
        simp only [UKF.predictUT]
        cases p.points _ _ <;> rfl
    | update z R hx =>
      cases z with
      | none => cases hi
      | some z =>
        simp only [UkfCall.on, UKF.update, UKF.core]
        cases s.inv _ <;> rfl
    | readLL =>
      simp only [UkfCall.on, UKF.readLogLik_core]; rfl
    | readLik =>
      simp only [UkfCall.on, UKF.readLik_core]; rfl
    | readMahal =>
      simp only [UkfCall.on, UKF.readMahal_core]
      cases s.readMahal <;> rfl
  · cases i with
    | update z R hx =>
      cases z with
      | none => exact ⟨_, rfl, rfl⟩
      | some z => cases hi
    | _ => cases hi

/-- **C127 (`CubatureKalmanFilter`).** Deleting the missing measurements from any history of calls changes nothing but `z` and
the two attributes that mirror the last update. -/
theorem C127_ckf (chol : Mat n n → Except Err (Mat n n)) (expf : ℝ → ℝ) :
    DeletesMissing (CkfCall.on chol expf (m := m)) CkfCall.isMissing CKF.core := by
  refine deletes_of_step (fun s i hi => ?_) fun s i hi => ?_
  · cases i with
    | predict dt =>
      simp only [CkfCall.on, CKF.predict, CKF.core]
      cases sphericalRadialSigmas chol s.x s.P <;> rfl
    | update z R =>
      cases z with
      | none => cases hi
      | some z =>
        simp only [CkfCall.on, CKF.update, CKF.core]
        cases npInv _ with
        | none => rfl
        | some SI =>
          cases z with
          | col z => rfl
          | flat z =>
            by_cases hm : m ≤ 1
            · simp only [if_pos hm]
            · simp only [if_neg hm]; rfl
    | readLL =>
      simp only [CkfCall.on, CKF.readLogLik_core]; rfl
    | readLik =>
      simp only [CkfCall.on, CKF.readLik_core]; rfl
    | readMahal =>
      simp only [CkfCall.on, CKF.readMahal_core]
      cases s.readMahal <;> rfl
  · cases i with
    | update z R =>
      cases z with
      | none => exact ⟨_, rfl, rfl⟩
      | some z => cases hi
    | _ => cases hi

/-- **C127 (`EnsembleKalmanFilter`).** The remaining calls get the same draws. -/
theorem C127_enkf : DeletesMissing (EnkfOp.run (n := n) (m := m) (N := N)) EnkfOp.isMissing EnKF.core := by
  refine deletes_of_step (fun s i hi => ?_) fun s i hi => ?_
  · cases i with
    | predict e =>
      simp only [EnkfOp.run, EnKF.predict, EnKF.core]
      by_cases hN : N = 1
      · simp only [if_pos hN]; rfl
      · simp only [if_neg hN]; rfl
    | update z R e =>
      cases z with
      | none => cases hi
      | some z =>
        simp only [EnkfOp.run, EnKF.update, EnKF.core]
        by_cases hN : N = 1
        · simp only [if_pos hN]; rfl
        simp only [if_neg hN]
        cases s.inv _ <;> rfl
  · cases i with
    | update z R e =>
      cases z with
      | none => exact ⟨_, rfl, rfl⟩
      | some z => cases hi
    | _ => cases hi

/-- **C127 (`SquareRootKalmanFilter`).** Deleting the missing measurements from any history of calls changes nothing but `z` and
the two attributes that mirror the last update. -/
theorem C127_square_root (L : SqrtLib n m) : DeletesMissing (SrCall.on L (l := l)) SrCall.isMissing SRKF.core := by
  refine deletes_of_step (fun s i hi => ?_) fun s i hi => ?_
  · cases i with
    | predict u =>
      simp only [SrCall.on, SRKF.predict, SRKF.core]
      cases FKF.control s.B u <;> rfl
    | update z R =>
      cases z with
      | none => cases hi
      | some z => rfl
  · cases i with
    | update z R =>
      cases z with
      | none => exact ⟨_, rfl, rfl⟩
      | some z => cases hi
    | _ => cases hi

theorem IF.recover_core (s : IF n m l) : s.core.recover = s.recover.core := by
  unfold IF.recover
  rw [show s.core.noInformation = s.noInformation from rfl, show s.core.inv s.core.Pinv = s.inv s.Pinv from rfl]
  by_cases h : s.noInformation = true
  · rw [if_pos h, if_pos h]
    cases s.inv s.Pinv <;> rfl
  · rw [if_neg h, if_neg h]

theorem IF.predictInv_core (s : IF n m l) (F AI : Mat n n) (u : UArg l) :
    Through IF.core (s.predictInv F AI u) = Through IF.core (s.core.predictInv F AI u) := by
  simp only [IF.predictInv, IF.core]
  cases FKF.control s.B u with
  | error e => rfl
  | ok bu =>
    simp only
    cases s.inv _ <;> rfl

theorem IF.predictNoInfo_core (s : IF n m l) (F Fi A : Mat n n) :
    Through IF.core (s.predictNoInfo F Fi A) = Through IF.core (s.core.predictNoInfo F Fi A) := by
  simp only [IF.predictNoInfo, IF.core]
  cases s.inv Fᵀ with
  | none => rfl
  | some T =>
    simp only
    cases s.inv _ <;> rfl

/-- **C127 (`InformationFilter`).** Deleting the missing measurements from any history of calls changes nothing but `z` and
the two attributes that mirror the last update. -/
theorem C127_information (expf : ℝ → ℝ) : DeletesMissing (IfCall.on expf (n := n) (m := m) (l := l)) IfCall.isMissing IF.core := by
  refine deletes_of_step (fun s i hi => ?_) fun s i hi => ?_
  · cases i with
    | predict u =>
      rcases s with ⟨x, Pinv, Q, B, F, Finv, H, Ri, z, K, y, S, ni, cl, ll, lk, inv, xp, pp, xq, pq⟩
      cases F with
      | none => rfl
      | some F =>
        cases Finv with
        | none => rfl
        | some Fi =>
          simp only [IfCall.on, IF.predict]
          rw [show ∀ t : IF n m l, t.core.inv = t.inv from fun _ => rfl, show ∀ t : IF n m l, t.core.F = t.F from fun _ => rfl,
            show ∀ t : IF n m l, t.core.Finv = t.Finv from fun _ => rfl, show ∀ t : IF n m l, t.core.Pinv = t.Pinv from fun _ => rfl]
          simp only
          cases inv (Fiᵀ * Pinv * Fi) with
          | none => exact IF.predictNoInfo_core ⟨x, Pinv, Q, B, some F, some Fi, H, Ri, z, K, y, S, true, cl, ll, lk, inv, xp, pp, xq, pq⟩ F Fi _
          | some AI =>
            simp only
            rw [IF.recover_core]
            exact IF.predictInv_core _ F AI u
    | update z R =>
      cases z with
      | none => cases hi
      | some z =>
        rcases s with ⟨x, Pinv, Q, B, F, Finv, H, Ri, z', K, y, S, ni, cl, ll, lk, inv, xp, pp, xq, pq⟩
        cases ni with
        | true => rfl
        | false =>
          simp only [IfCall.on, IF.update, IF.core, Bool.false_eq_true, if_false]
          cases inv _ with
          | none => rfl
          | some SI =>
            cases cl with
            | false => rfl
            | true =>
              simp only [if_true]
              cases IF.llOf _ _ <;> rfl
  · cases i with
    | update z R =>
      cases z with
      | none => exact ⟨_, rfl, rfl⟩
      | some z => cases hi
    | _ => cases hi

/-- **C127 (`HInfinityFilter`).** Here not even `z` is touched. -/
theorem C127_hinfinity : DeletesMissing (HInfOp.run (n := n) (m := m) (l := l)) HInfOp.isMissing id := by
  refine deletes_of_step (fun s i hi => rfl) fun s i hi => ?_
  cases i with
  | update z =>
    cases z with
    | none => exact ⟨_, rfl, rfl⟩
    | some z => cases hi
  | _ => cases hi

/-! ## A measurement without information -/

/-- **C127 (`InformationFilter`).** A measurement with `R_inv = 0` carries no information, and leaves the filter believing
exactly what `update(None)` leaves it believing. -/
theorem C127_information_uninformative (expf : ℝ → ℝ) (s a b : IF n m l) (z : Vec m) (hi : s.noInformation = false)
    (ha : s.update expf (some z) (.scalar 0) = .ok a) (hb : s.update expf none = .ok b) : a.x = b.x ∧ a.Pinv = b.Pinv := by
  have hx : s.x + (0 : Mat n m) *ᵥ (z - s.H *ᵥ s.x) = s.x := by rw [Matrix.zero_mulVec, add_zero]
  cases hb
  simp only [IF.update, MatArg.resolve, zero_smul, Matrix.mul_zero, Matrix.zero_mul, add_zero, hi, Bool.false_eq_true,
    if_false] at ha
  cases hS : s.inv s.Pinv with
  | none => rw [hS] at ha; cases ha
  | some SI =>
    rw [hS] at ha
    by_cases hc : s.computeLL = true
    · simp only [hc, if_true] at ha
      cases hl : IF.llOf (z - s.H *ᵥ s.x) s.Pinv with
      | error e => rw [hl] at ha; cases ha
      | ok ll => rw [hl] at ha; cases ha; exact ⟨hx, rfl⟩
    · simp only [hc, Bool.false_eq_true, if_false] at ha
      cases ha
      exact ⟨hx, rfl⟩

/-- The calls on an `HInfinityFilter` that bring no measurement. -/
def HInfOp.isBlind : HInfOp m l → Bool
  | .predict _ => true
  | .update z => z.isNone

/-- **C127 (refuted for `HInfinityFilter`).** However long it gets no measurement, an `HInfinityFilter` reports the same
`P`: with missing measurements it never becomes less sure of a state that drifts away. -/
theorem C127_hinfinity_blind_refuted (s s' : HInf n m l) (ops : List (HInfOp m l)) (hb : ∀ op ∈ ops, op.isBlind = true)
    (h : runList HInfOp.run s ops = .ok s') : s'.P = s.P := by
  induction ops generalizing s with
  | nil => cases h; rfl
  | cons op ops ih =>
    have hop := hb op (List.mem_cons_self ..)
    simp only [runList] at h
    cases hs : HInfOp.run s op with
    | error e => rw [hs] at h; cases h
    | ok a =>
      rw [hs] at h
      refine (ih a (fun o ho => hb o (List.mem_cons_of_mem _ ho)) h).trans ?_
      cases op with
      | predict u => obtain ⟨b, -, rfl⟩ := hinf_predict_ok hs; rfl
      | update z =>
        cases z with
        | none => cases hs; rfl
        | some z => cases hop

/-- An `HInfinityFilter` with noise in the state and measurements that carry no information. -/
def blindHInf : HInf 1 1 1 := { HInf.fresh 1 1 1 0 with H := 1, W := 1 }

/-- **C127 (refuted for `HInfinityFilter`).** A measurement that carries no information (`V_inv = 0`) makes the filter less
sure by the noise in the state, as it should; `update(None)` does not. -/
theorem C127_hinfinity_uninformative_refuted : ∃ a b : HInf 1 1 1,
    blindHInf.update (some 0) = .ok a ∧ blindHInf.update none = .ok b ∧ a.P = 2 ∧ b.P = 1 := by
  have e : npInv (1 - blindHInf.gamma • (blindHInf.Q * blindHInf.P) + blindHInf.Hᵀ * blindHInf.VInv * blindHInf.H * blindHInf.P)
      = some 1 := by
    rw [npInv_eq_some]
    simp [blindHInf, HInf.fresh]
  have h : (1 : Mat 1 1) * (1 * 1) * 1ᵀ + 1 = 2 := by simp [one_add_one_eq_two]
  have hP : (1/2 : ℝ) • ((1 : Mat 1 1) * (1 * 1) * 1ᵀ + 1 + ((1 : Mat 1 1) * (1 * 1) * 1ᵀ + 1)ᵀ) = 2 := by
    rw [h]
    ext i j
    fin_cases i; fin_cases j
    norm_num [Matrix.ofNat_apply]
  cases hu : blindHInf.update (some 0) with
  | error e' => simp only [HInf.update, e] at hu; cases hu
  | ok a =>
    refine ⟨a, _, rfl, rfl, ?_, rfl⟩
    simp only [HInf.update, e] at hu
    cases hu
    exact hP

/-- The hypotheses can be met: an `InformationFilter` that knows its state takes a measurement without information. -/
example : ∃ a : IF 1 1 1, (IF.fresh 1 1 1 false).update Real.exp (some 1) (.scalar 0) = .ok a := by
  have e : (IF.fresh 1 1 1 false).inv (1 + (0 : Mat 1 1)ᵀ * (MatArg.scalar 0).resolve 1 * 0) = some 1 := by
    show npInv _ = _
    rw [npInv_eq_some]; simp
  cases hu : (IF.fresh 1 1 1 false).update Real.exp (some 1) (.scalar 0) with
  | ok a => exact ⟨a, rfl⟩
  | error x =>
    simp only [IF.update] at hu
    rw [show (IF.fresh 1 1 1 false).inv ((IF.fresh 1 1 1 false).Pinv + (IF.fresh 1 1 1 false).Hᵀ *
      (MatArg.scalar 0).resolve (IF.fresh 1 1 1 false).Rinv * (IF.fresh 1 1 1 false).H) = some 1 from e] at hu
    cases hu

/-- Nothing but a missing measurement is deleted. -/
example (z : Vec m) : ([.predict (.scalar 0), .update none, .update (some z)] : List (HInfOp m l)).filter
    (fun i => !i.isMissing) = [.predict (.scalar 0), .update (some z)] := rfl

end Filterpy
