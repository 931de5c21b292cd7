import Verif.Lemmas.Sim
import Verif.Model.KalmanOps
import Verif.Model.MMAE
import Verif.Model.IMM
import Verif.Model.HInfinity
import Verif.Model.GH
import Verif.Model.EnKF
import Verif.Model.FixedLag
import Verif.Props.FilterBooks
import Verif.Props.KalmanBayes
import Verif.Props.HInfinity
import Verif.Props.EnKF
import Verif.Props.IMM
import Verif.Props.NonlinearRuns

/-! # C124: what a caught exception leaves behind -/

namespace Filterpy

open Matrix

namespace Spec

/-- One line of a user's program: a method call inside `try: ... except: pass`, or an assignment to attributes. -/
inductive Line (σ ι : Type)
  | call (i : ι)
  | assign (f : σ → σ)

/-- Run a program in which every exception is caught and ignored. -/
def caught {σ ι : Type} (step : σ → ι → Exec σ) : σ → List (Line σ ι) → σ
  | s, [] => s
  | s, .call i :: ls => caught step (step s i).left ls
  | s, .assign f :: ls => caught step (f s) ls

/-- The same program without the calls that raised, and without the calls `skip` (the likelihood properties, which
are not estimation steps). -/
def survivors {σ ι : Type} (skip : ι → Bool) (step : σ → ι → Exec σ) : σ → List (Line σ ι) → List (Line σ ι)
  | _, [] => []
  | s, .call i :: ls =>
    (match step s i with
      | .ok _ => if skip i then [] else [.call i]
      | .error _ => []) ++ survivors skip step (step s i).left ls
  | s, .assign f :: ls => .assign f :: survivors skip step (f s) ls

/-- Run a program in which exceptions are not caught. -/
def run {σ ι : Type} (step : σ → ι → Exec σ) : σ → List (Line σ ι) → Exec σ
  | s, [] => .ok s
  | s, .call i :: ls => match step s i with
    | .ok s' => run step s' ls
    | .error e => .error e
  | s, .assign f :: ls => run step (f s) ls

/-- `view s` is the part of the object that must survive an exception.  Every program whose exceptions are caught ends with
the same view as the program without the calls that raised, and that one raises nothing.  Assignments must not depend on
what the view leaves out.  (A call that "leaves the model", outcomes `shape` and `nonFinite`, is treated like one that
raised; about what such a call really leaves behind nothing is claimed.) -/
def Atomic {σ ι ν : Type} (skip : ι → Bool) (step : σ → ι → Exec σ) (view : σ → ν) : Prop :=
  ∀ (s : σ) (ls : List (Line σ ι)),
    (∀ f, .assign f ∈ ls → ∀ a b, view a = view b → view (f a) = view (f b)) →
    ∃ t, run step s (survivors skip step s ls) = .ok t ∧ view (caught step s ls) = view t

end Spec

open Spec

/-- The three local conditions behind `Atomic`. -/
theorem atomic_of {σ ι ν : Type} {skip : ι → Bool} {step : σ → ι → Exec σ} {view : σ → ν}
    (same : ∀ a b i, skip i = false → view a = view b →
      Agree (fun a b => view a = view b) (step a i) (step b i))
    (fail : ∀ a i e, skip i = false → step a i = .error e → view e.2 = view a)
    (quiet : ∀ a i, skip i = true → view (step a i).left = view a) : Atomic skip step view := by
  have key : ∀ (ls : List (Line σ ι)) (s t : σ), view s = view t →
      (∀ f, .assign f ∈ ls → ∀ a b, view a = view b → view (f a) = view (f b)) →
      ∃ t', run step t (survivors skip step s ls) = .ok t' ∧ view (caught step s ls) = view t' := by
    intro ls
    induction ls with
    | nil => intro s t h _; exact ⟨t, rfl, h⟩
    | cons l ls ih =>
      intro s t h hf
      have hf' : ∀ f, .assign f ∈ ls → ∀ a b, view a = view b → view (f a) = view (f b) :=
        fun f hm => hf f (List.mem_cons_of_mem _ hm)
      cases l with
      | assign f =>
        exact ih (f s) (f t) (hf f (by simp) s t h) hf'
      | call i =>
        simp only [survivors, caught]
        cases hk : skip i with
        | true =>
          have hq := quiet s i hk
          obtain ⟨t', h1, h2⟩ := ih (step s i).left t (hq.trans h) hf'
          refine ⟨t', ?_, h2⟩
          cases hs : step s i <;> rw [hs] at h1 <;> simpa using h1
        | false =>
          have hsame := same s t i hk h
          cases hs : step s i with
          | error e =>
            have he := fail s i e hk hs
            obtain ⟨t', h1, h2⟩ := ih e.2 t (he.trans h) hf'
            exact ⟨t', by simpa [Exec.left] using h1, h2⟩
          | ok s' =>
            rw [hs] at hsame
            obtain ⟨t1, ht1, hv⟩ := hsame.ok_left
            obtain ⟨t', h1, h2⟩ := ih s' t1 hv hf'
            refine ⟨t', ?_, h2⟩
            simp only [Exec.left, Bool.false_eq_true, if_false, List.cons_append, List.nil_append, Spec.run, ht1]
            exact h1
  intro s ls hf
  exact key ls s s rfl hf

variable {n m l : ℕ}

/-- A `KalmanFilter` without its diagnostics: the last residual `y`, its covariance `S`, and the three cached numbers.
Everything else (`x`, `P`, the priors and posteriors, `K`, `SI`, `z`, the model matrices) is kept. -/
def KF.kept (s : KF n m l) : KF n m l := { s with y := 0, S := 0, logLik := none, lik := none, mahal := none }

theorem KF.kept_eq {a b : KF n m l} (h : a.kept = b.kept) :
    b = { a with y := b.y, S := b.S, logLik := b.logLik, lik := b.lik, mahal := b.mahal } := by
  cases a; cases b
  simp only [KF.kept, KF.mk.injEq] at h ⊢
  simp_all

theorem KF.readLogLik_kept (s : KF n m l) : s.readLogLik.2.kept = s.kept := by
  unfold KF.readLogLik; cases s.logLik <;> rfl

theorem KF.readLik_kept (expf : ℝ → ℝ) (s : KF n m l) : (s.readLik expf).2.kept = s.kept := by
  unfold KF.readLik
  cases s.lik with
  | some v => rfl
  | none => exact s.readLogLik_kept

/-- **C124 (KalmanFilter).** Exceptions can be caught: a program that ignores them ends with the same estimate and the same
attributes as if the calls that raised had never been made. -/
theorem C124_kalman (expf : ℝ → ℝ) : Atomic KFOp.isRead (KF.step expf (n := n) (m := m) (l := l)) KF.kept := by
  refine atomic_of ?_ ?_ ?_
  · intro a b i hi h
    have hb := KF.kept_eq h
    generalize b.y = y, b.S = S, b.logLik = u, b.lik = v, b.mahal = w at hb
    subst hb
    cases i with
    | predict u B F Q =>
      simp only [KF.step, KF.predict]
      cases KF.control (B.or a.B) u <;> simp [Agree, KF.kept]
    | update z R H =>
      cases z with
      | none => rfl
      | some z =>
        simp only [KF.step, KF.update]
        cases a.inv (H.getD a.H * (a.P * (H.getD a.H)ᵀ) + R.resolve a.R) <;> simp [Agree, KF.kept]
    | updateSequential start len zi Ri Hi =>
      simp only [KF.step, KF.updateSequential]
      by_cases h : start + len ≤ m
      · rw [dif_pos h, dif_pos h]
        generalize (if hl : len = 1 then _ else _ : Except Err (Mat n len)) = q
        cases q <;> simp [Agree, KF.kept]
      · rw [dif_neg h, dif_neg h]
        simp [Agree, KF.kept]
    | predictSteadystate u B =>
      simp only [KF.step, KF.predictSteadystate]
      cases KF.steadyControl (B.or a.B) u <;> simp [Agree, KF.kept]
    | updateSteadystate z =>
      cases z <;> simp [KF.step, KF.updateSteadystate, KF.updateNone, Agree, KF.kept]
    | updateCorrelated z R H =>
      cases z with
      | none => rfl
      | some z =>
        simp only [KF.step, KF.updateCorrelated]
        cases a.inv (H.getD a.H * (a.P * (H.getD a.H)ᵀ) + H.getD a.H * a.M + a.Mᵀ * (H.getD a.H)ᵀ + R.resolve a.R) <;>
          simp [Agree, KF.kept]
    | readLogLik => simp [KFOp.isRead] at hi
    | readLik => simp [KFOp.isRead] at hi
    | readMahal => simp [KFOp.isRead] at hi
    | setAlpha v =>
      simp only [KF.step, KF.setAlpha]
      by_cases h : v < 1 <;> simp [h, Agree, KF.kept]
  · intro a i e hi he
    cases i with
    | predict u B F Q =>
      simp only [KF.step, KF.predict] at he
      cases hc : KF.control (B.or a.B) u <;> rw [hc] at he <;> cases he
      rfl
    | update z R H =>
      cases z with
      | none => cases he
      | some z =>
        simp only [KF.step, KF.update] at he
        cases hc : a.inv (H.getD a.H * (a.P * (H.getD a.H)ᵀ) + R.resolve a.R) <;> rw [hc] at he <;> cases he
        rfl
    | updateSequential start len zi Ri Hi =>
      simp only [KF.step, KF.updateSequential] at he
      by_cases h : start + len ≤ m
      · rw [dif_pos h] at he
        generalize (if hl : len = 1 then _ else _ : Except Err (Mat n len)) = q at he
        cases q <;> cases he
        rfl
      · rw [dif_neg h] at he
        cases he
        rfl
    | predictSteadystate u B =>
      simp only [KF.step, KF.predictSteadystate] at he
      cases hc : KF.steadyControl (B.or a.B) u <;> rw [hc] at he <;> cases he
      rfl
    | updateSteadystate z => cases he
    | updateCorrelated z R H =>
      cases z with
      | none => cases he
      | some z =>
        simp only [KF.step, KF.updateCorrelated] at he
        cases hc : a.inv (H.getD a.H * (a.P * (H.getD a.H)ᵀ) + H.getD a.H * a.M + a.Mᵀ * (H.getD a.H)ᵀ + R.resolve a.R) <;>
          rw [hc] at he <;> cases he
        rfl
    | readLogLik => simp [KFOp.isRead] at hi
    | readLik => simp [KFOp.isRead] at hi
    | readMahal => simp [KFOp.isRead] at hi
    | setAlpha v =>
      simp only [KF.step, KF.setAlpha] at he
      by_cases h : v < 1
      · rw [if_pos h] at he; cases he; rfl
      · rw [if_neg h] at he; cases he
  · intro a i hi
    cases i <;> simp only [KFOp.isRead, Bool.false_eq_true] at hi
    · exact a.readLogLik_kept
    · exact a.readLik_kept expf
    · simp only [KF.step]
      unfold KF.readMahal
      cases a.mahal with
      | some v => rfl
      | none =>
        by_cases h : a.y ⬝ᵥ (a.SI *ᵥ a.y) < 0
        · simp [h, Exec.left]
        · simp [h, Exec.left, KF.kept]

/-- **C124 (KalmanFilter, retrying).** Whatever call raised, a following `update` with a measurement has exactly the same
outcome, and leaves exactly the same object, as if the failed call had not been made. -/
theorem C124_retry (expf : ℝ → ℝ) (s : KF n m l) (op : KFOp n m l) (e : Err × KF n m l)
    (h : s.step expf op = .error e) (z : Vec m) (R : MatArg m) (H : Option (Mat m n)) :
    e.2.update (some z) R H = s.update (some z) R H := by
  have hk : e.2.kept = s.kept := by
    obtain ⟨t, h1, h2⟩ := C124_kalman expf s [.call op] (by simp)
    simp only [survivors, caught, h, Exec.left, List.append_nil, Spec.run, Except.ok.injEq] at h1 h2
    rw [h2, ← h1]
  have hb := KF.kept_eq hk.symm
  rw [hb]
  rfl

/-- A program that retries: the first measurement is refused (no uncertainty, no noise), the noise is corrected, the
measurement is offered again.  `C124_kalman` applies to it. -/
example : (∀ f, Line.assign f ∈ ([.call (.update (some 1) .none none), .assign fun s => { s with R := 1 },
        .call (.update (some 1) .none none)] : List (Line (KF 1 1 0) (KFOp 1 1 0))) →
      ∀ a b : KF 1 1 0, a.kept = b.kept → (f a).kept = (f b).kept) ∧
    ∃ e, ({ KF.fresh 1 1 0 with H := 1, P := 0, R := 0 } : KF 1 1 0).step Real.exp (.update (some 1) .none none) = .error e := by
  constructor
  · intro f hf a b h
    simp only [List.mem_cons, reduceCtorEq, List.not_mem_nil, or_false, false_or, Line.assign.injEq] at hf
    subst hf
    rw [KF.kept_eq h]
    rfl
  · have h0 : npInv (0 : Mat 1 1) = none := npInv_eq_none.2 (by simp)
    simp only [KF.step, KF.update, Option.getD_none, MatArg.resolve, KF.fresh, Matrix.mul_zero, Matrix.zero_mul, add_zero, h0]
    exact ⟨_, rfl⟩

/-! ## `ExtendedKalmanFilter`, `FadingKalmanFilter`, `CubatureKalmanFilter` -/

/-- An `ExtendedKalmanFilter` without `S` and the cached numbers. -/
def EKF.kept (s : EKF n m l) : EKF n m l := { s with S := 0, logLik := none, lik := none, mahal := none }

/-- The three likelihood properties. -/
def EkfOp.isProp : EkfOp n m l → Bool
  | .predict _ => false
  | .update .. => false
  | _ => true

theorem EKF.kept_eq {a b : EKF n m l} (h : a.kept = b.kept) :
    b = { a with S := b.S, logLik := b.logLik, lik := b.lik, mahal := b.mahal } := by
  cases a; cases b
  simp only [EKF.kept, EKF.mk.injEq] at h ⊢
  simp_all

/-- **C124 (ExtendedKalmanFilter).** -/
theorem C124_ekf (expf : ℝ → ℝ) : Atomic EkfOp.isProp (EkfOp.on expf (n := n) (m := m) (l := l)) EKF.kept := by
  refine atomic_of ?_ ?_ ?_
  · intro a b i hi h
    have hb := EKF.kept_eq h
    generalize b.S = S, b.logLik = u, b.lik = v, b.mahal = w at hb
    subst hb
    cases i with
    | predict u =>
      simp only [EkfOp.on, EKF.predict]
      cases FKF.control a.B u <;> simp [Agree, EKF.kept]
    | update z HJ hx R res =>
      cases z with
      | none => rfl
      | some z =>
        simp only [EkfOp.on, EKF.update]
        cases npInv (HJ a.x * (a.P * (HJ a.x)ᵀ) + R.resolve a.R) <;> simp [Agree, EKF.kept]
    | readLL => simp [EkfOp.isProp] at hi
    | readLik => simp [EkfOp.isProp] at hi
    | readMahal => simp [EkfOp.isProp] at hi
  · intro a i e hi he
    cases i with
    | predict u =>
      simp only [EkfOp.on, EKF.predict] at he
      cases hc : FKF.control a.B u <;> rw [hc] at he <;> cases he
      rfl
    | update z HJ hx R res =>
      cases z with
      | none => cases he
      | some z =>
        simp only [EkfOp.on, EKF.update] at he
        cases hc : npInv (HJ a.x * (a.P * (HJ a.x)ᵀ) + R.resolve a.R) <;> rw [hc] at he <;> cases he
        rfl
    | readLL => simp [EkfOp.isProp] at hi
    | readLik => simp [EkfOp.isProp] at hi
    | readMahal => simp [EkfOp.isProp] at hi
  · intro a i hi
    cases i <;> simp only [EkfOp.isProp, Bool.false_eq_true] at hi
    · simp only [EkfOp.on, EKF.readLogLik]
      cases a.logLik <;> rfl
    · cases h1 : a.lik <;> cases h2 : a.logLik <;>
        simp [EkfOp.on, EKF.readLik, EKF.readLogLik, h1, h2, EKF.kept, Exec.left]
    · simp only [EkfOp.on, EKF.readMahal]
      cases a.mahal with
      | some v => rfl
      | none =>
        by_cases h : a.y ⬝ᵥ (a.SI *ᵥ a.y) < 0
        · simp [h, Exec.left]
        · simp [h, Exec.left, EKF.kept]

/-- **C124 (predict_update).** An `ExtendedKalmanFilter.predict_update` that raises has changed neither the estimate nor the
posterior, but has overwritten `x_prior` and `P_prior` with the current estimate (unless it failed on `u`). -/
theorem C124_ekf_predict_update (s : EKF n m l) (z : Option (Vec m)) (HJ : Vec n → Mat m n) (hx : Vec n → Vec m)
    (u : UArg l) (e : Err × EKF n m l) (h : s.predictUpdate z HJ hx u = .error e) :
    e.2 = { s with S := e.2.S, SI := e.2.SI, K := e.2.K, xPrior := e.2.xPrior, PPrior := e.2.PPrior } ∧
      ((e.2.xPrior, e.2.PPrior) = (s.xPrior, s.PPrior) ∨ (e.2.xPrior, e.2.PPrior) = (s.x, s.P)) := by
  simp only [EKF.predictUpdate] at h
  cases hc : FKF.control s.B u with
  | error e' => rw [hc] at h; cases h; exact ⟨rfl, .inl rfl⟩
  | ok b =>
    rw [hc] at h
    simp only [] at h
    cases hi : npInv (HJ s.x * ((s.F * s.P * s.Fᵀ + s.Q) * (HJ s.x)ᵀ) + s.R) with
    | none => rw [hi] at h; cases h; exact ⟨rfl, .inr rfl⟩
    | some SI =>
      rw [hi] at h
      cases z with
      | none => cases h; exact ⟨rfl, .inr rfl⟩
      | some z => cases h

/-- A `FadingKalmanFilter` without its diagnostics. -/
def FKF.kept (s : FKF n m l) : FKF n m l := { s with y := 0, S := 0, logLik := none, lik := none, mahal := none }

/-- The three likelihood properties. -/
def FkfOp.isProp : FkfOp n m l → Bool
  | .predict _ => false
  | .update .. => false
  | _ => true

theorem FKF.kept_eq {a b : FKF n m l} (h : a.kept = b.kept) :
    b = { a with y := b.y, S := b.S, logLik := b.logLik, lik := b.lik, mahal := b.mahal } := by
  cases a; cases b
  simp only [FKF.kept, FKF.mk.injEq] at h ⊢
  simp_all

/-- **C124 (FadingKalmanFilter).** -/
theorem C124_fading (expf : ℝ → ℝ) : Atomic FkfOp.isProp (FkfOp.on expf (n := n) (m := m) (l := l)) FKF.kept := by
  refine atomic_of ?_ ?_ ?_
  · intro a b i hi h
    have hb := FKF.kept_eq h
    generalize b.y = y, b.S = S, b.logLik = u, b.lik = v, b.mahal = w at hb
    subst hb
    cases i with
    | predict u =>
      simp only [FkfOp.on, FKF.predict]
      cases FKF.control a.B u <;> simp [Agree, FKF.kept]
    | update z R =>
      cases z with
      | none => rfl
      | some z =>
        simp only [FkfOp.on, FKF.update]
        cases npInv (a.H * (a.P * a.Hᵀ) + R.resolve a.R) <;> simp [Agree, FKF.kept]
    | readLL => simp [FkfOp.isProp] at hi
    | readLik => simp [FkfOp.isProp] at hi
    | readMahal => simp [FkfOp.isProp] at hi
  · intro a i e hi he
    cases i with
    | predict u =>
      simp only [FkfOp.on, FKF.predict] at he
      cases hc : FKF.control a.B u <;> rw [hc] at he <;> cases he
      rfl
    | update z R =>
      cases z with
      | none => cases he
      | some z =>
        simp only [FkfOp.on, FKF.update] at he
        cases hc : npInv (a.H * (a.P * a.Hᵀ) + R.resolve a.R) <;> rw [hc] at he <;> cases he
        rfl
    | readLL => simp [FkfOp.isProp] at hi
    | readLik => simp [FkfOp.isProp] at hi
    | readMahal => simp [FkfOp.isProp] at hi
  · intro a i hi
    cases i <;> simp only [FkfOp.isProp, Bool.false_eq_true] at hi
    · simp only [FkfOp.on, FKF.readLogLik]
      cases a.logLik <;> rfl
    · cases h1 : a.lik <;> cases h2 : a.logLik <;>
        simp [FkfOp.on, FKF.readLik, FKF.readLogLik, h1, h2, FKF.kept, Exec.left]
    · simp only [FkfOp.on, FKF.readMahal]
      cases a.mahal with
      | some v => rfl
      | none =>
        by_cases h : a.y ⬝ᵥ (a.SI *ᵥ a.y) < 0
        · simp [h, Exec.left]
        · simp [h, Exec.left, FKF.kept]

/-- A `CubatureKalmanFilter` without the last update's intermediate results. -/
def CKF.kept (s : CKF n m) : CKF n m :=
  { s with sigmasH := 0, S := 0, SI := 0, K := 0, logLik := none, lik := none, mahal := none }

/-- The three likelihood properties. -/
def CkfCall.isProp : CkfCall n m → Bool
  | .predict _ => false
  | .update .. => false
  | _ => true

theorem CKF.kept_eq {a b : CKF n m} (h : a.kept = b.kept) :
    b = { a with sigmasH := b.sigmasH, S := b.S, SI := b.SI, K := b.K, logLik := b.logLik, lik := b.lik,
                 mahal := b.mahal } := by
  cases a; cases b
  simp only [CKF.kept, CKF.mk.injEq] at h ⊢
  simp_all

/-- **C124 (CubatureKalmanFilter).** -/
theorem C124_ckf (chol : Mat n n → Except Err (Mat n n)) (expf : ℝ → ℝ) :
    Atomic CkfCall.isProp (CkfCall.on chol expf (n := n) (m := m)) CKF.kept := by
  refine atomic_of ?_ ?_ ?_
  · intro a b i hi h
    have hb := CKF.kept_eq h
    generalize b.sigmasH = g, b.S = S, b.SI = SI, b.K = K, b.logLik = u, b.lik = v, b.mahal = w at hb
    subst hb
    cases i with
    | predict dt =>
      simp only [CkfCall.on, CKF.predict]
      cases sphericalRadialSigmas chol a.x a.P <;> simp [Agree, CKF.kept]
    | update z R =>
      cases z with
      | none => rfl
      | some z =>
        simp only [CkfCall.on, CKF.update]
        generalize npInv (ckfTransform (rows fun k => a.hx (a.sigmasF k)) (R.resolve a.R)).2 = q
        cases q with
        | none => simp [Agree, CKF.kept]
        | some SI =>
          cases z with
          | col z => simp [Agree, CKF.kept]
          | flat z => by_cases h : m ≤ 1 <;> simp [h, Agree, CKF.kept]
    | readLL => simp [CkfCall.isProp] at hi
    | readLik => simp [CkfCall.isProp] at hi
    | readMahal => simp [CkfCall.isProp] at hi
  · intro a i e hi he
    cases i with
    | predict dt =>
      simp only [CkfCall.on, CKF.predict] at he
      cases hc : sphericalRadialSigmas chol a.x a.P <;> rw [hc] at he <;> cases he
      rfl
    | update z R =>
      cases z with
      | none => cases he
      | some z =>
        simp only [CkfCall.on, CKF.update] at he
        generalize npInv (ckfTransform (rows fun k => a.hx (a.sigmasF k)) (R.resolve a.R)).2 = q at he
        cases q with
        | none => cases he; rfl
        | some SI =>
          cases z with
          | col z => cases he
          | flat z =>
            by_cases h : m ≤ 1
            · simp only [h, if_true] at he; cases he
            · simp only [h, if_false] at he; cases he; rfl
    | readLL => simp [CkfCall.isProp] at hi
    | readLik => simp [CkfCall.isProp] at hi
    | readMahal => simp [CkfCall.isProp] at hi
  · intro a i hi
    cases i <;> simp only [CkfCall.isProp, Bool.false_eq_true] at hi
    · simp only [CkfCall.on, CKF.readLogLik]
      cases a.logLik <;> rfl
    · cases h1 : a.lik <;> cases h2 : a.logLik <;>
        simp [CkfCall.on, CKF.readLik, CKF.readLogLik, h1, h2, CKF.kept, Exec.left]
    · simp only [CkfCall.on, CKF.readMahal]
      cases a.mahal with
      | some v => rfl
      | none =>
        cases hy : a.yArray
        · simp [Exec.left]
        · by_cases h : a.y ⬝ᵥ (a.SI *ᵥ a.y) < 0
          · simp [h, Exec.left]
          · simp [h, Exec.left, CKF.kept, hy]

/-! ## Filters whose failing calls leave nothing behind -/

/-- Calls of a `SquareRootKalmanFilter`, including the property setters. -/
inductive SrTry (n m l : ℕ)
  | predict (u : UArg l)
  | update (z : Option (Vec m)) (R2 : MatArg m)
  | setP (P : Mat n n)
  | setQ (Q : Mat n n)
  | setR (R : Mat m m)

/-- What they do. -/
noncomputable def SrTry.on (L : SqrtLib n m) (s : SRKF n m l) : SrTry n m l → Exec (SRKF n m l)
  | .predict u => s.predict L u
  | .update z R2 => .ok (s.update L z R2)
  | .setP P => s.setP L P
  | .setQ Q => s.setQ L Q
  | .setR R => s.setR L R

/-- If a failing call leaves the object untouched, everything is kept. -/
theorem atomic_id {σ ι : Type} {step : σ → ι → Exec σ} (h : ∀ a i e, step a i = .error e → e.2 = a) :
    Atomic (fun _ => false) step id := by
  refine atomic_of ?_ (fun a i e _ he => h a i e he) (fun a i hi => by cases hi)
  rintro a b i - rfl
  simp only [id]
  generalize step a i = r
  cases r <;> simp [Agree]

/-- **C124 (SquareRootKalmanFilter).** Nothing at all changes when a call raises. -/
theorem C124_square_root (L : SqrtLib n m) : Atomic (fun _ => false) (SrTry.on (l := l) L) id := by
  refine atomic_id fun a i e he => ?_
  cases i with
  | predict u =>
    simp only [SrTry.on, SRKF.predict] at he
    cases hc : FKF.control a.B u <;> rw [hc] at he <;> cases he
    rfl
  | update z R2 => cases he
  | setP P =>
    simp only [SrTry.on, SRKF.setP] at he
    cases hc : L.cholX P <;> rw [hc] at he <;> cases he
    rfl
  | setQ P =>
    simp only [SrTry.on, SRKF.setQ] at he
    cases hc : L.cholX P <;> rw [hc] at he <;> cases he
    rfl
  | setR P =>
    simp only [SrTry.on, SRKF.setR] at he
    cases hc : L.cholZ P <;> rw [hc] at he <;> cases he
    rfl

/-- **C124 (HInfinityFilter).** Nothing at all changes when `predict` or `update` raises. -/
theorem C124_hinfinity : Atomic (fun _ => false) (HInfOp.run (n := n) (m := m) (l := l)) id := by
  refine atomic_id fun a i e he => ?_
  cases i with
  | predict u =>
    simp only [HInfOp.run, HInf.predict] at he
    cases hc : HInf.control a.B u <;> rw [hc] at he <;> cases he
    rfl
  | update z =>
    cases z with
    | none => cases he
    | some z =>
      simp only [HInfOp.run, HInf.update] at he
      cases hc : npInv (1 - a.gamma • (a.Q * a.P) + a.Hᵀ * a.VInv * a.H * a.P) <;> rw [hc] at he <;> cases he
      rfl

/-- An `EnsembleKalmanFilter` without `S`. -/
def EnKF.kept {N : ℕ} (s : EnKF n m N) : EnKF n m N := { s with S := 0 }

theorem EnKF.kept_eq {N : ℕ} {a b : EnKF n m N} (h : a.kept = b.kept) : b = { a with S := b.S } := by
  cases a; cases b
  simp only [EnKF.kept, EnKF.mk.injEq] at h ⊢
  simp_all

/-- **C124 (EnsembleKalmanFilter).** With two or more members. -/
theorem C124_enkf {N : ℕ} (hN : N ≠ 1) : Atomic (fun _ => false) (EnkfOp.run (n := n) (m := m) (N := N)) EnKF.kept := by
  refine atomic_of ?_ ?_ (fun a i hi => by cases hi)
  · intro a b i _ h
    have hb := EnKF.kept_eq h
    generalize b.S = S at hb
    subst hb
    cases i with
    | predict e => simp [EnkfOp.run, EnKF.predict, hN, Agree, EnKF.kept]
    | update z R e =>
      cases z with
      | none => rfl
      | some z =>
        simp only [EnkfOp.run, EnKF.update, hN, if_false]
        generalize EnKF.inv _ _ = q
        cases q <;> simp [Agree, EnKF.kept]
  · intro a i e _ he
    cases i with
    | predict e => simp [EnkfOp.run, EnKF.predict, hN] at he
    | update z R e =>
      cases z with
      | none => cases he
      | some z =>
        simp only [EnkfOp.run, EnKF.update, hN, if_false] at he
        generalize EnKF.inv _ _ = q at he
        cases q <;> cases he
        rfl

/-! ## g-h and g-h-k filters, the fixed-lag smoother -/

section gh
variable {E : Type} [AddCommGroup E] [Module ℝ E]

/-- A `GHFilter` without the last prediction and residual. -/
def GH.kept (s : GH E) : GH E := { s with dxPred := 0, xPred := 0, y := 0 }

/-- A `GHKFilter` without the last prediction and residual. -/
def GHK.kept (s : GHK E) : GHK E := { s with ddxPred := 0, dxPred := 0, xPred := 0, y := 0 }

/-- **C124 (GHFilter).** -/
theorem C124_gh : Atomic (fun _ => false)
    (fun (s : GH E) (a : E × Option ℝ × Option ℝ) => s.update a.1 a.2.1 a.2.2) GH.kept := by
  refine atomic_of ?_ ?_ (fun a i hi => by cases hi)
  · intro a b i _ h
    cases a; cases b
    simp only [GH.kept, GH.mk.injEq] at h
    obtain ⟨rfl, rfl, rfl, rfl, rfl, -, -, -, rfl⟩ := h
    simp only [GH.update]
    split_ifs <;> simp [Agree, GH.kept]
  · intro a i e _ he
    simp only [GH.update] at he
    split_ifs at he
    cases he
    rfl

/-- **C124 (GHKFilter).** -/
theorem C124_ghk : Atomic (fun _ => false)
    (fun (s : GHK E) (a : E × Option ℝ × Option ℝ × Option ℝ) => s.update a.1 a.2.1 a.2.2.1 a.2.2.2) GHK.kept := by
  refine atomic_of ?_ ?_ (fun a i hi => by cases hi)
  · intro a b i _ h
    cases a; cases b
    simp only [GHK.kept, GHK.mk.injEq] at h
    simp only [GHK.update]
    obtain ⟨rfl, rfl, rfl, -, -, -, rfl, rfl, rfl, rfl, -, rfl⟩ := h
    split_ifs <;> simp [Agree, GHK.kept]
  · intro a i e _ he
    simp only [GHK.update] at he
    split_ifs at he
    cases he
    rfl

end gh

/-- **C124 (FixedLagSmoother).** A `smooth` that raises has changed nothing but `y` and `S`, if the smoother was made with
a lag (or has no list of smoothed states). -/
theorem C124_fixed_lag (s : FLS n m l) (zu : Vec m × UArg l) (hN : s.xSmooth.isSome → s.N.isSome)
    (e : Err × FLS n m l) (h : s.smooth zu = .error e) : e.2 = { s with y := e.2.y, S := e.2.S } := by
  simp only [FLS.smooth] at h
  cases hc : FLS.control s.B zu.2 with
  | error e' => rw [hc] at h; cases h; rfl
  | ok b =>
    rw [hc] at h
    simp only [] at h
    generalize npInv _ = q at h
    cases q with
    | none => cases h; rfl
    | some SI =>
      cases hx : s.xSmooth with
      | none => rw [hx] at h; cases h; simp
      | some xs =>
        rw [hx] at h hN
        cases hn : s.N with
        | none => rw [hn] at hN; simp at hN
        | some N => rw [hn] at h; cases h

/-! ## `UnscentedKalmanFilter` -/

section ukf
variable {p : SigmaPts n}

/-- **C124 (UnscentedKalmanFilter.update).** An `update` that raises has changed nothing but `sigmas_h` and `S`. -/
theorem C124_ukf_update (s : UKF n m p) (z : Option (Vec m)) (R : MatArg m) (hx : Option (Vec n → Vec m))
    (e : Err × UKF n m p) (h : s.update z R hx = .error e) :
    e.2 = { s with sigmasH := e.2.sigmasH, S := e.2.S } := by
  cases z with
  | none => cases h
  | some z =>
    simp only [UKF.update] at h
    generalize UKF.inv _ _ = q at h
    cases q <;> cases h
    rfl

/-- **C124 (UnscentedKalmanFilter.predict).** If no sigma points can be drawn around the current estimate, nothing has
changed.  If they cannot be redrawn around the *predicted* estimate, the exception comes after the prediction has been
stored: `x` and `P` are the predicted ones, while `x_prior` and `P_prior` are still those of the step before. -/
theorem C124_ukf_predict (s : UKF n m p) (dt : Option ℝ) (fx : Option (Vec n → ℝ → Vec n))
    (e : Err × UKF n m p) (h : s.predict dt fx = .error e) :
    (p.points s.x s.P = .error e.1 ∧ e.2 = s) ∨
    ∃ pts, p.points s.x s.P = .ok pts ∧
      (e.2.x, e.2.P) = unscentedTransform (UKF.pushRows (fun v => fx.getD s.fx v (dt.getD s.dt)) pts) p.Wm p.Wc (some s.Q)
        s.xMean s.residualX ∧
      p.points e.2.x e.2.P = .error e.1 ∧ e.2 = { s with sigmasF := e.2.sigmasF, x := e.2.x, P := e.2.P } := by
  simp only [UKF.predict, UKF.computeProcessSigmas] at h
  cases hp : p.points s.x s.P with
  | error e' => rw [hp] at h; cases h; exact .inl ⟨rfl, rfl⟩
  | ok pts =>
    rw [hp] at h
    simp only [UKF.predictUT] at h
    refine .inr ⟨pts, rfl, ?_⟩
    set xP := unscentedTransform (UKF.pushRows (fun v => fx.getD s.fx v (dt.getD s.dt)) pts) p.Wm p.Wc (some s.Q)
        s.xMean s.residualX with hxP
    cases hq : p.points xP.1 xP.2 with
    | error e' => rw [hq] at h; cases h; exact ⟨rfl, hq, rfl⟩
    | ok _ => rw [hq] at h; cases h

/-- **C124 refuted for `UnscentedKalmanFilter.predict`.** For Merwe's, Julier's and the simplex points: without process
noise, a process function that sends everything to `c` makes `predict` raise, and `x` has become `c` all the same (while
`x_prior` has not). -/
theorem C124_ukf_predict_refuted (hn : 0 < n) (hp : Encodes p) (hd : DrawsOnlyPD p) (u : UKF n m p) (hm : u.xMean = none)
    (hx : u.residualX = none) (hP : u.P.PosDef) (hQ : u.Q = 0) (c : Vec n) :
    ∃ u', u.predict none (some fun _ _ => c) = .error (.linAlgError, u') ∧ u'.x = c ∧ u'.xPrior = u.xPrior := by
  obtain ⟨pts, hpts, -, -⟩ := hp.pts u.x u.P hP
  have hut : unscentedTransform (UKF.pushRows (fun _ => c) pts) p.Wm p.Wc (some u.Q) u.xMean u.residualX = (c, 0) := by
    rw [hm, hx, ut_default]
    have h1 : ∑ i, p.Wm i • c = c := by rw [← Finset.sum_smul, hp.sum, one_smul]
    simp [UKF.pushRows, h1, hQ]
  have h0 : p.points c 0 = .error .linAlgError := hd c 0 fun h => by
    have : Nonempty (Fin n) := ⟨⟨0, hn⟩⟩
    have h1 := h.det_pos
    rw [det_zero] at h1
    exact lt_irrefl _ h1
  simp only [UKF.predict, UKF.computeProcessSigmas, hpts, UKF.predictUT, Option.getD_some, hut, h0]
  exact ⟨_, rfl, rfl, rfl⟩

/-- Such points and such a filter exist. -/
example (hx : Vec 2 → Vec 1) : ∃ (p : SigmaPts 2) (u u' : UKF 2 1 p), u.x = 0 ∧
    u.predict none (some fun _ _ => 1) = .error (.linAlgError, u') ∧ u'.x = 1 := by
  obtain ⟨sqrt, hs, hr⟩ : ∃ sqrt : Mat 2 2 → Except Err (Mat 2 2), IsCholUpper sqrt ∧ RefusesOthers sqrt := by
    classical
    refine ⟨fun A => if h : A.PosDef then .ok (chol_exists h.posSemidef).choose ᵀ else .error .linAlgError,
      fun A hA => ⟨_, dif_pos hA, ?_⟩, fun A hA => dif_neg hA⟩
    rw [transpose_transpose]
    exact (chol_exists hA.posSemidef).choose_spec.1
  have hpos : (0 : ℝ) < 0.001 ^ 2 * ((2 : ℕ) + 0) := by norm_num
  obtain ⟨p, hp, hnum, he⟩ := encodes_merwe (n := 2) 0.001 2 0 hpos sqrt hs
  have hV := ((C118_strict (n := 2) (by norm_num) sqrt hr).1 0.001 2 0 p hpos hp (by norm_num)).2
  obtain ⟨u', h1, h2, -⟩ := C124_ukf_predict_refuted (m := 1) (by norm_num) he hV
    { UKF.fresh 1 p 1 hx (fun v _ => v) with Q := 0 } rfl rfl Matrix.PosDef.one rfl 1
  exact ⟨p, _, u', rfl, h1, h2⟩

end ukf

/-! ## `InformationFilter` -/

/-- **C124 (InformationFilter.update).** If the log-likelihood is not computed, or the measurement has one entry or as many
as the state, an `update` that raises has changed nothing but `y` and `S`. -/
theorem C124_information_update (expf : ℝ → ℝ) (s : IF n m l) (hd : s.computeLL = false ∨ m = n ∨ m = 1)
    (z : Option (Vec m)) (Rinv : MatArg m) (e : Err × IF n m l) (h : s.update expf z Rinv = .error e) :
    e.2 = { s with y := e.2.y, S := e.2.S } := by
  cases z with
  | none => cases h
  | some z =>
    simp only [IF.update] at h
    cases hn : s.noInformation with
    | true => rw [hn] at h; cases h
    | false =>
      rw [hn] at h
      simp only [Bool.false_eq_true, if_false] at h
      generalize IF.inv _ _ = q at h
      cases q with
      | none => cases h; simp
      | some SI =>
        exfalso
        simp only [] at h
        cases hc : s.computeLL with
        | false => rw [hc] at h; cases h
        | true =>
          rw [hc] at h
          simp only [if_true, IF.llOf] at h
          rcases hd with hd | hd | hd
          · rw [hc] at hd; cases hd
          · rw [dif_pos hd] at h; cases h
          · by_cases hmn : m = n
            · rw [dif_pos hmn] at h; cases h
            · rw [dif_neg hmn, dif_pos hd] at h; cases h

/-- **C124 refuted for `InformationFilter.update`.** In the other dimensions (say a four-dimensional state seen through
two measurements) *every* successful computation of the new estimate is followed by an exception from the likelihood:
the measurement has been applied although the call raised, and each retry applies it again. -/
theorem C124_information_update_refuted (expf : ℝ → ℝ) (s : IF n m l) (hc : s.computeLL = true) (hmn : m ≠ n) (hm : m ≠ 1)
    (hn : s.noInformation = false) (z : Vec m) (SI : Mat n n) (hi : s.inv (s.Pinv + s.Hᵀ * s.Rinv * s.H) = some SI) :
    ∃ e, s.update expf (some z) = .error e ∧ e.2.Pinv = s.Pinv + s.Hᵀ * s.Rinv * s.H ∧
      e.2.x = s.x + (SI * s.Hᵀ * s.Rinv) *ᵥ (z - s.H *ᵥ s.x) ∧ (e.2.xPost, e.2.PinvPost) = (s.xPost, s.PinvPost) ∧
      ∀ SI', s.inv (s.Pinv + s.Hᵀ * s.Rinv * s.H + s.Hᵀ * s.Rinv * s.H) = some SI' →
        ∃ e', e.2.update expf (some z) = .error e' ∧
          e'.2.Pinv = s.Pinv + s.Hᵀ * s.Rinv * s.H + s.Hᵀ * s.Rinv * s.H := by
  have key : ∀ (t : IF n m l) (SI : Mat n n), t.computeLL = true → t.noInformation = false →
      t.inv (t.Pinv + t.Hᵀ * t.Rinv * t.H) = some SI →
      t.update expf (some z) = .error (if n = 1 then .typeError else .valueError,
        { t with y := z - t.H *ᵥ t.x, S := t.Pinv + t.Hᵀ * t.Rinv * t.H, K := SI * t.Hᵀ * t.Rinv,
                 x := t.x + (SI * t.Hᵀ * t.Rinv) *ᵥ (z - t.H *ᵥ t.x), Pinv := t.Pinv + t.Hᵀ * t.Rinv * t.H,
                 z := some z }) := by
    intro t SI hc hn hi
    simp only [IF.update, MatArg.resolve, hn, Bool.false_eq_true, if_false, hi, hc, if_true, IF.llOf, dif_neg hmn, dif_neg hm]
    by_cases h1 : n = 1 <;> simp [h1]
  refine ⟨_, key s SI hc hn hi, rfl, rfl, rfl, fun SI' hi' => ⟨_, key _ SI' ?_ ?_ ?_, rfl⟩⟩
  · exact hc
  · exact hn
  · exact hi'

/-- **C124 refuted for the `F` setter of `InformationFilter`.** Assigning a matrix that cannot be inverted raises, but the
attribute has changed: the filter goes on with the refused `F` and the inverse of the previous one. -/
theorem C124_information_setF_refuted (s : IF n m l) (F : Mat n n) (h : s.inv F = none) :
    ∃ e, s.setF F = .error e ∧ e.2.F = some F ∧ e.2.Finv = s.Finv := by
  exact ⟨_, by simp only [IF.setF, h]; rfl, rfl, rfl⟩

/-- **C124 refuted for the `V` setter of `HInfinityFilter`.** As above: `V` reads back the refused matrix while the filter
goes on with the inverse of the previous one. -/
theorem C124_hinfinity_setV_refuted (s : HInf n m l) (A : Mat m m) (h : A.det = 0) :
    ∃ e, s.setV (.mat A) = .error e ∧ e.2.V = A ∧ e.2.VInv = s.VInv := by
  have : npInv A = none := if_pos h
  exact ⟨_, by simp only [HInf.setV, this]; rfl, rfl, rfl⟩

/-! ## Banks -/

theorem bankRun_error {σ : Type} {N : ℕ} (g : Fin N → σ → Exec σ) (e : Err × (Fin N → σ)) :
    ∀ (ks : List (Fin N)) (fs : Fin N → σ), ks.Nodup → runList (bankStep g) fs ks = .error e →
      ∃ l1 k l2, ks = l1 ++ k :: l2 ∧ (∀ j ∈ l1, g j (fs j) = .ok (e.2 j)) ∧ g k (fs k) = .error (e.1, e.2 k) ∧
        ∀ j, j ∉ l1 → j ≠ k → e.2 j = fs j := by
  intro ks
  induction ks with
  | nil => intro fs _ h; cases h
  | cons k ks ih =>
    intro fs hd h
    have hk : k ∉ ks := (List.nodup_cons.1 hd).1
    simp only [runList, bankStep] at h
    cases hg : g k (fs k) with
    | error e' =>
      rw [hg] at h
      cases h
      refine ⟨[], k, ks, rfl, by simp, by simpa using hg, fun j _ hj => Function.update_of_ne hj _ _⟩
    | ok f =>
      rw [hg] at h
      obtain ⟨l1, k', l2, rfl, h1, h2, h3⟩ := ih _ (List.nodup_cons.1 hd).2 h
      have hkl : k ∉ l1 := fun hm => hk (by simp [hm])
      have hkk : k ≠ k' := fun hm => hk (by simp [hm])
      refine ⟨k :: l1, k', l2, rfl, ?_, ?_, ?_⟩
      · intro j hj
        rcases List.mem_cons.1 hj with rfl | hj
        · rw [h3 j hkl hkk, Function.update_self]; exact hg
        · have hjk : j ≠ k := fun hm => hkl (hm ▸ hj)
          have := h1 j hj
          rwa [Function.update_of_ne hjk] at this
      · rwa [Function.update_of_ne hkk.symm] at h2
      · intro j hj hjk
        rw [h3 j (fun hm => hj (by simp [hm])) hjk, Function.update_of_ne (fun hm => hj (by simp [hm]))]

/-- What a method called on every filter in turn leaves behind when one of them raises: there is a first filter `k` that
raised; the ones before it have made their step, it is as its own exception left it, the ones after it are untouched. -/
theorem bankMap_error {σ : Type} {N : ℕ} {g : Fin N → σ → Exec σ} {fs : Fin N → σ} {e : Err × (Fin N → σ)}
    (h : bankMap g fs = .error e) :
    ∃ k, (∀ j < k, g j (fs j) = .ok (e.2 j)) ∧ g k (fs k) = .error (e.1, e.2 k) ∧ ∀ j > k, e.2 j = fs j := by
  obtain ⟨l1, k, l2, hl, h1, h2, h3⟩ := bankRun_error g e _ fs (List.nodup_finRange N) h
  have hs : (l1 ++ k :: l2).Pairwise (· < ·) := hl ▸ List.pairwise_lt_finRange N
  have hmem : ∀ j : Fin N, j ∈ l1 ++ k :: l2 := fun j => hl ▸ List.mem_finRange j
  rw [List.pairwise_append] at hs
  obtain ⟨-, hs2, hs3⟩ := hs
  rw [List.pairwise_cons] at hs2
  refine ⟨k, fun j hj => h1 j ?_, h2, fun j hj => h3 j (fun hm => ?_) hj.ne'⟩
  · rcases List.mem_append.1 (hmem j) with hm | hm
    · exact hm
    · rcases List.mem_cons.1 hm with rfl | hm
      · exact absurd hj (lt_irrefl _)
      · exact absurd (hj.trans (hs2.1 j hm)) (lt_irrefl _)
  · exact absurd (hj.trans (hs3 j hm k (by simp))) (lt_irrefl _)

/-- **C124 (MMAEFilterBank.predict, IMMEstimator.predict).** -/
theorem C124_bank_predict {σ : Type} {N : ℕ} {ζ ρ η υ : Type} :
    (∀ (c : FilterClass σ n (ζ × ρ × Option η) υ) (s : MMAE σ n N ζ η) (u : υ) (e), s.predict c u = .error e →
      e.2 = { s with filters := e.2.filters } ∧
      ∃ k, (∀ j < k, c.predict (s.filters j) u = .ok (e.2.filters j)) ∧
        c.predict (s.filters k) u = .error (e.1, e.2.filters k) ∧ ∀ j > k, e.2.filters j = s.filters j) ∧
    (∀ (c : FilterClass σ n ζ υ) (s : IMM σ n N) (u : υ) (e), s.predict c u = .error e →
      e.2 = { s with filters := e.2.filters } ∧
      ∃ k, (∀ j < k, c.predict (c.setXP (s.filters j) (s.mixX c j) (s.mixP c j)) u = .ok (e.2.filters j)) ∧
        c.predict (c.setXP (s.filters k) (s.mixX c k) (s.mixP c k)) u = .error (e.1, e.2.filters k) ∧
        ∀ j > k, e.2.filters j = s.filters j) := by
  constructor
  · intro c s u e h
    simp only [MMAE.predict] at h
    cases hb : bankMap (fun _ f => c.predict f u) s.filters with
    | ok f => rw [hb] at h; cases h
    | error e' => rw [hb] at h; cases h; exact ⟨rfl, bankMap_error hb⟩
  · intro c s u e h
    simp only [IMM.predict] at h
    cases hb : bankMap (fun i f => c.predict (c.setXP f (s.mixX c i) (s.mixP c i)) u) s.filters with
    | ok f => rw [hb] at h; cases h
    | error e' => rw [hb] at h; cases h; exact ⟨rfl, bankMap_error hb⟩

theorem updLik_error {σ : Type} {ζ υ : Type} {c : FilterClass σ n ζ υ} {comb : ℝ → ℝ → ℝ} {a : ζ} {f : σ × ℝ}
    {e : Err × (σ × ℝ)} (h : c.updLik comb a f = .error e) : c.update f.1 a = .error (e.1, e.2.1) ∧ e.2.2 = f.2 := by
  simp only [FilterClass.updLik] at h
  cases hu : c.update f.1 a with
  | error e => rw [hu] at h; cases h; exact ⟨rfl, rfl⟩
  | ok f' => rw [hu] at h; cases h

/-- **C124 (IMMEstimator.update).** If a filter's `update` raises, the bank's own estimate and probabilities are untouched,
but every filter before the one that raised has already taken the measurement in. -/
theorem C124_imm_update {σ : Type} {N : ℕ} {ζ υ : Type} (c : FilterClass σ n ζ υ) (s : IMM σ n N) (z : ζ)
    (e : Err × IMM σ n N) (h : s.update c z = .error e) (hr : e.1 ≠ .nonFinite) :
    e.2 = { s with filters := e.2.filters, likelihood := e.2.likelihood } ∧
    ∃ k, (∀ j < k, ∃ f, c.update (s.filters j) z = .ok f ∧ e.2.filters j = (c.likelihood f).2 ∧
          e.2.likelihood j = (c.likelihood f).1) ∧
        c.update (s.filters k) z = .error (e.1, e.2.filters k) ∧
        ∀ j > k, e.2.filters j = s.filters j ∧ e.2.likelihood j = s.likelihood j := by
  simp only [IMM.update] at h
  cases hb : bankMap (fun _ => c.updLik (fun _ L => L) z) (fun i => (s.filters i, s.likelihood i)) with
  | ok fl =>
    exfalso
    rw [hb] at h
    simp only [IMM.mixing] at h
    split_ifs at h with h1 h2
    · cases h; exact hr rfl
    · cases h; exact hr rfl
  | error e' =>
    rw [hb] at h
    cases h
    refine ⟨rfl, ?_⟩
    obtain ⟨k, h1, h2, h3⟩ := bankMap_error hb
    refine ⟨k, fun j hj => ?_, (updLik_error h2).1, fun j hj => ?_⟩
    · obtain ⟨f, hf, hg⟩ := updLik_ok.1 (h1 j hj)
      exact ⟨f, hf, congrArg Prod.fst hg, congrArg Prod.snd hg⟩
    · have := h3 j hj
      exact ⟨congrArg Prod.fst this, congrArg Prod.snd this⟩

/-- **C124 (MMAEFilterBank.update).** The same; the probabilities of the filters before the one that raised have already
been multiplied by their likelihoods (and not been normalised). -/
theorem C124_mmae_update {σ : Type} {N : ℕ} {ζ ρ η υ : Type} (c : FilterClass σ n (ζ × ρ × Option η) υ)
    (s : MMAE σ n N ζ η) (z : ζ) (R : ρ) (H : Option η) (e : Err × MMAE σ n N ζ η) (h : s.update c z R H = .error e)
    (hr : e.1 ≠ .nonFinite) :
    e.2 = { s with filters := e.2.filters, p := e.2.p } ∧
    ∃ k, (∀ j < k, ∃ f, c.update (s.filters j) (z, R, H.or s.H) = .ok f ∧ e.2.filters j = (c.likelihood f).2 ∧
          e.2.p j = s.p j * (c.likelihood f).1) ∧
        c.update (s.filters k) (z, R, H.or s.H) = .error (e.1, e.2.filters k) ∧
        ∀ j ≥ k, e.2.p j = s.p j ∧ (j ≠ k → e.2.filters j = s.filters j) := by
  simp only [MMAE.update] at h
  cases hb : bankMap (fun _ => c.updLik (fun p L => p * L) (z, R, H.or s.H)) (fun i => (s.filters i, s.p i)) with
  | ok fl =>
    exfalso
    rw [hb] at h
    simp only [] at h
    split_ifs at h with h1
    cases h; exact hr rfl
  | error e' =>
    rw [hb] at h
    cases h
    refine ⟨rfl, ?_⟩
    obtain ⟨k, h1, h2, h3⟩ := bankMap_error hb
    refine ⟨k, fun j hj => ?_, (updLik_error h2).1, fun j hj => ?_⟩
    · obtain ⟨f, hf, hg⟩ := updLik_ok.1 (h1 j hj)
      exact ⟨f, hf, congrArg Prod.fst hg, congrArg Prod.snd hg⟩
    · rcases eq_or_lt_of_le hj with rfl | hj'
      · exact ⟨(updLik_error h2).2, fun h => absurd rfl h⟩
      · have := h3 j hj'
        exact ⟨congrArg Prod.snd this, fun _ => congrArg Prod.fst this⟩

/-- A one-dimensional filter with unit `H` and `R`, variance `p` and estimate `x`. -/
def GoodAt (p x : ℝ) (a : KF 1 1 0) : Prop := a.H = 1 ∧ a.R = 1 ∧ a.inv = npInv ∧ a.P 0 0 = p ∧ a.x 0 = x

/-- A one-dimensional filter that refuses every measurement. -/
def BadAt (b : KF 1 1 0) : Prop := b.H = 1 ∧ b.R = 0 ∧ b.inv = npInv ∧ b.P = 0

theorem good_update (expf : ℝ → ℝ) {p x z : ℝ} (hp : 0 ≤ p) {a : KF 1 1 0} (h : GoodAt p x a) :
    ∃ a', a.update (some fun _ => z) = .ok a' ∧
      GoodAt (p / (1 + p)) (x + p / (1 + p) * (z - x)) (a'.readLik expf).2 := by
  obtain ⟨hH, hR, hi, hP, hx⟩ := h
  have hS : a.P + 1 = (1 + p) • (1 : Mat 1 1) := by
    ext i j; fin_cases i; fin_cases j; simp [hP, add_comm]
  have h1 : (1 + p) ≠ 0 := by positivity
  have hinv : npInv ((1 + p) • (1 : Mat 1 1)) = some ((1 / (1 + p)) • (1 : Mat 1 1)) := by
    refine npInv_eq_some.2 ⟨by simpa using h1, (Matrix.inv_eq_right_inv ?_).symm⟩
    rw [Matrix.smul_mul, Matrix.mul_smul, smul_smul, Matrix.mul_one, mul_one_div_cancel h1, one_smul]
  have hKH : (1 : Mat 1 1) - a.P * (1 / (1 + p)) • 1 = (1 / (1 + p)) • 1 := by
    ext i j; fin_cases i; fin_cases j; simp [hP]; field_simp; ring
  have hP' : a.P = p • 1 := by ext i j; fin_cases i; fin_cases j; simp [hP]
  have hx' : a.x = fun _ => x := by ext i; fin_cases i; exact hx
  have hu : ∃ a', a.update (some fun _ => z) = .ok a' ∧ a'.H = a.H ∧ a'.R = a.R ∧ a'.inv = a.inv ∧
      a'.P = (1 / (1 + p)) • (1 : Mat 1 1) * a.P * ((1 / (1 + p)) • (1 : Mat 1 1))ᵀ +
        a.P * (1 / (1 + p)) • (1 : Mat 1 1) * 1 * (a.P * (1 / (1 + p)) • (1 : Mat 1 1))ᵀ ∧
      a'.x = a.x + (a.P * (1 / (1 + p)) • (1 : Mat 1 1)) *ᵥ ((fun _ => z) - a.x) := by
    simp only [KF.update, Option.getD_none, MatArg.resolve, hH, hR, hi, transpose_one, Matrix.mul_one, Matrix.one_mul, hS,
      hinv, one_mulVec, hKH]
    exact ⟨_, rfl, rfl, rfl, rfl, rfl, rfl⟩
  obtain ⟨a', hu, h2, h3, h4, h5, h6⟩ := hu
  have hk := a'.readLik_kept expf
  refine ⟨a', hu, (congrArg KF.H hk).trans (h2.trans hH), (congrArg KF.R hk).trans (h3.trans hR),
    (congrArg KF.inv hk).trans (h4.trans hi), ?_, ?_⟩
  · rw [(readLik_keeps expf a').2.1, h5, hP']
    simp
    field_simp
  · rw [(readLik_keeps expf a').1, h6, hP', hx']
    simp [mulVec, dotProduct]
    left
    field_simp

theorem bad_update {z : ℝ} {b : KF 1 1 0} (h : BadAt b) :
    ∃ b', b.update (some fun _ => z) = .error (.linAlgError, b') ∧ BadAt b' := by
  obtain ⟨hH, hR, hi, hP⟩ := h
  have h0 : npInv (0 : Mat 1 1) = none := npInv_eq_none.2 (by simp)
  simp only [KF.update, Option.getD_none, MatArg.resolve, hH, hR, hi, hP, Matrix.mul_zero, Matrix.zero_mul, add_zero, h0]
  exact ⟨_, rfl, rfl, rfl, rfl, rfl⟩

theorem bankMap_two {σ : Type} {g : Fin 2 → σ → Exec σ} {fs : Fin 2 → σ} {f : σ} {e : Err × σ} (h0 : g 0 (fs 0) = .ok f)
    (h1 : g 1 (fs 1) = .error e) : bankMap g fs = .error (e.1, ![f, e.2]) := by
  have h1' : g 1 (Function.update fs 0 f 1) = .error e := by rw [Function.update_of_ne (by decide)]; exact h1
  have hl : List.finRange 2 = [0, 1] := rfl
  simp only [bankMap, hl, runList, bankStep, h0, h1']
  congr 2
  funext i
  fin_cases i <;> simp

/-- One failing update of the bank. -/
theorem goodBad_imm (expf : ℝ → ℝ) {p x z : ℝ} (hp : 0 ≤ p) (s : IMM (KF 1 1 0) 1 2) (h0 : GoodAt p x (s.filters 0))
    (h1 : BadAt (s.filters 1)) : ∃ e, s.update (kfClassZ expf 1 1 0) (some fun _ => z) = .error e ∧
      GoodAt (p / (1 + p)) (x + p / (1 + p) * (z - x)) (e.2.filters 0) ∧ BadAt (e.2.filters 1) := by
  obtain ⟨a, ha, hg⟩ := good_update (z := z) expf hp h0
  obtain ⟨b, hb, hbb⟩ := bad_update (z := z) h1
  have hbm : bankMap (fun _ => (kfClassZ expf 1 1 0).updLik (fun _ L => L) (some fun _ => z))
      (fun i => (s.filters i, s.likelihood i)) = .error (.linAlgError,
        ![((a.readLik expf).2, (a.readLik expf).1), (b, s.likelihood 1)]) := by
    apply bankMap_two (e := (Err.linAlgError, (b, s.likelihood 1)))
    · simp only [FilterClass.updLik, kfClassZ, ha]
    · simp only [FilterClass.updLik, kfClassZ, hb]
  simp only [IMM.update, hbm]
  exact ⟨_, rfl, hg, hbb⟩

theorem goodBad_mmae (expf : ℝ → ℝ) {p x z : ℝ} (hp : 0 ≤ p) (s : MMAE (KF 1 1 0) 1 2 (Option (Vec 1)) (Mat 1 1))
    (hH : s.H = none) (h0 : GoodAt p x (s.filters 0)) (h1 : BadAt (s.filters 1)) :
    ∃ e, s.update (kfClass expf 1 1 0) (some fun _ => z) .none none = .error e ∧ e.2.H = none ∧
      GoodAt (p / (1 + p)) (x + p / (1 + p) * (z - x)) (e.2.filters 0) ∧ BadAt (e.2.filters 1) := by
  obtain ⟨a, ha, hg⟩ := good_update (z := z) expf hp h0
  obtain ⟨b, hb, hbb⟩ := bad_update (z := z) h1
  have hbm : bankMap (fun _ => (kfClass expf 1 1 0).updLik (fun p L => p * L) (some fun _ => z, MatArg.none, (none : Option (Mat 1 1)).or s.H))
      (fun i => (s.filters i, s.p i)) = .error (.linAlgError,
        ![((a.readLik expf).2, s.p 0 * (a.readLik expf).1), (b, s.p 1)]) := by
    apply bankMap_two (e := (Err.linAlgError, (b, s.p 1)))
    · simp only [FilterClass.updLik, kfClass, hH, Option.or_none, ha]
    · simp only [FilterClass.updLik, kfClass, hH, Option.or_none, hb]
  simp only [MMAE.update, hbm]
  exact ⟨_, rfl, hH, hg, hbb⟩

/-- Two filters on the same constant: the first has unit uncertainty and noise, the second is certain and noiseless, so
that it refuses every measurement. -/
noncomputable def goodBad : Fin 2 → KF 1 1 0 :=
  ![{ KF.fresh 1 1 0 with H := 1 }, { KF.fresh 1 1 0 with H := 1, P := 0, R := 0 }]

/-- **C124 refuted for `IMMEstimator` and `MMAEFilterBank`.** The update raises, and yet the first filter has taken the
measurement in: repeating the call counts it twice (its variance goes from 1 to 1/2 to 1/3). -/
theorem C124_bank_refuted (expf : ℝ → ℝ) :
    (∀ s : IMM (KF 1 1 0) 1 2, s.filters = goodBad → ∃ e e', s.update (kfClassZ expf 1 1 0) (some 2) = .error e ∧
      (e.2.filters 0).P 0 0 = 1/2 ∧ (e.2.filters 0).x 0 = 1 ∧
      e.2.update (kfClassZ expf 1 1 0) (some 2) = .error e' ∧
      (e'.2.filters 0).P 0 0 = 1/3 ∧ (e'.2.filters 0).x 0 = 4/3) ∧
    (∀ s : MMAE (KF 1 1 0) 1 2 (Option (Vec 1)) (Mat 1 1), s.filters = goodBad → s.H = none →
      ∃ e e', s.update (kfClass expf 1 1 0) (some 2) .none none = .error e ∧
      (e.2.filters 0).P 0 0 = 1/2 ∧ (e.2.filters 0).x 0 = 1 ∧
      e.2.update (kfClass expf 1 1 0) (some 2) .none none = .error e' ∧
      (e'.2.filters 0).P 0 0 = 1/3 ∧ (e'.2.filters 0).x 0 = 4/3) := by
  have g0 : GoodAt 1 0 (goodBad 0) := ⟨rfl, rfl, rfl, rfl, rfl⟩
  have b0 : BadAt (goodBad 1) := ⟨rfl, rfl, rfl, rfl⟩
  have h2 : (2 : Vec 1) = fun _ => 2 := rfl
  rw [h2]
  constructor
  · intro s hs
    rw [← hs] at g0 b0
    obtain ⟨e, he, g1, b1⟩ := goodBad_imm expf (z := 2) zero_le_one s g0 b0
    obtain ⟨e', he', g2, -⟩ := goodBad_imm expf (z := 2) (by norm_num) e.2 g1 b1
    refine ⟨e, e', he, ?_, ?_, he', ?_, ?_⟩
    · rw [g1.2.2.2.1]; norm_num
    · rw [g1.2.2.2.2]; norm_num
    · rw [g2.2.2.2.1]; norm_num
    · rw [g2.2.2.2.2]; norm_num
  · intro s hs hH
    rw [← hs] at g0 b0
    obtain ⟨e, he, hH1, g1, b1⟩ := goodBad_mmae expf (z := 2) zero_le_one s hH g0 b0
    obtain ⟨e', he', -, g2, -⟩ := goodBad_mmae expf (z := 2) (by norm_num) e.2 hH1 g1 b1
    refine ⟨e, e', he, ?_, ?_, he', ?_, ?_⟩
    · rw [g1.2.2.2.1]; norm_num
    · rw [g1.2.2.2.2]; norm_num
    · rw [g2.2.2.2.1]; norm_num
    · rw [g2.2.2.2.2]; norm_num

end Filterpy
