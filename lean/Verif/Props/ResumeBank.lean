import Verif.Props.Resume
import Verif.Lemmas.Bank
import Verif.Model.IMM
import Verif.Model.MMAE
import Verif.Model.PolyFilters
import Verif.Model.BankClasses

/-!
# C154 for filter banks and the polynomial filters
-/

namespace Filterpy

open Matrix

variable {n m l N : ℕ} {σ κ ζ ρ η υ : Type}

namespace Spec

/-- Objects of a filter class that agree in `kept` behave alike in a bank: same `x` and `P`, same exceptions, and after `update` the
same likelihood. -/
structure Resumes (c : FilterClass σ n ζ υ) (kept : σ → κ) : Prop where
  x : ∀ s t, kept s = kept t → c.x s = c.x t
  P : ∀ s t, kept s = kept t → c.P s = c.P t
  setXP : ∀ s t x P, kept s = kept t → kept (c.setXP s x P) = kept (c.setXP t x P)
  predict : ∀ s t u, kept s = kept t → SameResumed kept (c.predict s u) (c.predict t u)
  update : ∀ s t a, kept s = kept t →
    SameResumed (fun f => (kept (c.likelihood f).2, (c.likelihood f).1)) (c.update s a) (c.update t a)

/-- What must be stored of an `IMMEstimator`: the filters, the mode probabilities, and what follows from them and `M`. -/
def keptIMM (kept : σ → κ) (s : IMM σ n N) := (fun i => kept (s.filters i), s.mu, s.M, s.cbar, s.omega)

/-- What must be stored of an `MMAEFilterBank`: the filters and their probabilities. -/
def keptMMAE (kept : σ → κ) (s : MMAE σ n N ζ η) := (fun i => kept (s.filters i), s.p, s.H)

end Spec

open Spec

theorem SameResumed.mono {σ κ κ' : Type*} {k : σ → κ} {k' : σ → κ'} (h : ∀ s t, k s = k t → k' s = k' t) {a b : Exec σ}
    (hab : SameResumed k a b) : SameResumed k' a b := by
  cases a <;> cases b <;> first | exact h _ _ hab | exact hab

/-- A method called on every filter of a bank. -/
theorem bank_same {kept : σ → κ} {g : Fin N → σ → Exec σ}
    (step : ∀ i a b, kept a = kept b → SameResumed kept (g i a) (g i b)) {fs fs' : Fin N → σ} (h : ∀ i, kept (fs i) = kept (fs' i)) :
    SameResumed (fun fs i => kept (fs i)) (bankMap g fs) (bankMap g fs') := by
  refine run_same _ (fun (fs : Fin N → σ) i => kept (fs i)) (fun s t i hst => ?_) _ _ _ (funext h)
  have hst' : ∀ j, kept (s j) = kept (t j) := fun j => congrFun hst j
  have h1 := step i _ _ (hst' i)
  simp only [bankStep]
  revert h1
  cases g i (s i) <;> cases g i (t i) <;> intro h1
  · exact h1
  · exact h1.elim
  · exact h1.elim
  · funext j
    by_cases hj : j = i
    · subst hj
      simp only [Function.update_self]
      exact h1
    · simpa [hj] using hst' j

/-- The `update` loop of both banks. -/
theorem bank_update_same {c : FilterClass σ n ζ υ} {kept : σ → κ} (hc : Resumes c kept) (comb : ℝ → ℝ → ℝ) (z : ζ)
    {fs fs' : Fin N → σ} {v v' : Fin N → ℝ} (h : ∀ i, kept (fs i) = kept (fs' i))
    (hv : ∀ i L, comb (v i) L = comb (v' i) L) :
    SameResumed (fun fl i => (kept (fl i).1, (fl i).2)) (bankMap (fun _ => c.updLik comb z) fun i => (fs i, v i))
      (bankMap (fun _ => c.updLik comb z) fun i => (fs' i, v' i)) := by
  have h1 : SameResumed (fun fl i => kept (fl i).1) (bankMap (fun _ => c.updLik comb z) fun i => (fs i, v i))
      (bankMap (fun _ => c.updLik comb z) fun i => (fs' i, v' i)) := by
    refine bank_same (kept := fun f : σ × ℝ => kept f.1) (fun i a b hab => ?_) h
    have h2 := hc.update _ _ z hab
    unfold FilterClass.updLik
    revert h2
    cases c.update a.1 z <;> cases c.update b.1 z <;> intro h2
    · exact h2
    · exact h2.elim
    · exact h2.elim
    · exact congrArg Prod.fst h2
  cases e1 : bankMap (fun _ => c.updLik comb z) (fun i => (fs i, v i)) <;>
    cases e2 : bankMap (fun _ => c.updLik comb z) (fun i => (fs' i, v' i)) <;> rw [e1, e2] at h1
  · exact h1
  · exact h1.elim
  · exact h1.elim
  · rw [bankMap_ok] at e1 e2
    funext i
    obtain ⟨f, hf, ef⟩ := updLik_ok.1 (e1 i)
    obtain ⟨f', hf', ef'⟩ := updLik_ok.1 (e2 i)
    have h2 := hc.update _ _ z (h i)
    rw [hf, hf'] at h2
    simp only [SameResumed, Prod.mk.injEq, ef, ef'] at h2 ⊢
    exact ⟨h2.1, by rw [h2.2, hv]⟩

theorem imm_estimate_same {c : FilterClass σ n ζ υ} {kept : σ → κ} (hc : Resumes c kept) {s t : IMM σ n N}
    (h : keptIMM kept s = keptIMM kept t) :
    (keptIMM kept (s.estimate c), (s.estimate c).x, (s.estimate c).P) = (keptIMM kept (t.estimate c), (t.estimate c).x, (t.estimate c).P) := by
  simp only [keptIMM, Prod.mk.injEq] at h
  obtain ⟨h1, h2, h3, h4, h5⟩ := h
  have hx : ∀ i, c.x (s.filters i) = c.x (t.filters i) := fun i => hc.x _ _ (congrFun h1 i)
  have hP : ∀ i, c.P (s.filters i) = c.P (t.filters i) := fun i => hc.P _ _ (congrFun h1 i)
  simp only [keptIMM, IMM.estimate, h1, h2, h3, h4, h5, hx, hP]

theorem imm_mixing_same {kept : σ → κ} {s t : IMM σ n N} (h : (fun i => kept (s.filters i), s.mu, s.M) = (fun i => kept (t.filters i), t.mu, t.M)) :
    SameResumed (keptIMM kept) s.mixing t.mixing := by
  simp only [Prod.mk.injEq] at h
  obtain ⟨h1, h2, h3⟩ := h
  simp only [IMM.mixing, h2, h3]
  split <;> simp [SameResumed, keptIMM, h1, h2, h3]

/-- `predict` and `update` of the bank. -/
noncomputable def immResumed (c : FilterClass σ n ζ υ) (s : IMM σ n N) : ResumeCall υ ζ → Exec (IMM σ n N)
  | .predict u => s.predict c u
  | .update z => s.update c z

theorem imm_step_same {c : FilterClass σ n ζ υ} {kept : σ → κ} (hc : Resumes c kept) (a : ResumeCall υ ζ) (s t : IMM σ n N)
    (h : keptIMM kept s = keptIMM kept t) :
    SameResumed (fun s => (keptIMM kept s, s.x, s.P)) (immResumed c s a) (immResumed c t a) := by
  have h' := h
  simp only [keptIMM, Prod.mk.injEq] at h'
  obtain ⟨h1, h2, h3, h4, h5⟩ := h'
  have hf : ∀ i, kept (s.filters i) = kept (t.filters i) := congrFun h1
  have hx : ∀ i, c.x (s.filters i) = c.x (t.filters i) := fun i => hc.x _ _ (hf i)
  have hP : ∀ i, c.P (s.filters i) = c.P (t.filters i) := fun i => hc.P _ _ (hf i)
  cases a with
  | predict u =>
    have hX : ∀ i, IMM.mixX c s i = IMM.mixX c t i := fun i => by simp only [IMM.mixX, h5, hx]
    have hM : ∀ i, IMM.mixP c s i = IMM.mixP c t i := fun i => by simp only [IMM.mixP, h5, hx, hP, hX]
    have hb := bank_same (kept := kept) (g := fun i f => c.predict (c.setXP f (IMM.mixX c t i) (IMM.mixP c t i)) u)
      (fun i a b hab => hc.predict _ _ u (hc.setXP _ _ _ _ hab)) hf
    simp only [immResumed, IMM.predict, hX, hM]
    revert hb
    cases bankMap _ s.filters <;> cases bankMap _ t.filters <;> intro hb
    · exact hb
    · exact hb.elim
    · exact hb.elim
    · exact imm_estimate_same hc (by simp only [keptIMM, Prod.mk.injEq]; exact ⟨hb, h2, h3, h4, h5⟩)
  | update z =>
    have hb := bank_update_same hc (fun _ L => L) z (v := s.likelihood) (v' := t.likelihood) hf (fun _ _ => rfl)
    simp only [immResumed, IMM.update]
    revert hb
    cases bankMap _ (fun i => (s.filters i, s.likelihood i)) <;> cases bankMap _ (fun i => (t.filters i, t.likelihood i)) <;> intro hb
    · exact hb
    · exact hb.elim
    · exact hb.elim
    · rename_i fl fl'
      have hk : ∀ i, kept (fl i).1 = kept (fl' i).1 := fun i => congrArg Prod.fst (congrFun hb i)
      have hl : ∀ i, (fl i).2 = (fl' i).2 := fun i => (Prod.mk.injEq _ _ _ _ ▸ (congrFun hb i : (kept (fl i).1, (fl i).2) = (kept (fl' i).1, (fl' i).2))).2
      simp only [h4, hl]
      split
      · simp [SameResumed]
      · have hm := imm_mixing_same (kept := kept) (s := { s with filters := fun i => (fl i).1, likelihood := fun i => (fl' i).2, mu := fun i => t.cbar i * (fl' i).2 / ∑ i, t.cbar i * (fl' i).2 })
          (t := { t with filters := fun i => (fl' i).1, likelihood := fun i => (fl' i).2, mu := fun i => t.cbar i * (fl' i).2 / ∑ i, t.cbar i * (fl' i).2 })
          (by simp only [hk, h3])
        simp only [h4] at hm
        revert hm
        generalize IMM.mixing _ = q
        generalize IMM.mixing _ = q'
        cases q <;> cases q' <;> intro hm
        · exact hm
        · exact hm.elim
        · exact hm.elim
        · exact imm_estimate_same hc hm

/-- **C154** `IMMEstimator` of any filter class that can be resumed from `kept`: the filters, the mode probabilities and the mixing
probabilities are enough. -/
theorem C154_imm {c : FilterClass σ n ζ υ} {kept : σ → κ} (hc : Resumes c kept) (a : ResumeCall υ ζ) (calls : List (ResumeCall υ ζ))
    (s t : IMM σ n N) (h : keptIMM kept s = keptIMM kept t) :
    SameResumed (fun s => (keptIMM kept s, s.x, s.P)) (runList (immResumed c) s (a :: calls)) (runList (immResumed c) t (a :: calls)) :=
  run_same_after _ _ _ (fun s t a h => imm_step_same hc a s t (congrArg Prod.fst h)) _ (fun s t h => imm_step_same hc a s t h) calls s t h

/-- `predict` and `update` of the bank. -/
noncomputable def mmaeResumed (c : FilterClass σ n (ζ × ρ × Option η) υ) (s : MMAE σ n N ζ η) : ResumeCall υ (ζ × ρ × Option η) → Exec (MMAE σ n N ζ η)
  | .predict u => s.predict c u
  | .update a => s.update c a.1 a.2.1 a.2.2

/-- **C154** `MMAEFilterBank`: the filters and their probabilities, and (for reading the estimate before the first `update`) `x`
and `P`. -/
theorem C154_mmae {c : FilterClass σ n (ζ × ρ × Option η) υ} {kept : σ → κ} (hc : Resumes c kept)
    (calls : List (ResumeCall υ (ζ × ρ × Option η))) (s t : MMAE σ n N ζ η) (h : (keptMMAE kept s, s.x, s.P) = (keptMMAE kept t, t.x, t.P)) :
    SameResumed (fun s => (keptMMAE kept s, s.x, s.P)) (runList (mmaeResumed c) s calls) (runList (mmaeResumed c) t calls) := by
  refine run_same _ _ ?_ calls s t h
  intro s t a h
  simp only [keptMMAE, Prod.mk.injEq] at h
  obtain ⟨⟨h1, h2, h3⟩, h4, h5⟩ := h
  have hf : ∀ i, kept (s.filters i) = kept (t.filters i) := congrFun h1
  cases a with
  | predict u =>
    have hb := bank_same (kept := kept) (g := fun _ f => c.predict f u) (fun i a b hab => hc.predict _ _ u hab) hf
    simp only [mmaeResumed, MMAE.predict]
    revert hb
    cases bankMap _ s.filters <;> cases bankMap _ t.filters <;> intro hb
    · exact hb
    · exact hb.elim
    · exact hb.elim
    · simp only [SameResumed, keptMMAE, Prod.mk.injEq]
      exact ⟨⟨hb, h2, h3⟩, h4, h5⟩
  | update a =>
    have hb := bank_update_same hc (fun p L => p * L) (a.1, a.2.1, a.2.2.or t.H) (v := s.p) (v' := t.p) hf (fun i L => by rw [h2])
    simp only [mmaeResumed, MMAE.update, h3]
    revert hb
    cases bankMap _ (fun i => (s.filters i, s.p i)) <;> cases bankMap _ (fun i => (t.filters i, t.p i)) <;> intro hb
    · exact hb
    · exact hb.elim
    · exact hb.elim
    · rename_i fl fl'
      have hk : ∀ i, kept (fl i).1 = kept (fl' i).1 := fun i => congrArg Prod.fst (congrFun hb i)
      have hl : ∀ i, (fl i).2 = (fl' i).2 := fun i => (Prod.mk.injEq _ _ _ _ ▸ (congrFun hb i : (kept (fl i).1, (fl i).2) = (kept (fl' i).1, (fl' i).2))).2
      have hx : ∀ i, c.x (fl i).1 = c.x (fl' i).1 := fun i => hc.x _ _ (hk i)
      have hP : ∀ i, c.P (fl i).1 = c.P (fl' i).1 := fun i => hc.P _ _ (hk i)
      simp only [hl]
      split
      · simp [SameResumed]
      · simp only [SameResumed, keptMMAE, MMAE.bankP, hk, hx, hP]

/-- **C154** `KalmanFilter` in a bank: the innovation covariance `S` must be stored as well, because after a missing measurement the
likelihood is computed from it. -/
theorem C154_bank_kalman (expf : ℝ → ℝ) : Resumes (kfClass expf n m l) (fun s => (keptKF s, s.S)) ∧
    Resumes (kfClassZ expf n m l) (fun s => (keptKF s, s.S)) := by
  have hp : ∀ (s t : KF n m l) (u : UArg l), (keptKF s, s.S) = (keptKF t, t.S) →
      SameResumed (fun s => (keptKF s, s.S)) (s.predict u) (t.predict u) := by
    intro s t u h
    cases s; cases t
    simp only [keptKF, Prod.mk.injEq] at h
    obtain ⟨⟨rfl, rfl, rfl, rfl, rfl, rfl, rfl, rfl, rfl, rfl⟩, rfl⟩ := h
    simp only [KF.predict]
    generalize KF.control _ _ = q
    cases q <;> simp [SameResumed, keptKF]
  have hu : ∀ (s t : KF n m l) (z : Option (Vec m)) (R : MatArg m) (H : Option (Mat m n)), (keptKF s, s.S) = (keptKF t, t.S) →
      SameResumed (fun f => ((keptKF (f.readLik expf).2, (f.readLik expf).2.S), (f.readLik expf).1)) (s.update z R H) (t.update z R H) := by
    intro s t z R H h
    cases s; cases t
    simp only [keptKF, Prod.mk.injEq] at h
    obtain ⟨⟨rfl, rfl, rfl, rfl, rfl, rfl, rfl, rfl, rfl, rfl⟩, rfl⟩ := h
    cases z with
    | none =>
      simp only [KF.update, KF.updateNone, SameResumed, keptKF, KF.readLik, KF.readLogLik]
      rfl
    | some z =>
      simp only [KF.update]
      split <;> simp [SameResumed, keptKF, KF.readLik, KF.readLogLik]
  constructor
  · refine ⟨fun s t h => congrArg (·.1.1) h, fun s t h => congrArg (·.1.2.1) h, fun s t x P h => ?_, hp, fun s t a h => hu s t _ _ _ h⟩
    simp only [keptKF, Prod.mk.injEq] at h
    simp [kfClass, keptKF, h]
  · refine ⟨fun s t h => congrArg (·.1.1) h, fun s t h => congrArg (·.1.2.1) h, fun s t x P h => ?_, hp, fun s t a h => hu s t _ _ _ h⟩
    simp only [keptKF, Prod.mk.injEq] at h
    simp [kfClassZ, keptKF, h]

/-- **C154 refuted for `KalmanFilter` in a bank** without `S`: after a missing measurement two filters with the same estimate and the same
settings report different likelihoods, from which the banks compute the probabilities. -/
theorem C154_bank_refuted : ∃ s t s' t' : KF 1 1 0, keptKF s = keptKF t ∧ s.update none = .ok s' ∧ t.update none = .ok t' ∧
    (s'.readLik Real.exp).1 ≠ (t'.readLik Real.exp).1 := by
  refine ⟨{ KF.fresh 1 1 0 with S := sc 1 }, { KF.fresh 1 1 0 with S := sc 2 }, _, _, rfl, rfl, rfl, ?_⟩
  have key (f : KF 1 1 0) (h1 : f.lik = none) (h2 : f.logLik = none) : (f.readLik Real.exp).1 = Real.exp (logpdf f.y f.S) := by
    simp only [KF.readLik, h1, KF.readLogLik, h2, if_neg (Real.exp_ne_zero _)]
  rw [key _ rfl rfl, key _ rfl rfl]
  intro h
  have := Real.exp_injective h
  simp only [KF.updateNone, logpdf, sc_det, zero_dotProduct, Real.log_one] at this
  have h2 : 0 < Real.log 2 := Real.log_pos (by norm_num)
  linarith

/-- Two different banks of two Kalman filters with the same stored values, and a `predict` that succeeds. -/
example : ∃ s t s' : IMM (KF 1 1 0) 1 2, s ≠ t ∧ keptIMM (fun s => (keptKF s, s.S)) s = keptIMM (fun s => (keptKF s, s.S)) t ∧
    runList (immResumed (kfClassZ Real.exp 1 1 0)) s [.predict .none] = .ok s' := by
  refine ⟨⟨fun _ => KF.fresh 1 1 0, fun _ => 1 / 2, 1, 0, 0, 0, fun _ => 1 / 2, 1, 0, 0, 0, 0⟩,
    ⟨fun _ => { KF.fresh 1 1 0 with K := sc 7 }, fun _ => 1 / 2, 1, vc 3, 0, 0, fun _ => 1 / 2, 1, 0, 0, 0, 0⟩, ?_⟩
  have e : ∀ s : IMM (KF 1 1 0) 1 2, (∀ i, (s.filters i).B = none) → ∃ s', s.predict (kfClassZ Real.exp 1 1 0) .none = .ok s' := by
    intro s hs
    unfold IMM.predict
    have hg : ∀ i, ∃ f, (kfClassZ Real.exp 1 1 0).predict ((kfClassZ Real.exp 1 1 0).setXP (s.filters i)
        (IMM.mixX (kfClassZ Real.exp 1 1 0) s i) (IMM.mixP (kfClassZ Real.exp 1 1 0) s i)) .none = .ok f := by
      intro i
      simp only [kfClassZ, KF.predict, hs, Option.or_none, KF.control]
      exact ⟨_, rfl⟩
    choose fs hfs using hg
    rw [bankMap_ok.2 hfs]
    exact ⟨_, rfl⟩
  obtain ⟨s', hs'⟩ := e ⟨fun _ => KF.fresh 1 1 0, fun _ => 1 / 2, 1, 0, 0, 0, fun _ => 1 / 2, 1, 0, 0, 0, 0⟩ (fun _ => rfl)
  refine ⟨s', fun h => ?_, rfl, ?_⟩
  · have := congrArg (fun s : IMM (KF 1 1 0) 1 2 => s.x 0) h
    simp [vc] at this
  · simp only [runList, immResumed, hs']

/-! ## The polynomial filters -/

/-- **C154** `GHKFilter`. -/
theorem C154_ghk (calls : List (ℝ × Option ℝ × Option ℝ × Option ℝ)) (s t : GHK ℝ)
    (h : (s.x, s.dx, s.ddx, s.dt, s.g, s.h, s.k) = (t.x, t.dx, t.ddx, t.dt, t.g, t.h, t.k)) :
    let f : GHK ℝ → ℝ × Option ℝ × Option ℝ × Option ℝ → Exec (GHK ℝ) := fun s c => s.update c.1 c.2.1 c.2.2.1 c.2.2.2
    SameResumed (fun s : GHK ℝ => (s.x, s.dx, s.ddx, s.dt, s.g, s.h, s.k)) (runList f s calls) (runList f t calls) := by
  intro f
  refine run_same _ _ ?_ calls s t h
  intro s t a h
  cases s; cases t
  simp only [Prod.mk.injEq] at h
  obtain ⟨rfl, rfl, rfl, rfl, rfl, rfl, rfl⟩ := h
  simp only [f, GHK.update]
  split <;> simp [SameResumed]

/-- **C154** `GHFilterOrder`. -/
theorem C154_gh_order (calls : List (ℝ × Option ℝ × Option ℝ × Option ℝ)) (s t : GHO)
    (h : (s.x, s.dt, s.order, s.g, s.h, s.k) = (t.x, t.dt, t.order, t.g, t.h, t.k)) :
    let f : GHO → ℝ × Option ℝ × Option ℝ × Option ℝ → Exec GHO := fun s c => s.update c.1 c.2.1 c.2.2.1 c.2.2.2
    SameResumed (fun s : GHO => (s.x, s.dt, s.order, s.g, s.h, s.k)) (runList f s calls) (runList f t calls) := by
  intro f
  refine run_same _ _ ?_ calls s t h
  intro s t a h
  cases s; cases t
  simp only [Prod.mk.injEq] at h
  obtain ⟨rfl, rfl, rfl, rfl, rfl, rfl⟩ := h
  simp only [f, GHO.update, GHO.update0, GHO.update1, GHO.update2]
  split <;> split <;> (try split) <;> (try split) <;> (try split) <;> simp [SameResumed]

/-- **C154** `FadingMemoryFilter`: the constants `P` and `e` have no influence. -/
theorem C154_fading_memory (calls : List ℝ) (s t : FadingMemory) (h : (s.x, s.dt, s.order, s.beta) = (t.x, t.dt, t.order, t.beta)) :
    SameResumed (fun s : FadingMemory => (s.x, s.dt, s.order, s.beta)) (runList FadingMemory.update s calls) (runList FadingMemory.update t calls) := by
  refine run_same _ _ ?_ calls s t h
  intro s t a h
  cases s; cases t
  simp only [Prod.mk.injEq] at h
  obtain ⟨rfl, rfl, rfl, rfl⟩ := h
  simp only [FadingMemory.update]
  split
  · simp [SameResumed]
  · split
    · split <;> simp [SameResumed]
    · simp [SameResumed]
  · split
    · split <;> simp [SameResumed]
    · simp [SameResumed]

/-- **C154** `LeastSquaresFilter`: the number `n` of measurements must be stored, too. -/
theorem C154_least_squares (calls : List ℝ) (s t : LSQ) (h : (s.x, s.n, s.dt, s.order, s.sigma) = (t.x, t.n, t.dt, t.order, t.sigma)) :
    SameResumed (fun s : LSQ => (s.x, s.n, s.dt, s.order, s.sigma)) (runList LSQ.update s calls) (runList LSQ.update t calls) := by
  refine run_same _ _ ?_ calls s t h
  intro s t a h
  cases s; cases t
  simp only [Prod.mk.injEq] at h
  obtain ⟨rfl, rfl, rfl, rfl, rfl⟩ := h
  simp only [LSQ.update]
  split
  · simp [SameResumed]
  · split <;> simp [SameResumed]
  · split <;> simp [SameResumed]
  · simp [SameResumed]

/-- A least squares filter and one with other gains, and an `update` that succeeds. -/
example : ∃ s t s' : LSQ, s ≠ t ∧ (s.x, s.n, s.dt, s.order, s.sigma) = (t.x, t.n, t.dt, t.order, t.sigma) ∧
    runList LSQ.update s [2] = .ok s' :=
  ⟨⟨1, 0, 0, 3, [1], [0], 0⟩, ⟨1, 0, 0, 3, [1], [5], 0⟩, _, by simp, rfl, rfl⟩

/-- **C154 refuted for `LeastSquaresFilter`** if only `x` and the settings are stored: a filter with another number of measurements
gives another estimate. -/
theorem C154_least_squares_refuted : ∃ s t s' t' : LSQ, (s.x, s.dt, s.order, s.sigma) = (t.x, t.dt, t.order, t.sigma) ∧
    s.update 2 = .ok s' ∧ t.update 2 = .ok t' ∧ s'.x ≠ t'.x := by
  refine ⟨⟨1, 0, 0, 0, [1], [0], 0⟩, ⟨1, 0, 0, 1, [1], [0], 0⟩, _, _, rfl, rfl, rfl, ?_⟩
  norm_num

/-! ## The other classes in an `IMMEstimator` -/

variable {p : SigmaPts n}

namespace Spec

/-- `FadingKalmanFilter` in a bank: a missing measurement leaves the residual and the cached likelihood, which is then used again. -/
def keptBankFKF (s : FKF n m l) := (keptFKF s, s.y, s.S, s.logLik, s.lik)

/-- `UnscentedKalmanFilter` in a bank, likewise. -/
def keptBankUKF (s : UKF n m p) := (keptUKF s, s.sigmasF, s.y, s.S, s.logLik, s.lik)

end Spec

open Spec

theorem fkf_lik_same (expf : ℝ → ℝ) (s t : FKF n m l) (h : keptBankFKF s = keptBankFKF t) :
    (keptBankFKF (s.readLik expf).2, (s.readLik expf).1) = (keptBankFKF (t.readLik expf).2, (t.readLik expf).1) := by
  cases s; cases t
  simp only [keptBankFKF, keptFKF, Prod.mk.injEq] at h
  obtain ⟨⟨rfl, rfl, rfl, rfl, rfl, rfl, rfl, rfl⟩, rfl, rfl, rfl, rfl⟩ := h
  rename_i ll lk _
  simp only [FKF.readLik, FKF.readLogLik]
  split
  · rfl
  · split <;> rfl

theorem ukf_lik_same (expf : ℝ → ℝ) (s t : UKF n m p) (h : keptBankUKF s = keptBankUKF t) :
    (keptBankUKF (s.readLik expf).2, (s.readLik expf).1) = (keptBankUKF (t.readLik expf).2, (t.readLik expf).1) := by
  cases s; cases t
  simp only [keptBankUKF, keptUKF, Prod.mk.injEq] at h
  obtain ⟨⟨rfl, rfl, rfl, rfl, rfl, rfl, rfl, rfl, rfl, rfl, rfl, rfl, rfl⟩, rfl, rfl, rfl, rfl, rfl⟩ := h
  simp only [UKF.readLik, UKF.readLogLik]
  split
  · rfl
  · split <;> rfl

/-- **C154** `FadingKalmanFilter` in an `IMMEstimator`. -/
theorem C154_bank_fading (expf : ℝ → ℝ) : Resumes (immFading expf n m l) keptBankFKF := by
  refine ⟨fun s t h => congrArg (·.1.1) h, fun s t h => congrArg (·.1.2.1) h, fun s t x P h => ?_, fun s t u h => ?_, fun s t z h => ?_⟩
  · simp only [keptBankFKF, keptFKF, Prod.mk.injEq] at h
    simp [immFading, keptBankFKF, keptFKF, h]
  · cases s; cases t
    simp only [keptBankFKF, keptFKF, Prod.mk.injEq] at h
    obtain ⟨⟨rfl, rfl, rfl, rfl, rfl, rfl, rfl, rfl⟩, rfl, rfl, rfl, rfl⟩ := h
    simp only [immFading, FKF.predict]
    generalize FKF.control _ _ = q
    cases q <;> simp [SameResumed, keptBankFKF, keptFKF]
  · refine SameResumed.mono (k := keptBankFKF) (fkf_lik_same expf) ?_
    cases s; cases t
    simp only [keptBankFKF, keptFKF, Prod.mk.injEq] at h
    obtain ⟨⟨rfl, rfl, rfl, rfl, rfl, rfl, rfl, rfl⟩, rfl, rfl, rfl, rfl⟩ := h
    cases z with
    | none => simp [immFading, FKF.update, SameResumed, keptBankFKF, keptFKF]
    | some z =>
      simp only [immFading, FKF.update]
      split <;> simp [SameResumed, keptBankFKF, keptFKF]

/-- **C154** `UnscentedKalmanFilter` in an `IMMEstimator`. -/
theorem C154_bank_unscented (expf : ℝ → ℝ) : Resumes (immUkf expf p m) keptBankUKF := by
  refine ⟨fun s t h => congrArg (·.1.1) h, fun s t h => congrArg (·.1.2.1) h, fun s t x P h => ?_, fun s t u h => ?_, fun s t z h => ?_⟩
  · simp only [keptBankUKF, keptUKF, Prod.mk.injEq] at h
    simp [immUkf, keptBankUKF, keptUKF, h]
  · cases s; cases t
    simp only [keptBankUKF, keptUKF, Prod.mk.injEq] at h
    obtain ⟨⟨rfl, rfl, rfl, rfl, rfl, rfl, rfl, rfl, rfl, rfl, rfl, rfl, rfl⟩, rfl, rfl, rfl, rfl, rfl⟩ := h
    simp only [immUkf, UKF.predict, UKF.computeProcessSigmas]
    generalize p.points _ _ = q
    cases q with
    | error e => simp [SameResumed]
    | ok sg =>
      simp only [UKF.predictUT]
      generalize p.points _ _ = q
      cases q <;> simp [SameResumed, keptBankUKF, keptUKF]
  · refine SameResumed.mono (k := keptBankUKF) (ukf_lik_same expf) ?_
    cases s; cases t
    simp only [keptBankUKF, keptUKF, Prod.mk.injEq] at h
    obtain ⟨⟨rfl, rfl, rfl, rfl, rfl, rfl, rfl, rfl, rfl, rfl, rfl, rfl, rfl⟩, rfl, rfl, rfl, rfl, rfl⟩ := h
    cases z with
    | none => simp [immUkf, UKF.update, SameResumed, keptBankUKF, keptUKF]
    | some z =>
      simp only [immUkf, UKF.update]
      split <;> simp [SameResumed, keptBankUKF, keptUKF]

/-- **C154 refuted for `FadingKalmanFilter` in a bank** without the cached likelihood: with a missing measurement two filters that
differ only in the cache report different likelihoods. -/
theorem C154_bank_fading_refuted (s : FKF n m l) (expf : ℝ → ℝ) : ∃ s₁ s₂ t₁ t₂ : FKF n m l, keptFKF s₁ = keptFKF s ∧ keptFKF s₂ = keptFKF s ∧
    s₁.update none = .ok t₁ ∧ s₂.update none = .ok t₂ ∧ (t₁.readLik expf).1 ≠ (t₂.readLik expf).1 :=
  ⟨{ s with lik := some 0 }, { s with lik := some 1 }, _, _, rfl, rfl, rfl, rfl, by simp [FKF.readLik]⟩

end Filterpy
