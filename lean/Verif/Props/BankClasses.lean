import Verif.Model.BankClasses
import Verif.Spec.BankClasses
import Verif.Props.IMM
import Verif.Props.MMAE
import Verif.Props.UKF
import Verif.Props.Cubature
import Verif.Props.FadingKF

/-!
# C144: which filters can be put into a bank
-/

namespace Filterpy

open Matrix Spec

variable {n m l N : ℕ} {p : SigmaPts n}

/-! ### Calls on the banks -/

/-- A call on an `IMMEstimator` of sigma point filters. -/
noncomputable def BankOp.onImm {σ : Type} (c : FilterClass σ n (Option (Vec m)) (Option ℝ)) (s : IMM σ n N) :
    BankOp (Vec m) → Exec (IMM σ n N)
  | .predict dt => s.predict c dt
  | .update z => s.update c (some z)

/-- The same call on an `IMMEstimator` of `KalmanFilter`s: before a prediction every filter's `F` is set to the
transition matrix of the step. -/
noncomputable def BankOp.onImmKf (expf : ℝ → ℝ) (F : Fin N → ℝ → Mat n n) (dt0 : Fin N → ℝ)
    (t : IMM (KF n m l) n N) : BankOp (Vec m) → Exec (IMM (KF n m l) n N)
  | .predict dt =>
    ({ t with filters := fun i => { t.filters i with F := F i (dt.getD (dt0 i)) } } : IMM (KF n m l) n N).predict
      (kfClassZ expf n m l) .none
  | .update z => t.update (kfClassZ expf n m l) (some z)

/-- A call on an `MMAEFilterBank` of sigma point filters, without `H`. -/
noncomputable def BankOp.onMmae {σ : Type}
    (c : FilterClass σ n (Option (Vec m) × MatArg m × Option (Mat m n)) (Option ℝ))
    (s : MMAE σ n N (Option (Vec m)) (Mat m n)) :
    BankOp (Vec m × MatArg m) → Exec (MMAE σ n N (Option (Vec m)) (Mat m n))
  | .predict dt => s.predict c dt
  | .update a => s.update c (some a.1) a.2 none

/-- The same call on an `MMAEFilterBank` of `KalmanFilter`s. -/
noncomputable def BankOp.onMmaeKf (expf : ℝ → ℝ) (F : Fin N → ℝ → Mat n n) (dt0 : Fin N → ℝ)
    (t : MMAE (KF n m l) n N (Option (Vec m)) (Mat m n)) :
    BankOp (Vec m × MatArg m) → Exec (MMAE (KF n m l) n N (Option (Vec m)) (Mat m n))
  | .predict dt =>
    ({ t with filters := fun i => { t.filters i with F := F i (dt.getD (dt0 i)) } } :
      MMAE (KF n m l) n N (Option (Vec m)) (Mat m n)).predict (kfClass expf n m l) .none
  | .update a => t.update (kfClass expf n m l) (some a.1) a.2 none

/-! ### One filter beside its Kalman filter -/

/-- `f` behaves like the Kalman filter `k`: `Rel b f k` is kept by the calls a bank makes, where `b` says that the
last call was a prediction. -/
structure Twin {σ : Type} (expf : ℝ → ℝ) (x : σ → Vec n) (P : σ → Mat n n) (setXP : σ → Vec n → Mat n n → σ)
    (pred : σ → Option ℝ → Exec σ) (upd : σ → Vec m → MatArg m → Exec σ) (lik : σ → ℝ × σ)
    (F : ℝ → Mat n n) (dt0 : ℝ) (R0 : Mat m m) (Rel : Bool → σ → KF n m l → Prop) : Prop where
  x : ∀ {b f k}, Rel b f k → x f = k.x
  P : ∀ {b f k}, Rel b f k → P f = k.P
  pd : ∀ {b f k}, Rel b f k → k.P.PosDef
  set : ∀ {b f k}, Rel b f k → ∀ t v Q, Q.PosDef → Rel false (setXP f v Q) { k with F := F t, x := v, P := Q }
  setF : ∀ {b f k}, Rel b f k → ∀ t, Rel b f { k with F := F t }
  pred : ∀ {b f k}, Rel b f k → ∀ dt, k.F = F (dt.getD dt0) →
    ∃ f' k', pred f dt = .ok f' ∧ k.predict .none = .ok k' ∧ Rel true f' k'
  upd : ∀ {f k}, Rel true f k → ∀ z R, (R.resolve R0).PosDef →
    ∃ f' k', upd f z R = .ok f' ∧ k.update (some z) R = .ok k' ∧ Rel false (lik f').2 (k'.readLik expf).2 ∧
      (lik f').1 = (k'.readLik expf).1

/-! ### `UnscentedKalmanFilter` -/

theorem readLik_of_none {expf : ℝ → ℝ} {u : UKF n m p} {k : KF n m l} (hu : u.lik = none) (hk : k.lik = none)
    (h : u.readLogLik.1 = k.readLogLik.1) : (u.readLik expf).1 = (k.readLik expf).1 := by
  simp only [UKF.readLik, KF.readLik, hu, hk, h]

/-- What relates a linear unscented filter and its Kalman filter in a bank. -/
def UkfRel (F : ℝ → Mat n n) (dt0 : ℝ) (R0 : Mat m m) (b : Bool) (u : UKF n m p) (k : KF n m l) : Prop :=
  UkfInv F dt0 b u k ∧ NoiseOK F k.Q ∧ k.R = R0

theorem UkfInv.setF {F : ℝ → Mat n n} {dt0 : ℝ} {b : Bool} {u : UKF n m p} {k : KF n m l}
    (h : UkfInv F dt0 b u k) (A : Mat n n) : UkfInv F dt0 b u { k with F := A } :=
  ⟨{ h.lin with }, { h.same with }, h.dt, h.pd, h.ready⟩

theorem UkfInv.set {F : ℝ → Mat n n} {dt0 : ℝ} {b : Bool} {u : UKF n m p} {k : KF n m l}
    (h : UkfInv F dt0 b u k) (A : Mat n n) (v : Vec n) (Q : Mat n n) (hQ : Q.PosDef) :
    UkfInv F dt0 false { u with x := v, P := Q } { k with F := A, x := v, P := Q } :=
  ⟨{ h.lin with }, { h.same with x := rfl, P := rfl }, h.dt, hQ, by simp⟩

theorem UkfInv.read {F : ℝ → Mat n n} {dt0 : ℝ} {b : Bool} {u : UKF n m p} {k : KF n m l}
    (h : UkfInv F dt0 b u k) (a a' c c' : Option ℝ) :
    UkfInv F dt0 b { u with logLik := a, lik := c } { k with logLik := a', lik := c' } :=
  ⟨{ h.lin with }, { h.same with }, h.dt, h.pd, h.ready⟩

theorem ukf_readLik_snd (expf : ℝ → ℝ) (u : UKF n m p) :
    ∃ a c, (u.readLik expf).2 = { u with logLik := a, lik := c } := by
  unfold UKF.readLik UKF.readLogLik
  cases hl : u.lik with
  | some v => exact ⟨u.logLik, u.lik, by cases u; rfl⟩
  | none =>
    cases hg : u.logLik with
    | some v => exact ⟨u.logLik, _, by cases u; rfl⟩
    | none => exact ⟨_, _, rfl⟩

theorem kf_readLik_snd (expf : ℝ → ℝ) (u : KF n m l) :
    ∃ a c, (u.readLik expf).2 = { u with logLik := a, lik := c } := by
  unfold KF.readLik KF.readLogLik
  cases hl : u.lik with
  | some v => exact ⟨u.logLik, u.lik, by cases u; rfl⟩
  | none =>
    cases hg : u.logLik with
    | some v => exact ⟨u.logLik, _, by cases u; rfl⟩
    | none => exact ⟨_, _, rfl⟩

theorem ukf_update_lik {u u' : UKF n m p} {z : Vec m} {R : MatArg m} {hx : Option (Vec n → Vec m)}
    (h : u.update (some z) R hx = .ok u') : u'.lik = none := by
  simp only [UKF.update] at h
  generalize u.inv _ = q at h
  cases q with
  | none => cases h
  | some SI => obtain rfl := Except.ok.inj h; rfl

theorem kf_predict_F {k : KF n m l} {A : Mat n n} (h : k.F = A) :
    k.predict .none = k.predict .none none (some A) := by
  simp only [KF.predict, h, Option.getD_none, Option.getD_some]

theorem ukf_twin (hp : ValidPoints p) (expf : ℝ → ℝ) (F : ℝ → Mat n n) (dt0 : ℝ) (R0 : Mat m m) :
    Twin (l := l) expf UKF.x UKF.P (fun (s : UKF n m p) x P => { s with x := x, P := P }) (fun s dt => s.predict dt)
      (fun s z R => s.update (some z) R) (fun s => s.readLik expf) F dt0 R0 (UkfRel F dt0 R0) where
  x h := h.1.same.x
  P h := h.1.same.P
  pd h := h.1.pd
  set h t v Q hQ := ⟨h.1.set (F t) v Q hQ, h.2⟩
  setF h t := ⟨h.1.setF (F t), h.2⟩
  pred := by
    intro b f k h dt hF
    obtain ⟨f', k', h1, h2, h3, h4, h5⟩ := ukf_predict_step hp.encodes h.1 h.2.1 dt
    exact ⟨f', k', h1, (kf_predict_F hF).trans h2, h3, by rw [h5]; exact h.2.1, h4.trans h.2.2⟩
  upd := by
    intro f k h z R hR
    obtain ⟨f', k', h1, h2, h3, h4, h5, h6, h7, -⟩ := ukf_update_step hp.encodes h.1 z R none (by rw [h.2.2]; exact hR)
    have hk : k'.lik = none := by
      obtain ⟨SI, -, rfl⟩ := KF.update_ok h2
      rfl
    obtain ⟨a, c, e1⟩ := ukf_readLik_snd expf f'
    obtain ⟨a', c', e2⟩ := kf_readLik_snd expf k'
    refine ⟨f', k', h1, h2, ?_, readLik_of_none (ukf_update_lik h1) hk h7⟩
    rw [e1, e2]
    exact ⟨h3.read a a' c c', by rw [h5]; exact h.2.1, h4.trans h.2.2⟩

/-! ### `CubatureKalmanFilter` -/

def CkfRel (F : ℝ → Mat n n) (dt0 : ℝ) (R0 : Mat m m) (b : Bool) (u : CKF n m) (k : KF n m l) : Prop :=
  CkfInv F dt0 b u k ∧ k.R = R0

theorem ckf_readLik_snd (expf : ℝ → ℝ) (u : CKF n m) :
    ∃ a c, (u.readLik expf).2 = { u with logLik := a, lik := c } := by
  unfold CKF.readLik CKF.readLogLik
  cases hl : u.lik with
  | some v => exact ⟨u.logLik, u.lik, by cases u; rfl⟩
  | none =>
    cases hg : u.logLik with
    | some v => exact ⟨u.logLik, _, by cases u; rfl⟩
    | none => exact ⟨_, _, rfl⟩

theorem ckf_update_lik {u u' : CKF n m} {z : Vec m} {R : MatArg m} (h : u.update (some (.col z)) R = .ok u') :
    u'.lik = none ∧ u'.logLik = none := by
  simp only [CKF.update] at h
  generalize npInv _ = q at h
  cases q with
  | none => cases h
  | some SI => obtain rfl := Except.ok.inj h; exact ⟨rfl, rfl⟩

/-- The residual of a linear cubature filter. -/
theorem ckf_update_y (hn : 0 < n) {F : ℝ → Mat n n} {dt0 : ℝ} {s : CKF n m} {k : KF n m l}
    (h : CkfInv F dt0 true s k) {s' : CKF n m} {k' : KF n m l} {z : Vec m} {R : MatArg m}
    (hR : (R.resolve k.R).PosDef) (h1 : s.update (some (.col z)) R = .ok s') (h2 : k.update (some z) R = .ok k') :
    s'.y = k'.y := by
  obtain ⟨hm, hcv⟩ := h.ready rfl
  rw [h.same.P] at hcv
  obtain ⟨sh, e1⟩ := ckf_update hn h.lin h.pd.posSemidef hm hcv z R (by rw [h.R]; exact hR)
  obtain ⟨SI, -, rfl⟩ := KF.update_ok h2
  obtain rfl := Except.ok.inj (h1.symm.trans e1)
  show z - k.H *ᵥ s.x = z - _ *ᵥ k.x
  rw [h.same.x]
  rfl

theorem ckf_twin (hn : 0 < n) {chol : Mat n n → Except Err (Mat n n)} (hc : IsCholUpper chol) (expf : ℝ → ℝ)
    (F : ℝ → Mat n n) (hF : ∀ t, (F t).det ≠ 0) (dt0 : ℝ) (R0 : Mat m m) :
    Twin (l := l) expf CKF.x CKF.P (fun (s : CKF n m) x P => { s with x := x, P := P })
      (fun s dt => s.predict chol dt) (fun s z R => s.update (some (.col z)) R) (fun s => s.readLik expf) F dt0 R0
      (CkfRel F dt0 R0) where
  x h := h.1.same.x
  P h := h.1.same.P
  pd h := h.1.pd
  set := by
    rintro b f k ⟨h, hR⟩ t v Q hQ
    exact ⟨⟨⟨h.lin.fx, h.lin.hx, h.lin.resZ⟩, { h.same with x := rfl, P := rfl }, h.Q, h.kQ, h.R, h.alpha, h.inv,
      h.dt, hQ, by simp⟩, hR⟩
  setF := by
    rintro b f k ⟨h, hR⟩ t
    exact ⟨⟨⟨h.lin.fx, h.lin.hx, h.lin.resZ⟩, { h.same with }, h.Q, h.kQ, h.R, h.alpha, h.inv, h.dt, h.pd, h.ready⟩,
      hR⟩
  pred := by
    intro b f k h dt hk
    obtain ⟨f', k', h1, h2, h3, h4⟩ := ckf_predict_step hn hc hF h.1 dt
    exact ⟨f', k', h1, (kf_predict_F hk).trans h2, h3, h4.trans h.2⟩
  upd := by
    intro f k h z R hR
    have hR' : (R.resolve k.R).PosDef := by rw [h.2]; exact hR
    obtain ⟨f', k', h1, h2, h3, h4⟩ := ckf_update_step hn h.1 z R hR' chol
    have hk : k'.lik = none ∧ k'.logLik = none := by
      obtain ⟨SI, -, rfl⟩ := KF.update_ok h2
      exact ⟨rfl, rfl⟩
    have hf := ckf_update_lik h1
    have hy := ckf_update_y hn h.1 hR' h1 h2
    obtain ⟨a, c, e1⟩ := ckf_readLik_snd expf f'
    obtain ⟨a', c', e2⟩ := kf_readLik_snd expf k'
    refine ⟨f', k', h1, h2, ?_, ?_⟩
    · rw [e1, e2]
      exact ⟨⟨⟨h3.lin.fx, h3.lin.hx, h3.lin.resZ⟩, { h3.same with }, h3.Q, h3.kQ, h3.R, h3.alpha, h3.inv, h3.dt, h3.pd,
        h3.ready⟩, h4.trans h.2⟩
    · simp only [CKF.readLik, KF.readLik, CKF.readLogLik, KF.readLogLik, hf.1, hf.2, hk.1, hk.2, hy, h3.same.S]

/-! ### The banks -/

theorem mixCov_pd {w : Vec N} (hw : IsDist w) (x : Fin N → Vec n) {P : Fin N → Mat n n}
    (hP : ∀ i, (P i).PosDef) : (MixCov w x P).PosDef := by
  obtain ⟨i, hi⟩ := IsDist.exists_pos hw
  unfold MixCov
  rw [← Finset.add_sum_erase _ _ (Finset.mem_univ i)]
  have ho : ∀ j, (P j + vecMulVec (x j - MixMean w x) (x j - MixMean w x)).PosDef := fun j => by
    refine PosDef.add_posSemidef (hP j) ?_
    have := posSemidef_vecMulVec_self_star (x j - MixMean w x)
    simpa using this
  exact PosDef.add_posSemidef (PosDef.smul (ho i) hi)
    (Matrix.posSemidef_sum _ fun j _ => PosSemidef.smul (ho j).posSemidef (hw.1 j))

/-- The mode probabilities of a bank that reports the same. -/
theorem ModeInv.of_same {σ τ : Type} {s : IMM σ n N} {t : IMM τ n N} (h : SameIMM s t) (ht : ModeInv t) :
    ModeInv s := by
  constructor
  · rw [h.mu]; exact ht.mu
  · rw [h.mu, h.cbar, h.M]; exact ht.cbar_eq
  · rw [h.cbar]; exact ht.cbar
  · rw [h.cbar]; exact ht.cbar_pos
  · rw [h.omega]; exact ht.omega
  · rw [h.mu, h.cbar, h.omega, h.M]; exact ht.omega_eq

theorem mixX_congr {σ τ ζ υ ζ' υ' : Type} {c : FilterClass σ n ζ υ} {d : FilterClass τ n ζ' υ'} {s : IMM σ n N}
    {t : IMM τ n N} (ho : s.omega = t.omega) (hx : ∀ i, c.x (s.filters i) = d.x (t.filters i)) (i : Fin N) :
    IMM.mixX c s i = IMM.mixX d t i := by
  simp only [IMM.mixX, ho, hx]

theorem mixP_congr {σ τ ζ υ ζ' υ' : Type} {c : FilterClass σ n ζ υ} {d : FilterClass τ n ζ' υ'} {s : IMM σ n N}
    {t : IMM τ n N} (ho : s.omega = t.omega) (hx : ∀ i, c.x (s.filters i) = d.x (t.filters i))
    (hP : ∀ i, c.P (s.filters i) = d.P (t.filters i)) (i : Fin N) : IMM.mixP c s i = IMM.mixP d t i := by
  simp only [IMM.mixP, ho, hx, hP, mixX_congr ho hx i]

/-- A measurement accepted by corresponding filters with the same likelihoods. -/
theorem imm_update_same {σ τ ζ υ ζ' υ' : Type} {c : FilterClass σ n ζ υ} {d : FilterClass τ n ζ' υ'}
    {s : IMM σ n N} {t t' : IMM τ n N} (h : SameIMM s t) {a : ζ} {b : ζ'} {f : Fin N → σ} {g : Fin N → τ}
    (hf : ∀ i, c.update (s.filters i) a = .ok (f i)) (hg : ∀ i, d.update (t.filters i) b = .ok (g i))
    (hL : ∀ i, (c.likelihood (f i)).1 = (d.likelihood (g i)).1)
    (hx : ∀ i, c.x (c.likelihood (f i)).2 = d.x (d.likelihood (g i)).2)
    (hP : ∀ i, c.P (c.likelihood (f i)).2 = d.P (d.likelihood (g i)).2) (ht : t.update d b = .ok t') :
    ∃ s', s.update c a = .ok s' ∧ SameIMM s' t' ∧ (∀ i, s'.filters i = (c.likelihood (f i)).2) ∧
      ∀ i, t'.filters i = (d.likelihood (g i)).2 := by
  have h1 : bankMap (fun _ => c.updLik (fun _ L => L) a) (fun i => (s.filters i, s.likelihood i))
      = .ok fun i => ((c.likelihood (f i)).2, (c.likelihood (f i)).1) :=
    bankMap_ok.2 fun i => updLik_ok.2 ⟨f i, hf i, rfl⟩
  have h2 : bankMap (fun _ => d.updLik (fun _ L => L) b) (fun i => (t.filters i, t.likelihood i))
      = .ok fun i => ((d.likelihood (g i)).2, (d.likelihood (g i)).1) :=
    bankMap_ok.2 fun i => updLik_ok.2 ⟨g i, hg i, rfl⟩
  simp only [IMM.update, h2, IMM.mixing] at ht
  simp only [IMM.update, h1, IMM.mixing, h.cbar, h.M, hL]
  by_cases h0 : ∑ i, t.cbar i * (d.likelihood (g i)).1 = 0
  · rw [if_pos h0] at ht; cases ht
  rw [if_neg h0] at ht ⊢
  by_cases hj : ∃ j, ((fun i => t.cbar i * (d.likelihood (g i)).1 / ∑ i, t.cbar i * (d.likelihood (g i)).1) ᵥ* t.M) j = 0
  · simp only [if_pos hj] at ht; cases ht
  simp only [if_neg hj] at ht ⊢
  obtain rfl := Except.ok.inj ht
  refine ⟨_, rfl, ?_, fun i => rfl, fun i => rfl⟩
  have hp := h.xPrior
  have hq := h.PPrior
  constructor <;> first | rfl | exact h.M | exact hp | exact hq | simp only [IMM.estimate, hx, hP]

/-- One call on the two estimators. -/
theorem imm_twin_step {σ : Type} {expf : ℝ → ℝ} (he : ∀ r, 0 ≤ expf r)
    {c : FilterClass σ n (Option (Vec m)) (Option ℝ)} {upd : σ → Vec m → MatArg m → Exec σ}
    (hu : ∀ s z, c.update s (some z) = upd s z .none) {F : Fin N → ℝ → Mat n n} {dt0 : Fin N → ℝ} {R0 : Fin N → Mat m m}
    (hR : ∀ i, (R0 i).PosDef) {Rel : Fin N → Bool → σ → KF n m l → Prop}
    (tw : ∀ i, Twin expf c.x c.P c.setXP c.predict upd c.likelihood (F i) (dt0 i) (R0 i) (Rel i))
    {s : IMM σ n N} {t : IMM (KF n m l) n N} {b : Bool} (h : SameIMM s t)
    (hr : ∀ i, Rel i b (s.filters i) (t.filters i)) (hM : IsStochastic t.M) (hi : ModeInv t) (hg : Regular t.M t.mu)
    (op : BankOp (Vec m)) :
    match op with
    | .predict dt => ∃ s' t', s.predict c dt = .ok s' ∧ BankOp.onImmKf expf F dt0 t (.predict dt) = .ok t' ∧
        SameIMM s' t' ∧ (∀ i, Rel i true (s'.filters i) (t'.filters i)) ∧ t'.M = t.M ∧ ModeInv t' ∧ Regular t'.M t'.mu
    | .update z => b = true → ∃ s' t', s.update c (some z) = .ok s' ∧
        BankOp.onImmKf expf F dt0 t (.update z) = .ok t' ∧ SameIMM s' t' ∧
        (∀ i, Rel i false (s'.filters i) (t'.filters i)) ∧ t'.M = t.M ∧ ModeInv t' ∧ Regular t'.M t'.mu := by
  cases op with
  | predict dt =>
    simp only [BankOp.onImmKf]
    set t1 : IMM (KF n m l) n N := { t with filters := fun i => { t.filters i with F := F i (dt.getD (dt0 i)) } } with ht1
    have hx (i : Fin N) : c.x (s.filters i) = (kfClassZ expf n m l).x (t1.filters i) := (tw i).x (hr i)
    have hP (i : Fin N) : c.P (s.filters i) = (kfClassZ expf n m l).P (t1.filters i) := (tw i).P (hr i)
    have hX := mixX_congr (s := s) (t := t1) h.omega hx
    have hQ := mixP_congr (s := s) (t := t1) h.omega hx hP
    have hpd (i : Fin N) : (IMM.mixP (kfClassZ expf n m l) t1 i).PosDef := by
      have e : IMM.mixP (kfClassZ expf n m l) t1 i
          = MixCov (fun j => t.omega j i) (fun j => (t.filters j).x) fun j => (t.filters j).P := by
        simp only [IMM.mixP, MixCov]
        exact Finset.sum_congr rfl fun i _ => by rw [add_comm]; rfl
      rw [e]
      exact mixCov_pd (hi.omega i) _ fun j => (tw j).pd (hr j)
    have hset (i : Fin N) := (tw i).pred ((tw i).set (hr i) (dt.getD (dt0 i))
      (IMM.mixX (kfClassZ expf n m l) t1 i) (IMM.mixP (kfClassZ expf n m l) t1 i) (hpd i)) dt rfl
    choose f g h1 h2 h3 using hset
    obtain ⟨x, P, e1, ex, eP⟩ := imm_predict c s dt f (fun i => by rw [hX, hQ]; exact h1 i)
    obtain ⟨x', P', e1', ex', eP'⟩ := imm_predict (kfClassZ expf n m l) t1 .none g (fun i => h2 i)
    have hxx (i : Fin N) : c.x (f i) = (kfClassZ expf n m l).x (g i) := (tw i).x (h3 i)
    have hPP (i : Fin N) : c.P (f i) = (kfClassZ expf n m l).P (g i) := (tw i).P (h3 i)
    have hxe : x = x' := by rw [ex, ex', h.mu]; simp only [hxx]; rfl
    have hPe : P = P' := by rw [eP, eP', h.mu]; simp only [hxx, hPP]; rfl
    refine ⟨_, _, e1, e1', ⟨h.mu, h.M, hxe, hPe, h.likelihood, h.cbar, h.omega, hxe, hPe, h.xPost, h.PPost⟩, h3, rfl,
      ⟨hi.mu, hi.cbar_eq, hi.cbar, hi.cbar_pos, hi.omega, hi.omega_eq⟩, hg⟩
  | update z =>
    intro hb
    subst hb
    have hset (i : Fin N) := (tw i).upd (hr i) z .none (hR i)
    choose f g h1 h2 h3 h4 using hset
    obtain ⟨t', e1, e2, e3, e4, -⟩ := C31_update (kfClassZ expf n m l) (kf_posLik expf he) t hM hi hg (some z) g h2
    obtain ⟨s', g1, g2, g3, g4⟩ := imm_update_same (c := c) h (fun i => (hu _ z).trans (h1 i)) h2 h4
      (fun i => (tw i).x (h3 i)) (fun i => (tw i).P (h3 i)) e1
    refine ⟨s', t', g1, e1, g2, fun i => ?_, e3, e2, e4⟩
    rw [g3, g4]
    exact h3 i

/-- Whole histories. -/
theorem imm_twin_run {σ : Type} {expf : ℝ → ℝ} (he : ∀ r, 0 ≤ expf r)
    {c : FilterClass σ n (Option (Vec m)) (Option ℝ)} {upd : σ → Vec m → MatArg m → Exec σ}
    (hu : ∀ s z, c.update s (some z) = upd s z .none) {F : Fin N → ℝ → Mat n n} {dt0 : Fin N → ℝ} {R0 : Fin N → Mat m m}
    (hR : ∀ i, (R0 i).PosDef) {Rel : Fin N → Bool → σ → KF n m l → Prop}
    (tw : ∀ i, Twin expf c.x c.P c.setXP c.predict upd c.likelihood (F i) (dt0 i) (R0 i) (Rel i))
    (ops : List (BankOp (Vec m))) : ∀ {s : IMM σ n N} {t : IMM (KF n m l) n N} {b : Bool}, SameIMM s t →
    (∀ i, Rel i b (s.filters i) (t.filters i)) → IsStochastic t.M → ModeInv t → Regular t.M t.mu →
    BankOp.Alternating b ops →
    ∃ s' t' b', runList (BankOp.onImm c) s ops = .ok s' ∧ runList (BankOp.onImmKf expf F dt0) t ops = .ok t' ∧
      SameIMM s' t' ∧ ∀ i, Rel i b' (s'.filters i) (t'.filters i) := by
  induction ops with
  | nil => intro s t b h hr _ _ _ _; exact ⟨s, t, b, rfl, rfl, h, hr⟩
  | cons op ops ih =>
    intro s t b h hr hM hi hg ha
    have st := imm_twin_step he hu hR tw h hr hM hi hg op
    cases op with
    | predict dt =>
      obtain ⟨s1, t1, h1, h2, h3, h4, h5, h6, h7⟩ := st
      obtain ⟨s', t', b', g1, g2, g3⟩ := ih h3 h4 (by rw [h5]; exact hM) h6 h7 ha
      refine ⟨s', t', b', ?_, ?_, g3⟩
      · simp only [runList, BankOp.onImm, h1, g1]
      · simp only [runList, h2, g2]
    | update z =>
      obtain ⟨s1, t1, h1, h2, h3, h4, h5, h6, h7⟩ := st ha.1
      obtain ⟨s', t', b', g1, g2, g3⟩ := ih h3 h4 (by rw [h5]; exact hM) h6 h7 ha.2
      refine ⟨s', t', b', ?_, ?_, g3⟩
      · simp only [runList, BankOp.onImm, h1, g1]
      · simp only [runList, h2, g2]

/-! ### `MMAEFilterBank` -/

theorem mmae_predict_ok {σ ζ ρ η υ : Type} {c : FilterClass σ n (ζ × ρ × Option η) υ} {s : MMAE σ n N ζ η} {u : υ}
    {f : Fin N → σ} (h : ∀ i, c.predict (s.filters i) u = .ok (f i)) :
    s.predict c u = .ok { s with filters := f, xPrior := s.x, PPrior := s.P } := by
  have hb : bankMap (fun _ g => c.predict g u) s.filters = .ok f := bankMap_ok.2 h
  simp only [MMAE.predict, hb]

theorem kf_pos_lik {expf : ℝ → ℝ} (he : ∀ r, 0 ≤ expf r) {k k' : KF n m l} {z : Vec m} {R : MatArg m}
    (h : k.update (some z) R = .ok k') : 0 < (k'.readLik expf).1 := by
  have hlik : k'.lik = none := by
    obtain ⟨SI, -, rfl⟩ := KF.update_ok h
    rfl
  simp only [KF.readLik, hlik]
  have hfm : 0 < floatMin := by unfold floatMin; positivity
  by_cases h0 : expf k'.readLogLik.1 = 0
  · rw [if_pos h0]; exact hfm
  · rw [if_neg h0]; exact lt_of_le_of_ne (he _) (Ne.symm h0)

theorem bankP_congr {σ τ ζ ρ η υ ζ' ρ' η' υ' : Type} {c : FilterClass σ n (ζ × ρ × Option η) υ}
    {d : FilterClass τ n (ζ' × ρ' × Option η') υ'} {f : Fin N → σ} {g : Fin N → τ} (hx : ∀ i, c.x (f i) = d.x (g i))
    (hP : ∀ i, c.P (f i) = d.P (g i)) (x : Vec n) (p : Vec N) : MMAE.bankP c x f p = MMAE.bankP d x g p := by
  simp only [MMAE.bankP, hx, hP]

theorem mmae_twin_run {σ : Type} {expf : ℝ → ℝ} (he : ∀ r, 0 ≤ expf r)
    {c : FilterClass σ n (Option (Vec m) × MatArg m × Option (Mat m n)) (Option ℝ)}
    {upd : σ → Vec m → MatArg m → Exec σ} (hu : ∀ s z R, c.update s (some z, R, none) = upd s z R)
    {F : Fin N → ℝ → Mat n n} {dt0 : Fin N → ℝ} {R0 : Fin N → Mat m m}
    {Rel : Fin N → Bool → σ → KF n m l → Prop}
    (tw : ∀ i, Twin expf c.x c.P c.setXP c.predict upd c.likelihood (F i) (dt0 i) (R0 i) (Rel i))
    (ops : List (BankOp (Vec m × MatArg m))) (hR : ∀ a, BankOp.update a ∈ ops → ∀ i, (a.2.resolve (R0 i)).PosDef) :
    ∀ {s : MMAE σ n N (Option (Vec m)) (Mat m n)} {t : MMAE (KF n m l) n N (Option (Vec m)) (Mat m n)} {b : Bool},
    SameMMAE s t → t.H = none → (∀ i, Rel i b (s.filters i) (t.filters i)) → IsDist t.p → BankOp.Alternating b ops →
    ∃ s' t' b', runList (BankOp.onMmae c) s ops = .ok s' ∧ runList (BankOp.onMmaeKf expf F dt0) t ops = .ok t' ∧
      SameMMAE s' t' ∧ ∀ i, Rel i b' (s'.filters i) (t'.filters i) := by
  induction ops with
  | nil => intro s t b h _ hr _ _; exact ⟨s, t, b, rfl, rfl, h, hr⟩
  | cons op ops ih =>
    intro s t b h hH hr hp ha
    have ih := @ih (fun a ho => hR a (by simp [ho]))
    cases op with
    | predict dt =>
      set t1 : MMAE (KF n m l) n N (Option (Vec m)) (Mat m n) :=
        { t with filters := fun i => { t.filters i with F := F i (dt.getD (dt0 i)) } } with ht1
      have hset (i : Fin N) := (tw i).pred ((tw i).setF (hr i) (dt.getD (dt0 i))) dt rfl
      choose f g h1 h2 h3 using hset
      have e1 := mmae_predict_ok (s := s) (c := c) h1
      have e2 := mmae_predict_ok (s := t1) (c := kfClass expf n m l) (u := UArg.none) h2
      obtain ⟨s', t', b', g1, g2, g3⟩ := ih
        (s := { s with filters := f, xPrior := s.x, PPrior := s.P })
        (t := { t1 with filters := g, xPrior := t1.x, PPrior := t1.P })
        ⟨h.p, h.H, h.z, h.x, h.P, h.x, h.P, h.xPost, h.PPost⟩ hH h3 hp ha
      refine ⟨s', t', b', ?_, ?_, g3⟩
      · simp only [runList, BankOp.onMmae, e1, g1]
      · simp only [runList, BankOp.onMmaeKf]
        rw [← ht1, e2]
        exact g2
    | update a =>
      obtain ⟨hb, ha⟩ := ha
      subst hb
      have hset (i : Fin N) := (tw i).upd (hr i) a.1 a.2 (hR a (by simp) i)
      choose f g h1 h2 h3 h4 using hset
      have hs (i : Fin N) : c.update (s.filters i) (some a.1, a.2, (none : Option (Mat m n)).or s.H) = .ok (f i) := by
        rw [h.H, hH]; exact (hu _ _ _).trans (h1 i)
      have ht (i : Fin N) : (kfClass expf n m l).update (t.filters i)
          (some a.1, a.2, (none : Option (Mat m n)).or t.H) = .ok (g i) := by
        rw [hH]; exact h2 i
      have hpos (i : Fin N) : 0 < ((kfClass expf n m l).likelihood (g i)).1 := kf_pos_lik he (h2 i)
      obtain ⟨hsum, hd⟩ := BayesRule.isDist hp hpos
      have hLe : (fun i => (c.likelihood (f i)).1) = fun i => ((kfClass expf n m l).likelihood (g i)).1 := funext h4
      obtain ⟨t1, e2⟩ := mmae_update_exists ht hsum.ne'
      obtain ⟨s1, e1⟩ := mmae_update_exists hs (by rw [h.p]; simp only [h4]; exact hsum.ne')
      obtain ⟨f', hf', -, es⟩ := mmae_update e1
      obtain ⟨g', hg', -, et⟩ := mmae_update e2
      obtain rfl : f' = f := funext fun i => Except.ok.inj ((hf' i).symm.trans (hs i))
      obtain rfl : g' = g := funext fun i => Except.ok.inj ((hg' i).symm.trans (ht i))
      have hx (i : Fin N) : c.x (c.likelihood (f' i)).2
          = (kfClass expf n m l).x ((kfClass expf n m l).likelihood (g' i)).2 := (tw i).x (h3 i)
      have hP (i : Fin N) : c.P (c.likelihood (f' i)).2
          = (kfClass expf n m l).P ((kfClass expf n m l).likelihood (g' i)).2 := (tw i).P (h3 i)
      have hsame : SameMMAE s1 t1 := by
        subst es; subst et
        have hm : MixMean (BayesRule s.p (fun i => (c.likelihood (f' i)).1)) (fun i => c.x (c.likelihood (f' i)).2)
            = MixMean (BayesRule t.p (fun i => ((kfClass expf n m l).likelihood (g' i)).1))
              (fun i => (kfClass expf n m l).x ((kfClass expf n m l).likelihood (g' i)).2) := by
          rw [hLe, h.p]; simp only [hx]
        have hc := bankP_congr (c := c) (d := kfClass expf n m l) hx hP
        constructor
        · simp only [hLe, h.p]
        · exact h.H
        · rfl
        · exact hm
        · simp only [hm]; rw [hc, hLe, h.p]
        · exact h.xPrior
        · exact h.PPrior
        · exact hm
        · simp only [hm]; rw [hc, hLe, h.p]
      obtain ⟨s', t', b', g1, g2, g3⟩ := ih hsame (by rw [et]; exact hH)
        (b := false) (fun i => by rw [es, et]; exact h3 i) (by rw [et]; exact hd) ha
      refine ⟨s', t', b', ?_, ?_, g3⟩
      · simp only [runList, BankOp.onMmae, e1, g1]
      · simp only [runList, BankOp.onMmaeKf, e2, g2]

/-! ### `FadingKalmanFilter` in an `IMMEstimator` -/

/-- The prediction `bank.predict(0)`. -/
noncomputable def immFadingZero (expf : ℝ → ℝ) (n m l : ℕ) : FilterClass (FKF n m l) n (Option (Vec m)) (Option ℝ) :=
  { immFading expf n m l with predict := fun s _ => s.predict (.scalar 0) }

def FadingRel (F0 : Mat n n) (R0 : Mat m m) (_ : Bool) (a : FKF n m l) (k : KF n m l) : Prop :=
  FadingSame a k ∧ k.F = F0 ∧ k.R = R0 ∧ k.Q.PosDef ∧ 0 ≤ k.alphaSq ∧ k.B = none ∧ k.P.PosDef

theorem fkf_readLik_snd (expf : ℝ → ℝ) (u : FKF n m l) :
    ∃ a c, (u.readLik expf).2 = { u with logLik := a, lik := c } := by
  unfold FKF.readLik FKF.readLogLik
  cases hl : u.lik with
  | some v => exact ⟨u.logLik, u.lik, by cases u; rfl⟩
  | none =>
    cases hg : u.logLik with
    | some v => exact ⟨u.logLik, _, by cases u; rfl⟩
    | none => exact ⟨_, _, rfl⟩

theorem fading_twin (expf : ℝ → ℝ) (F0 : Mat n n) (dt0 : ℝ) (R0 : Mat m m) :
    Twin (l := l) expf FKF.x FKF.P (fun (s : FKF n m l) x P => { s with x := x, P := P })
      (fun s _ => s.predict (.scalar 0)) (fun s z R => s.update (some z) R) (fun s => s.readLik expf) (fun _ => F0) dt0
      R0 (FadingRel F0 R0) where
  x h := h.1.x
  P h := h.1.P
  pd h := h.2.2.2.2.2.2
  set := by
    rintro b f k ⟨h, h1, h2, h3, h4, h5, h6⟩ t v Q hQ
    exact ⟨{ h with x := rfl, P := rfl, F := h.F.trans h1 }, rfl, h2, h3, h4, h5, hQ⟩
  setF := by
    rintro b f k ⟨h, h1, h2, h3, h4, h5, h6⟩ t
    exact ⟨{ h with F := h.F.trans h1 }, rfl, h2, h3, h4, h5, h6⟩
  pred := by
    rintro b f k ⟨h, h1, h2, h3, h4, h5, h6⟩ dt -
    have ef : f.predict (.scalar 0) = .ok { f with
        x := F0 *ᵥ k.x + 0, P := k.alphaSq • (F0 * k.P * F0ᵀ) + k.Q, xPrior := F0 *ᵥ k.x + 0
        PPrior := k.alphaSq • (F0 * k.P * F0ᵀ) + k.Q } := by
      simp only [FKF.predict, FKF.control, h.B, h5, h.F, h1, h.x, h.P, h.Q, h.alphaSq]
    have ek : k.predict .none = .ok { k with
        x := F0 *ᵥ k.x, P := k.alphaSq • (F0 * k.P * F0ᵀ) + k.Q, xPrior := F0 *ᵥ k.x
        PPrior := k.alphaSq • (F0 * k.P * F0ᵀ) + k.Q } := by
      simp only [KF.predict, KF.control, h5, h1, MatArg.resolve, Option.or, Option.getD_none]
    refine ⟨_, _, ef, ek, ?_⟩
    refine ⟨{ h with x := add_zero _, P := rfl, xPrior := add_zero _, PPrior := rfl }, h1, h2, h3, h4, h5, ?_⟩
    exact PosDef.posSemidef_add (PosSemidef.smul (PSD.congr h6.posSemidef _) h4) h3
  upd := by
    rintro f k ⟨h, h1, h2, h3, h4, h5, h6⟩ z R hR
    have hR' : (R.resolve k.R).PosDef := by rw [h2]; exact hR
    obtain ⟨k', hk, hpd, -⟩ := C02_bayes_product k z R none h.inv h6 hR'
    have hag := fading_step f k (.update (some z) R) h trivial
    simp only [FadingOp.onFKF, FadingOp.onKF] at hag
    rw [hk] at hag
    obtain ⟨f', hf, hs⟩ := hag.ok_right
    have hkf : k'.lik = none ∧ k'.logLik = none ∧ k'.y = z - k.H *ᵥ k.x ∧ k'.F = k.F ∧ k'.R = k.R ∧ k'.Q = k.Q ∧
        k'.alphaSq = k.alphaSq ∧ k'.B = k.B := by
      obtain ⟨SI, -, rfl⟩ := KF.update_ok hk
      exact ⟨rfl, rfl, rfl, rfl, rfl, rfl, rfl, rfl⟩
    have hff : f'.lik = none ∧ f'.logLik = none ∧ f'.y = z - f.H *ᵥ f.x := by
      simp only [FKF.update] at hf
      generalize npInv _ = q at hf
      cases q with
      | none => cases hf
      | some SI => obtain rfl := Except.ok.inj hf; exact ⟨rfl, rfl, rfl⟩
    have hy : f'.y = k'.y := by rw [hff.2.2, hkf.2.2.1, h.H, h.x]
    obtain ⟨a, c, e1⟩ := fkf_readLik_snd expf f'
    obtain ⟨a', c', e2⟩ := kf_readLik_snd expf k'
    refine ⟨f', k', hf, hk, ?_, ?_⟩
    · rw [e1, e2]
      obtain ⟨-, -, -, g1, g2, g3, g4, g5⟩ := hkf
      refine ⟨{ hs with }, g1.trans h1, g2.trans h2, ?_, ?_, g5.trans h5, hpd⟩
      · show k'.Q.PosDef; rw [g3]; exact h3
      · show 0 ≤ k'.alphaSq; rw [g4]; exact h4
    · simp only [FKF.readLik, KF.readLik, FKF.readLogLik, KF.readLogLik, hff.1, hff.2.1, hkf.1, hkf.2.1, hy, hs.S]

/-! ### The theorems -/

/-- **C144 (construction).** Banks of filters with the same estimates, built with the same probabilities, report the
same, or raise the same exception. -/
theorem C144_imm_init {σ τ ζ υ ζ' υ' : Type} (c : FilterClass σ n ζ υ) (d : FilterClass τ n ζ' υ')
    (shape : Fin N → List ℕ) (f : Fin N → σ) (g : Fin N → τ) (mu : Vec N) (M : Mat N N)
    (hx : ∀ i, c.x (f i) = d.x (g i)) (hP : ∀ i, c.P (f i) = d.P (g i)) :
    (∃ s t, IMM.init c shape f mu M = .ok s ∧ IMM.init d shape g mu M = .ok t ∧ SameIMM s t ∧ s.filters = f ∧
      t.filters = g) ∨
    (∃ e, IMM.init c shape f mu M = .error e ∧ IMM.init d shape g mu M = .error e) := by
  simp only [IMM.init]
  by_cases h1 : N < 2
  · exact .inr ⟨_, if_pos h1, if_pos h1⟩
  by_cases h2 : ∃ i j, shape i ≠ shape j
  · simp only [if_neg h1, if_pos h2]; exact .inr ⟨_, rfl, rfl⟩
  by_cases h3 : ∑ i, mu i = 0
  · simp only [if_neg h1, if_neg h2, if_pos h3]; exact .inr ⟨_, rfl, rfl⟩
  simp only [if_neg h1, if_neg h2, if_neg h3, IMM.mixing]
  by_cases h4 : ∃ j, ((fun i => mu i / ∑ i, mu i) ᵥ* M) j = 0
  · simp only [if_pos h4]; exact .inr ⟨_, rfl, rfl⟩
  simp only [if_neg h4]
  refine .inl ⟨_, _, rfl, rfl, ?_, rfl, rfl⟩
  constructor <;> first | rfl | simp only [IMM.estimate, hx, hP]

/-- **C144 (`UnscentedKalmanFilter` in an `IMMEstimator`).** A bank of linear unscented filters and the bank of the
corresponding Kalman filters report the same mode probabilities, likelihoods and estimates after every history in
which each measurement follows a prediction, and their filters hold the same estimates; no call raises.  `predict(dt)`
on the unscented bank corresponds to assigning every Kalman filter the transition matrix of that step. -/
theorem C144_imm_ukf (hp : ValidPoints p) (expf : ℝ → ℝ) (he : ∀ r, 0 ≤ expf r) (F : Fin N → ℝ → Mat n n)
    (s : IMM (UKF n m p) n N) (t : IMM (KF n m l) n N) (h0 : SameIMM s t)
    (hl : ∀ i, LinearPair (F i) (s.filters i) (t.filters i)) (hs : ∀ i, SameEstimate (s.filters i) (t.filters i))
    (hP : ∀ i, (t.filters i).P.PosDef) (hn : ∀ i, NoiseOK (F i) (t.filters i).Q) (hR : ∀ i, (t.filters i).R.PosDef)
    (hM : IsStochastic t.M) (hi : ModeInv t) (hg : Regular t.M t.mu)
    (ops : List (BankOp (Vec m))) (ha : BankOp.Alternating false ops) :
    ∃ s' t', runList (BankOp.onImm (immUkf expf p m)) s ops = .ok s' ∧
      runList (BankOp.onImmKf expf F fun i => (s.filters i).dt) t ops = .ok t' ∧ SameIMM s' t' ∧
      ∀ i, SameEstimate (s'.filters i) (t'.filters i) := by
  obtain ⟨s', t', b', h1, h2, h3, h4⟩ := imm_twin_run (c := immUkf expf p m) he
    (upd := fun s z R => s.update (some z) R) (fun _ _ => rfl) (F := F) (dt0 := fun i => (s.filters i).dt)
    (R0 := fun i => (t.filters i).R) hR (fun i => ukf_twin hp expf (F i) (s.filters i).dt (t.filters i).R) ops
    (b := false) h0 (fun i => ⟨⟨hl i, hs i, rfl, hP i, by simp⟩, hn i, rfl⟩) hM hi hg ha
  exact ⟨s', t', h1, h2, h3, fun i => (h4 i).1.same⟩

/-- The hypotheses are met by two constant velocity trackers with different process noise and any valid point set,
freshly constructed, in a freshly constructed estimator. -/
example (p : SigmaPts 2) (hp : ValidPoints p) (expf : ℝ → ℝ) (he : ∀ r, 0 ≤ expf r) (z : Vec 1) :
    let F : ℝ → Mat 2 2 := fun t => !![1, t; 0, 1]
    let H : Mat 1 2 := !![1, 0]
    let u : Fin 2 → UKF 2 1 p := fun i =>
      { UKF.fresh 1 p 0.1 (fun v => H *ᵥ v) (fun v t => F t *ᵥ v) with Q := ((i : ℝ) + 1) • (1 : Mat 2 2) }
    ∃ s s', IMM.init (immUkf expf p 1) (fun _ => [2]) u (fun _ => 1) absorbing = .ok s ∧
      runList (BankOp.onImm (immUkf expf p 1)) s [.predict none, .update z, .predict (some 3), .update z] = .ok s' := by
  intro F H u
  let k : Fin 2 → KF 2 1 0 := fun i => { KF.fresh 2 1 0 with H := H, Q := ((i : ℝ) + 1) • (1 : Mat 2 2) }
  obtain ⟨t, ht, hi, hf, hM, -, hr⟩ := C31_init (kfClassZ expf 2 1 0) (fun _ => [2]) k (fun _ => 1)
    absorbing (le_refl 2) (fun _ _ => rfl) (fun _ => zero_le_one) (by simp) absorbing_stoch absorbing_regular
  have hsame := C144_imm_init (immUkf expf p 1) (kfClassZ expf 2 1 0) (fun _ => [2]) u k (fun _ => 1) absorbing
    (fun _ => rfl) (fun _ => rfl)
  rcases hsame with ⟨s, t', h1, h2, h3, h4, h5⟩ | ⟨e, -, h2⟩
  · obtain rfl : t = t' := Except.ok.inj (ht.symm.trans h2)
    have hQ (i : Fin 2) : (((i : ℝ) + 1) • (1 : Mat 2 2)).PosDef := PosDef.one.smul (by positivity)
    obtain ⟨s', -, g, -⟩ := C144_imm_ukf (l := 0) hp expf he (fun _ => F) s t h3
      (by rw [h4, h5]; intro i; constructor <;> first | rfl | (intros; rfl))
      (by rw [h4, h5]; intro i; constructor <;> rfl) (by rw [h5]; intro i; exact PosDef.one)
      (by rw [h5]; intro i; exact Or.inl (hQ i)) (by rw [h5]; intro i; exact PosDef.one)
      (by rw [hM]; exact absorbing_stoch) hi hr [.predict none, .update z, .predict (some 3), .update z]
      (by simp [BankOp.Alternating])
    exact ⟨s, s', h1, g⟩
  · rw [ht] at h2; cases h2

/-- **C144 (`CubatureKalmanFilter` in an `IMMEstimator`, partial).** The same for linear cubature filters without
process noise (with process noise a single cubature filter already differs from the Kalman filter,
`C25_process_noise_refuted`). -/
theorem C144_imm_ckf_partial (hn : 0 < n) (chol : Mat n n → Except Err (Mat n n)) (hc : IsCholUpper chol)
    (expf : ℝ → ℝ) (he : ∀ r, 0 ≤ expf r) (F : Fin N → ℝ → Mat n n) (hF : ∀ i t, (F i t).det ≠ 0)
    (s : IMM (CKF n m) n N) (t : IMM (KF n m l) n N) (h0 : SameIMM s t)
    (hl : ∀ i, LinearCkf (F i) (t.filters i).H (s.filters i)) (hs : ∀ i, CkfSame (s.filters i) (t.filters i))
    (hQ : ∀ i, (s.filters i).Q = 0) (hkQ : ∀ i, (t.filters i).Q = 0) (hRR : ∀ i, (s.filters i).R = (t.filters i).R)
    (ha1 : ∀ i, (t.filters i).alphaSq = 1) (hinv : ∀ i, (t.filters i).inv = npInv)
    (hP : ∀ i, (t.filters i).P.PosDef) (hR : ∀ i, (t.filters i).R.PosDef)
    (hM : IsStochastic t.M) (hi : ModeInv t) (hg : Regular t.M t.mu)
    (ops : List (BankOp (Vec m))) (ha : BankOp.Alternating false ops) :
    ∃ s' t', runList (BankOp.onImm (immCkf expf chol m)) s ops = .ok s' ∧
      runList (BankOp.onImmKf expf F fun i => (s.filters i).dt) t ops = .ok t' ∧ SameIMM s' t' ∧
      ∀ i, CkfSame (s'.filters i) (t'.filters i) := by
  obtain ⟨s', t', b', h1, h2, h3, h4⟩ := imm_twin_run (c := immCkf expf chol m) he
    (upd := fun s z R => s.update (some (.col z)) R) (fun _ _ => rfl) (F := F) (dt0 := fun i => (s.filters i).dt)
    (R0 := fun i => (t.filters i).R) hR
    (fun i => ckf_twin hn hc expf (F i) (hF i) (s.filters i).dt (t.filters i).R) ops (b := false) h0
    (fun i => ⟨⟨hl i, hs i, hQ i, hkQ i, hRR i, ha1 i, hinv i, rfl, hP i, by simp⟩, rfl⟩) hM hi hg ha
  exact ⟨s', t', h1, h2, h3, fun i => (h4 i).1.same⟩

/-- A call on an `IMMEstimator` of fading memory filters. -/
noncomputable def ImmOp.onFading (expf : ℝ → ℝ) (s : IMM (FKF n m l) n N) : ImmOp (Vec m) Unit → Exec (IMM (FKF n m l) n N)
  | .predict _ => s.predict (immFading expf n m l) (.scalar 0)
  | .update z => s.update (immFading expf n m l) (some z)

/-- The same call on an `IMMEstimator` of Kalman filters. -/
noncomputable def ImmOp.onKalman (expf : ℝ → ℝ) (t : IMM (KF n m l) n N) : ImmOp (Vec m) Unit → Exec (IMM (KF n m l) n N)
  | .predict _ => t.predict (kfClassZ expf n m l) .none
  | .update z => t.update (kfClassZ expf n m l) (some z)

/-- **C144 (`FadingKalmanFilter` in an `IMMEstimator`, partial).** With `bank.predict(0)` a bank of fading memory
filters without control input reports, after every history of predictions and measurements, what the bank of Kalman
filters with the same `alpha` reports.  Missing: `bank.predict()`, see `C144_imm_others_refuted`. -/
theorem C144_imm_fading_partial (expf : ℝ → ℝ) (he : ∀ r, 0 ≤ expf r) (s : IMM (FKF n m l) n N)
    (t : IMM (KF n m l) n N) (h0 : SameIMM s t) (hs : ∀ i, FadingSame (s.filters i) (t.filters i))
    (hB : ∀ i, (t.filters i).B = none) (hP : ∀ i, (t.filters i).P.PosDef) (hQ : ∀ i, (t.filters i).Q.PosDef)
    (hR : ∀ i, (t.filters i).R.PosDef) (hal : ∀ i, 0 ≤ (t.filters i).alphaSq) (hM : IsStochastic t.M) (hi : ModeInv t)
    (hg : Regular t.M t.mu) (ops : List (ImmOp (Vec m) Unit)) :
    ∃ s' t', runList (ImmOp.onFading expf) s ops = .ok s' ∧ runList (ImmOp.onKalman expf) t ops = .ok t' ∧
      SameIMM s' t' ∧ ∀ i, FadingSame (s'.filters i) (t'.filters i) := by
  have main : ∀ (ops : List (ImmOp (Vec m) Unit)) (F0 : Fin N → Mat n n) (R0 : Fin N → Mat m m) (s : IMM (FKF n m l) n N)
      (t : IMM (KF n m l) n N), (∀ i, (R0 i).PosDef) → SameIMM s t →
      (∀ i, FadingRel (F0 i) (R0 i) true (s.filters i) (t.filters i)) → IsStochastic t.M → ModeInv t →
      Regular t.M t.mu → ∃ s' t', runList (ImmOp.onFading expf) s ops = .ok s' ∧
        runList (ImmOp.onKalman expf) t ops = .ok t' ∧ SameIMM s' t' ∧
        ∀ i, FadingSame (s'.filters i) (t'.filters i) := by
    intro ops F0 R0
    induction ops with
    | nil => intro s t _ h hr _ _ _; exact ⟨s, t, rfl, rfl, h, fun i => (hr i).1⟩
    | cons op ops ih =>
      intro s t hR h hr hM hi hg
      have st := imm_twin_step (c := immFadingZero expf n m l) he (upd := fun s z R => s.update (some z) R)
        (fun _ _ => rfl) (F := fun i _ => F0 i) (dt0 := fun _ => 0) hR
        (fun i => fading_twin expf (F0 i) 0 (R0 i)) h hr hM hi hg
      cases op with
      | predict u =>
        obtain ⟨s1, t1, h1, h2, h3, h4, h5, h6, h7⟩ := st (.predict none)
        obtain ⟨s', t', g1, g2, g3⟩ := ih s1 t1 hR h3 h4 (by rw [h5]; exact hM) h6 h7
        have e : ({ t with filters := fun i => { t.filters i with F := F0 i } } : IMM (KF n m l) n N) = t := by
          have : (fun i => { t.filters i with F := F0 i }) = t.filters := by
            funext i
            rw [← (hr i).2.1]
          rw [this]
        simp only [BankOp.onImmKf] at h2
        rw [e] at h2
        have h1' : s.predict (immFading expf n m l) (.scalar 0) = .ok s1 := h1
        exact ⟨s', t', by simp only [runList, ImmOp.onFading, h1', g1], by simp only [runList, ImmOp.onKalman, h2, g2],
          g3⟩
      | update z =>
        obtain ⟨s1, t1, h1, h2, h3, h4, h5, h6, h7⟩ := st (.update z) rfl
        obtain ⟨s', t', g1, g2, g3⟩ := ih s1 t1 hR h3 h4 (by rw [h5]; exact hM) h6 h7
        have h1' : s.update (immFading expf n m l) (some z) = .ok s1 := h1
        simp only [BankOp.onImmKf] at h2
        exact ⟨s', t', by simp only [runList, ImmOp.onFading, h1', g1], by simp only [runList, ImmOp.onKalman, h2, g2],
          g3⟩
  exact main ops (fun i => (t.filters i).F) (fun i => (t.filters i).R) s t hR h0
    (fun i => ⟨hs i, rfl, rfl, hQ i, hal i, hB i, hP i⟩) hM hi hg

/-- **C144 (`UnscentedKalmanFilter` in an `MMAEFilterBank`, partial).** A bank without `H` of linear unscented filters,
whose `predict` is given the time step as `u`, reports what the bank of the corresponding Kalman filters reports,
after every history in which each measurement follows a prediction.  Missing: `bank.predict()` and `H`, see
`C144_mmae_step_refuted`, `C144_mmae_matrix_refuted`. -/
theorem C144_mmae_ukf_partial (hp : ValidPoints p) (expf : ℝ → ℝ) (he : ∀ r, 0 ≤ expf r) (F : Fin N → ℝ → Mat n n)
    (s : MMAE (UKF n m p) n N (Option (Vec m)) (Mat m n)) (t : MMAE (KF n m l) n N (Option (Vec m)) (Mat m n))
    (h0 : SameMMAE s t) (hH : t.H = none) (hl : ∀ i, LinearPair (F i) (s.filters i) (t.filters i))
    (hs : ∀ i, SameEstimate (s.filters i) (t.filters i)) (hP : ∀ i, (t.filters i).P.PosDef)
    (hn : ∀ i, NoiseOK (F i) (t.filters i).Q) (hd : IsDist t.p) (ops : List (BankOp (Vec m × MatArg m)))
    (hR : ∀ a, BankOp.update a ∈ ops → ∀ i, (a.2.resolve (t.filters i).R).PosDef)
    (ha : BankOp.Alternating false ops) :
    ∃ s' t', runList (BankOp.onMmae (mmaeUkf expf p m)) s ops = .ok s' ∧
      runList (BankOp.onMmaeKf expf F fun i => (s.filters i).dt) t ops = .ok t' ∧ SameMMAE s' t' ∧
      ∀ i, SameEstimate (s'.filters i) (t'.filters i) := by
  obtain ⟨s', t', b', h1, h2, h3, h4⟩ := mmae_twin_run (c := mmaeUkf expf p m) he
    (upd := fun s z R => s.update (some z) R) (fun _ _ _ => rfl) (F := F) (dt0 := fun i => (s.filters i).dt)
    (R0 := fun i => (t.filters i).R) (fun i => ukf_twin hp expf (F i) (s.filters i).dt (t.filters i).R) ops hR
    (b := false) h0 hH (fun i => ⟨⟨hl i, hs i, rfl, hP i, by simp⟩, hn i, rfl⟩) hd ha
  exact ⟨s', t', h1, h2, h3, fun i => (h4 i).1.same⟩

/-! ### What does not work -/

/-- The first filter's exception ends the call. -/
theorem bank_first_error {σ : Type} {N : ℕ} {g : Fin (N + 1) → σ → Exec σ} {fs : Fin (N + 1) → σ} {e : Err} {f : σ}
    (h : g 0 (fs 0) = .error (e, f)) : bankMap g fs = .error (e, Function.update fs 0 f) := by
  simp only [bankMap, List.finRange_succ, runList, bankStep, h]

/-- The call raises the exception. -/
def Raises {σ : Type} (a : Exec σ) (e : Err) : Prop := ∃ s, a = .error (e, s)

theorem imm_predict_raises {σ ζ υ : Type} {c : FilterClass σ n ζ υ} {s : IMM σ n (N + 1)} {u : υ} {e : Err}
    (h : ∀ f, Raises (c.predict f u) e) : Raises (s.predict c u) e := by
  obtain ⟨f, hf⟩ := h (c.setXP (s.filters 0) (IMM.mixX c s 0) (IMM.mixP c s 0))
  have hb := bank_first_error (g := fun i f => c.predict (c.setXP f (IMM.mixX c s i) (IMM.mixP c s i)) u)
    (fs := s.filters) hf
  simp only [IMM.predict, hb]
  exact ⟨_, rfl⟩

theorem imm_update_raises {σ ζ υ : Type} {c : FilterClass σ n ζ υ} {s : IMM σ n (N + 1)} {z : ζ} {e : Err}
    (h : Raises (c.update (s.filters 0) z) e) : Raises (s.update c z) e := by
  obtain ⟨f, hf⟩ := h
  have hb := bank_first_error (g := fun _ => c.updLik (fun _ L => L) z)
    (fs := fun i => (s.filters i, s.likelihood i)) (e := e) (f := (f, s.likelihood 0))
    (by simp only [FilterClass.updLik, hf])
  simp only [IMM.update, hb]
  exact ⟨_, rfl⟩

theorem mmae_predict_raises {σ ζ ρ η υ : Type} {c : FilterClass σ n (ζ × ρ × Option η) υ}
    {s : MMAE σ n (N + 1) ζ η} {u : υ} {e : Err} (h : ∀ f, Raises (c.predict f u) e) : Raises (s.predict c u) e := by
  obtain ⟨f, hf⟩ := h (s.filters 0)
  have hb := bank_first_error (g := fun _ f => c.predict f u) (fs := s.filters) hf
  simp only [MMAE.predict, hb]
  exact ⟨_, rfl⟩

theorem mmae_update_raises {σ ζ ρ η υ : Type} {c : FilterClass σ n (ζ × ρ × Option η) υ}
    {s : MMAE σ n (N + 1) ζ η} {z : ζ} {R : ρ} {H : Option η} {e : Err}
    (h : Raises (c.update (s.filters 0) (z, R, H.or s.H)) e) :
    Raises (s.update c z R H) e ∧ ∃ s', s.update c z R H = .error (e, s') ∧ s'.p = s.p ∧ s'.x = s.x ∧ s'.P = s.P := by
  obtain ⟨f, hf⟩ := h
  have hb := bank_first_error (g := fun _ => c.updLik (fun p L => p * L) (z, R, H.or s.H))
    (fs := fun i => (s.filters i, s.p i)) (e := e) (f := (f, s.p 0))
    (by simp only [FilterClass.updLik, hf])
  simp only [MMAE.update, hb]
  refine ⟨⟨_, rfl⟩, _, rfl, ?_, rfl, rfl⟩
  funext i
  by_cases hi : i = 0
  · subst hi; simp
  · simp [Function.update_of_ne hi]

theorem fkf_control_none (B : Option (Mat n l)) : FKF.control B .none = .error .typeError := by
  cases B <;> rfl

theorem hinf_control_none (B : Option (Mat n l)) : HInf.control B .none = .error .typeError := by
  cases B <;> rfl

/-- **C144 refuted (`IMMEstimator`).** `bank.predict()` passes `u=None`, which no class but `KalmanFilter` and the
sigma point filters accepts, and the measurement update fails for the classes without `likelihood` and for
`ExtendedKalmanFilter`. -/
theorem C144_imm_others_refuted (expf : ℝ → ℝ) :
    (∀ s : IMM (FKF n m l) n (N + 1), Raises (s.predict (immFading expf n m l) .none) .typeError) ∧
    (∀ s : IMM (EKF n m l) n (N + 1), Raises (s.predict (immEkf expf n m l) .none) .typeError ∧
      ∀ z, Raises (s.update (immEkf expf n m l) z) .typeError) ∧
    (∀ (s : IMM (IF n m l) n (N + 1)) u, Raises (s.predict (immInfo expf n m l) u) .attributeError) ∧
    (∀ (L : SqrtLib n m) (s : IMM (SRKF n m l) n (N + 1)), Raises (s.predict (immSqrt L l) .none) .typeError ∧
      ∀ z, Raises (s.update (immSqrt L l) z) .attributeError) ∧
    (∀ {k : ℕ} (e : Mat k m) (s : IMM (EnKF n m k) n (N + 1)),
      (∀ u, Raises (s.predict (immEnKF e n l) u) .typeError) ∧
      ∀ z f, (s.filters 0).update z .none e = .ok f → Raises (s.update (immEnKF e n l) z) .attributeError) ∧
    (∀ s : IMM (HInf n m l) n (N + 1), Raises (s.predict (immHInf n m l) .none) .typeError ∧
      ∀ z f, (s.filters 0).update z = .ok f → Raises (s.update (immHInf n m l) z) .attributeError) := by
  refine ⟨fun s => imm_predict_raises fun f => ?_, fun s => ⟨imm_predict_raises fun f => ?_, fun z =>
    imm_update_raises ⟨_, rfl⟩⟩, fun s u => imm_predict_raises fun f => ⟨_, rfl⟩, fun L s =>
    ⟨imm_predict_raises fun f => ?_, fun z => imm_update_raises ⟨_, rfl⟩⟩, fun e s => ⟨fun u =>
    imm_predict_raises fun f => ⟨_, rfl⟩, fun z f hf => imm_update_raises ?_⟩, fun s =>
    ⟨imm_predict_raises fun f => ?_, fun z f hf => imm_update_raises ?_⟩⟩
  · exact ⟨f, by simp only [immFading, FKF.predict, fkf_control_none]⟩
  · exact ⟨f, by simp only [immEkf, EKF.predict, fkf_control_none]⟩
  · exact ⟨f, by simp only [immSqrt, SRKF.predict, fkf_control_none]⟩
  · exact ⟨f, by simp only [immEnKF, hf]⟩
  · exact ⟨f, by simp only [immHInf, HInf.predict, hinf_control_none]⟩
  · exact ⟨f, by simp only [immHInf, hf]⟩

/-- **C144 refuted (`MMAEFilterBank`).** No class but `KalmanFilter` and `UnscentedKalmanFilter` can take a
measurement in this bank: `update(z, R, H)` has too many arguments for it, or the arguments mean something else.  The
probabilities and the estimate stay as they were. -/
theorem C144_mmae_others_refuted (expf : ℝ → ℝ) (z : Vec m) (R : MatArg m) (H : Option (Mat m n)) :
    (∀ s : MMAE (FKF n m l) n (N + 1) (Option (Vec m)) (Mat m n),
      Raises (s.update (mmaeFading expf n m l) (some z) R H) .typeError) ∧
    (∀ s : MMAE (EKF n m l) n (N + 1) (Option (Vec m)) (Mat m n),
      Raises (s.update (mmaeEkf expf n m l) (some z) R H) .typeError) ∧
    (∀ s : MMAE (IF n m l) n (N + 1) (Option (Vec m)) (Mat m n),
      Raises (s.update (mmaeInfo n m l) (some z) R H) .typeError) ∧
    (∀ (L : SqrtLib n m) (s : MMAE (SRKF n m l) n (N + 1) (Option (Vec m)) (Mat m n)),
      Raises (s.update (mmaeSqrt L l) (some z) R H) .typeError) ∧
    (∀ (k : ℕ) (s : MMAE (EnKF n m k) n (N + 1) (Option (Vec m)) (Mat m n)),
      (∀ u, Raises (s.predict (mmaeEnKF n m k l) u) .typeError) ∧
      Raises (s.update (mmaeEnKF n m k l) (some z) R H) .typeError) ∧
    (∀ s : MMAE (HInf n m l) n (N + 1) (Option (Vec m)) (Mat m n),
      Raises (s.update (mmaeHInf n m l) (some z) R H) .typeError) ∧
    (∀ (chol : Mat n n → Except Err (Mat n n)) (s : MMAE (CKF n m) n (N + 1) (Option (Vec m)) (Mat m n)),
      Raises (s.update (mmaeCkf expf chol m) (some z) R H) .typeError) :=
  ⟨fun _ => (mmae_update_raises ⟨_, rfl⟩).1, fun _ => (mmae_update_raises ⟨_, rfl⟩).1,
    fun _ => (mmae_update_raises ⟨_, rfl⟩).1, fun _ _ => (mmae_update_raises ⟨_, rfl⟩).1,
    fun _ _ => ⟨fun _ => mmae_predict_raises fun _ => ⟨_, rfl⟩, (mmae_update_raises ⟨_, rfl⟩).1⟩,
    fun _ => (mmae_update_raises ⟨_, rfl⟩).1, fun _ _ => (mmae_update_raises ⟨_, rfl⟩).1⟩

/-- **C144 refuted (`MMAEFilterBank` with `H`).** A measurement matrix, given to the bank or to the call, makes every
bank of unscented filters raise `TypeError`: it is taken for the unscented transform. -/
theorem C144_mmae_matrix_refuted (expf : ℝ → ℝ) (s : MMAE (UKF n m p) n (N + 1) (Option (Vec m)) (Mat m n)) (z : Vec m)
    (R : MatArg m) (H : Option (Mat m n)) (h : H ≠ none ∨ s.H ≠ none) :
    Raises (s.update (mmaeUkf expf p m) (some z) R H) .typeError := by
  refine (mmae_update_raises ?_).1
  have : ∃ A, H.or s.H = some A := by
    cases H with
    | some A => exact ⟨A, rfl⟩
    | none =>
      cases hs : s.H with
      | some A => exact ⟨A, rfl⟩
      | none => simp [hs] at h
  obtain ⟨A, hA⟩ := this
  rw [hA]
  exact ⟨_, rfl⟩

/-- **C144 refuted (`MMAEFilterBank.predict()`).** `bank.predict()` passes the default `u = 0`, which unscented filters
take for a time step of length zero: a filter that doubles its state in one step predicts `2` by itself, and `1` in
the bank. -/
theorem C144_mmae_step_refuted {p : SigmaPts 1} (hp : ValidPoints p) (expf : ℝ → ℝ) :
    ∃ (s s' : MMAE (UKF 1 1 p) 1 1 (Option (Vec 1)) (Mat 1 1)) (f : UKF 1 1 p),
      s.predict (mmaeUkf expf p 1) (some 0) = .ok s' ∧ (s.filters 0).predict = .ok f ∧ f.x 0 = 2 ∧
      (s'.filters 0).x 0 = 1 := by
  let F : ℝ → Mat 1 1 := fun t => fun _ _ => 1 + t
  let u : UKF 1 1 p := { UKF.fresh 1 p 1 (fun v => (1 : Mat 1 1) *ᵥ v) (fun v t => F t *ᵥ v) with x := 1 }
  let k (t : ℝ) : KF 1 1 0 := { KF.fresh 1 1 0 with H := 1, F := F t, x := 1 }
  have hrel (t : ℝ) : UkfRel F 1 1 false u (k t) := by
    refine ⟨⟨?_, ?_, rfl, PosDef.one, by simp⟩, Or.inl PosDef.one, rfl⟩
    · constructor <;> first | rfl | (intros; rfl)
    · constructor <;> first | rfl
  have tw := ukf_twin (l := 0) hp expf F 1 (1 : Mat 1 1)
  obtain ⟨f, k1, h1, h2, h3⟩ := tw.pred (hrel 1) none rfl
  obtain ⟨g, k2, g1, g2, g3⟩ := tw.pred (hrel 0) (some 0) rfl
  let s : MMAE (UKF 1 1 p) 1 1 (Option (Vec 1)) (Mat 1 1) :=
    { filters := fun _ => u, p := fun _ => 1, H := none, z := none, x := 1, P := 1, xPrior := 1, PPrior := 1, xPost := 1
      PPost := 1 }
  refine ⟨s, _, f, mmae_predict_ok (s := s) (f := fun _ => g) fun _ => g1, h1, ?_, ?_⟩
  · rw [tw.x h3]
    obtain rfl := Except.ok.inj h2
    show (F 1 *ᵥ (1 : Vec 1)) 0 = 2
    simp [F, mulVec, dotProduct]
    norm_num
  · show g.x 0 = 1
    rw [tw.x g3]
    obtain rfl := Except.ok.inj g2
    show (F 0 *ᵥ (1 : Vec 1)) 0 = 1
    simp [F, mulVec, dotProduct]

/-- **C144 refuted (missing measurements).** `bank.update(None)` after `bank.update(z)` gives a bank of unscented
filters the likelihoods of `z` a second time: the mode probabilities become Bayes' rule applied to the predicted ones
and these likelihoods, although nothing was measured. -/
theorem C144_imm_missing_refuted (expf : ℝ → ℝ) (he : ∀ r, 0 ≤ expf r) (s s1 : IMM (UKF n m p) n N) (z : Vec m)
    (hM : IsStochastic s.M) (hi : ModeInv s) (hg : Regular s.M s.mu)
    (h1 : s.update (immUkf expf p m) (some z) = .ok s1) :
    ∃ s2, s1.update (immUkf expf p m) none = .ok s2 ∧ s2.likelihood = s1.likelihood ∧
      s2.mu = BayesRule s1.cbar s1.likelihood := by
  obtain ⟨f, hf⟩ := imm_update_filters _ h1
  have hpos : ∀ i, 0 < ((immUkf expf p m).likelihood (f i)).1 := by
    intro i
    simp only [immUkf, UKF.readLik, ukf_update_lik (hf i)]
    split_ifs with h
    · simp only [floatMin]; positivity
    · exact lt_of_le_of_ne (he _) (Ne.symm h)
  obtain ⟨s1', g1, gi, gM, gr, -, gl, gf, -⟩ := imm_update_of_pos (immUkf expf p m) s hM hi hg (some z) f hf hpos
  obtain rfl := Except.ok.inj (h1.symm.trans g1)
  have hl (i) : (s1.filters i).lik = some (s1.likelihood i) := by
    rw [gf, gl]
    simp only [immUkf, UKF.readLik, ukf_update_lik (hf i)]
  let g : Fin N → UKF n m p := fun i =>
    { s1.filters i with z := fun _ => none, xPost := (s1.filters i).x, PPost := (s1.filters i).P }
  have hgl (i) : ((immUkf expf p m).likelihood (g i)).1 = s1.likelihood i := by
    simp only [immUkf, UKF.readLik, g, hl i]
  obtain ⟨s2, k1, -, -, -, k2, k3, -⟩ := imm_update_of_pos (immUkf expf p m) s1 (by rw [gM]; exact hM) gi gr none g
    (fun i => rfl) fun i => by rw [hgl, gl]; exact hpos i
  have e : (fun i => ((immUkf expf p m).likelihood (g i)).1) = s1.likelihood := funext hgl
  exact ⟨s2, k1, by funext i; rw [k3, hgl], by rw [k2, e]⟩

end Filterpy
