import Verif.Lemmas.Kalman

/-!
# KalmanFilter: C04, C05, C06, C07, C08, C09, C18 (alpha), C20
-/

namespace Filterpy

open Matrix KF

variable {n m l : ℕ}

/-! ## Two-dimensional constant velocity filter, used as the concrete case below -/

/-- A concrete constant-velocity filter: `F = [[1,1],[0,1]]`, `H = [1,0]`, identity noises. -/
noncomputable def cvKF : KF 2 1 1 :=
  { KF.fresh 2 1 1 with F := !![1, 1; 0, 1], H := !![1, 0], B := some !![0; 1] }

/-! ## C20: the constructor -/

/-- **C20.** Construction raises `ValueError` exactly for `dim_x < 1`, `dim_z < 1` or
`dim_u < 0`. -/
theorem C20_init_raises_iff (dimX dimZ dimU : ℤ) :
    KF.init dimX dimZ dimU = .error .valueError ↔ (dimX < 1 ∨ dimZ < 1 ∨ dimU < 0) := by
  unfold KF.init
  split_ifs <;> simp <;> omega

/-- **C20.** Every other construction succeeds, with objects of the requested size and the
documented initial attribute values. -/
theorem C20_init_ok (dimX dimZ dimU : ℤ) (hx : 1 ≤ dimX) (hz : 1 ≤ dimZ) (hu : 0 ≤ dimU) :
    ∃ s : Sized, KF.init dimX dimZ dimU = .ok s ∧
      (s.n : ℤ) = dimX ∧ (s.m : ℤ) = dimZ ∧ (s.l : ℤ) = dimU ∧
      s.kf.x = 0 ∧ s.kf.P = 1 ∧ s.kf.Q = 1 ∧ s.kf.F = 1 ∧ s.kf.H = 0 ∧ s.kf.R = 1 ∧
      s.kf.B = none ∧ s.kf.alpha = 1 ∧ s.kf.M = 0 ∧ s.kf.K = 0 ∧ s.kf.y = 0 ∧
      (∀ i, s.kf.z i = none) ∧
      s.kf.xPrior = s.kf.x ∧ s.kf.PPrior = s.kf.P ∧ s.kf.xPost = s.kf.x ∧
      s.kf.PPost = s.kf.P := by
  refine ⟨⟨dimX.toNat, dimZ.toNat, dimU.toNat, KF.fresh _ _ _⟩, ?_, by simp; omega, by simp; omega,
    by simp; omega, rfl, rfl, rfl, rfl, rfl, rfl, rfl, ?_, rfl, rfl, rfl, fun _ => rfl, rfl, rfl,
    rfl, rfl⟩
  · unfold KF.init
    rw [if_neg (by omega), if_neg (by omega), if_neg (by omega)]
  · simp [KF.alpha, KF.fresh]

example : ∃ s, KF.init 4 2 0 = .ok s ∧ s.n = 4 := by
  obtain ⟨s, h, h4, _⟩ := C20_init_ok 4 2 0 (by norm_num) (by norm_num) (by norm_num)
  exact ⟨s, h, by omega⟩

/-! ## C18: the `alpha` property -/

/-- **C18.** Setting `alpha` below 1 raises `ValueError` and leaves the object as it was;
any other value is accepted, can be read back, and changes nothing but `alpha`. -/
theorem C18_setAlpha (s : KF n m l) (v : ℝ) :
    (v < 1 → s.setAlpha v = .error (.valueError, s)) ∧
    (1 ≤ v → ∃ s', s.setAlpha v = .ok s' ∧ s'.alpha = v ∧
      s' = { s with alphaSq := s'.alphaSq }) := by
  refine ⟨fun h => by simp [setAlpha, h], fun h => ⟨{ s with alphaSq := v ^ 2 }, ?_, ?_, rfl⟩⟩
  · simp [setAlpha, not_lt.2 h]
  · simp only [alpha]
    rw [← Real.rpow_natCast, ← Real.rpow_mul (by linarith)]
    norm_num

/-- **C18.** `predict` multiplies the propagated covariance by `alpha²` before adding `Q`. -/
theorem C18_predict_scales (s s' s'' : KF n m l) (v : ℝ) (u : UArg l) (B F Q)
    (h1 : s.setAlpha v = .ok s') (h2 : s'.predict u B F Q = .ok s'') :
    s''.P = (v ^ 2) • ((F.getD s.F) * s.P * (F.getD s.F)ᵀ) + Q.resolve s.Q := by
  obtain ⟨_, rfl⟩ := setAlpha_ok h1
  obtain ⟨x, rfl⟩ := predict_ok h2
  rfl

example : ∃ s', cvKF.setAlpha 1.02 = .ok s' ∧ s'.alpha = 1.02 := by
  obtain ⟨s', h, h', _⟩ := (C18_setAlpha cvKF 1.02).2 (by norm_num)
  exact ⟨s', h, h'⟩

/-! ## C04: covariances stay positive semidefinite -/

/-- A noise argument is acceptable: absent, a nonnegative scalar or a PSD matrix. -/
def PSDArg {k : ℕ} : MatArg k → Prop
  | .none => True
  | .scalar c => 0 ≤ c
  | .mat A => A.PosSemidef

/-- The calls C04 ranges over, with positive semidefinite noise arguments. -/
def GoodOp : KFOp n m l → Prop
  | .predict _ _ _ Q => PSDArg Q
  | .update _ R _ => PSDArg R
  | .updateSequential _ _ _ Ri _ => PSDArg Ri
  | .updateCorrelated .. => False
  | _ => True

theorem PSDArg.resolve {k : ℕ} {a : MatArg k} (h : PSDArg a) {D : Mat k k} (hD : D.PosSemidef) :
    (a.resolve D).PosSemidef := by
  cases a with
  | none => exact hD
  | scalar c => exact PosSemidef.one.smul h
  | mat A => exact h

/-- The invariant of C04. -/
structure PSDState (s : KF n m l) : Prop where
  P : s.P.PosSemidef
  PPrior : s.PPrior.PosSemidef
  PPost : s.PPost.PosSemidef
  Q : s.Q.PosSemidef
  R : s.R.PosSemidef
  alpha : 0 ≤ s.alphaSq

theorem PSDState.step {s : KF n m l} (hs : PSDState s) (expf : ℝ → ℝ) {op : KFOp n m l}
    (ho : GoodOp op) : PSDState (s.step expf op).left := by
  cases op with
  | predict u B F Q =>
    simp only [KF.step]
    cases h : s.predict u B F Q with
    | error e => rw [Exec.left, predict_err h]; exact hs
    | ok s' =>
      obtain ⟨x, rfl⟩ := predict_ok h
      have := ((PSD.congr hs.P (F.getD s.F)).smul hs.alpha).add (PSDArg.resolve ho hs.Q)
      exact ⟨this, this, hs.PPost, hs.Q, hs.R, hs.alpha⟩
  | update z R H =>
    simp only [KF.step]
    cases h : s.update z R H with
    | error e =>
      obtain ⟨y, S, rfl⟩ := update_err h
      exact ⟨hs.P, hs.PPrior, hs.PPost, hs.Q, hs.R, hs.alpha⟩
    | ok s' =>
      cases z with
      | none =>
        simp only [KF.update, Except.ok.injEq] at h
        rw [← h]
        exact ⟨hs.P, hs.PPrior, hs.P, hs.Q, hs.R, hs.alpha⟩
      | some z =>
        obtain ⟨SI, _, rfl⟩ := update_ok h
        have := joseph_psd (H := H.getD s.H) hs.P (PSDArg.resolve ho hs.R)
          (s.P * (H.getD s.H)ᵀ * SI)
        exact ⟨this, hs.PPrior, this, hs.Q, hs.R, hs.alpha⟩
  | updateSequential start len zi Ri Hi =>
    simp only [KF.step]
    cases h : s.updateSequential start zi Ri Hi with
    | error e =>
      obtain ⟨y, he⟩ := updateSequential_err h
      rw [Exec.left, he]
      exact ⟨hs.P, hs.PPrior, hs.PPost, hs.Q, hs.R, hs.alpha⟩
    | ok s' =>
      obtain ⟨hb, Ki, _, _, rfl⟩ := updateSequential_ok h
      have := joseph_psd (H := Hi.getD (s.H.submatrix (sliceIdx hb) id)) hs.P
        (PSDArg.resolve ho (hs.R.submatrix (sliceIdx hb))) Ki
      exact ⟨this, hs.PPrior, this, hs.Q, hs.R, hs.alpha⟩
  | predictSteadystate u B =>
    simp only [KF.step]
    cases h : s.predictSteadystate u B with
    | error e => rw [Exec.left, predictSteadystate_err h]; exact hs
    | ok s' =>
      obtain ⟨x, rfl⟩ := predictSteadystate_ok h
      exact ⟨hs.P, hs.P, hs.PPost, hs.Q, hs.R, hs.alpha⟩
  | updateSteadystate z =>
    cases z <;> exact ⟨hs.P, hs.PPrior, hs.P, hs.Q, hs.R, hs.alpha⟩
  | updateCorrelated z R H => exact ho.elim
  | readLogLik =>
    obtain ⟨v, hv⟩ := readLogLik_state s
    simp only [KF.step, Exec.left]; rw [hv]
    exact ⟨hs.P, hs.PPrior, hs.PPost, hs.Q, hs.R, hs.alpha⟩
  | readLik =>
    obtain ⟨v, w, hv⟩ := readLik_state expf s
    simp only [KF.step, Exec.left]; rw [hv]
    exact ⟨hs.P, hs.PPrior, hs.PPost, hs.Q, hs.R, hs.alpha⟩
  | readMahal =>
    simp only [KF.step]
    cases h : s.readMahal with
    | error e => exact hs
    | ok r =>
      obtain ⟨v, hv⟩ := readMahal_state h
      simp only [Exec.left]; rw [hv]
      exact ⟨hs.P, hs.PPrior, hs.PPost, hs.Q, hs.R, hs.alpha⟩
  | setAlpha v =>
    simp only [KF.step]
    cases h : s.setAlpha v with
    | error e => obtain ⟨_, rfl⟩ := setAlpha_err h; exact hs
    | ok s' =>
      obtain ⟨_, rfl⟩ := setAlpha_ok h
      exact ⟨hs.P, hs.PPrior, hs.PPost, hs.Q, hs.R, sq_nonneg v⟩

/-- **C04.** From positive semidefinite `P`, `Q`, `R` (and previous priors/posteriors), any
history of calls with positive semidefinite noise arguments leaves `P`, `P_prior` and
`P_post` symmetric positive semidefinite, whatever inverse routine is installed, and even if
the history ends in an exception. -/
theorem C04_psd_invariant (expf : ℝ → ℝ) (s : KF n m l) (ops : List (KFOp n m l))
    (hP : s.P.PosSemidef) (hPp : s.PPrior.PosSemidef) (hPq : s.PPost.PosSemidef)
    (hQ : s.Q.PosSemidef) (hR : s.R.PosSemidef) (ha : 0 ≤ s.alphaSq)
    (hops : ∀ op ∈ ops, GoodOp op) :
    let s' := (s.run expf ops).left
    s'.P.PosSemidef ∧ s'.PPrior.PosSemidef ∧ s'.PPost.PosSemidef ∧
      s'.Pᵀ = s'.P ∧ s'.PPriorᵀ = s'.PPrior ∧ s'.PPostᵀ = s'.PPost := by
  have key : ∀ (ops : List (KFOp n m l)) (s : KF n m l), PSDState s → (∀ op ∈ ops, GoodOp op) →
      PSDState (s.run expf ops).left := by
    intro ops
    induction ops with
    | nil => intro s hs _; exact hs
    | cons op ops ih =>
      intro s hs ho
      have h1 := hs.step expf (ho op (by simp))
      simp only [KF.run]
      cases h : s.step expf op with
      | ok s' => rw [h] at h1; exact ih s' h1 fun o hm => ho o (by simp [hm])
      | error e => rw [h] at h1; exact h1
  have := key ops s ⟨hP, hPp, hPq, hQ, hR, ha⟩ hops
  exact ⟨this.P, this.PPrior, this.PPost, PSD.symm this.P, PSD.symm this.PPrior,
    PSD.symm this.PPost⟩

/-- A freshly constructed filter satisfies the hypotheses of `C04_psd_invariant`. -/
example (expf : ℝ → ℝ) (z : Vec 1) :
    ((cvKF.run expf [.predict (.vec 1) none none (.scalar 2), .update (some z) .none none,
      .updateSequential 0 1 z .none none]).left).P.PosSemidef := by
  refine (C04_psd_invariant expf cvKF _ ?_ ?_ ?_ ?_ ?_ ?_ ?_).1
  iterate 5 exact PosSemidef.one
  · simp [cvKF, KF.fresh]
  · simp [GoodOp, PSDArg]

/-! ## C05: a measurement never increases uncertainty -/

/-- **C05.** `P` before minus `P` after `update(z)` is positive semidefinite; in particular no
variance grows. -/
theorem C05_update_reduces (s s' : KF n m l) (z : Option (Vec m)) (R : MatArg m)
    (H : Option (Mat m n)) (hinv : s.inv = npInv)
    (hP : s.P.PosSemidef) (hR : (R.resolve s.R).PosSemidef)
    (h : s.update z R H = .ok s') :
    (s.P - s'.P).PosSemidef ∧ ∀ i, s'.P i i ≤ s.P i i := by
  have key : (s.P - s'.P).PosSemidef := by
    cases z with
    | none =>
      simp only [KF.update, Except.ok.injEq] at h
      rw [← h]; simp [updateNone, PosSemidef.zero]
    | some z =>
      obtain ⟨SI, hSI, rfl⟩ := update_ok h
      rw [hinv] at hSI
      obtain ⟨hd, rfl⟩ := npInv_eq_some.1 hSI
      have hS := S_psd (H := H.getD s.H) hP hR
      have hu := isUnit_det_of_ne hd
      have hSs : (((H.getD s.H) * (s.P * (H.getD s.H)ᵀ) + R.resolve s.R)⁻¹)ᵀ = _ :=
        inv_symm (PSD.symm hS)
      simp only
      rw [joseph_opt (PSD.symm hP) rfl (nonsing_inv_mul _ hu) hSs rfl]
      have := PSD.congr hS (s.P * (H.getD s.H)ᵀ *
        ((H.getD s.H) * (s.P * (H.getD s.H)ᵀ) + R.resolve s.R)⁻¹)
      simpa using this
  refine ⟨key, fun i => ?_⟩
  have := key.diag_nonneg (i := i)
  simp only [Matrix.sub_apply] at this
  linarith

/-- **C05** for `update_sequential`. -/
theorem C05_update_sequential_reduces (s s' : KF n m l) (start len : ℕ) (zi : Vec len)
    (Ri : MatArg len) (Hi : Option (Mat len n)) (hP : s.P.PosSemidef) (hR : s.R.PosSemidef)
    (hRi : PSDArg Ri) (h : s.updateSequential start zi Ri Hi = .ok s') :
    (s.P - s'.P).PosSemidef := by
  obtain ⟨hb, Ki, hd, hK, rfl⟩ := updateSequential_ok h
  have hR' := PSDArg.resolve hRi (hR.submatrix (sliceIdx hb))
  have hS := S_psd (H := Hi.getD (s.H.submatrix (sliceIdx hb) id)) hP hR'
  have hu := isUnit_det_of_ne hd
  simp only
  rw [joseph_opt (PSD.symm hP) rfl (nonsing_inv_mul _ hu) (inv_symm (PSD.symm hS)) hK]
  simpa using PSD.congr hS Ki

/-- The hypotheses are met by a concrete update, which also succeeds. -/
example (z : Vec 1) : ∃ s', cvKF.update (some z) = .ok s' ∧ (cvKF.P - s'.P).PosSemidef := by
  have hS : (cvKF.H * (cvKF.P * cvKF.Hᵀ) + cvKF.R).det ≠ 0 := by
    simp [cvKF, KF.fresh, Matrix.vecMul, dotProduct, Fin.sum_univ_two]
  have hinv : npInv (cvKF.H * (cvKF.P * cvKF.Hᵀ) + cvKF.R) = some _ := npInv_of_det_ne hS
  have : ∃ s', cvKF.update (some z) = .ok s' := by
    simp only [KF.update, Option.getD, MatArg.resolve]
    rw [show cvKF.inv = npInv from rfl, hinv]
    exact ⟨_, rfl⟩
  obtain ⟨s', h⟩ := this
  exact ⟨s', h, (C05_update_reduces cvKF s' (some z) .none none rfl PosSemidef.one PosSemidef.one h).1⟩

/-! ## C06: missing measurements -/

/-- **C06.** The complete effect of `update(None)`, `update_steadystate(None)` and
`update_correlated(None)`: `y` becomes zero, `z` becomes "no measurement", the posterior
attributes copy `x, P`, the likelihood caches are cleared; everything else is unchanged. -/
theorem C06_update_none (s : KF n m l) (R : MatArg m) (H : Option (Mat m n)) :
    ∃ s', s.update none R H = .ok s' ∧ s.updateSteadystate none = s' ∧
      s.updateCorrelated none R H = .ok s' ∧
      s'.x = s.x ∧ s'.P = s.P ∧ s'.K = s.K ∧ s'.S = s.S ∧ s'.SI = s.SI ∧ s'.F = s.F ∧
      s'.H = s.H ∧ s'.Q = s.Q ∧ s'.R = s.R ∧ s'.B = s.B ∧ s'.M = s.M ∧
      s'.alphaSq = s.alphaSq ∧ s'.xPrior = s.xPrior ∧ s'.PPrior = s.PPrior ∧
      s'.y = 0 ∧ (∀ i, s'.z i = none) ∧ s'.xPost = s.x ∧ s'.PPost = s.P ∧
      s'.logLik = none ∧ s'.lik = none ∧ s'.mahal = none :=
  ⟨s.updateNone, rfl, rfl, rfl, rfl, rfl, rfl, rfl, rfl, rfl, rfl, rfl, rfl, rfl, rfl, rfl, rfl,
    rfl, rfl, fun _ => rfl, rfl, rfl, rfl, rfl, rfl⟩

/-- Everything a user can observe of the filter except the per-measurement bookkeeping
(`y`, `z`, `x_post`, `P_post` and the likelihood caches). -/
structure Core (n m l : ℕ) where
  x : Vec n
  P : Mat n n
  Q : Mat n n
  B : Option (Mat n l)
  F : Mat n n
  H : Mat m n
  R : Mat m m
  alphaSq : ℝ
  M : Mat n m
  K : Mat n m
  S : Mat m m
  SI : Mat m m
  xPrior : Vec n
  PPrior : Mat n n
  inv : Mat m m → Option (Mat m m)

/-- The core of a filter. -/
def KF.core (s : KF n m l) : Core n m l :=
  ⟨s.x, s.P, s.Q, s.B, s.F, s.H, s.R, s.alphaSq, s.M, s.K, s.S, s.SI, s.xPrior, s.PPrior, s.inv⟩

/-- The core of the outcome of a history (returned or raised). -/
def Exec.core (r : Exec (KF n m l)) : Except (Err × Core n m l) (Core n m l) :=
  match r with
  | .ok s => .ok s.core
  | .error e => .error (e.1, e.2.core)

/-- Calls that pass a missing measurement. -/
def KFOp.isMissing : KFOp n m l → Bool
  | .update none _ _ => true
  | .updateSteadystate none => true
  | .updateCorrelated none _ _ => true
  | _ => false

/-- Filtering calls (as opposed to property reads). -/
def KFOp.isCall : KFOp n m l → Bool
  | .readLogLik => false
  | .readLik => false
  | .readMahal => false
  | _ => true

theorem core_step (expf : ℝ → ℝ) (s t : KF n m l) (op : KFOp n m l) (hst : s.core = t.core)
    (hc : op.isCall) : (s.step expf op).core = (t.step expf op).core := by
  obtain ⟨x, P, Q, B, F, H, R, a, M, z, K, y, S, SI, xp, Pp, xq, Pq, c1, c2, c3, inv⟩ := s
  obtain ⟨x', P', Q', B', F', H', R', a', M', z', K', y', S', SI', xp', Pp', xq', Pq', c1', c2',
    c3', inv'⟩ := t
  simp only [KF.core, Core.mk.injEq] at hst
  obtain ⟨rfl, rfl, rfl, rfl, rfl, rfl, rfl, rfl, rfl, rfl, rfl, rfl, rfl, rfl, rfl⟩ := hst
  cases op with
  | predict u B F Q =>
    simp only [KF.step, KF.predict]
    split <;> rfl
  | update z R H =>
    cases z with
    | none => rfl
    | some z =>
      simp only [KF.step, KF.update]
      split <;> rfl
  | updateSequential start len zi Ri Hi =>
    simp only [KF.step, KF.updateSequential]
    split
    · split <;> rfl
    · rfl
  | predictSteadystate u B =>
    simp only [KF.step, KF.predictSteadystate]
    split <;> rfl
  | updateSteadystate z => cases z <;> rfl
  | updateCorrelated z R H =>
    cases z with
    | none => rfl
    | some z =>
      simp only [KF.step, KF.updateCorrelated]
      split <;> rfl
  | setAlpha v =>
    simp only [KF.step, KF.setAlpha]
    split <;> rfl
  | readLogLik => simp [KFOp.isCall] at hc
  | readLik => simp [KFOp.isCall] at hc
  | readMahal => simp [KFOp.isCall] at hc

theorem core_run (expf : ℝ → ℝ) (ops : List (KFOp n m l)) (hc : ∀ op ∈ ops, op.isCall)
    (s t : KF n m l) (hst : s.core = t.core) :
    (s.run expf ops).core = (t.run expf ops).core := by
  induction ops generalizing s t with
  | nil => simp [KF.run, Exec.core, hst]
  | cons op ops ih =>
    have h1 := core_step expf s t op hst (hc op (by simp))
    simp only [KF.run]
    cases hs : s.step expf op <;> cases ht : t.step expf op <;> rw [hs, ht] at h1 <;>
      simp only [Exec.core] at h1 ⊢
    · exact h1
    · cases h1
    · cases h1
    · simp only [Except.ok.injEq] at h1
      exact ih (fun o ho => hc o (by simp [ho])) _ _ h1

/-- **C06.** Deleting every missing-measurement call from a history changes neither whether
(and how) it raises nor the final `x`, `P`, gains, priors and parameters. -/
theorem C06_missing_deleted (expf : ℝ → ℝ) (s : KF n m l) (ops : List (KFOp n m l))
    (hc : ∀ op ∈ ops, op.isCall) :
    Exec.core (s.run expf ops) = Exec.core (s.run expf (ops.filter fun op => !op.isMissing)) := by
  induction ops generalizing s with
  | nil => rfl
  | cons op ops ih =>
    have hc' : ∀ o ∈ ops, o.isCall := fun o ho => hc o (by simp [ho])
    by_cases hm : op.isMissing
    · simp only [List.filter_cons, hm, Bool.not_true, Bool.false_eq_true, if_false]
      rw [← ih s hc']
      have : ∃ s', s.step expf op = .ok s' ∧ s'.core = s.core := by
        cases op with
        | update z R H => cases z <;> simp_all [KFOp.isMissing, KF.step, KF.update] <;> rfl
        | updateSteadystate z =>
          cases z <;> simp_all [KFOp.isMissing, KF.step, KF.updateSteadystate] <;> rfl
        | updateCorrelated z R H =>
          cases z <;> simp_all [KFOp.isMissing, KF.step, KF.updateCorrelated] <;> rfl
        | _ => simp [KFOp.isMissing] at hm
      obtain ⟨s', hs', hcore⟩ := this
      simp only [KF.run, hs']
      exact core_run expf ops hc' _ _ hcore
    · simp only [List.filter_cons, hm, Bool.not_false, if_true, KF.run]
      cases hs : s.step expf op with
      | ok s' => exact ih s' hc'
      | error e => rfl

/-- A history with two missing measurements, and the same history without them. -/
example (expf : ℝ → ℝ) (z : Vec 1) :
    Exec.core (cvKF.run expf [.predict .none none none .none, .update none .none none,
      .predict .none none none .none, .updateSteadystate none, .update (some z) .none none]) =
    Exec.core (cvKF.run expf [.predict .none none none .none, .predict .none none none .none,
      .update (some z) .none none]) :=
  C06_missing_deleted expf cvKF _ (by simp [KFOp.isCall])

/-! ## C07: priors and posteriors mirror the last predict/update -/

/-- Prediction calls. -/
def KFOp.isPredict : KFOp n m l → Bool
  | .predict .. => true
  | .predictSteadystate .. => true
  | _ => false

/-- Measurement calls. -/
def KFOp.isUpdate : KFOp n m l → Bool
  | .update .. => true
  | .updateSequential .. => true
  | .updateSteadystate .. => true
  | .updateCorrelated .. => true
  | _ => false

theorem step_predict {expf : ℝ → ℝ} {s s' : KF n m l} {op : KFOp n m l}
    (h : s.step expf op = .ok s') (hp : op.isPredict) :
    s'.xPrior = s'.x ∧ s'.PPrior = s'.P ∧ s'.xPost = s.xPost ∧ s'.PPost = s.PPost := by
  cases op with
  | predict u B F Q => obtain ⟨x, rfl⟩ := predict_ok h; exact ⟨rfl, rfl, rfl, rfl⟩
  | predictSteadystate u B =>
    obtain ⟨x, rfl⟩ := predictSteadystate_ok h; exact ⟨rfl, rfl, rfl, rfl⟩
  | _ => simp [KFOp.isPredict] at hp

theorem step_update {expf : ℝ → ℝ} {s s' : KF n m l} {op : KFOp n m l}
    (h : s.step expf op = .ok s') (hp : op.isUpdate) :
    s'.xPost = s'.x ∧ s'.PPost = s'.P ∧ s'.xPrior = s.xPrior ∧ s'.PPrior = s.PPrior := by
  cases op with
  | update z R H =>
    cases z with
    | none =>
      simp only [KF.step, KF.update, Except.ok.injEq] at h; rw [← h]; exact ⟨rfl, rfl, rfl, rfl⟩
    | some z => obtain ⟨SI, _, rfl⟩ := update_ok h; exact ⟨rfl, rfl, rfl, rfl⟩
  | updateSequential start len zi Ri Hi =>
    obtain ⟨hb, Ki, _, _, rfl⟩ := updateSequential_ok h; exact ⟨rfl, rfl, rfl, rfl⟩
  | updateSteadystate z =>
    simp only [KF.step, Except.ok.injEq] at h; rw [← h]
    cases z <;> exact ⟨rfl, rfl, rfl, rfl⟩
  | updateCorrelated z R H =>
    cases z with
    | none =>
      simp only [KF.step, KF.updateCorrelated, Except.ok.injEq] at h
      rw [← h]; exact ⟨rfl, rfl, rfl, rfl⟩
    | some z => obtain ⟨SI, _, rfl⟩ := updateCorrelated_ok h; exact ⟨rfl, rfl, rfl, rfl⟩
  | _ => simp [KFOp.isUpdate] at hp

theorem step_other {expf : ℝ → ℝ} {s s' : KF n m l} {op : KFOp n m l}
    (h : s.step expf op = .ok s') (hp : op.isPredict = false) (hu : op.isUpdate = false) :
    s'.xPost = s.xPost ∧ s'.PPost = s.PPost ∧ s'.xPrior = s.xPrior ∧ s'.PPrior = s.PPrior := by
  cases op with
  | readLogLik =>
    simp only [KF.step, Except.ok.injEq] at h
    obtain ⟨v, hv⟩ := readLogLik_state s
    rw [← h, hv]; exact ⟨rfl, rfl, rfl, rfl⟩
  | readLik =>
    simp only [KF.step, Except.ok.injEq] at h
    obtain ⟨v, w, hv⟩ := readLik_state expf s
    rw [← h, hv]; exact ⟨rfl, rfl, rfl, rfl⟩
  | readMahal =>
    simp only [KF.step] at h
    cases hr : s.readMahal with
    | error e => simp [hr] at h
    | ok r =>
      simp only [hr, Except.ok.injEq] at h
      obtain ⟨v, hv⟩ := readMahal_state hr
      rw [← h, hv]; exact ⟨rfl, rfl, rfl, rfl⟩
  | setAlpha v => obtain ⟨_, rfl⟩ := setAlpha_ok h; exact ⟨rfl, rfl, rfl, rfl⟩
  | _ => simp [KFOp.isPredict, KFOp.isUpdate] at hp hu

/-- **C07.** At the end of any history, `x_prior, P_prior` are the `x, P` the filter had right
after its most recent prediction call, whatever other calls followed it. -/
theorem C07_prior_mirrors (expf : ℝ → ℝ) (s s' : KF n m l) (before after : List (KFOp n m l))
    (p : KFOp n m l) (hp : p.isPredict) (hafter : ∀ op ∈ after, op.isPredict = false)
    (h : s.run expf (before ++ p :: after) = .ok s') :
    ∃ s1, s.run expf (before ++ [p]) = .ok s1 ∧ s'.xPrior = s1.x ∧ s'.PPrior = s1.P := by
  rw [show before ++ p :: after = (before ++ [p]) ++ after by simp] at h
  obtain ⟨s1, h1, h2⟩ := run_append_ok expf h
  obtain ⟨s0, h0, h01⟩ := run_append_ok expf h1
  refine ⟨s1, h1, ?_⟩
  have hs1 : s1.xPrior = s1.x ∧ s1.PPrior = s1.P := by
    simp only [KF.run] at h01
    cases hstep : s0.step expf p with
    | error e => simp [hstep] at h01
    | ok t =>
      simp only [hstep, Except.ok.injEq] at h01
      obtain ⟨a, b, _, _⟩ := step_predict hstep hp
      rw [← h01]; exact ⟨a, b⟩
  clear h h1 h0 h01
  have key : ∀ (ops : List (KFOp n m l)) (t : KF n m l), (∀ op ∈ ops, op.isPredict = false) →
      t.run expf ops = .ok s' → s'.xPrior = t.xPrior ∧ s'.PPrior = t.PPrior := by
    intro ops
    induction ops with
    | nil => intro t _ h; simp only [KF.run, Except.ok.injEq] at h; simp [h]
    | cons op ops ih =>
      intro t ho h
      simp only [KF.run] at h
      cases hstep : t.step expf op with
      | error e => simp [hstep] at h
      | ok t' =>
        rw [hstep] at h
        obtain ⟨a, b⟩ := ih t' (fun o hm => ho o (by simp [hm])) h
        have hop := ho op (by simp)
        cases hu : op.isUpdate with
        | true =>
          obtain ⟨_, _, c, d⟩ := step_update hstep hu
          exact ⟨a.trans c, b.trans d⟩
        | false =>
          obtain ⟨_, _, c, d⟩ := step_other hstep hop hu
          exact ⟨a.trans c, b.trans d⟩
  obtain ⟨a, b⟩ := key after s1 hafter h2
  exact ⟨a.trans hs1.1, b.trans hs1.2⟩

/-- **C07.** At the end of any history, `x_post, P_post` are the `x, P` the filter had right
after its most recent measurement call (possibly with a missing measurement). -/
theorem C07_post_mirrors (expf : ℝ → ℝ) (s s' : KF n m l) (before after : List (KFOp n m l))
    (p : KFOp n m l) (hp : p.isUpdate) (hafter : ∀ op ∈ after, op.isUpdate = false)
    (h : s.run expf (before ++ p :: after) = .ok s') :
    ∃ s1, s.run expf (before ++ [p]) = .ok s1 ∧ s'.xPost = s1.x ∧ s'.PPost = s1.P := by
  rw [show before ++ p :: after = (before ++ [p]) ++ after by simp] at h
  obtain ⟨s1, h1, h2⟩ := run_append_ok expf h
  obtain ⟨s0, h0, h01⟩ := run_append_ok expf h1
  refine ⟨s1, h1, ?_⟩
  have hs1 : s1.xPost = s1.x ∧ s1.PPost = s1.P := by
    simp only [KF.run] at h01
    cases hstep : s0.step expf p with
    | error e => simp [hstep] at h01
    | ok t =>
      simp only [hstep, Except.ok.injEq] at h01
      obtain ⟨a, b, _, _⟩ := step_update hstep hp
      rw [← h01]; exact ⟨a, b⟩
  clear h h1 h0 h01
  have key : ∀ (ops : List (KFOp n m l)) (t : KF n m l), (∀ op ∈ ops, op.isUpdate = false) →
      t.run expf ops = .ok s' → s'.xPost = t.xPost ∧ s'.PPost = t.PPost := by
    intro ops
    induction ops with
    | nil => intro t _ h; simp only [KF.run, Except.ok.injEq] at h; simp [h]
    | cons op ops ih =>
      intro t ho h
      simp only [KF.run] at h
      cases hstep : t.step expf op with
      | error e => simp [hstep] at h
      | ok t' =>
        rw [hstep] at h
        obtain ⟨a, b⟩ := ih t' (fun o hm => ho o (by simp [hm])) h
        have hop := ho op (by simp)
        cases hu : op.isPredict with
        | true =>
          obtain ⟨_, _, c, d⟩ := step_predict hstep hu
          exact ⟨a.trans c, b.trans d⟩
        | false =>
          obtain ⟨c, d, _, _⟩ := step_other hstep hu hop
          exact ⟨a.trans c, b.trans d⟩
  obtain ⟨a, b⟩ := key after s1 hafter h2
  exact ⟨a.trans hs1.1, b.trans hs1.2⟩

/-- A history with a prediction followed by other calls that runs to completion. -/
example (expf : ℝ → ℝ) : ∃ s', cvKF.run expf
    ([.update none .none none] ++ .predict (.vec 1) none none .none ::
      [.updateSteadystate (some 1), .readLogLik]) = .ok s' ∧ s'.xPrior = ![0, 1] := by
  obtain ⟨s', h⟩ : ∃ s', cvKF.run expf
    ([.update none .none none] ++ .predict (.vec 1) none none .none ::
      [.updateSteadystate (some 1), .readLogLik]) = .ok s' := ⟨_, rfl⟩
  obtain ⟨s1, h1, hx, _⟩ := C07_prior_mirrors expf cvKF s' _ _ _ rfl
    (by simp [KFOp.isPredict]) h
  refine ⟨s', h, ?_⟩
  rw [hx]
  simp only [List.cons_append, List.nil_append, KF.run, KF.step, KF.update, KF.predict,
    KF.updateNone, KF.control, cvKF, KF.fresh, Option.getD_none, Option.none_or, MatArg.resolve,
    Except.ok.injEq] at h1
  rw [← h1]
  ext i; fin_cases i <;> simp [Matrix.mulVec, dotProduct]

/-! ## C08: overrides do not stick -/

/-- Assigning the attributes `F`, `B`, `Q` named by the overrides (`None` = leave alone). -/
noncomputable def withPredictArgs (s : KF n m l) (B : Option (Mat n l)) (F : Option (Mat n n))
    (Q : MatArg n) : KF n m l :=
  { s with B := B.or s.B, F := F.getD s.F, Q := Q.resolve s.Q }

/-- Assigning the attributes `R`, `H` named by the overrides (`None` = leave alone). -/
noncomputable def withUpdateArgs (s : KF n m l) (R : MatArg m) (H : Option (Mat m n)) :
    KF n m l :=
  { s with R := R.resolve s.R, H := H.getD s.H }

/-- **C08.** `predict(u, B, F, Q)` is the plain `predict(u)` of the filter with those
attributes assigned, with the old attributes restored afterwards. -/
theorem C08_predict_overrides (s : KF n m l) (u : UArg l) (B : Option (Mat n l))
    (F : Option (Mat n n)) (Q : MatArg n) :
    s.predict u B F Q = match (withPredictArgs s B F Q).predict u with
      | .ok s' => .ok { s' with B := s.B, F := s.F, Q := s.Q }
      | .error e => .error (e.1, { e.2 with B := s.B, F := s.F, Q := s.Q }) := by
  simp only [KF.predict, withPredictArgs, Option.getD_none, Option.none_or, MatArg.resolve]
  split <;> rfl

/-- **C08.** `update(z, R, H)` is the plain `update(z)` of the filter with those attributes
assigned, with the old attributes restored afterwards. -/
theorem C08_update_overrides (s : KF n m l) (z : Option (Vec m)) (R : MatArg m)
    (H : Option (Mat m n)) :
    s.update z R H = match (withUpdateArgs s R H).update z with
      | .ok s' => .ok { s' with R := s.R, H := s.H }
      | .error e => .error (e.1, { e.2 with R := s.R, H := s.H }) := by
  cases z with
  | none => rfl
  | some z =>
    simp only [KF.update, withUpdateArgs, Option.getD_none, MatArg.resolve]
    split <;> rfl

/-- **C08.** A scalar `Q` or `R` means that multiple of the identity matrix. -/
theorem C08_scalar_noise (s : KF n m l) (u B F) (c : ℝ) (z H) :
    s.predict u B F (.scalar c) = s.predict u B F (.mat (Matrix.diagonal fun _ => c)) ∧
    s.update z (.scalar c) H = s.update z (.mat (Matrix.diagonal fun _ => c)) H := by
  have h1 : ∀ k, (c • (1 : Mat k k)) = Matrix.diagonal fun _ => c := fun k => by
    rw [Matrix.smul_one_eq_diagonal]
  constructor
  · simp only [KF.predict, MatArg.resolve, h1]
  · cases z with
    | none => rfl
    | some z => simp only [KF.update, MatArg.resolve, h1]

/-- **C08.** No call of any history changes the model attributes `F`, `B`, `Q`, `H`, `R`, `M`. -/
theorem C08_attributes_constant (expf : ℝ → ℝ) (s : KF n m l) (ops : List (KFOp n m l)) :
    let s' := (s.run expf ops).left
    s'.F = s.F ∧ s'.B = s.B ∧ s'.Q = s.Q ∧ s'.H = s.H ∧ s'.R = s.R ∧ s'.M = s.M ∧
      s'.inv = s.inv := by
  have step1 : ∀ (s : KF n m l) op, let s' := (s.step expf op).left
      s'.F = s.F ∧ s'.B = s.B ∧ s'.Q = s.Q ∧ s'.H = s.H ∧ s'.R = s.R ∧ s'.M = s.M ∧
      s'.inv = s.inv := by
    intro s op
    cases op with
    | predict u B F Q =>
      simp only [KF.step, KF.predict]
      split <;> simp [Exec.left]
    | update z R H =>
      cases z with
      | none => simp [KF.step, KF.update, Exec.left, updateNone]
      | some z =>
        simp only [KF.step, KF.update]
        split <;> simp [Exec.left]
    | updateSequential start len zi Ri Hi =>
      simp only [KF.step, KF.updateSequential]
      split
      · split <;> simp [Exec.left]
      · simp [Exec.left]
    | predictSteadystate u B =>
      simp only [KF.step, KF.predictSteadystate]
      split <;> simp [Exec.left]
    | updateSteadystate z =>
      cases z <;> simp [KF.step, KF.updateSteadystate, Exec.left, updateNone]
    | updateCorrelated z R H =>
      cases z with
      | none => simp [KF.step, KF.updateCorrelated, Exec.left, updateNone]
      | some z =>
        simp only [KF.step, KF.updateCorrelated]
        split <;> simp [Exec.left]
    | readLogLik =>
      obtain ⟨v, hv⟩ := readLogLik_state s
      simp [KF.step, Exec.left, hv]
    | readLik =>
      obtain ⟨v, w, hv⟩ := readLik_state expf s
      simp [KF.step, Exec.left, hv]
    | readMahal =>
      simp only [KF.step]
      cases hr : s.readMahal with
      | error e => simp [Exec.left]
      | ok r => obtain ⟨v, hv⟩ := readMahal_state hr; simp [Exec.left, hv]
    | setAlpha v =>
      simp only [KF.step, KF.setAlpha]
      split <;> simp [Exec.left]
  induction ops generalizing s with
  | nil => simp [KF.run, Exec.left]
  | cons op ops ih =>
    have h1 := step1 s op
    simp only [KF.run]
    cases hs : s.step expf op with
    | error e => rw [hs] at h1; exact h1
    | ok t =>
      rw [hs] at h1
      have h2 := ih t
      simp only [Exec.left] at h1 h2 ⊢
      obtain ⟨a1, a2, a3, a4, a5, a6, a7⟩ := h1
      obtain ⟨b1, b2, b3, b4, b5, b6, b7⟩ := h2
      exact ⟨b1.trans a1, b2.trans a2, b3.trans a3, b4.trans a4, b5.trans a5, b6.trans a6,
        b7.trans a7⟩

example : ∃ s', cvKF.predict (.vec 1) (some !![5; 6]) (some !![1, 2; 0, 1]) (.scalar 3) = .ok s' ∧
    s'.F = !![1, 1; 0, 1] ∧ s'.x = ![5, 6] := by
  refine ⟨_, rfl, rfl, ?_⟩
  ext i; fin_cases i <;> simp [cvKF, KF.fresh, Matrix.mulVec, dotProduct]

/-! ## C09: previews -/

/-- **C09.** `get_prediction` returns what `predict` would produce, or the exception it would
raise. (`get_prediction` has no effect: the model function does not return an object.) -/
theorem C09_get_prediction (s : KF n m l) (u : UArg l) (B : Option (Mat n l))
    (F : Option (Mat n n)) (Q : MatArg n) :
    s.getPrediction u B F Q = match s.predict u B F Q with
      | .ok s' => .ok (s'.x, s'.P)
      | .error e => .error e.1 := by
  simp only [KF.getPrediction, KF.predict]
  split <;> rfl

/-- **C09.** `get_update` returns what `update` would produce, or the exception it would
raise. -/
theorem C09_get_update (s : KF n m l) (z : Option (Vec m)) :
    s.getUpdate z = match s.update z with
      | .ok s' => .ok (s'.x, s'.P)
      | .error e => .error e.1 := by
  cases z with
  | none => rfl
  | some z =>
    simp only [KF.getUpdate, KF.update, Option.getD_none, MatArg.resolve]
    split <;> rfl

example : cvKF.getPrediction (.vec 1) = .ok (![0, 1], !![3, 1; 1, 2]) := by
  simp only [KF.getPrediction, KF.control, cvKF, KF.fresh, MatArg.resolve, Option.getD_none,
    Option.none_or, Except.ok.injEq, Prod.mk.injEq]
  constructor
  · ext i; fin_cases i <;> simp [Matrix.mulVec, dotProduct]
  · ext i j; fin_cases i <;> fin_cases j <;>
      norm_num [Matrix.vecMul, dotProduct, Fin.sum_univ_two]

end Filterpy
