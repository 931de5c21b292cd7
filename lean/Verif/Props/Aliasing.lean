import Verif.Model.Arrays
import Verif.Lemmas.Heap

/-!
# C114: objects do not interfere through the arrays they hold

`Model/Arrays` says for every call of every class which array attributes it points at a new array and which arrays
it overwrites.  `*.arrays_lawful` shows that the tables are complete: an attribute that a call changes is listed.
-/

namespace Filterpy

open Matrix

variable {n m l N : ℕ}

/-! ### The tables agree with the models of the calls -/

local macro "by_attr" : tactic => `(tactic| (intro i h; cases i <;> first | rfl | cases h))

theorem KF.arrays_lawful (expf : ℝ → ℝ) : (KF.arrays expf n m l).Lawful where
  get_put v s i := by cases i <;> rfl
  put_get s := rfl
  put_put v w s := rfl
  keep s op := by
    cases op with
    | predict u B F Q =>
      simp only [KF.arrays, KF.step, KF.predict]
      split <;> by_attr
    | update z R H =>
      cases z with
      | none => by_attr
      | some z =>
        simp only [KF.arrays, KF.step, KF.update]
        split <;> by_attr
    | updateSequential start len zi Ri Hi =>
      simp only [KF.arrays, KF.step, KF.updateSequential]
      split
      · split <;> by_attr
      · by_attr
    | predictSteadystate u B =>
      simp only [KF.arrays, KF.step, KF.predictSteadystate]
      split <;> by_attr
    | updateSteadystate z => cases z <;> by_attr
    | updateCorrelated z R H =>
      cases z with
      | none => by_attr
      | some z =>
        simp only [KF.arrays, KF.step, KF.updateCorrelated]
        split <;> by_attr
    | readLogLik =>
      obtain ⟨x, P, Q, B, F, H, R, al, M, z, K, y, S, SI, xp, Pp, xq, Pq, ll, lk, mh, iv⟩ := s
      cases ll <;> by_attr
    | readLik =>
      obtain ⟨x, P, Q, B, F, H, R, al, M, z, K, y, S, SI, xp, Pp, xq, Pq, ll, lk, mh, iv⟩ := s
      cases lk <;> cases ll <;> by_attr
    | readMahal =>
      obtain ⟨x, P, Q, B, F, H, R, al, M, z, K, y, S, SI, xp, Pp, xq, Pq, ll, lk, mh, iv⟩ := s
      cases mh with
      | some v => by_attr
      | none =>
        simp only [KF.arrays, KF.step, KF.readMahal]
        split
        · rename_i h
          split_ifs at h
          cases h
          by_attr
        · by_attr
    | setAlpha v =>
      simp only [KF.arrays, KF.step, KF.setAlpha]
      split <;> by_attr

theorem EKF.arrays_lawful (expf : ℝ → ℝ) : (EKF.arrays expf n m l).Lawful where
  get_put v s i := by cases i <;> rfl
  put_get s := rfl
  put_put v w s := rfl
  keep s op := by
    cases op with
    | predict u =>
      simp only [EKF.arrays, EkfOp.on, EKF.predict]
      split <;> by_attr
    | update z HJ hx R res =>
      cases z with
      | none => by_attr
      | some z =>
        simp only [EKF.arrays, EkfOp.on, EKF.update]
        split <;> by_attr
    | readLL =>
      obtain ⟨x, P, B, F, R, Q, y, z, K, S, SI, ll, lk, mh, xp, Pp, xq, Pq⟩ := s
      cases ll <;> by_attr
    | readLik =>
      obtain ⟨x, P, B, F, R, Q, y, z, K, S, SI, ll, lk, mh, xp, Pp, xq, Pq⟩ := s
      cases lk <;> cases ll <;> by_attr
    | readMahal =>
      obtain ⟨x, P, B, F, R, Q, y, z, K, S, SI, ll, lk, mh, xp, Pp, xq, Pq⟩ := s
      cases mh with
      | some v => by_attr
      | none =>
        simp only [EKF.arrays, EkfOp.on, EKF.readMahal]
        split
        · rename_i h
          split_ifs at h
          cases h
          by_attr
        · by_attr

theorem FKF.arrays_lawful (expf : ℝ → ℝ) : (FKF.arrays expf n m l).Lawful where
  get_put v s i := by cases i <;> rfl
  put_get s := rfl
  put_put v w s := rfl
  keep s op := by
    cases op with
    | predict u =>
      simp only [FKF.arrays, FkfOp.on, FKF.predict]
      split <;> by_attr
    | update z R =>
      cases z with
      | none => by_attr
      | some z =>
        simp only [FKF.arrays, FkfOp.on, FKF.update]
        split <;> by_attr
    | readLL =>
      obtain ⟨al, x, P, Q, B, F, H, R, z, K, y, S, SI, ll, lk, mh, xp, Pp, xq, Pq⟩ := s
      cases ll <;> by_attr
    | readLik =>
      obtain ⟨al, x, P, Q, B, F, H, R, z, K, y, S, SI, ll, lk, mh, xp, Pp, xq, Pq⟩ := s
      cases lk <;> cases ll <;> by_attr
    | readMahal =>
      obtain ⟨al, x, P, Q, B, F, H, R, z, K, y, S, SI, ll, lk, mh, xp, Pp, xq, Pq⟩ := s
      cases mh with
      | some v => by_attr
      | none =>
        simp only [FKF.arrays, FkfOp.on, FKF.readMahal]
        split
        · rename_i h
          split_ifs at h
          cases h
          by_attr
        · by_attr

theorem UKF.arrays_lawful {p : SigmaPts n} (expf : ℝ → ℝ) : (UKF.arrays expf n m p).Lawful where
  get_put v s i := by cases i <;> rfl
  put_get s := rfl
  put_put v w s := rfl
  keep s op := by
    cases op with
    | predict dt fx =>
      simp only [UKF.arrays, UkfCall.on, UKF.predict, UKF.computeProcessSigmas, UKF.predictUT]
      split
      · rename_i e he
        split at he
        · cases he; by_attr
        · cases he
      · rename_i e he
        split at he
        · cases he
        · cases he
          split <;> by_attr
    | update z R hx =>
      cases z with
      | none => by_attr
      | some z =>
        simp only [UKF.arrays, UkfCall.on, UKF.update]
        split <;> by_attr
    | readLL =>
      obtain ⟨x, P, Q, R, dt, hx, fx, xm, zm, rx, rz, sa, sf, sh, z, K, y, S, SI, xp, Pp, xq, Pq, ll, lk, mh, iv⟩ := s
      cases ll <;> by_attr
    | readLik =>
      obtain ⟨x, P, Q, R, dt, hx, fx, xm, zm, rx, rz, sa, sf, sh, z, K, y, S, SI, xp, Pp, xq, Pq, ll, lk, mh, iv⟩ := s
      cases lk <;> cases ll <;> by_attr
    | readMahal =>
      obtain ⟨x, P, Q, R, dt, hx, fx, xm, zm, rx, rz, sa, sf, sh, z, K, y, S, SI, xp, Pp, xq, Pq, ll, lk, mh, iv⟩ := s
      cases mh with
      | some v => by_attr
      | none =>
        simp only [UKF.arrays, UkfCall.on, UKF.readMahal]
        split
        · rename_i h
          split_ifs at h
          cases h
          by_attr
        · by_attr

theorem CKF.arrays_lawful (chol : Mat n n → Except Err (Mat n n)) (expf : ℝ → ℝ) :
    (CKF.arrays chol expf m).Lawful where
  get_put v s i := by cases i <;> rfl
  put_get s := rfl
  put_put v w s := rfl
  keep s op := by
    cases op with
    | predict dt =>
      simp only [CKF.arrays, CkfCall.on, CKF.predict]
      split <;> by_attr
    | update z R =>
      cases z with
      | none => by_attr
      | some z =>
        simp only [CKF.arrays, CkfCall.on, CKF.update]
        split
        · by_attr
        · cases z with
          | col z => by_attr
          | flat z =>
            simp only
            split <;> by_attr
    | readLL =>
      obtain ⟨x, P, Q, R, dt, hx, fx, rz, sf, sh, z, K, y, S, SI, xp, Pp, xq, Pq, ll, lk, mh⟩ := s
      cases ll <;> by_attr
    | readLik =>
      obtain ⟨x, P, Q, R, dt, hx, fx, rz, sf, sh, z, K, y, S, SI, xp, Pp, xq, Pq, ll, lk, mh⟩ := s
      cases lk <;> cases ll <;> by_attr
    | readMahal =>
      obtain ⟨x, P, Q, R, dt, hx, fx, rz, sf, sh, z, K, y, S, SI, xp, Pp, xq, Pq, ll, lk, mh⟩ := s
      cases mh with
      | some v => by_attr
      | none =>
        simp only [CKF.arrays, CkfCall.on, CKF.readMahal]
        split
        · rename_i h
          split_ifs at h
          cases h
          by_attr
        · by_attr

theorem SRKF.arrays_lawful (L : SqrtLib n m) : (SRKF.arrays L l).Lawful where
  get_put v s i := by cases i <;> rfl
  put_get s := rfl
  put_put v w s := rfl
  keep s op := by
    cases op with
    | predict u =>
      simp only [SRKF.arrays, SrCall.on, SRKF.predict]
      split <;> by_attr
    | update z R => cases z <;> by_attr

theorem IF.arrays_lawful (expf : ℝ → ℝ) : (IF.arrays expf n m l).Lawful where
  get_put v s i := by cases i <;> rfl
  put_get s := rfl
  put_put v w s := rfl
  keep s op := by
    cases op with
    | predict u =>
      have hr : ∃ x b, s.recover = { s with x := x, noInformation := b } := by
        unfold IF.recover
        split
        · split
          · exact ⟨_, _, rfl⟩
          · exact ⟨_, _, rfl⟩
        · exact ⟨_, _, rfl⟩
      obtain ⟨x, b, hr⟩ := hr
      simp only [IF.arrays, IfCall.on, IF.predict]
      split
      · split
        · rw [hr]
          simp only [IF.predictInv]
          split
          · by_attr
          · split <;> by_attr
        · simp only [IF.predictNoInfo]
          split
          · by_attr
          · split <;> by_attr
      · by_attr
    | update z R =>
      cases z with
      | none => by_attr
      | some z =>
        simp only [IF.arrays, IfCall.on, IF.update]
        split
        · by_attr
        · split
          · by_attr
          · split
            · split <;> by_attr
            · by_attr

theorem HInf.arrays_lawful : (HInf.arrays n m l).Lawful where
  get_put v s i := by cases i <;> rfl
  put_get s := rfl
  put_put v w s := rfl
  keep s op := by
    cases op with
    | predict u =>
      simp only [HInf.arrays, HInfOp.run, HInf.predict]
      split <;> by_attr
    | update z =>
      cases z with
      | none => by_attr
      | some z =>
        simp only [HInf.arrays, HInfOp.run, HInf.update]
        split <;> by_attr

theorem EnKF.arrays_lawful : (EnKF.arrays n m N).Lawful where
  get_put v s i := by cases i <;> rfl
  put_get s := rfl
  put_put v w s := rfl
  keep s op := by
    cases op with
    | predict e =>
      simp only [EnKF.arrays, EnkfOp.run, EnKF.predict]
      split <;> by_attr
    | update z R e =>
      cases z with
      | none => by_attr
      | some z =>
        simp only [EnKF.arrays, EnkfOp.run, EnKF.update]
        split
        · by_attr
        · split <;> by_attr

theorem IMM.arrays_lawful {σ ζ υ : Type} (c : FilterClass σ n ζ υ) : (IMM.arrays c N).Lawful where
  get_put v s i := by cases i <;> rfl
  put_get s := rfl
  put_put v w s := rfl
  keep s op := by
    cases op with
    | predict u =>
      simp only [IMM.arrays, ImmOp.run, IMM.predict]
      split <;> by_attr
    | update z =>
      simp only [IMM.arrays, ImmOp.run, IMM.update]
      split
      · by_attr
      · split
        · by_attr
        · simp only [IMM.mixing]
          split
          · rename_i h
            split_ifs at h
            cases h
            by_attr
          · rename_i h
            split_ifs at h
            cases h
            by_attr

theorem MMAE.arrays_lawful {σ ζ ρ η υ : Type} (c : FilterClass σ n (ζ × ρ × Option η) υ) :
    (MMAE.arrays c N).Lawful where
  get_put v s i := by cases i <;> rfl
  put_get s := rfl
  put_put v w s := rfl
  keep s op := by
    cases op with
    | predict u =>
      simp only [MMAE.arrays, MmaeOp.run, MMAE.predict]
      split <;> by_attr
    | update z R H =>
      simp only [MMAE.arrays, MmaeOp.run, MMAE.update]
      split
      · by_attr
      · split <;> by_attr

theorem GH.arrays_lawful {E : Type} [AddCommGroup E] [Module ℝ E] : (GH.arrays E).Lawful where
  get_put v s i := by cases i <;> rfl
  put_get s := rfl
  put_put v w s := rfl
  keep s op := by
    simp only [GH.arrays, GH.arrStep, GH.update]
    split <;> by_attr

theorem GHK.arrays_lawful {E : Type} [AddCommGroup E] [Module ℝ E] : (GHK.arrays E).Lawful where
  get_put v s i := by cases i <;> rfl
  put_get s := rfl
  put_put v w s := rfl
  keep s op := by
    simp only [GHK.arrays, GHK.arrStep, GHK.update]
    split <;> by_attr

theorem GHO.arrays_lawful : GHO.arrays.Lawful where
  get_put v s i := rfl
  put_get s := rfl
  put_put v w s := rfl
  keep s op i h := by cases h

theorem FadingMemory.arrays_lawful : FadingMemory.arrays.Lawful where
  get_put v s i := rfl
  put_get s := rfl
  put_put v w s := rfl
  keep s op i h := by
    simp only [FadingMemory.arrays, FadingMemory.writes] at h
    split at h <;> cases h

theorem LSQ.arrays_lawful : LSQ.arrays.Lawful where
  get_put v s i := by cases i <;> rfl
  put_get s := rfl
  put_put v w s := rfl
  keep s op := by cases op <;> by_attr

/-! ### Classes whose calls never overwrite an array -/

/-- The calls on a `KalmanFilter` other than `update_sequential`. -/
def KFOp.notSequential : KFOp n m l → Prop
  | .updateSequential .. => False
  | _ => True

theorem rebinds_ne {ι : Type} [DecidableEq ι] (is : List ι) (i : ι) : rebinds is i ≠ .inPlace := by
  unfold rebinds
  split <;> decide

theorem overwrites_ne {ι : Type} [DecidableEq ι] {here is : List ι} {i : ι} (h : i ∉ here) :
    overwrites here is i ≠ .inPlace := by
  unfold overwrites
  rw [if_neg h]
  exact rebinds_ne is i

/-- No array is overwritten by the call at hand: the table says `rebinds` or nothing. -/
local macro "not_here" : tactic =>
  `(tactic| first | exact rebinds_ne _ _ | (intro h; cases h))

/-- **C114 (`KalmanFilter`).**  Without `update_sequential`, no call of a program on any number of
`KalmanFilter`s changes an array the caller holds - the arrays assigned to the attributes, and every array read
off them before - and every filter ends up as if it had been alone, even where filters were given the same
arrays. -/
theorem C114_kalman_filter (expf : ℝ → ℝ) :
    Spec.KeepsArrays (KF.arrays expf n m l) KFOp.notSequential ∧
    Spec.Isolated (KF.arrays expf n m l) KFOp.notSequential := by
  have h : ∀ op : KFOp n m l, op.notSequential → ∀ (s : KF n m l) (r : Bool) (i : KFArr),
      (KF.arrays expf n m l).how s op r i ≠ .inPlace := by
    intro op ho s r i
    cases op with
    | updateSequential => exact ho.elim
    | update z R H => cases z <;> cases r <;> not_here
    | updateCorrelated z R H => cases z <;> cases r <;> not_here
    | updateSteadystate z => cases z <;> cases r <;> not_here
    | _ => cases r <;> not_here
  exact ⟨World.keeps_of_rebind _ h, World.isolated_of_rebind (KF.arrays_lawful expf) _ h⟩

/-- **C114 (`KalmanFilter`, all calls), partial**: what remains true with `update_sequential`.  The covariances and
the copies `x_prior`, `x_post` are never overwritten, copies the caller made stay as they are, and filters that do
not share an array do not influence each other. -/
theorem C114_kalman_filter_partial (expf : ℝ → ℝ) :
    (∀ i ∉ [KFArr.x, .K, .y, .z], Spec.KeepsAttr (KF.arrays expf n m l) i) ∧
    Spec.CopiesSafe (KF.arrays expf n m l) ∧ Spec.IsolatedUnshared (KF.arrays expf n m l) := by
  refine ⟨fun i hi => World.keeps_attr fun op s r => ?_, World.copies_safe _,
    World.isolated_of_unshared (KF.arrays_lawful expf)⟩
  cases op with
  | updateSequential =>
    cases r
    · exact overwrites_ne (fun h => hi (by simp only [List.mem_cons, List.not_mem_nil, or_false] at h ⊢; tauto))
    · exact overwrites_ne (fun h => hi (by simp only [List.mem_cons, List.not_mem_nil, or_false] at h ⊢; tauto))
  | update z R H => cases z <;> cases r <;> not_here
  | updateCorrelated z R H => cases z <;> cases r <;> not_here
  | updateSteadystate z => cases z <;> cases r <;> not_here
  | _ => cases r <;> not_here

/-- **C114 (`ExtendedKalmanFilter`).** -/
theorem C114_ekf (expf : ℝ → ℝ) : Spec.Safe (EKF.arrays expf n m l) := by
  refine World.safe_of_rebind (EKF.arrays_lawful expf) fun op s r i => ?_
  cases op with
  | update z HJ hx R res => cases z <;> cases r <;> not_here
  | _ => cases r <;> not_here

/-- **C114 (`FadingKalmanFilter`).** -/
theorem C114_fading (expf : ℝ → ℝ) : Spec.Safe (FKF.arrays expf n m l) := by
  refine World.safe_of_rebind (FKF.arrays_lawful expf) fun op s r i => ?_
  cases op with
  | update z R => cases z <;> cases r <;> not_here
  | _ => cases r <;> not_here

/-- **C114 (`UnscentedKalmanFilter`).** -/
theorem C114_ukf (expf : ℝ → ℝ) (p : SigmaPts n) : Spec.Safe (UKF.arrays expf n m p) := by
  refine World.safe_of_rebind (UKF.arrays_lawful expf) fun op s r i => ?_
  cases op with
  | update z R hx => cases z <;> cases r <;> not_here
  | _ => cases r <;> not_here

/-- **C114 (`CubatureKalmanFilter`).** -/
theorem C114_ckf (chol : Mat n n → Except Err (Mat n n)) (expf : ℝ → ℝ) : Spec.Safe (CKF.arrays chol expf m) := by
  refine World.safe_of_rebind (CKF.arrays_lawful chol expf) fun op s r i => ?_
  cases op with
  | update z R => cases z <;> cases r <;> not_here
  | _ => cases r <;> not_here

/-- **C114 (`InformationFilter`).** -/
theorem C114_information (expf : ℝ → ℝ) : Spec.Safe (IF.arrays expf n m l) := by
  refine World.safe_of_rebind (IF.arrays_lawful expf) fun op s r i => ?_
  cases op with
  | update z R => cases z <;> cases r <;> not_here
  | predict u => cases r <;> not_here

/-- **C114 (`HInfinityFilter`).** -/
theorem C114_hinfinity : Spec.Safe (HInf.arrays n m l) := by
  refine World.safe_of_rebind HInf.arrays_lawful fun op s r i => ?_
  cases op with
  | update z => cases z <;> cases r <;> not_here
  | predict u => cases r <;> not_here

/-- **C114 (`GHFilter`, `GHKFilter`).** -/
theorem C114_gh {E : Type} [AddCommGroup E] [Module ℝ E] : Spec.Safe (GH.arrays E) ∧ Spec.Safe (GHK.arrays E) :=
  ⟨World.safe_of_rebind GH.arrays_lawful fun op s r i => by cases r <;> exact rebinds_ne _ _,
   World.safe_of_rebind GHK.arrays_lawful fun op s r i => by cases r <;> exact rebinds_ne _ _⟩

/-! ### Classes that overwrite -/

/-- **C114 (`SquareRootKalmanFilter`), partial**: everything but `x`. -/
theorem C114_square_root_partial (L : SqrtLib n m) :
    (∀ i ≠ KFArr.x, Spec.KeepsAttr (SRKF.arrays L l) i) ∧
    Spec.CopiesSafe (SRKF.arrays L l) ∧ Spec.IsolatedUnshared (SRKF.arrays L l) := by
  refine ⟨fun i hi => World.keeps_attr fun op s r => ?_, World.copies_safe _,
    World.isolated_of_unshared (SRKF.arrays_lawful L)⟩
  cases op with
  | update z R =>
    cases z
    · cases r <;> not_here
    · cases r <;> exact overwrites_ne (by simpa using hi)
  | predict u => cases r <;> not_here

/-- **C114 (`EnsembleKalmanFilter`), partial**: everything but the ensemble itself, which one array holds for
good. -/
theorem C114_ensemble_partial :
    (∀ i ≠ EnArr.sigmas, Spec.KeepsAttr (EnKF.arrays n m N) i) ∧
    Spec.AlwaysLive (EnKF.arrays n m N) (fun _ => True) .sigmas ∧
    Spec.CopiesSafe (EnKF.arrays n m N) ∧ Spec.IsolatedUnshared (EnKF.arrays n m N) := by
  refine ⟨fun i hi => World.keeps_attr fun op s r => ?_, World.always_live EnKF.arrays_lawful fun op _ s r => ?_,
    World.copies_safe _, World.isolated_of_unshared EnKF.arrays_lawful⟩
  · cases op with
    | update z R e =>
      cases z
      · cases r <;> not_here
      · cases r
        · exact overwrites_ne (by simpa using hi)
        · not_here
    | predict u => cases r <;> exact overwrites_ne (by simpa using hi)
  · cases op with
    | update z R e => cases z <;> cases r <;> intro h <;> cases h
    | predict u => cases r <;> intro h <;> cases h

/-- **C114 (`IMMEstimator`), partial**: `mu`, `cbar` and the copies of the estimate are safe.  The arrays `x` and
`P` are overwritten by every call and stay the same arrays for good: a list of the `x` read off after each step
shows the last estimate throughout. -/
theorem C114_imm_partial {σ ζ υ : Type} (c : FilterClass σ n ζ υ) :
    (∀ i ∉ [IMMArr.x, .P, .likelihood, .omega], Spec.KeepsAttr (IMM.arrays c N) i) ∧
    (∀ i ∈ [IMMArr.x, .P], Spec.AlwaysLive (IMM.arrays c N) (fun _ => True) i) ∧
    Spec.CopiesSafe (IMM.arrays c N) ∧ Spec.IsolatedUnshared (IMM.arrays c N) := by
  refine ⟨fun i hi => World.keeps_attr fun op s r => ?_,
    fun i hi => World.always_live (IMM.arrays_lawful c) fun op _ s r => ?_,
    World.copies_safe _, World.isolated_of_unshared (IMM.arrays_lawful c)⟩
  · cases op <;> cases r <;> first
      | not_here
      | exact overwrites_ne (fun h => hi (by simp only [List.mem_cons, List.not_mem_nil, or_false] at h ⊢; tauto))
  · simp only [List.mem_cons, List.not_mem_nil, or_false] at hi
    rcases hi with rfl | rfl <;> cases op <;> cases r <;> intro h <;> cases h

/-- **C114 (`MMAEFilterBank`), partial**: everything but the probabilities `p`, which stay in the array given to the
constructor. -/
theorem C114_mmae_partial {σ ζ ρ η υ : Type} (c : FilterClass σ n (ζ × ρ × Option η) υ) :
    (∀ i ≠ MMAEArr.p, Spec.KeepsAttr (MMAE.arrays c N) i) ∧
    Spec.AlwaysLive (MMAE.arrays c N) (fun _ => True) .p ∧
    Spec.CopiesSafe (MMAE.arrays c N) ∧ Spec.IsolatedUnshared (MMAE.arrays c N) := by
  refine ⟨fun i hi => World.keeps_attr fun op s r => ?_,
    World.always_live (MMAE.arrays_lawful c) fun op _ s r => ?_,
    World.copies_safe _, World.isolated_of_unshared (MMAE.arrays_lawful c)⟩
  · cases op <;> cases r <;> first
      | not_here
      | exact overwrites_ne (by simpa using hi)
  · cases op <;> cases r <;> intro h <;> cases h

/-- The calls on a `LeastSquaresFilter` other than `reset`. -/
def LsqCall.isUpdate : LsqCall → Prop
  | .update _ => True
  | .reset => False

/-- **C114 (`LeastSquaresFilter`, `GHFilterOrder`, `FadingMemoryFilter`), partial**: objects that share nothing do
not influence each other and copies are safe.  The array that `LeastSquaresFilter.update` returns is overwritten by
every later `update`, so all arrays returned since the last `reset` are one array; the same holds for the `x` of a
`GHFilterOrder`. -/
theorem C114_polynomial_partial :
    Spec.CopiesSafe LSQ.arrays ∧ Spec.IsolatedUnshared LSQ.arrays ∧
    (∀ i, Spec.AlwaysLive LSQ.arrays LsqCall.isUpdate i) ∧
    Spec.CopiesSafe GHO.arrays ∧ Spec.IsolatedUnshared GHO.arrays ∧ Spec.AlwaysLive GHO.arrays (fun _ => True) () ∧
    Spec.CopiesSafe FadingMemory.arrays ∧ Spec.IsolatedUnshared FadingMemory.arrays := by
  refine ⟨World.copies_safe _, World.isolated_of_unshared LSQ.arrays_lawful,
    fun i => World.always_live LSQ.arrays_lawful fun op ho s r => ?_,
    World.copies_safe _, World.isolated_of_unshared GHO.arrays_lawful,
    World.always_live GHO.arrays_lawful fun op _ s r h => (by cases h),
    World.copies_safe _, World.isolated_of_unshared FadingMemory.arrays_lawful⟩
  cases op with
  | update z => cases i <;> intro h <;> cases h
  | reset => exact ho.elim

/-! ### Refutations -/

/-- A call that overwrites the array under attribute `i` with something else: two objects that share the array
interfere, and an array read off before is spoiled. -/
theorem overwritten {σ ω ι : Type} {V : ι → Type} [DecidableEq ι] {c : ArrayClass σ ω ι V} (hl : c.Lawful) {s s' : σ}
    {op : ω} {i : ι} (h : c.step s op = .ok s') (hw : c.how s op false i = .inPlace) (hd : c.get i s' ≠ c.get i s) :
    Spec.Interferes c i ∧ Spec.ResultSpoiled c i := by
  have hw' : c.how s op (c.step s op).raised i = .inPlace := by rw [h]; exact hw
  have hd' : c.get i (c.step s op).left ≠ c.get i s := by rw [h]; exact hd
  exact ⟨World.interferes hl hw' hd', World.spoiled hl hw' hd'⟩

/-- **C114 refuted for `update_sequential`**: of two filters given the same array as `x`, an `update_sequential` on
one moves the estimate of the other, and an `x` read off earlier changes. -/
theorem C114_sequential_refuted (expf : ℝ → ℝ) :
    Spec.Interferes (KF.arrays expf 1 1 0) .x ∧ Spec.ResultSpoiled (KF.arrays expf 1 1 0) .x := by
  have hs : ∃ s', ({ KF.fresh 1 1 0 with H := sc 1 } : KF 1 1 0).updateSequential 0 (vc 2) (.mat (sc 1)) (some (sc 1))
      = .ok s' ∧ s'.x = vc 1 := by
    have e : (sc 1 * (sc 1 * (sc 1)ᵀ) + sc 1 : Mat 1 1) ⟨0, by omega⟩ ⟨0, by omega⟩ = 2 := by
      rw [sc_transpose, sc_mul, sc_mul, sc_add]
      norm_num [sc]
    rw [KF.updateSequential, dif_pos (by norm_num)]
    simp only [MatArg.resolve, Option.getD, KF.fresh, sc_one]
    rw [dif_pos trivial, e, if_neg (by norm_num)]
    refine ⟨_, rfl, ?_⟩
    show (0 : Vec 1) + ((1.0 / 2 : ℝ) • (sc 1 * (sc 1)ᵀ)) *ᵥ (vc 2 - sc 1 *ᵥ 0) = vc 1
    simp only [vc_zero, sc_mulVec, sc_transpose, sc_mul, sc_smul, vc_sub, vc_add]
    norm_num
  obtain ⟨s', h1, h2⟩ := hs
  refine overwritten (KF.arrays_lawful expf) (op := .updateSequential 0 1 (vc 2) (.mat (sc 1)) (some (sc 1))) h1 rfl ?_
  show s'.x ≠ 0
  rw [h2, vc_zero, Ne, vc_inj]
  norm_num

/-- **C114 refuted for `SquareRootKalmanFilter.update`**, whatever the linear algebra library. -/
theorem C114_square_root_refuted (L : SqrtLib 1 1) (hL : Spec.SqrtLib.Valid L) :
    Spec.Interferes (SRKF.arrays L 0) .x ∧ Spec.ResultSpoiled (SRKF.arrays L 0) .x := by
  let a : SRKF 1 1 0 := { SRKF.fresh 1 1 0 with H := 1 }
  have hgp : a.getP = sc 1 := by simp [a, SRKF.getP, SRKF.fresh, sc_one, sc_mul, sc_transpose]
  have hH : a.H = sc 1 := by simp [a, sc_one]
  have hd : (a.H * (a.getP * a.Hᵀ) + (1 : Mat 1 1) * (1 : Mat 1 1)ᵀ).det ≠ 0 := by
    rw [hgp, hH, sc_one]
    simp only [sc_transpose, sc_mul, sc_add, sc_det]; norm_num
  obtain ⟨-, -, c3, -⟩ := sqrt_update_core hL a 1 hd
  have hx : (a.update L (some (vc 2))).x = vc 1 := by
    have e : (a.update L (some (vc 2))).x = a.x + ((L.qrU (a.arrayU 1)).toBlocks₁₂ᵀ *
      L.pinv (L.qrU (a.arrayU 1)).toBlocks₁₁ᵀ) *ᵥ (vc 2 - a.H *ᵥ a.x) := rfl
    rw [e, c3, hgp, hH, sc_one, show a.x = vc 0 from rfl]
    simp only [sc_transpose, sc_mul, sc_add]
    rw [sc_inv _ (by norm_num)]
    simp only [sc_mul, sc_mulVec, vc_sub, vc_add]
    norm_num
  refine overwritten (SRKF.arrays_lawful L) (s := a) (op := .update (some (vc 2)) .none) rfl rfl ?_
  show (a.update L (some (vc 2))).x ≠ vc 0
  rw [hx, Ne, vc_inj]
  norm_num

/-- **C114 refuted for `IMMEstimator`**: the array `x` read off before `predict` afterwards holds the new estimate. -/
theorem C114_imm_refuted (expf : ℝ → ℝ) :
    Spec.Interferes (IMM.arrays (kfClassZ expf 1 1 0) 2) .x ∧
    Spec.ResultSpoiled (IMM.arrays (kfClassZ expf 1 1 0) 2) .x := by
  let f : KF 1 1 0 := { KF.fresh 1 1 0 with F := sc 2, x := vc 1 }
  let s : IMM (KF 1 1 0) 1 2 :=
    { filters := fun _ => f, mu := fun _ => 1/2, M := fun _ _ => 1/2, x := vc 1, P := sc 1, likelihood := 0
      cbar := fun _ => 1/2, omega := fun _ _ => 1/2, xPrior := vc 1, PPrior := sc 1, xPost := vc 1, PPost := sc 1 }
  have hm : ∀ i, IMM.mixX (kfClassZ expf 1 1 0) s i = vc 1 := fun i => by
    show ∑ j : Fin 2, (1/2 : ℝ) • vc 1 = vc 1
    rw [Fin.sum_univ_two, vc_smul, vc_add]
    norm_num
  obtain ⟨x, P, h, hx, -⟩ := imm_predict (kfClassZ expf 1 1 0) s .none _ (fun i => rfl)
  refine overwritten (IMM.arrays_lawful (kfClassZ expf 1 1 0)) (s := s) (op := .predict .none) h rfl ?_
  show x ≠ vc 1
  have : x = vc 2 := by
    rw [hx]
    show ∑ j : Fin 2, (1/2 : ℝ) • (sc 2 *ᵥ IMM.mixX (kfClassZ expf 1 1 0) s j) = vc 2
    simp only [hm, sc_mulVec, vc_smul, Fin.sum_univ_two, vc_add]
    norm_num
  rw [this, Ne, vc_inj]
  norm_num

/-- **C114 refuted for `MMAEFilterBank`**: two banks built from one array of prior probabilities change each other's
probabilities, and the caller's array is overwritten. -/
theorem C114_mmae_refuted :
    Spec.Interferes (MMAE.arrays (ζ := Option (Vec 1)) (ρ := MatArg 1) (η := Mat 1 1) (kfClass Real.exp 1 1 0) 2) .p ∧
    Spec.ResultSpoiled (MMAE.arrays (ζ := Option (Vec 1)) (ρ := MatArg 1) (η := Mat 1 1) (kfClass Real.exp 1 1 0) 2) .p := by
  obtain ⟨-, s1, s2, -, -, h2, hp1, hp2⟩ := C34_mmae_refuted
  refine overwritten (MMAE.arrays_lawful _) (op := .update none .none none) h2 rfl ?_
  show s2.p ≠ s1.p
  rw [hp1, hp2]
  intro e
  have := congrFun e 0
  norm_num at this

/-- **C114 refuted for `LeastSquaresFilter`**: the array returned by the first `update` changes with the second. -/
theorem C114_least_squares_refuted : Spec.ResultSpoiled LSQ.arrays .x := by
  refine (overwritten LSQ.arrays_lawful (s := ⟨1, 0, 0, 1, [1], [1], 0⟩) (op := .update 2) rfl rfl ?_).2
  show ([1 + 1 / ((1 + 1 : ℕ) : ℝ) * (2 - 1)] : List ℝ) ≠ [1]
  norm_num

/-- **C114 refuted for `GHFilterOrder` and `FadingMemoryFilter`** (order 1). -/
theorem C114_order_refuted : Spec.ResultSpoiled GHO.arrays () ∧ Spec.ResultSpoiled FadingMemory.arrays () := by
  constructor
  · have h : GHO.update ⟨[0], 1, 0, 1, none, none, 0, 0⟩ 1 = .ok ⟨[1], 1, 0, 1, none, none, 1, 0⟩ := by
      simp [GHO.update, GHO.update0]
    refine (overwritten GHO.arrays_lawful (s := ⟨[0], 1, 0, 1, none, none, 0, 0⟩) (op := (1, none, none, none)) h rfl ?_).2
    show ([1] : List ℝ) ≠ [0]
    norm_num
  · have h : FadingMemory.update ⟨[0, 0], 1, 1, 0, [], []⟩ 1 = .ok ⟨[1, 1], 1, 1, 0, [], []⟩ := by
      simp [FadingMemory.update]
    refine (overwritten FadingMemory.arrays_lawful (s := ⟨[0, 0], 1, 1, 0, [], []⟩) (op := 1) h rfl ?_).2
    show ([1, 1] : List ℝ) ≠ [0, 0]
    norm_num

/-- The hypotheses can be met: two Kalman filters that were given the same array as `x`. -/
example (expf : ℝ → ℝ) : ∃ w : World Bool (KF 2 1 1) KFArr (KFArr.Val 2 1), w.WF ∧
    (w.obj true).ref .x = (w.obj false).ref .x ∧ (∀ b, w.view (KF.arrays expf 2 1 1) b = cvKF) := by
  refine ⟨World.pair (KF.arrays expf 2 1 1) cvKF (· = .x), fun k j => ?_, rfl, fun b => ?_⟩
  · simp only [World.pair]
    split_ifs <;> omega
  · exact World.pair_view (KF.arrays_lawful expf) _ _ b

end Filterpy
