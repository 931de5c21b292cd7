import Verif.Model.Reads
import Verif.Props.SquareRoot
import Verif.Props.InformationStart
import Verif.Props.EnKF

/-!
# The other filter classes keep the same books as `KalmanFilter` (C91)
-/

namespace Filterpy

open Matrix

/-! ## Specification -/

/-- What a call does. -/
inductive Kind
  | predict
  | measured
  | missing
  | read
  deriving DecidableEq

/-- A filter class as its user sees it: the calls, the current estimate, the copies kept of it, and the
attributes that the user sets. -/
structure Books (σ ι X A : Type*) where
  step : σ → ι → Exec σ
  kind : ι → Kind
  now : σ → X
  prior : σ → X
  post : σ → X
  attrs : σ → A

namespace Books

variable {σ ι X A : Type*}

/-- After every history that does not raise, the prior copy is the estimate that the most recent `predict`
left. -/
def MirrorsPrior (b : Books σ ι X A) : Prop :=
  ∀ s s' before after p, b.kind p = .predict → (∀ q ∈ after, b.kind q ≠ .predict) →
    runList b.step s (before ++ p :: after) = .ok s' →
      ∃ s1, runList b.step s (before ++ [p]) = .ok s1 ∧ b.prior s' = b.now s1

/-- After every history that does not raise, the posterior copy is the estimate that the most recent
`update` (also with a missing measurement) left. -/
def MirrorsPost (b : Books σ ι X A) : Prop :=
  ∀ s s' before after p, (b.kind p = .measured ∨ b.kind p = .missing) →
    (∀ q ∈ after, b.kind q ≠ .measured ∧ b.kind q ≠ .missing) →
    runList b.step s (before ++ p :: after) = .ok s' →
      ∃ s1, runList b.step s (before ++ [p]) = .ok s1 ∧ b.post s' = b.now s1

/-- No history changes the user's attributes. -/
def KeepsAttrs (b : Books σ ι X A) : Prop :=
  ∀ s s' ops, runList b.step s ops = .ok s' → b.attrs s' = b.attrs s

/-- All three. -/
structure Mirrored (b : Books σ ι X A) : Prop where
  prior : b.MirrorsPrior
  post : b.MirrorsPost
  attrs : b.KeepsAttrs

end Books

/-- The exponential, kept away from zero. -/
noncomputable def expOrMin (expf : ℝ → ℝ) (v : ℝ) : ℝ := if expf v = 0 then floatMin else expf v

/-- The books with the cached properties: residual, innovation covariance and its inverse of the last
measurement, and the three properties computed from them. -/
structure LikBooks (σ ι X A : Type*) (m : ℕ) extends Books σ ι X A where
  innov : σ → Vec m × Mat m m × Mat m m
  readLL : σ → ℝ × σ
  readLik : σ → ℝ × σ
  readMahal : σ → Except Err (ℝ × σ)

namespace LikBooks

variable {σ ι X A : Type*} {m : ℕ}

/-- After every history that does not raise, `log_likelihood`, `likelihood` and `mahalanobis` are those of
the residual `y` and the innovation covariance `S` that the most recent measurement left, whatever
predictions, missing measurements and readings followed. -/
structure Describes (expf : ℝ → ℝ) (b : LikBooks σ ι X A m) : Prop where
  last : ∀ s s' before after p, b.kind p = .measured → (∀ q ∈ after, b.kind q ≠ .measured) →
    runList b.step s (before ++ p :: after) = .ok s' →
      ∃ s1, runList b.step s (before ++ [p]) = .ok s1 ∧
        b.innov s' = b.innov s1 ∧ (b.readLL s').1 = logpdf (b.innov s1).1 (b.innov s1).2.1 ∧
        (b.readLik s').1 = expOrMin expf (logpdf (b.innov s1).1 (b.innov s1).2.1) ∧
        (∀ v t, b.readMahal s' = .ok (v, t) → v = Real.sqrt ((b.innov s1).1 ⬝ᵥ ((b.innov s1).2.2 *ᵥ (b.innov s1).1))) ∧
        (0 ≤ (b.innov s1).1 ⬝ᵥ ((b.innov s1).2.2 *ᵥ (b.innov s1).1) → ∃ v t, b.readMahal s' = .ok (v, t))

end LikBooks

/-! ## Proof scheme -/

theorem runList_split {σ ι : Type*} {f : σ → ι → Exec σ} {s s' : σ} {a b : List ι}
    (h : runList f s (a ++ b) = .ok s') : ∃ s1, runList f s a = .ok s1 ∧ runList f s1 b = .ok s' := by
  induction a generalizing s with
  | nil => exact ⟨s, rfl, h⟩
  | cons i a ih =>
    simp only [List.cons_append, runList] at h ⊢
    cases hi : f s i with
    | error e => rw [hi] at h; cases h
    | ok s1 => rw [hi] at h; exact ih h

theorem runList_preserves {σ ι : Type*} {f : σ → ι → Exec σ} {I : σ → Prop} {ops : List ι}
    (step : ∀ s s' i, i ∈ ops → I s → f s i = .ok s' → I s') {s s' : σ} (h0 : I s)
    (h : runList f s ops = .ok s') : I s' := by
  induction ops generalizing s with
  | nil => obtain rfl := Except.ok.inj h; exact h0
  | cons i ops ih =>
    simp only [runList] at h
    cases hi : f s i with
    | error e => rw [hi] at h; cases h
    | ok s1 =>
      rw [hi] at h
      exact ih (fun s s' j hj => step s s' j (by simp [hj])) (step _ _ i (by simp) h0 hi) h

theorem runList_last {σ ι : Type*} {f : σ → ι → Exec σ} {I : σ → Prop} {s s' : σ} {before after : List ι} {p : ι}
    (hp : ∀ s s', f s p = .ok s' → I s') (step : ∀ s s' i, i ∈ after → I s → f s i = .ok s' → I s')
    (h : runList f s (before ++ p :: after) = .ok s') : I s' := by
  obtain ⟨s0, -, h⟩ := runList_split h
  simp only [runList] at h
  cases hi : f s0 p with
  | error e => rw [hi] at h; cases h
  | ok s1 => rw [hi] at h; exact runList_preserves step (hp _ _ hi) h

theorem runList_last_eq {σ ι Y : Type*} {f : σ → ι → Exec σ} {g k : σ → Y} {s s' : σ} {before after : List ι} {p : ι}
    (hp : ∀ s s', f s p = .ok s' → g s' = k s') (step : ∀ s s' i, i ∈ after → f s i = .ok s' → g s' = g s)
    (h : runList f s (before ++ p :: after) = .ok s') :
    ∃ s1, runList f s (before ++ [p]) = .ok s1 ∧ g s' = k s1 := by
  rw [show before ++ p :: after = (before ++ [p]) ++ after by simp] at h
  obtain ⟨s1, h1, h2⟩ := runList_split h
  refine ⟨s1, h1, ?_⟩
  have h3 : g s1 = k s1 := runList_last (I := fun s => g s = k s) (after := []) hp (by simp) h1
  rw [← h3]
  exact runList_preserves (I := fun s => g s = g s1) (fun s s' i hi h h' => (step s s' i hi h').trans h) rfl h2

/-- What a single call must do to the copies. -/
def Books.CallOK {σ ι X A : Type*} (b : Books σ ι X A) (s s' : σ) : Kind → Prop
  | .predict => b.prior s' = b.now s' ∧ b.post s' = b.post s ∧ b.attrs s' = b.attrs s
  | .read => b.prior s' = b.prior s ∧ b.post s' = b.post s ∧ b.attrs s' = b.attrs s
  | _ => b.prior s' = b.prior s ∧ b.post s' = b.now s' ∧ b.attrs s' = b.attrs s

/-- It is enough to look at single calls. -/
theorem Books.mirrored_of_step {σ ι X A : Type*} (b : Books σ ι X A)
    (h : ∀ s s' i, b.step s i = .ok s' → b.CallOK s s' (b.kind i)) : b.Mirrored where
  prior s s' before after p hp ha hr := runList_last_eq
    (fun s s' hs => by have := h s s' p hs; rw [hp] at this; exact this.1)
    (fun s s' i hi hs => by
      have h1 := h s s' i hs
      have h2 := ha i hi
      cases hk : b.kind i <;> rw [hk] at h1 h2
      · exact absurd rfl h2
      · exact h1.1
      · exact h1.1
      · exact h1.1) hr
  post s s' before after p hp ha hr := runList_last_eq
    (fun s s' hs => by
      have := h s s' p hs
      rcases hp with hp | hp <;> rw [hp] at this <;> exact this.2.1)
    (fun s s' i hi hs => by
      have h1 := h s s' i hs
      have h2 := ha i hi
      cases hk : b.kind i <;> rw [hk] at h1 h2
      · exact h1.2.1
      · exact absurd rfl h2.1
      · exact absurd rfl h2.2
      · exact h1.2.1) hr
  attrs s s' ops hr := runList_preserves (I := fun t => b.attrs t = b.attrs s)
    (fun s s' i _ h0 hs => by
      have h1 := h s s' i hs
      cases hk : b.kind i <;> rw [hk] at h1 <;> exact h1.2.2.trans h0) rfl hr

/-- The caches are empty or correct. -/
def CachesOK (expf : ℝ → ℝ) {m : ℕ} (i : Vec m × Mat m m × Mat m m) (ll lik mahal : Option ℝ) : Prop :=
  (∀ v ∈ ll, v = logpdf i.1 i.2.1) ∧
  (∀ v ∈ lik, v = expOrMin expf (logpdf i.1 i.2.1)) ∧
  ∀ v ∈ mahal, v = Real.sqrt (i.1 ⬝ᵥ (i.2.2 *ᵥ i.1))

/-- What a single call must do to the caches. -/
def LikBooks.CallOK {σ ι X A : Type*} {m : ℕ} (expf : ℝ → ℝ) (b : LikBooks σ ι X A m)
    (caches : σ → Option ℝ × Option ℝ × Option ℝ) (s s' : σ) : Kind → Prop
  | .measured => caches s' = (none, none, none)
  | _ => b.innov s' = b.innov s ∧ (CachesOK expf (b.innov s) (caches s).1 (caches s).2.1 (caches s).2.2 →
          CachesOK expf (b.innov s) (caches s').1 (caches s').2.1 (caches s').2.2)

/-- It is enough to look at single calls; `ready` is what makes the distance readable. -/
theorem LikBooks.describes_of_ready {σ ι X A : Type*} {m : ℕ} (expf : ℝ → ℝ) (b : LikBooks σ ι X A m)
    (caches : σ → Option ℝ × Option ℝ × Option ℝ) (ready : σ → Prop)
    (h' : ∀ s s' i, b.step s i = .ok s' → b.CallOK expf caches s s' (b.kind i))
    (hy : ∀ s s' i, b.step s i = .ok s' → b.kind i = .measured ∨ ready s → ready s')
    (hr : ∀ s, ready s → CachesOK expf (b.innov s) (caches s).1 (caches s).2.1 (caches s).2.2 →
      (b.readLL s).1 = logpdf (b.innov s).1 (b.innov s).2.1 ∧
      (b.readLik s).1 = expOrMin expf (logpdf (b.innov s).1 (b.innov s).2.1) ∧
      (∀ v t, b.readMahal s = .ok (v, t) → v = Real.sqrt ((b.innov s).1 ⬝ᵥ ((b.innov s).2.2 *ᵥ (b.innov s).1))) ∧
      (0 ≤ (b.innov s).1 ⬝ᵥ ((b.innov s).2.2 *ᵥ (b.innov s).1) → ∃ v t, b.readMahal s = .ok (v, t))) :
    b.Describes expf where
  last s s' before after p hp ha hrun := by
    have h : ∀ s s' i, b.step s i = .ok s' →
        (b.kind i = .measured → caches s' = (none, none, none)) ∧
        (b.kind i ≠ .measured → b.innov s' = b.innov s ∧
          (CachesOK expf (b.innov s) (caches s).1 (caches s).2.1 (caches s).2.2 →
            CachesOK expf (b.innov s) (caches s').1 (caches s').2.1 (caches s').2.2)) := by
      intro s s' i hs
      have := h' s s' i hs
      cases hk : b.kind i <;> rw [hk] at this
      · exact ⟨nofun, fun _ => this⟩
      · exact ⟨fun _ => this, fun h => absurd rfl h⟩
      · exact ⟨nofun, fun _ => this⟩
      · exact ⟨nofun, fun _ => this⟩
    have key := runList_last_eq (f := b.step) (g := b.innov) (k := b.innov) (p := p) (fun _ _ _ => rfl)
      (fun s s' i hi hs => ((h s s' i hs).2 (ha i hi)).1) hrun
    obtain ⟨s1, h1, h2⟩ := key
    refine ⟨s1, h1, h2, ?_⟩
    rw [← h2]
    refine hr s' (runList_last (f := b.step) (p := p) (I := ready) (fun s s' hs => hy s s' p hs (Or.inl hp))
      (fun s s' i _ h0 hs => hy s s' i hs (Or.inr h0)) hrun) (runList_last (f := b.step) (p := p)
      (I := fun s => CachesOK expf (b.innov s) (caches s).1 (caches s).2.1 (caches s).2.2) ?_ ?_ hrun)
    · intro s s' hs
      rw [(h s s' p hs).1 hp]
      exact ⟨by simp, by simp, by simp⟩
    · intro s s' i hi h0 hs
      obtain ⟨e, h3⟩ := (h s s' i hs).2 (ha i hi)
      rw [e]
      exact h3 h0

theorem LikBooks.describes_of_step {σ ι X A : Type*} {m : ℕ} (expf : ℝ → ℝ) (b : LikBooks σ ι X A m)
    (caches : σ → Option ℝ × Option ℝ × Option ℝ)
    (h' : ∀ s s' i, b.step s i = .ok s' → b.CallOK expf caches s s' (b.kind i))
    (hr : ∀ s, CachesOK expf (b.innov s) (caches s).1 (caches s).2.1 (caches s).2.2 →
      (b.readLL s).1 = logpdf (b.innov s).1 (b.innov s).2.1 ∧
      (b.readLik s).1 = expOrMin expf (logpdf (b.innov s).1 (b.innov s).2.1) ∧
      (∀ v t, b.readMahal s = .ok (v, t) → v = Real.sqrt ((b.innov s).1 ⬝ᵥ ((b.innov s).2.2 *ᵥ (b.innov s).1))) ∧
      (0 ≤ (b.innov s).1 ⬝ᵥ ((b.innov s).2.2 *ᵥ (b.innov s).1) → ∃ v t, b.readMahal s = .ok (v, t))) :
    b.Describes expf :=
  describes_of_ready expf b caches (fun _ => True) h' (fun _ _ _ _ _ => trivial) fun s _ => hr s

variable {n m l : ℕ}

/-! ## `ExtendedKalmanFilter` -/

/-- The calls on an `ExtendedKalmanFilter`. -/
inductive EkfOp (n m l : ℕ)
  | predict (u : UArg l)
  | update (z : Option (Vec m)) (HJ : Vec n → Mat m n) (hx : Vec n → Vec m) (R : MatArg m)
      (residual : Vec m → Vec m → Vec m)
  | readLL
  | readLik
  | readMahal

/-- What a call on an `ExtendedKalmanFilter` does. -/
noncomputable def EkfOp.on (expf : ℝ → ℝ) (s : EKF n m l) : EkfOp n m l → Exec (EKF n m l)
  | .predict u => s.predict u
  | .update z HJ hx R res => s.update z HJ hx R res
  | .readLL => .ok s.readLogLik.2
  | .readLik => .ok (s.readLik expf).2
  | .readMahal => match s.readMahal with
    | .ok (_, s') => .ok s'
    | .error e => .error (e, s)

/-- The books of an `ExtendedKalmanFilter`. -/
noncomputable def ekfBooks (expf : ℝ → ℝ) (n m l : ℕ) : LikBooks (EKF n m l) (EkfOp n m l) (Vec n × Mat n n)
    (Option (Mat n l) × Mat n n × Mat m m × Mat n n) m where
  step := EkfOp.on expf
  kind
    | .predict _ => .predict
    | .update (some _) .. => .measured
    | .update none .. => .missing
    | _ => .read
  now s := (s.x, s.P)
  prior s := (s.xPrior, s.PPrior)
  post s := (s.xPost, s.PPost)
  attrs s := (s.B, s.F, s.R, s.Q)
  innov s := (s.y, s.S, s.SI)
  readLL := EKF.readLogLik
  readLik := EKF.readLik expf
  readMahal := EKF.readMahal

/-- What a reading may change. -/
theorem ekf_reads (expf : ℝ → ℝ) (s s' : EKF n m l) (op : EkfOp n m l) (h : op.on expf s = .ok s')
    (hop : (ekfBooks expf n m l).kind op = .read) : s' = { s with logLik := s'.logLik, lik := s'.lik, mahal := s'.mahal } ∧
      (CachesOK expf (s.y, s.S, s.SI) s.logLik s.lik s.mahal → CachesOK expf (s.y, s.S, s.SI) s'.logLik s'.lik s'.mahal) := by
  rcases s with ⟨x, P, B, F, R, Q, y, z, K, S, SI, ll, lk, mh, xp, Pp, xq, Pq⟩
  cases op with
  | predict u => cases hop
  | update z HJ hx R res => cases z <;> cases hop
  | readLL =>
    obtain rfl := Except.ok.inj h
    cases ll with
    | none => exact ⟨rfl, fun h => ⟨fun v hv => (Option.some.inj hv).symm, h.2⟩⟩
    | some v => exact ⟨rfl, fun h => h⟩
  | readLik =>
    obtain rfl := Except.ok.inj h
    cases lk with
    | some v => exact ⟨rfl, fun h => h⟩
    | none =>
      cases ll with
      | none => exact ⟨rfl, fun h => ⟨fun v hv => (Option.some.inj hv).symm, fun v hv => (Option.some.inj hv).symm, h.2.2⟩⟩
      | some w => exact ⟨rfl, fun h => ⟨h.1, fun v hv => by rw [← h.1 w rfl]; exact (Option.some.inj hv).symm, h.2.2⟩⟩
  | readMahal =>
    cases mh with
    | some v => obtain rfl := Except.ok.inj h; exact ⟨rfl, fun h => h⟩
    | none =>
      simp only [EkfOp.on, EKF.readMahal] at h
      split_ifs at h with hd
      obtain rfl := Except.ok.inj h
      exact ⟨rfl, fun h => ⟨h.1, h.2.1, fun v hv => (Option.some.inj hv).symm⟩⟩

theorem ekf_read_values (expf : ℝ → ℝ) (s : EKF n m l) (h : CachesOK expf (s.y, s.S, s.SI) s.logLik s.lik s.mahal) :
    s.readLogLik.1 = logpdf s.y s.S ∧ (s.readLik expf).1 = expOrMin expf (logpdf s.y s.S) ∧
      (∀ v t, s.readMahal = .ok (v, t) → v = Real.sqrt (s.y ⬝ᵥ (s.SI *ᵥ s.y))) ∧
      (0 ≤ s.y ⬝ᵥ (s.SI *ᵥ s.y) → ∃ v t, s.readMahal = .ok (v, t)) := by
  rcases s with ⟨x, P, B, F, R, Q, y, z, K, S, SI, ll, lk, mh, xp, Pp, xq, Pq⟩
  obtain ⟨h1, h2, h3⟩ := h
  refine ⟨?_, ?_, fun v t hv => ?_, fun hq => ?_⟩
  · cases ll with
    | none => rfl
    | some v => exact h1 v rfl
  · cases lk with
    | some v => exact h2 v rfl
    | none =>
      cases ll with
      | none => rfl
      | some w => rw [← h1 w rfl]; rfl
  · cases mh with
    | some w =>
      obtain ⟨rfl, -⟩ := Prod.mk.inj (Except.ok.inj hv)
      exact h3 _ rfl
    | none =>
      simp only [EKF.readMahal] at hv
      split_ifs at hv with hd
      exact (Prod.mk.inj (Except.ok.inj hv)).1.symm
  · cases mh with
    | some w => exact ⟨_, _, rfl⟩
    | none => exact ⟨_, _, by simp only [EKF.readMahal]; rw [if_neg (not_lt.2 hq)]⟩

theorem ekf_calls (expf : ℝ → ℝ) (s s' : EKF n m l) (op : EkfOp n m l) (h : op.on expf s = .ok s') :
    match (ekfBooks expf n m l).kind op with
    | .predict => s' = { s with x := s'.x, P := s'.P, xPrior := s'.x, PPrior := s'.P }
    | .missing => s' = { s with z := s'.z, xPost := s.x, PPost := s.P }
    | .measured => s' = { s with x := s'.x, P := s'.P, y := s'.y, z := s'.z, K := s'.K, S := s'.S, SI := s'.SI, xPost := s'.x, PPost := s'.P, logLik := none, lik := none, mahal := none }
    | .read => True := by
  cases op with
  | predict u =>
    simp only [EkfOp.on, EKF.predict] at h
    cases hc : FKF.control s.B u with
    | error e => rw [hc] at h; cases h
    | ok bu => rw [hc] at h; obtain rfl := Except.ok.inj h; rfl
  | update z HJ hx R res =>
    cases z with
    | none => obtain rfl := Except.ok.inj h; rfl
    | some z =>
      simp only [EkfOp.on, EKF.update] at h
      cases hc : npInv (HJ s.x * (s.P * (HJ s.x)ᵀ) + R.resolve s.R) with
      | none => rw [hc] at h; cases h
      | some SI => rw [hc] at h; obtain rfl := Except.ok.inj h; rfl
  | readLL => trivial
  | readLik => trivial
  | readMahal => trivial

/-- **C91 (`ExtendedKalmanFilter`).** -/
theorem C91_ekf (expf : ℝ → ℝ) : (ekfBooks expf n m l).Mirrored ∧ (ekfBooks expf n m l).Describes expf := by
  constructor
  · refine Books.mirrored_of_step _ fun s s' op h => ?_
    have h1 := ekf_calls expf s s' op h
    have h2 := ekf_reads expf s s' op h
    cases hk : (ekfBooks expf n m l).kind op <;> rw [hk] at h1 h2
    · rw [h1]; exact ⟨rfl, rfl, rfl⟩
    · rw [h1]; exact ⟨rfl, rfl, rfl⟩
    · rw [h1]; exact ⟨rfl, rfl, rfl⟩
    · rw [(h2 rfl).1]; exact ⟨rfl, rfl, rfl⟩
  · refine LikBooks.describes_of_step expf _ (fun s => (s.logLik, s.lik, s.mahal)) (fun s s' op h => ?_)
      (fun s h => ekf_read_values expf s h)
    have h1 := ekf_calls expf s s' op h
    have h2 := ekf_reads expf s s' op h
    cases hk : (ekfBooks expf n m l).kind op <;> rw [hk] at h1 h2
    · rw [h1]; exact ⟨rfl, fun h => h⟩
    · rw [h1]; rfl
    · rw [h1]; exact ⟨rfl, fun h => h⟩
    · refine ⟨?_, (h2 rfl).2⟩
      rw [(h2 rfl).1]; rfl

/-! ## `FadingKalmanFilter` -/

/-- The calls on a `FadingKalmanFilter`. -/
inductive FkfOp (n m l : ℕ)
  | predict (u : UArg l)
  | update (z : Option (Vec m)) (R : MatArg m)
  | readLL
  | readLik
  | readMahal

/-- What a call on a `FadingKalmanFilter` does. -/
noncomputable def FkfOp.on (expf : ℝ → ℝ) (s : FKF n m l) : FkfOp n m l → Exec (FKF n m l)
  | .predict u => s.predict u
  | .update z R => s.update z R
  | .readLL => .ok s.readLogLik.2
  | .readLik => .ok (s.readLik expf).2
  | .readMahal => match s.readMahal with
    | .ok (_, s') => .ok s'
    | .error e => .error (e, s)

/-- The books of a `FadingKalmanFilter`. -/
noncomputable def fkfBooks (expf : ℝ → ℝ) (n m l : ℕ) : LikBooks (FKF n m l) (FkfOp n m l) (Vec n × Mat n n)
    (ℝ × Option (Mat n l) × Mat n n × Mat m n × Mat m m × Mat n n) m where
  step := FkfOp.on expf
  kind
    | .predict _ => .predict
    | .update (some _) .. => .measured
    | .update none .. => .missing
    | _ => .read
  now s := (s.x, s.P)
  prior s := (s.xPrior, s.PPrior)
  post s := (s.xPost, s.PPost)
  attrs s := (s.alphaSq, s.B, s.F, s.H, s.R, s.Q)
  innov s := (s.y, s.S, s.SI)
  readLL := FKF.readLogLik
  readLik := FKF.readLik expf
  readMahal := FKF.readMahal

/-- What a reading may change. -/
theorem fkf_reads (expf : ℝ → ℝ) (s s' : FKF n m l) (op : FkfOp n m l) (h : op.on expf s = .ok s')
    (hop : (fkfBooks expf n m l).kind op = .read) : s' = { s with logLik := s'.logLik, lik := s'.lik, mahal := s'.mahal } ∧
      (CachesOK expf (s.y, s.S, s.SI) s.logLik s.lik s.mahal → CachesOK expf (s.y, s.S, s.SI) s'.logLik s'.lik s'.mahal) := by
  rcases s with ⟨al, x, P, Q, B, F, H, R, z, K, y, S, SI, ll, lk, mh, xp, Pp, xq, Pq⟩
  cases op with
  | predict u => cases hop
  | update z R => cases z <;> cases hop
  | readLL =>
    obtain rfl := Except.ok.inj h
    cases ll with
    | none => exact ⟨rfl, fun h => ⟨fun v hv => (Option.some.inj hv).symm, h.2⟩⟩
    | some v => exact ⟨rfl, fun h => h⟩
  | readLik =>
    obtain rfl := Except.ok.inj h
    cases lk with
    | some v => exact ⟨rfl, fun h => h⟩
    | none =>
      cases ll with
      | none => exact ⟨rfl, fun h => ⟨fun v hv => (Option.some.inj hv).symm, fun v hv => (Option.some.inj hv).symm, h.2.2⟩⟩
      | some w => exact ⟨rfl, fun h => ⟨h.1, fun v hv => by rw [← h.1 w rfl]; exact (Option.some.inj hv).symm, h.2.2⟩⟩
  | readMahal =>
    cases mh with
    | some v => obtain rfl := Except.ok.inj h; exact ⟨rfl, fun h => h⟩
    | none =>
      simp only [FkfOp.on, FKF.readMahal] at h
      split_ifs at h with hd
      obtain rfl := Except.ok.inj h
      exact ⟨rfl, fun h => ⟨h.1, h.2.1, fun v hv => (Option.some.inj hv).symm⟩⟩

theorem fkf_read_values (expf : ℝ → ℝ) (s : FKF n m l) (h : CachesOK expf (s.y, s.S, s.SI) s.logLik s.lik s.mahal) :
    s.readLogLik.1 = logpdf s.y s.S ∧ (s.readLik expf).1 = expOrMin expf (logpdf s.y s.S) ∧
      (∀ v t, s.readMahal = .ok (v, t) → v = Real.sqrt (s.y ⬝ᵥ (s.SI *ᵥ s.y))) ∧
      (0 ≤ s.y ⬝ᵥ (s.SI *ᵥ s.y) → ∃ v t, s.readMahal = .ok (v, t)) := by
  rcases s with ⟨al, x, P, Q, B, F, H, R, z, K, y, S, SI, ll, lk, mh, xp, Pp, xq, Pq⟩
  obtain ⟨h1, h2, h3⟩ := h
  refine ⟨?_, ?_, fun v t hv => ?_, fun hq => ?_⟩
  · cases ll with
    | none => rfl
    | some v => exact h1 v rfl
  · cases lk with
    | some v => exact h2 v rfl
    | none =>
      cases ll with
      | none => rfl
      | some w => rw [← h1 w rfl]; rfl
  · cases mh with
    | some w =>
      obtain ⟨rfl, -⟩ := Prod.mk.inj (Except.ok.inj hv)
      exact h3 _ rfl
    | none =>
      simp only [FKF.readMahal] at hv
      split_ifs at hv with hd
      exact (Prod.mk.inj (Except.ok.inj hv)).1.symm
  · cases mh with
    | some w => exact ⟨_, _, rfl⟩
    | none => exact ⟨_, _, by simp only [FKF.readMahal]; rw [if_neg (not_lt.2 hq)]⟩

theorem fkf_calls (expf : ℝ → ℝ) (s s' : FKF n m l) (op : FkfOp n m l) (h : op.on expf s = .ok s') :
    match (fkfBooks expf n m l).kind op with
    | .predict => s' = { s with x := s'.x, P := s'.P, xPrior := s'.x, PPrior := s'.P }
    | .missing => s' = { s with z := s'.z, xPost := s.x, PPost := s.P }
    | .measured => s' = { s with x := s'.x, P := s'.P, y := s'.y, z := s'.z, K := s'.K, S := s'.S, SI := s'.SI, xPost := s'.x, PPost := s'.P, logLik := none, lik := none, mahal := none }
    | .read => True := by
  cases op with
  | predict u =>
    simp only [FkfOp.on, FKF.predict] at h
    cases hc : FKF.control s.B u with
    | error e => rw [hc] at h; cases h
    | ok bu => rw [hc] at h; obtain rfl := Except.ok.inj h; rfl
  | update z R =>
    cases z with
    | none => obtain rfl := Except.ok.inj h; rfl
    | some z =>
      simp only [FkfOp.on, FKF.update] at h
      cases hc : npInv (s.H * (s.P * s.Hᵀ) + R.resolve s.R) with
      | none => rw [hc] at h; cases h
      | some SI => rw [hc] at h; obtain rfl := Except.ok.inj h; rfl
  | readLL => trivial
  | readLik => trivial
  | readMahal => trivial

/-- **C91 (`FadingKalmanFilter`).** -/
theorem C91_fkf (expf : ℝ → ℝ) : (fkfBooks expf n m l).Mirrored ∧ (fkfBooks expf n m l).Describes expf := by
  constructor
  · refine Books.mirrored_of_step _ fun s s' op h => ?_
    have h1 := fkf_calls expf s s' op h
    have h2 := fkf_reads expf s s' op h
    cases hk : (fkfBooks expf n m l).kind op <;> rw [hk] at h1 h2
    · rw [h1]; exact ⟨rfl, rfl, rfl⟩
    · rw [h1]; exact ⟨rfl, rfl, rfl⟩
    · rw [h1]; exact ⟨rfl, rfl, rfl⟩
    · rw [(h2 rfl).1]; exact ⟨rfl, rfl, rfl⟩
  · refine LikBooks.describes_of_step expf _ (fun s => (s.logLik, s.lik, s.mahal)) (fun s s' op h => ?_)
      (fun s h => fkf_read_values expf s h)
    have h1 := fkf_calls expf s s' op h
    have h2 := fkf_reads expf s s' op h
    cases hk : (fkfBooks expf n m l).kind op <;> rw [hk] at h1 h2
    · rw [h1]; exact ⟨rfl, fun h => h⟩
    · rw [h1]; rfl
    · rw [h1]; exact ⟨rfl, fun h => h⟩
    · refine ⟨?_, (h2 rfl).2⟩
      rw [(h2 rfl).1]; rfl

/-- A history with a prediction, a measurement, a reading and a missing measurement that does not raise. -/
example : ∃ s', runList (FkfOp.on Real.exp) ({ FKF.fresh 1.5 1 1 1 with H := 1 })
    [.predict (.scalar 0), .update (some ![1]) .none, .readLik, .update none .none] = .ok s' := by
  have h : ∀ a : ℝ, a + 1 ≠ 0 → ∃ b, npInv ((1 : Mat 1 1) * (sc a * (1 : Mat 1 1)ᵀ) + 1) = some b := by
    intro a ha
    refine ⟨sc (a + 1)⁻¹, ?_⟩
    rw [sc_one]
    simp only [sc_transpose, sc_mul, sc_add, one_mul, mul_one]
    exact sc_npInv _ ha
  have e : (1.5 : ℝ) ^ 2 • ((1 : Mat 1 1) * 1 * (1 : Mat 1 1)ᵀ) + 1 = sc (1.5 ^ 2 + 1) := by
    rw [sc_one]
    simp only [sc_transpose, sc_mul, sc_add, sc_smul, one_mul, mul_one]
  obtain ⟨b, hb⟩ := h (1.5 ^ 2 + 1) (by norm_num)
  simp only [runList, FkfOp.on, FKF.predict, FKF.fresh, FKF.control, FKF.update, MatArg.resolve, e, hb]
  exact ⟨_, rfl⟩

/-! ## `UnscentedKalmanFilter` -/

variable {p : SigmaPts n}

/-- The calls on an `UnscentedKalmanFilter`. -/
inductive UkfCall (n m : ℕ)
  | predict (dt : Option ℝ) (fx : Option (Vec n → ℝ → Vec n))
  | update (z : Option (Vec m)) (R : MatArg m) (hx : Option (Vec n → Vec m))
  | readLL
  | readLik
  | readMahal

/-- What a call on an `UnscentedKalmanFilter` does. -/
noncomputable def UkfCall.on (expf : ℝ → ℝ) (s : UKF n m p) : UkfCall n m → Exec (UKF n m p)
  | .predict dt fx => s.predict dt fx
  | .update z R hx => s.update z R hx
  | .readLL => .ok s.readLogLik.2
  | .readLik => .ok (s.readLik expf).2
  | .readMahal => match s.readMahal with
    | .ok (_, s') => .ok s'
    | .error e => .error (e, s)

/-- The books of an `UnscentedKalmanFilter`. -/
noncomputable def ukfBooks (expf : ℝ → ℝ) (m : ℕ) (p : SigmaPts n) : LikBooks (UKF n m p) (UkfCall n m) (Vec n × Mat n n)
    (Mat n n × Mat m m × ℝ × (Vec n → Vec m) × (Vec n → ℝ → Vec n)) m where
  step := UkfCall.on expf
  kind
    | .predict .. => .predict
    | .update (some _) .. => .measured
    | .update none .. => .missing
    | _ => .read
  now s := (s.x, s.P)
  prior s := (s.xPrior, s.PPrior)
  post s := (s.xPost, s.PPost)
  attrs s := (s.Q, s.R, s.dt, s.hx, s.fx)
  innov s := (s.y, s.S, s.SI)
  readLL := UKF.readLogLik
  readLik := UKF.readLik expf
  readMahal := UKF.readMahal

/-- What a reading may change. -/
theorem ukf_reads (expf : ℝ → ℝ) (s s' : UKF n m p) (op : UkfCall n m) (h : op.on expf s = .ok s')
    (hop : (ukfBooks expf m p).kind op = .read) : s' = { s with logLik := s'.logLik, lik := s'.lik, mahal := s'.mahal } ∧
      (CachesOK expf (s.y, s.S, s.SI) s.logLik s.lik s.mahal → CachesOK expf (s.y, s.S, s.SI) s'.logLik s'.lik s'.mahal) := by
  rcases s with ⟨x, P, Q, R, dt, hx, fx, xm, zm, rx, rz, sa, sf, sh, z, K, y, S, SI, xp, Pp, xq, Pq, ll, lk, mh, iv⟩
  cases op with
  | predict dt fx => cases hop
  | update z R hx => cases z <;> cases hop
  | readLL =>
    obtain rfl := Except.ok.inj h
    cases ll with
    | none => exact ⟨rfl, fun h => ⟨fun v hv => (Option.some.inj hv).symm, h.2⟩⟩
    | some v => exact ⟨rfl, fun h => h⟩
  | readLik =>
    obtain rfl := Except.ok.inj h
    cases lk with
    | some v => exact ⟨rfl, fun h => h⟩
    | none =>
      cases ll with
      | none => exact ⟨rfl, fun h => ⟨fun v hv => (Option.some.inj hv).symm, fun v hv => (Option.some.inj hv).symm, h.2.2⟩⟩
      | some w => exact ⟨rfl, fun h => ⟨h.1, fun v hv => by rw [← h.1 w rfl]; exact (Option.some.inj hv).symm, h.2.2⟩⟩
  | readMahal =>
    cases mh with
    | some v => obtain rfl := Except.ok.inj h; exact ⟨rfl, fun h => h⟩
    | none =>
      simp only [UkfCall.on, UKF.readMahal] at h
      split_ifs at h with hd
      obtain rfl := Except.ok.inj h
      exact ⟨rfl, fun h => ⟨h.1, h.2.1, fun v hv => (Option.some.inj hv).symm⟩⟩

theorem ukf_read_values (expf : ℝ → ℝ) (s : UKF n m p) (h : CachesOK expf (s.y, s.S, s.SI) s.logLik s.lik s.mahal) :
    s.readLogLik.1 = logpdf s.y s.S ∧ (s.readLik expf).1 = expOrMin expf (logpdf s.y s.S) ∧
      (∀ v t, s.readMahal = .ok (v, t) → v = Real.sqrt (s.y ⬝ᵥ (s.SI *ᵥ s.y))) ∧
      (0 ≤ s.y ⬝ᵥ (s.SI *ᵥ s.y) → ∃ v t, s.readMahal = .ok (v, t)) := by
  rcases s with ⟨x, P, Q, R, dt, hx, fx, xm, zm, rx, rz, sa, sf, sh, z, K, y, S, SI, xp, Pp, xq, Pq, ll, lk, mh, iv⟩
  obtain ⟨h1, h2, h3⟩ := h
  refine ⟨?_, ?_, fun v t hv => ?_, fun hq => ?_⟩
  · cases ll with
    | none => rfl
    | some v => exact h1 v rfl
  · cases lk with
    | some v => exact h2 v rfl
    | none =>
      cases ll with
      | none => rfl
      | some w => rw [← h1 w rfl]; rfl
  · cases mh with
    | some w =>
      obtain ⟨rfl, -⟩ := Prod.mk.inj (Except.ok.inj hv)
      exact h3 _ rfl
    | none =>
      simp only [UKF.readMahal] at hv
      split_ifs at hv with hd
      exact (Prod.mk.inj (Except.ok.inj hv)).1.symm
  · cases mh with
    | some w => exact ⟨_, _, rfl⟩
    | none => exact ⟨_, _, by simp only [UKF.readMahal]; rw [if_neg (not_lt.2 hq)]⟩

theorem ukf_calls (expf : ℝ → ℝ) (s s' : UKF n m p) (op : UkfCall n m) (h : op.on expf s = .ok s') :
    match (ukfBooks expf m p).kind op with
    | .predict => s' = { s with sigmasF := s'.sigmasF, x := s'.x, P := s'.P, xPrior := s'.x, PPrior := s'.P }
    | .missing => s' = { s with z := s'.z, xPost := s.x, PPost := s.P }
    | .measured => s' = { s with sigmasH := s'.sigmasH, x := s'.x, P := s'.P, y := s'.y, z := s'.z, K := s'.K, S := s'.S, SI := s'.SI, xPost := s'.x, PPost := s'.P, logLik := none, lik := none, mahal := none }
    | .read => True := by
  cases op with
  | predict dt fx =>
    simp only [UkfCall.on, UKF.predict, UKF.computeProcessSigmas] at h
    cases hc : p.points s.x s.P with
    | error e => rw [hc] at h; cases h
    | ok sg =>
      rw [hc] at h
      simp only [UKF.predictUT] at h
      split at h
      · cases h
      · obtain rfl := Except.ok.inj h; rfl
  | update z R hx =>
    cases z with
    | none => obtain rfl := Except.ok.inj h; rfl
    | some z =>
      simp only [UkfCall.on, UKF.update] at h
      split at h
      · cases h
      · obtain rfl := Except.ok.inj h; rfl
  | readLL => trivial
  | readLik => trivial
  | readMahal => trivial

/-- **C91 (`UnscentedKalmanFilter`).** -/
theorem C91_ukf (expf : ℝ → ℝ) : (ukfBooks expf m p).Mirrored ∧ (ukfBooks expf m p).Describes expf := by
  constructor
  · refine Books.mirrored_of_step _ fun s s' op h => ?_
    have h1 := ukf_calls expf s s' op h
    have h2 := ukf_reads expf s s' op h
    cases hk : (ukfBooks expf m p).kind op <;> rw [hk] at h1 h2
    · rw [h1]; exact ⟨rfl, rfl, rfl⟩
    · rw [h1]; exact ⟨rfl, rfl, rfl⟩
    · rw [h1]; exact ⟨rfl, rfl, rfl⟩
    · rw [(h2 rfl).1]; exact ⟨rfl, rfl, rfl⟩
  · refine LikBooks.describes_of_step expf _ (fun s => (s.logLik, s.lik, s.mahal)) (fun s s' op h => ?_)
      (fun s h => ukf_read_values expf s h)
    have h1 := ukf_calls expf s s' op h
    have h2 := ukf_reads expf s s' op h
    cases hk : (ukfBooks expf m p).kind op <;> rw [hk] at h1 h2
    · rw [h1]; exact ⟨rfl, fun h => h⟩
    · rw [h1]; rfl
    · rw [h1]; exact ⟨rfl, fun h => h⟩
    · refine ⟨?_, (h2 rfl).2⟩
      rw [(h2 rfl).1]; rfl

/-! ## `CubatureKalmanFilter` -/

/-- The calls on a `CubatureKalmanFilter`. -/
inductive CkfCall (n m : ℕ)
  | predict (dt : Option ℝ)
  | update (z : Option (ColArg m)) (R : MatArg m)
  | readLL
  | readLik
  | readMahal

/-- What a call on a `CubatureKalmanFilter` does. -/
noncomputable def CkfCall.on (chol : Mat n n → Except Err (Mat n n)) (expf : ℝ → ℝ) (s : CKF n m) : CkfCall n m → Exec (CKF n m)
  | .predict dt => s.predict chol dt
  | .update z R => s.update z R
  | .readLL => .ok s.readLogLik.2
  | .readLik => .ok (s.readLik expf).2
  | .readMahal => match s.readMahal with
    | .ok (_, s') => .ok s'
    | .error e => .error (e, s)

/-- The books of a `CubatureKalmanFilter`. -/
noncomputable def ckfBooks (chol : Mat n n → Except Err (Mat n n)) (expf : ℝ → ℝ) (m : ℕ) : LikBooks (CKF n m) (CkfCall n m) (Vec n × Mat n n)
    (Mat n n × Mat m m × ℝ × (Vec n → Vec m) × (Vec n → ℝ → Vec n)) m where
  step := CkfCall.on chol expf
  kind
    | .predict _ => .predict
    | .update (some _) .. => .measured
    | .update none .. => .missing
    | _ => .read
  now s := (s.x, s.P)
  prior s := (s.xPrior, s.PPrior)
  post s := (s.xPost, s.PPost)
  attrs s := (s.Q, s.R, s.dt, s.hx, s.fx)
  innov s := (s.y, s.S, s.SI)
  readLL := CKF.readLogLik
  readLik := CKF.readLik expf
  readMahal := CKF.readMahal

/-- What a reading may change. -/
theorem ckf_reads (chol : Mat n n → Except Err (Mat n n)) (expf : ℝ → ℝ) (s s' : CKF n m) (op : CkfCall n m) (h : op.on chol expf s = .ok s')
    (hop : (ckfBooks chol expf m).kind op = .read) : s' = { s with logLik := s'.logLik, lik := s'.lik, mahal := s'.mahal } ∧
      (CachesOK expf (s.y, s.S, s.SI) s.logLik s.lik s.mahal → CachesOK expf (s.y, s.S, s.SI) s'.logLik s'.lik s'.mahal) := by
  rcases s with ⟨x, P, Q, R, dt, hx, fx, rz, sf, sh, z, K, y, S, SI, xp, Pp, xq, Pq, ll, lk, mh, ya⟩
  cases op with
  | predict dt => cases hop
  | update z R => cases z <;> cases hop
  | readLL =>
    obtain rfl := Except.ok.inj h
    cases ll with
    | none => exact ⟨rfl, fun h => ⟨fun v hv => (Option.some.inj hv).symm, h.2⟩⟩
    | some v => exact ⟨rfl, fun h => h⟩
  | readLik =>
    obtain rfl := Except.ok.inj h
    cases lk with
    | some v => exact ⟨rfl, fun h => h⟩
    | none =>
      cases ll with
      | none => exact ⟨rfl, fun h => ⟨fun v hv => (Option.some.inj hv).symm, fun v hv => (Option.some.inj hv).symm, h.2.2⟩⟩
      | some w => exact ⟨rfl, fun h => ⟨h.1, fun v hv => by rw [← h.1 w rfl]; exact (Option.some.inj hv).symm, h.2.2⟩⟩
  | readMahal =>
    cases mh with
    | some v => obtain rfl := Except.ok.inj h; exact ⟨rfl, fun h => h⟩
    | none =>
      simp only [CkfCall.on, CKF.readMahal] at h
      split_ifs at h with hd
      obtain rfl := Except.ok.inj h
      exact ⟨rfl, fun h => ⟨h.1, h.2.1, fun v hv => (Option.some.inj hv).symm⟩⟩

theorem ckf_read_values (expf : ℝ → ℝ) (s : CKF n m) (hy : s.yArray = true) (h : CachesOK expf (s.y, s.S, s.SI) s.logLik s.lik s.mahal) :
    s.readLogLik.1 = logpdf s.y s.S ∧ (s.readLik expf).1 = expOrMin expf (logpdf s.y s.S) ∧
      (∀ v t, s.readMahal = .ok (v, t) → v = Real.sqrt (s.y ⬝ᵥ (s.SI *ᵥ s.y))) ∧
      (0 ≤ s.y ⬝ᵥ (s.SI *ᵥ s.y) → ∃ v t, s.readMahal = .ok (v, t)) := by
  rcases s with ⟨x, P, Q, R, dt, hx, fx, rz, sf, sh, z, K, y, S, SI, xp, Pp, xq, Pq, ll, lk, mh, ya⟩
  obtain ⟨h1, h2, h3⟩ := h
  refine ⟨?_, ?_, fun v t hv => ?_, fun hq => ?_⟩
  · cases ll with
    | none => rfl
    | some v => exact h1 v rfl
  · cases lk with
    | some v => exact h2 v rfl
    | none =>
      cases ll with
      | none => rfl
      | some w => rw [← h1 w rfl]; rfl
  · cases mh with
    | some w =>
      obtain ⟨rfl, -⟩ := Prod.mk.inj (Except.ok.inj hv)
      exact h3 _ rfl
    | none =>
      simp only [CKF.readMahal] at hv
      split_ifs at hv with hd
      exact (Prod.mk.inj (Except.ok.inj hv)).1.symm
  · cases mh with
    | some w => exact ⟨_, _, rfl⟩
    | none =>
      have hy' : ¬ ya = false := by rw [show ya = true from hy]; simp
      exact ⟨_, _, by simp only [CKF.readMahal]; rw [if_neg hy', if_neg (not_lt.2 hq)]⟩

theorem ckf_calls (chol : Mat n n → Except Err (Mat n n)) (expf : ℝ → ℝ) (s s' : CKF n m) (op : CkfCall n m) (h : op.on chol expf s = .ok s') :
    match (ckfBooks chol expf m).kind op with
    | .predict => s' = { s with sigmasF := s'.sigmasF, x := s'.x, P := s'.P, xPrior := s'.x, PPrior := s'.P }
    | .missing => s' = { s with z := s'.z, xPost := s.x, PPost := s.P }
    | .measured => s' = { s with sigmasH := s'.sigmasH, x := s'.x, P := s'.P, y := s'.y, z := s'.z, K := s'.K, S := s'.S, SI := s'.SI, xPost := s'.x, PPost := s'.P, logLik := none, lik := none, mahal := none, yArray := true }
    | .read => True := by
  cases op with
  | predict dt =>
    simp only [CkfCall.on, CKF.predict] at h
    split at h
    · cases h
    · obtain rfl := Except.ok.inj h; rfl
  | update z R =>
    cases z with
    | none => obtain rfl := Except.ok.inj h; rfl
    | some z =>
      simp only [CkfCall.on, CKF.update] at h
      split at h
      · cases h
      · split at h
        · obtain rfl := Except.ok.inj h; rfl
        · split_ifs at h
          obtain rfl := Except.ok.inj h; rfl
  | readLL => trivial
  | readLik => trivial
  | readMahal => trivial

/-- **C91 (`CubatureKalmanFilter`).** -/
theorem C91_ckf (chol : Mat n n → Except Err (Mat n n)) (expf : ℝ → ℝ) : (ckfBooks chol expf m).Mirrored ∧ (ckfBooks chol expf m).Describes expf := by
  constructor
  · refine Books.mirrored_of_step _ fun s s' op h => ?_
    have h1 := ckf_calls chol expf s s' op h
    have h2 := ckf_reads chol expf s s' op h
    cases hk : (ckfBooks chol expf m).kind op <;> rw [hk] at h1 h2
    · rw [h1]; exact ⟨rfl, rfl, rfl⟩
    · rw [h1]; exact ⟨rfl, rfl, rfl⟩
    · rw [h1]; exact ⟨rfl, rfl, rfl⟩
    · rw [(h2 rfl).1]; exact ⟨rfl, rfl, rfl⟩
  · refine LikBooks.describes_of_ready expf _ (fun s => (s.logLik, s.lik, s.mahal)) (fun s => s.yArray = true)
      (fun s s' op h => ?_) (fun s s' op h hr => ?_) (fun s hy h => ckf_read_values expf s hy h)
    have h1 := ckf_calls chol expf s s' op h
    have h2 := ckf_reads chol expf s s' op h
    cases hk : (ckfBooks chol expf m).kind op <;> rw [hk] at h1 h2
    · rw [h1]; exact ⟨rfl, fun h => h⟩
    · rw [h1]; rfl
    · rw [h1]; exact ⟨rfl, fun h => h⟩
    · refine ⟨?_, (h2 rfl).2⟩
      rw [(h2 rfl).1]; rfl
    · have h1 := ckf_calls chol expf s s' op h
      have h2 := ckf_reads chol expf s s' op h
      cases hk : (ckfBooks chol expf m).kind op <;> rw [hk] at h1 h2 hr
      · rw [h1]; exact hr.resolve_left nofun
      · rw [h1]
      · rw [h1]; exact hr.resolve_left nofun
      · rw [(h2 rfl).1]; exact hr.resolve_left nofun

/-! ## `EnsembleKalmanFilter` -/

variable {N : ℕ}

/-- The books of an `EnsembleKalmanFilter`. -/
noncomputable def enkfBooks (n m N : ℕ) : Books (EnKF n m N) (EnkfOp n m N) (Vec n × Mat n n)
    (Mat n n × Mat m m × ℝ × (Vec n → Vec m) × (Vec n → ℝ → Vec n)) where
  step := EnkfOp.run
  kind
    | .predict _ => .predict
    | .update (some _) .. => .measured
    | .update none .. => .missing
  now s := (s.x, s.P)
  prior s := (s.xPrior, s.PPrior)
  post s := (s.xPost, s.PPost)
  attrs s := (s.Q, s.R, s.dt, s.hx, s.fx)

/-- **C91 (`EnsembleKalmanFilter`).** -/
theorem C91_enkf : (enkfBooks n m N).Mirrored := by
  refine Books.mirrored_of_step _ fun s s' op h => ?_
  match op, h with
  | .predict e, h =>
    simp only [enkfBooks, EnkfOp.run, EnKF.predict] at h
    split_ifs at h
    obtain rfl := Except.ok.inj h
    exact ⟨rfl, rfl, rfl⟩
  | .update none R e, h =>
    obtain rfl := Except.ok.inj h
    exact ⟨rfl, rfl, rfl⟩
  | .update (some z) R e, h =>
    simp only [enkfBooks, EnkfOp.run, EnKF.update] at h
    split_ifs at h
    split at h
    · cases h
    · obtain rfl := Except.ok.inj h
      exact ⟨rfl, rfl, rfl⟩

/-! ## `SquareRootKalmanFilter` -/

/-- The calls on a `SquareRootKalmanFilter`. -/
inductive SrCall (m l : ℕ)
  | predict (u : UArg l)
  | update (z : Option (Vec m)) (R2 : MatArg m)

/-- What a call on a `SquareRootKalmanFilter` does. -/
noncomputable def SrCall.on (L : SqrtLib n m) (s : SRKF n m l) : SrCall m l → Exec (SRKF n m l)
  | .predict u => s.predict L u
  | .update z R2 => .ok (s.update L z R2)

/-- What it is. -/
def SrCall.kind : SrCall m l → Kind
  | .predict _ => .predict
  | .update (some _) _ => .measured
  | .update none _ => .missing

/-- The books of a `SquareRootKalmanFilter` for the state. -/
noncomputable def srStateBooks (L : SqrtLib n m) (l : ℕ) : Books (SRKF n m l) (SrCall m l) (Vec n)
    (Option (Mat n l) × Mat n n × Mat m n × Mat m m × Mat n n) where
  step := SrCall.on L
  kind := SrCall.kind
  now s := s.x
  prior s := s.xPrior
  post s := s.xPost
  attrs s := (s.B, s.F, s.H, s.getR, s.getQ)

/-- The books of a `SquareRootKalmanFilter` for the covariance. -/
noncomputable def srCovBooks (L : SqrtLib n m) (l : ℕ) : Books (SRKF n m l) (SrCall m l) (Mat n n) Unit where
  step := SrCall.on L
  kind := SrCall.kind
  now s := s.getP
  prior s := s.getPPrior
  post s := s.getPPost
  attrs _ := ()

/-- **C91 (`SquareRootKalmanFilter`), partial**: everything but `P_post`. -/
theorem C91_square_root_partial (L : SqrtLib n m) :
    (srStateBooks L l).Mirrored ∧ (srCovBooks L l).MirrorsPrior := by
  constructor
  · refine Books.mirrored_of_step _ fun s s' op h => ?_
    match op, h with
    | .predict u, h =>
      simp only [srStateBooks, SrCall.on, SRKF.predict] at h
      split at h
      · cases h
      · obtain rfl := Except.ok.inj h
        exact ⟨rfl, rfl, rfl⟩
    | .update none R, h =>
      obtain rfl := Except.ok.inj h
      exact ⟨rfl, rfl, rfl⟩
    | .update (some z) R, h =>
      obtain rfl := Except.ok.inj h
      exact ⟨rfl, rfl, rfl⟩
  · intro s s' before after p hp ha hr
    refine runList_last_eq (fun s s' hs => ?_) (fun s s' i hi hs => ?_) hr
    · match p, hp, hs with
      | .predict u, _, hs =>
        simp only [srCovBooks, SrCall.on, SRKF.predict] at hs
        split at hs
        · cases hs
        · obtain rfl := Except.ok.inj hs
          rfl
      | .update none R, hp, _ => cases hp
      | .update (some z) R, hp, _ => cases hp
    · have h2 := ha i hi
      match i, h2, hs with
      | .predict u, h2, hs => exact absurd rfl h2
      | .update none R, _, hs =>
        obtain rfl := Except.ok.inj hs
        rfl
      | .update (some z) R, _, hs =>
        obtain rfl := Except.ok.inj hs
        rfl

/-- **C91 refuted** for `P_post` of `SquareRootKalmanFilter`, whatever the library. -/
theorem C91_square_root_refuted (L : SqrtLib 1 1) (hL : Spec.SqrtLib.Valid L) :
    ¬ (srCovBooks L 0).MirrorsPost := by
  intro h
  obtain ⟨h1, h2⟩ := C28_P_post_refuted L hL
  obtain ⟨s1, h3, h4⟩ := h { SRKF.fresh 1 1 0 with H := 1 } _ [] [] (.update (some ![0]) .none) (Or.inl rfl)
    (by simp) rfl
  obtain rfl := Except.ok.inj h3
  have h5 := h2.symm.trans (h4.trans h1)
  have := congrFun (congrFun h5 0) 0
  simp only [sc, Matrix.of_apply] at this
  norm_num at this

/-! ## `InformationFilter` -/

/-- The calls on an `InformationFilter`. -/
inductive IfCall (m l : ℕ)
  | predict (u : UArg l)
  | update (z : Option (Vec m)) (Rinv : MatArg m)

/-- What a call on an `InformationFilter` does. -/
noncomputable def IfCall.on (expf : ℝ → ℝ) (s : IF n m l) : IfCall m l → Exec (IF n m l)
  | .predict u => s.predict u
  | .update z R => s.update expf z R

/-- What it is. -/
def IfCall.kind : IfCall m l → Kind
  | .predict _ => .predict
  | .update (some _) _ => .measured
  | .update none _ => .missing

/-- The books of an `InformationFilter` for the state. -/
noncomputable def ifStateBooks (expf : ℝ → ℝ) (n m l : ℕ) : Books (IF n m l) (IfCall m l) (Vec n)
    (Option (Mat n l) × Option (Mat n n) × Mat m n × Mat m m × Mat n n × Bool) where
  step := IfCall.on expf
  kind := IfCall.kind
  now s := s.x
  prior s := s.xPrior
  post s := s.xPost
  attrs s := (s.B, s.F, s.H, s.Rinv, s.Q, s.computeLL)

/-- The books of an `InformationFilter` for the information matrix. -/
noncomputable def ifInfoBooks (expf : ℝ → ℝ) (n m l : ℕ) : Books (IF n m l) (IfCall m l) (Mat n n) Unit where
  step := IfCall.on expf
  kind := IfCall.kind
  now s := s.Pinv
  prior s := s.PinvPrior
  post s := s.PinvPost
  attrs _ := ()

theorem IF.recover_keeps (s : IF n m l) : s.recover.xPost = s.xPost ∧ s.recover.PinvPost = s.PinvPost ∧
    s.recover.B = s.B ∧ s.recover.F = s.F ∧ s.recover.H = s.H ∧ s.recover.Rinv = s.Rinv ∧ s.recover.Q = s.Q ∧
      s.recover.computeLL = s.computeLL := by
  unfold IF.recover
  split
  · split <;> exact ⟨rfl, rfl, rfl, rfl, rfl, rfl, rfl, rfl⟩
  · exact ⟨rfl, rfl, rfl, rfl, rfl, rfl, rfl, rfl⟩

theorem if_predict_books (s s' : IF n m l) (u : UArg l) (h : s.predict u = .ok s') :
    s'.xPrior = s'.x ∧ s'.xPost = s.xPost ∧ s'.PinvPost = s.PinvPost ∧ s'.B = s.B ∧ s'.F = s.F ∧ s'.H = s.H ∧
      s'.Rinv = s.Rinv ∧ s'.Q = s.Q ∧ s'.computeLL = s.computeLL := by
  unfold IF.predict at h
  split at h
  · simp only at h
    split at h
    · simp only [IF.predictInv] at h
      split at h
      · cases h
      · split at h
        · cases h
        · obtain rfl := Except.ok.inj h
          exact ⟨rfl, s.recover_keeps⟩
    · simp only [IF.predictNoInfo] at h
      split at h
      · cases h
      · split at h
        · cases h
        · obtain rfl := Except.ok.inj h
          exact ⟨rfl, rfl, rfl, rfl, rfl, rfl, rfl, rfl, rfl⟩
  · cases h

theorem if_update_books (expf : ℝ → ℝ) (s s' : IF n m l) (z : Option (Vec m)) (R : MatArg m) (h : s.update expf z R = .ok s') :
    s'.xPrior = s.xPrior ∧ s'.xPost = s'.x ∧ s'.PinvPost = s'.Pinv ∧ s'.B = s.B ∧ s'.F = s.F ∧ s'.H = s.H ∧
      s'.Rinv = s.Rinv ∧ s'.Q = s.Q ∧ s'.computeLL = s.computeLL := by
  unfold IF.update at h
  split at h
  · obtain rfl := Except.ok.inj h
    exact ⟨rfl, rfl, rfl, rfl, rfl, rfl, rfl, rfl, rfl⟩
  · simp only at h
    split at h
    · obtain rfl := Except.ok.inj h
      exact ⟨rfl, rfl, rfl, rfl, rfl, rfl, rfl, rfl, rfl⟩
    · split at h
      · cases h
      · split at h
        · split at h
          · cases h
          · obtain rfl := Except.ok.inj h
            exact ⟨rfl, rfl, rfl, rfl, rfl, rfl, rfl, rfl, rfl⟩
        · obtain rfl := Except.ok.inj h
          exact ⟨rfl, rfl, rfl, rfl, rfl, rfl, rfl, rfl, rfl⟩

/-- **C91 (`InformationFilter`), partial**: everything but the prior copy of the information matrix. -/
theorem C91_information_partial (expf : ℝ → ℝ) :
    (ifStateBooks expf n m l).Mirrored ∧ (ifInfoBooks expf n m l).MirrorsPost := by
  have attrs : ∀ {s s' : IF n m l}, s'.B = s.B ∧ s'.F = s.F ∧ s'.H = s.H ∧ s'.Rinv = s.Rinv ∧ s'.Q = s.Q ∧
      s'.computeLL = s.computeLL → (ifStateBooks expf n m l).attrs s' = (ifStateBooks expf n m l).attrs s := by
    rintro s s' ⟨h1, h2, h3, h4, h5, h6⟩
    simp only [ifStateBooks, h1, h2, h3, h4, h5, h6]
  constructor
  · refine Books.mirrored_of_step _ fun s s' op h => ?_
    match op, h with
    | .predict u, h =>
      obtain ⟨h1, h2, -, h4⟩ := if_predict_books s s' u h
      exact ⟨h1, h2, attrs h4⟩
    | .update none R, h =>
      obtain ⟨h1, h2, -, h4⟩ := if_update_books expf s s' none R h
      exact ⟨h1, h2, attrs h4⟩
    | .update (some z) R, h =>
      obtain ⟨h1, h2, -, h4⟩ := if_update_books expf s s' (some z) R h
      exact ⟨h1, h2, attrs h4⟩
  · intro s s' before after p hp ha hr
    refine runList_last_eq (fun s s' hs => ?_) (fun s s' i hi hs => ?_) hr
    · match p, hp, hs with
      | .predict u, hp, hs => rcases hp with hp | hp <;> cases hp
      | .update z R, _, hs => exact (if_update_books expf s s' z R hs).2.2.1
    · have h2 := ha i hi
      match i, h2, hs with
      | .predict u, _, hs => exact (if_predict_books s s' u hs).2.2.1
      | .update none R, h2, _ => exact absurd rfl h2.2
      | .update (some z) R, h2, _ => exact absurd rfl h2.1

/-- **C91 refuted** for `P_inv_prior`: a prediction from a state without information leaves `P_inv` as it
was but records another matrix as the prior. -/
theorem C91_information_refuted (expf : ℝ → ℝ) : ¬ (ifInfoBooks expf 1 1 1).MirrorsPrior := by
  intro h
  have hr : runList (IfCall.on expf) blank1 [.predict (.scalar 0)] =
      .ok { blank1 with noInformation := true, xPrior := vc 0, PinvPrior := sc 1 } := by
    simp only [runList, IfCall.on, blank1_predict]
  obtain ⟨s1, h1, h2⟩ := h blank1 _ [] [] (.predict (.scalar 0)) rfl (by simp) hr
  obtain rfl := Except.ok.inj (hr.symm.trans h1)
  have := congrFun (congrFun h2 0) 0
  simp [ifInfoBooks, sc, blank1] at this

/-! ## Arguments given to a single call -/

/-- The outcome of a call, with some attributes put back. -/
def Restored {σ : Type*} (back : σ → σ) : Exec σ → Exec σ
  | .ok s => .ok (back s)
  | .error e => .error (e.1, back e.2)

/-- **C91 (arguments, `UnscentedKalmanFilter`).**  `predict(dt, fx)` is the plain `predict()` of the filter
with these attributes assigned, the old ones being put back afterwards; likewise `update(z, R, hx)`. -/
theorem C91_ukf_arguments (s : UKF n m p) (dt : Option ℝ) (fx : Option (Vec n → ℝ → Vec n)) (z : Option (Vec m))
    (R : MatArg m) (hx : Option (Vec n → Vec m)) :
    s.predict dt fx = Restored (fun t => { t with dt := s.dt, fx := s.fx })
      (UKF.predict { s with dt := dt.getD s.dt, fx := fx.getD s.fx }) ∧
    s.update z R hx = Restored (fun t => { t with R := s.R, hx := s.hx })
      (UKF.update { s with R := R.resolve s.R, hx := hx.getD s.hx } z) := by
  constructor
  · simp only [UKF.predict, UKF.computeProcessSigmas, Option.getD_none]
    cases p.points s.x s.P with
    | error e => rfl
    | ok sg =>
      simp only [UKF.predictUT]
      split <;> rfl
  · cases z with
    | none => rfl
    | some z =>
      simp only [UKF.update, Option.getD_none, MatArg.resolve]
      split <;> rfl

/-- **C91 (arguments, `CubatureKalmanFilter`).** -/
theorem C91_ckf_arguments (chol : Mat n n → Except Err (Mat n n)) (s : CKF n m) (dt : Option ℝ) (z : Option (ColArg m))
    (R : MatArg m) :
    s.predict chol dt = Restored (fun t => { t with dt := s.dt }) (CKF.predict chol { s with dt := dt.getD s.dt }) ∧
    s.update z R = Restored (fun t => { t with R := s.R }) (CKF.update { s with R := R.resolve s.R } z) := by
  constructor
  · simp only [CKF.predict, Option.getD_none]
    split <;> rfl
  · cases z with
    | none => rfl
    | some z =>
      simp only [CKF.update, MatArg.resolve]
      split
      · rfl
      · cases z with
        | col z => rfl
        | flat z => simp only; split_ifs <;> rfl

/-- **C91 (arguments).**  The measurement noise given to a single `update` of the other classes. -/
theorem C91_noise_argument :
    (∀ (s : EKF n m l) z HJ hx R res, s.update z HJ hx R res = Restored (fun t => { t with R := s.R })
      (EKF.update { s with R := R.resolve s.R } z HJ hx .none res)) ∧
    (∀ (s : FKF n m l) z R, s.update z R = Restored (fun t => { t with R := s.R })
      (FKF.update { s with R := R.resolve s.R } z)) ∧
    (∀ (s : EnKF n m N) z R e, s.update z R e = Restored (fun t => { t with R := s.R })
      (EnKF.update { s with R := R.resolve s.R } z .none e)) ∧
    (∀ expf (s : IF n m l) z R, s.update expf z R = Restored (fun t => { t with Rinv := s.Rinv })
      (IF.update expf { s with Rinv := R.resolve s.Rinv } z)) ∧
    (∀ L (s : SRKF n m l) z R, s.update L z R =
      { SRKF.update L { s with R12 := R.resolve s.R12 } z with R12 := s.R12 }) := by
  refine ⟨fun s z HJ hx R res => ?_, fun s z R => ?_, fun s z R e => ?_, fun expf s z R => ?_, fun L s z R => ?_⟩
  · cases z with
    | none => rfl
    | some z =>
      simp only [EKF.update, MatArg.resolve]
      split <;> rfl
  · cases z with
    | none => rfl
    | some z =>
      simp only [FKF.update, MatArg.resolve]
      split <;> rfl
  · cases z with
    | none => rfl
    | some z =>
      simp only [EnKF.update, MatArg.resolve]
      split_ifs
      · rfl
      · split <;> rfl
  · cases z with
    | none => rfl
    | some z =>
      simp only [IF.update, MatArg.resolve]
      split_ifs
      · rfl
      · split
        · rfl
        · split <;> rfl
      · split <;> rfl
  · cases z <;> rfl

/-- A scalar noise means that multiple of the identity matrix. -/
theorem C91_scalar_noise (R : Mat m m) (c : ℝ) (i j : Fin m) :
    MatArg.resolve (.scalar c) R i j = if i = j then c else 0 := by
  simp [MatArg.resolve, Matrix.smul_apply, Matrix.one_apply]

end Filterpy
