import Verif.Props.Causality

/-!
# C153: a recording may be processed in pieces

A long recording is read in chunks.  `batch_filter` on the first chunk and then, with the same object, on the next gives what one
call on everything gives, exceptions included.  Two batch methods leave no trace in the object and so start again each time
(`GHFilter.batch_filter`, `FixedLagSmoother.smooth_batch`): there the property is refuted.
-/

namespace Filterpy

open Matrix

variable {n m l : ℕ} {p : SigmaPts n}

namespace Spec

/-- One batch call and another one on the object it leaves behind, with the two outputs joined. -/
def thenBatch {α σ : Type*} (r : Except (Err × σ) (List α × σ)) (f : σ → Except (Err × σ) (List α × σ)) :
    Except (Err × σ) (List α × σ) :=
  match r with
  | .error e => .error e
  | .ok (o, t) => match f t with
    | .error e => .error e
    | .ok (o', t') => .ok (o ++ o', t')

/-- The optional lists of `batch_filter` from row `k` on. -/
def argsFrom (k : ℕ) (a : KF.BatchArgs n m l) : KF.BatchArgs n m l :=
  ⟨a.Fs.map (·.drop k), a.Qs.map (·.drop k), a.Hs.map (·.drop k), a.Rs.map (·.drop k), a.Bs.map (·.drop k), a.us.map (·.drop k)⟩

end Spec

open Spec

theorem zip7_nil2 {α β γ δ ε ζ η θ : Type*} (f : α → β → γ → δ → ε → ζ → η → θ) (as : List α) (cs : List γ) (ds : List δ) (es : List ε) (gs : List ζ) (hs : List η) :
    KF.zip7 f as [] cs ds es gs hs = [] := by
  cases as <;> rfl

theorem zip7_nil3 {α β γ δ ε ζ η θ : Type*} (f : α → β → γ → δ → ε → ζ → η → θ) (as : List α) (bs : List β) (ds : List δ) (es : List ε) (gs : List ζ) (hs : List η) :
    KF.zip7 f as bs [] ds es gs hs = [] := by
  cases as <;> cases bs <;> rfl

theorem zip7_nil4 {α β γ δ ε ζ η θ : Type*} (f : α → β → γ → δ → ε → ζ → η → θ) (as : List α) (bs : List β) (cs : List γ) (es : List ε) (gs : List ζ) (hs : List η) :
    KF.zip7 f as bs cs [] es gs hs = [] := by
  cases as <;> cases bs <;> cases cs <;> rfl

theorem zip7_nil5 {α β γ δ ε ζ η θ : Type*} (f : α → β → γ → δ → ε → ζ → η → θ) (as : List α) (bs : List β) (cs : List γ) (ds : List δ) (gs : List ζ) (hs : List η) :
    KF.zip7 f as bs cs ds [] gs hs = [] := by
  cases as <;> cases bs <;> cases cs <;> cases ds <;> rfl

theorem zip7_nil6 {α β γ δ ε ζ η θ : Type*} (f : α → β → γ → δ → ε → ζ → η → θ) (as : List α) (bs : List β) (cs : List γ) (ds : List δ) (es : List ε) (hs : List η) :
    KF.zip7 f as bs cs ds es [] hs = [] := by
  cases as <;> cases bs <;> cases cs <;> cases ds <;> cases es <;> rfl

theorem zip7_nil7 {α β γ δ ε ζ η θ : Type*} (f : α → β → γ → δ → ε → ζ → η → θ) (as : List α) (bs : List β) (cs : List γ) (ds : List δ) (es : List ε) (gs : List ζ) :
    KF.zip7 f as bs cs ds es gs [] = [] := by
  cases as <;> cases bs <;> cases cs <;> cases ds <;> cases es <;> cases gs <;> rfl

theorem zip7_nil1 {α β γ δ ε ζ η θ : Type*} (f : α → β → γ → δ → ε → ζ → η → θ) (bs : List β) (cs : List γ) (ds : List δ) (es : List ε) (gs : List ζ) (hs : List η) :
    KF.zip7 f [] bs cs ds es gs hs = [] := rfl

theorem zip7_drop {α β γ δ ε ζ η θ : Type*} (f : α → β → γ → δ → ε → ζ → η → θ) (k : ℕ) (as : List α) (bs : List β) (cs : List γ) (ds : List δ) (es : List ε) (gs : List ζ) (hs : List η) :
    (KF.zip7 f as bs cs ds es gs hs).drop k = KF.zip7 f (as.drop k) (bs.drop k) (cs.drop k) (ds.drop k) (es.drop k) (gs.drop k) (hs.drop k) := by
  induction k generalizing as bs cs ds es gs hs with
  | zero => simp
  | succ k ih =>
    cases as with
    | nil => simp [zip7_nil1]
    | cons a as => cases bs with
      | nil => simp [zip7_nil2]
      | cons b bs => cases cs with
        | nil => simp [zip7_nil3]
        | cons c cs => cases ds with
          | nil => simp [zip7_nil4]
          | cons d ds => cases es with
            | nil => simp [zip7_nil5]
            | cons e es => cases gs with
              | nil => simp [zip7_nil6]
              | cons g gs => cases hs with
                | nil => simp [zip7_nil7]
                | cons h hs => simp [KF.zip7, ih]

theorem zip_short {α β : Type*} (as : List α) : ∀ (bs : List β), as.zip (bs.take as.length) = as.zip bs := by
  induction as with
  | nil => intro bs; rfl
  | cons a as ih => intro bs; cases bs <;> simp [ih]

theorem getD_drop {α : Type*} (o : Option (List α)) (a : α) (k j : ℕ) :
    (o.getD (List.replicate (k + j) a)).drop k = (o.map (·.drop k)).getD (List.replicate j a) := by
  cases o <;> simp

theorem zip_drop {α β : Type*} (as : List α) (bs : List β) (k : ℕ) : (as.zip bs).drop k = (as.drop k).zip (bs.drop k) := by
  induction k generalizing as bs with
  | zero => simp
  | succ k ih => cases as <;> cases bs <;> simp [ih]

/-- What a `KalmanFilter` uses as defaults. -/
def SameDefaults (s t : KF n m l) : Prop := t.F = s.F ∧ t.Q = s.Q ∧ t.H = s.H ∧ t.R = s.R ∧ t.B = s.B

theorem SameDefaults.trans {s t u : KF n m l} (h : SameDefaults s t) (k : SameDefaults t u) : SameDefaults s u := by
  obtain ⟨h1, h2, h3, h4, h5⟩ := h
  obtain ⟨k1, k2, k3, k4, k5⟩ := k
  exact ⟨k1.trans h1, k2.trans h2, k3.trans h3, k4.trans h4, k5.trans h5⟩

theorem predict_sameDefaults {s t : KF n m l} {u B F Q} (h : s.predict u B F Q = .ok t) : SameDefaults s t := by
  unfold KF.predict at h
  simp only at h
  generalize KF.control _ _ = q at h
  cases q with
  | error e => simp at h
  | ok bu => simp only [Except.ok.injEq] at h; subst h; exact ⟨rfl, rfl, rfl, rfl, rfl⟩

theorem update_sameDefaults {s t : KF n m l} {z R H} (h : s.update z R H = .ok t) : SameDefaults s t := by
  unfold KF.update at h
  cases z with
  | none => simp only [Except.ok.injEq] at h; subst h; exact ⟨rfl, rfl, rfl, rfl, rfl⟩
  | some z =>
    simp only at h
    generalize s.inv _ = q at h
    cases q with
    | none => simp at h
    | some SI => simp only [Except.ok.injEq] at h; subst h; exact ⟨rfl, rfl, rfl, rfl, rfl⟩

theorem batchRows_sameDefaults {s t : KF n m l} (h : SameDefaults s t) (zs : List (Option (Vec m))) (a : KF.BatchArgs n m l) :
    KF.batchRows t zs a = KF.batchRows s zs a := by
  obtain ⟨h1, h2, h3, h4, h5⟩ := h
  simp only [KF.batchRows, h1, h2, h3, h4, h5]

theorem batchRows_drop (s : KF n m l) (zs ws : List (Option (Vec m))) (a : KF.BatchArgs n m l) :
    (KF.batchRows s (zs ++ ws) a).drop zs.length = KF.batchRows s ws (argsFrom zs.length a) := by
  unfold KF.batchRows argsFrom
  simp only [zip7_drop, List.length_append, getD_drop, List.drop_left']

theorem kf_loop_append (uf : Bool) (r1 r2 : List (KF.BatchRow n m l)) : ∀ s : KF n m l,
    KF.batchLoop uf s (r1 ++ r2) = thenBatch (KF.batchLoop uf s r1) (fun t => KF.batchLoop uf t r2) := by
  induction r1 with
  | nil =>
    intro s
    simp only [List.nil_append, KF.batchLoop, thenBatch]
    cases KF.batchLoop uf s r2 <;> rfl
  | cons r r1 ih =>
    intro s
    cases uf with
    | true =>
      simp only [List.cons_append, KF.batchLoop, if_true, bind, Except.bind]
      cases s.update r.z r.R (some r.H) with
      | error e => rfl
      | ok s1 =>
        simp only
        cases s1.predict r.u r.B (some r.F) r.Q with
        | error e => rfl
        | ok s2 =>
          simp only [ih]
          cases KF.batchLoop true s2 r1 with
          | error e => rfl
          | ok q =>
            obtain ⟨o, t⟩ := q
            simp only [thenBatch]
            cases KF.batchLoop true t r2 <;> rfl
    | false =>
      simp only [List.cons_append, KF.batchLoop, Bool.false_eq_true, if_false, bind, Except.bind]
      cases s.predict r.u r.B (some r.F) r.Q with
      | error e => rfl
      | ok s1 =>
        simp only
        cases s1.update r.z r.R (some r.H) with
        | error e => rfl
        | ok s2 =>
          simp only [ih]
          cases KF.batchLoop false s2 r1 with
          | error e => rfl
          | ok q =>
            obtain ⟨o, t⟩ := q
            simp only [thenBatch]
            cases KF.batchLoop false t r2 <;> rfl

theorem kf_loop_sameDefaults (uf : Bool) (rows : List (KF.BatchRow n m l)) : ∀ (s : KF n m l) {o t},
    KF.batchLoop uf s rows = .ok (o, t) → SameDefaults s t := by
  induction rows with
  | nil =>
    intro s o t h
    simp only [KF.batchLoop, Except.ok.injEq, Prod.mk.injEq] at h
    rw [← h.2]; exact ⟨rfl, rfl, rfl, rfl, rfl⟩
  | cons r rows ih =>
    intro s o t h
    cases uf with
    | true =>
      simp only [KF.batchLoop, if_true, bind, Except.bind] at h
      cases h1 : s.update r.z r.R (some r.H) with
      | error e => simp [h1] at h
      | ok s1 =>
        simp only [h1] at h
        cases h2 : s1.predict r.u r.B (some r.F) r.Q with
        | error e => simp [h2] at h
        | ok s2 =>
          simp only [h2] at h
          cases h3 : KF.batchLoop true s2 rows with
          | error e => simp [h3] at h
          | ok q =>
            obtain ⟨o, t2⟩ := q
            simp only [h3, Except.ok.injEq, Prod.mk.injEq] at h
            rw [← h.2]
            exact (update_sameDefaults h1).trans ((predict_sameDefaults h2).trans (ih s2 h3))
    | false =>
      simp only [KF.batchLoop, Bool.false_eq_true, if_false, bind, Except.bind] at h
      cases h1 : s.predict r.u r.B (some r.F) r.Q with
      | error e => simp [h1] at h
      | ok s1 =>
        simp only [h1] at h
        cases h2 : s1.update r.z r.R (some r.H) with
        | error e => simp [h2] at h
        | ok s2 =>
          simp only [h2] at h
          cases h3 : KF.batchLoop false s2 rows with
          | error e => simp [h3] at h
          | ok q =>
            obtain ⟨o, t2⟩ := q
            simp only [h3, Except.ok.injEq, Prod.mk.injEq] at h
            rw [← h.2]
            exact (predict_sameDefaults h1).trans ((update_sameDefaults h2).trans (ih s2 h3))

/-- **C153** `KalmanFilter.batch_filter`: the first part of a recording and then, with the same object, the rest (and the rest of
the optional lists) give the estimates, the final object and the exception of one call on the whole recording. -/
theorem C153_batch (s : KF n m l) (zs ws : List (Option (Vec m))) (a : KF.BatchArgs n m l) (uf : Bool) :
    s.batchFilter (zs ++ ws) a uf =
      thenBatch (s.batchFilter zs a uf) (fun t => t.batchFilter ws (argsFrom zs.length a) uf) := by
  have e : KF.batchRows s (zs ++ ws) a = KF.batchRows s zs a ++ KF.batchRows s ws (argsFrom zs.length a) := by
    rw [← batchRows_take s zs ws a, ← batchRows_drop s zs ws a, List.take_append_drop]
  unfold KF.batchFilter
  rw [e, kf_loop_append]
  cases h : KF.batchLoop uf s (KF.batchRows s zs a) with
  | error e => rfl
  | ok q =>
    obtain ⟨o, t⟩ := q
    simp only [thenBatch, batchRows_sameDefaults (kf_loop_sameDefaults uf _ s h)]

theorem fkf_loop_append (uf : Bool) (r1 r2 : List (Option (Vec m) × MatArg m)) : ∀ s : FKF n m l,
    FKF.batchLoop uf s (r1 ++ r2) = thenBatch (FKF.batchLoop uf s r1) (fun t => FKF.batchLoop uf t r2) := by
  induction r1 with
  | nil =>
    intro s
    simp only [List.nil_append, FKF.batchLoop, thenBatch]
    cases FKF.batchLoop uf s r2 <;> rfl
  | cons r r1 ih =>
    intro s
    cases uf with
    | true =>
      simp only [List.cons_append, FKF.batchLoop, if_true, bind, Except.bind]
      cases s.update r.1 r.2 with
      | error e => rfl
      | ok s1 =>
        simp only
        cases s1.predict with
        | error e => rfl
        | ok s2 =>
          simp only [ih]
          cases FKF.batchLoop true s2 r1 with
          | error e => rfl
          | ok q =>
            obtain ⟨o, t⟩ := q
            simp only [thenBatch]
            cases FKF.batchLoop true t r2 <;> rfl
    | false =>
      simp only [List.cons_append, FKF.batchLoop, Bool.false_eq_true, if_false, bind, Except.bind]
      cases s.predict with
      | error e => rfl
      | ok s1 =>
        simp only
        cases s1.update r.1 r.2 with
        | error e => rfl
        | ok s2 =>
          simp only [ih]
          cases FKF.batchLoop false s2 r1 with
          | error e => rfl
          | ok q =>
            obtain ⟨o, t⟩ := q
            simp only [thenBatch]
            cases FKF.batchLoop false t r2 <;> rfl

/-- **C153** `FadingKalmanFilter.batch_filter`. -/
theorem C153_fading (s : FKF n m l) (zs ws : List (Option (Vec m))) (Rs : Option (List (MatArg m))) (uf : Bool) :
    s.batchFilter (zs ++ ws) Rs uf =
      thenBatch (s.batchFilter zs Rs uf) (fun t => t.batchFilter ws (Rs.map (·.drop zs.length)) uf) := by
  unfold FKF.batchFilter
  rw [← fkf_loop_append]
  congr 1
  conv_lhs => rw [← List.take_append_drop zs.length ((zs ++ ws).zip _)]
  congr 1
  · rw [zip_take, List.length_append, getD_take, List.take_left' rfl, zip_short]
  · rw [zip_drop, List.length_append, getD_drop, List.drop_left' rfl]

/-- **C153** `HInfinityFilter.batch_filter`. -/
theorem C153_hinfinity (uf : Bool) (sv : HInf.SaverArg) (zs ws : List (Option (Vec m))) : ∀ s : HInf n m l,
    HInf.batchFilter uf sv s (zs ++ ws) = thenBatch (HInf.batchFilter uf sv s zs) (fun t => HInf.batchFilter uf sv t ws) := by
  induction zs with
  | nil =>
    intro s
    simp only [List.nil_append, HInf.batchFilter, thenBatch]
    cases HInf.batchFilter uf sv s ws <;> rfl
  | cons z zs ih =>
    intro s
    simp only [List.cons_append, HInf.batchFilter, bind, Except.bind]
    cases HInf.batchRow uf sv s z with
    | error e => rfl
    | ok q1 =>
      obtain ⟨o, s1⟩ := q1
      simp only [ih]
      cases HInf.batchFilter uf sv s1 zs with
      | error e => rfl
      | ok q =>
        obtain ⟨os, t⟩ := q
        simp only [thenBatch]
        cases HInf.batchFilter uf sv t ws <;> rfl

/-! ## The unscented filter -/

theorem ukf_loop_append (r1 r2 : List (Option (Vec m) × MatArg m × ℝ)) : ∀ s : UKF n m p,
    UKF.batchLoop s (r1 ++ r2) = thenBatch (UKF.batchLoop s r1) (fun t => UKF.batchLoop t r2) := by
  induction r1 with
  | nil =>
    intro s
    simp only [List.nil_append, UKF.batchLoop, thenBatch]
    cases UKF.batchLoop s r2 <;> rfl
  | cons r r1 ih =>
    intro s
    obtain ⟨z, R, dt⟩ := r
    simp only [List.cons_append, UKF.batchLoop]
    cases s.predict (some dt) with
    | error e => rfl
    | ok s1 =>
      simp only
      cases s1.update z R with
      | error e => rfl
      | ok s2 =>
        simp only [ih]
        cases UKF.batchLoop s2 r1 with
        | error e => rfl
        | ok q =>
          obtain ⟨o, t⟩ := q
          simp only [thenBatch]
          cases UKF.batchLoop t r2 <;> rfl

theorem ukf_predict_keeps {s t : UKF n m p} {dt} (h : s.predict dt = .ok t) : t.R = s.R ∧ t.dt = s.dt := by
  unfold UKF.predict UKF.computeProcessSigmas UKF.predictUT at h
  generalize p.points s.x s.P = q at h
  cases q with
  | error e => simp at h
  | ok sg =>
    simp only at h
    generalize p.points _ _ = q at h
    cases q with
    | error e => simp at h
    | ok sg' => simp only [Except.ok.injEq] at h; subst h; exact ⟨rfl, rfl⟩

theorem ukf_update_keeps {s t : UKF n m p} {z R} (h : s.update z R = .ok t) : t.R = s.R ∧ t.dt = s.dt := by
  unfold UKF.update at h
  cases z with
  | none => simp only [Except.ok.injEq] at h; subst h; exact ⟨rfl, rfl⟩
  | some z =>
    simp only at h
    generalize s.inv _ = q at h
    cases q with
    | none => simp at h
    | some SI => simp only [Except.ok.injEq] at h; subst h; exact ⟨rfl, rfl⟩

theorem ukf_loop_keeps (rows : List (Option (Vec m) × MatArg m × ℝ)) : ∀ (s : UKF n m p) {o t},
    UKF.batchLoop s rows = .ok (o, t) → t.R = s.R ∧ t.dt = s.dt ∧ o.length = rows.length := by
  induction rows with
  | nil =>
    intro s o t h
    simp only [UKF.batchLoop, Except.ok.injEq, Prod.mk.injEq] at h
    obtain ⟨rfl, rfl⟩ := h
    exact ⟨rfl, rfl, rfl⟩
  | cons r rows ih =>
    intro s o t h
    obtain ⟨z, R, dt⟩ := r
    simp only [UKF.batchLoop] at h
    cases h1 : s.predict (some dt) with
    | error e => simp [h1] at h
    | ok s1 =>
      simp only [h1] at h
      cases h2 : s1.update z R with
      | error e => simp [h2] at h
      | ok s2 =>
        simp only [h2] at h
        cases h3 : UKF.batchLoop s2 rows with
        | error e => simp [h3] at h
        | ok q =>
          obtain ⟨o, t2⟩ := q
          simp only [h3, Except.ok.injEq, Prod.mk.injEq] at h
          obtain ⟨k1, k2, k3⟩ := ih s2 h3
          obtain ⟨rfl, rfl⟩ := h
          exact ⟨k1.trans ((ukf_update_keeps h2).1.trans (ukf_predict_keeps h1).1),
            k2.trans ((ukf_update_keeps h2).2.trans (ukf_predict_keeps h1).2), by simp [k3]⟩

/-- The argument `dts` from row `k` on. -/
def Spec.dtsFrom (k : ℕ) : UKF.DtArg → UKF.DtArg
  | .none => .none
  | .scalar c => .scalar c
  | .list l => .list (l.drop k)

/-- What the code does once the arguments are lists. -/
noncomputable def ukfRun (s : UKF n m p) (zs : List (Option (Vec m))) (Rs : List (MatArg m)) (dts : List ℝ) :
    Except (Err × UKF n m p) (List (Vec n × Mat n n) × UKF n m p) :=
  match s.batchLoop (zs.zip (Rs.zip dts)) with
  | .error e => .error e
  | .ok (out, s') => .ok (out ++ List.replicate (zs.length - out.length) (0, 0), s')

theorem zip_split {α β : Type*} (as as' : List α) (bs : List β) :
    (as ++ as').zip bs = as.zip bs ++ as'.zip (bs.drop as.length) := by
  induction as generalizing bs with
  | nil => rfl
  | cons a as ih => cases bs <;> simp [ih]

theorem ukfRun_append (s : UKF n m p) (zs ws : List (Option (Vec m))) (Rs : List (MatArg m)) (dts : List ℝ) :
    ukfRun s (zs ++ ws) Rs dts =
      thenBatch (ukfRun s zs Rs dts) (fun t => ukfRun t ws (Rs.drop zs.length) (dts.drop zs.length)) := by
  unfold ukfRun
  rw [zip_split, zip_drop, ukf_loop_append]
  cases h1 : s.batchLoop (zs.zip (Rs.zip dts)) with
  | error e => rfl
  | ok q =>
    obtain ⟨o, t⟩ := q
    have l1 := (ukf_loop_keeps _ s h1).2.2
    simp only [thenBatch]
    cases h2 : t.batchLoop (ws.zip ((Rs.drop zs.length).zip (dts.drop zs.length))) with
    | error e => rfl
    | ok q =>
      obtain ⟨o', t'⟩ := q
      have l2 := (ukf_loop_keeps _ t h2).2.2
      simp only [List.length_zip, List.length_drop] at l1 l2
      simp only [Except.ok.injEq, Prod.mk.injEq, and_true]
      by_cases hk : o.length = zs.length
      · rw [hk]
        simp only [List.length_append, Nat.sub_self, List.replicate_zero, List.append_nil, List.append_assoc]
        congr 3
        omega
      · have : o' = [] := List.length_eq_zero_iff.1 (by omega)
        subst this
        simp only [List.append_nil, List.nil_append, List.length_append, List.length_nil, Nat.sub_zero, List.append_assoc,
          List.replicate_append_replicate]
        congr 2
        omega

theorem ukf_batch_run (s : UKF n m p) (z : Vec m) (zs : List (Option (Vec m))) (Rs : Option (List (MatArg m))) (dts : List ℝ) :
    s.batchFilter (some z :: zs) Rs (.list dts) = ukfRun s (some z :: zs) (Rs.getD (List.replicate (some z :: zs).length (.mat s.R))) dts := rfl

theorem ukf_batch_run_none (s : UKF n m p) (z : Vec m) (zs : List (Option (Vec m))) (Rs : Option (List (MatArg m))) :
    s.batchFilter (some z :: zs) Rs .none = ukfRun s (some z :: zs) (Rs.getD (List.replicate (some z :: zs).length (.mat s.R)))
      (List.replicate (some z :: zs).length s.dt) := rfl

theorem ukfRun_long (s : UKF n m p) (zs : List (Option (Vec m))) {Rs Rs' : List (MatArg m)} {dts dts' : List ℝ}
    (hR : Rs'.take zs.length = Rs.take zs.length) (hd : dts'.take zs.length = dts.take zs.length) :
    ukfRun s zs Rs' dts' = ukfRun s zs Rs dts := by
  have e : zs.zip (Rs'.zip dts') = zs.zip (Rs.zip dts) := by
    rw [← zip_short zs (Rs'.zip dts'), ← zip_short zs (Rs.zip dts), zip_take, zip_take, hR, hd]
  unfold ukfRun
  rw [e]

theorem ukfRun_keeps {s t : UKF n m p} {zs : List (Option (Vec m))} {Rs dts o} (h : ukfRun s zs Rs dts = .ok (o, t)) :
    t.R = s.R ∧ t.dt = s.dt := by
  unfold ukfRun at h
  cases h1 : s.batchLoop (zs.zip (Rs.zip dts)) with
  | error e => rw [h1] at h; cases h
  | ok q =>
    obtain ⟨o', t'⟩ := q
    simp only [h1, Except.ok.injEq, Prod.mk.injEq] at h
    obtain ⟨k1, k2, -⟩ := ukf_loop_keeps _ s h1
    rw [← h.2]; exact ⟨k1, k2⟩

/-- **C153** `UnscentedKalmanFilter.batch_filter`, with any lists `Rs` and `dts` (of any lengths): the part that is cut off must begin
with a measurement that is not missing (see `C153_ukf_missing`). -/
theorem C153_ukf_partial (s : UKF n m p) (zs ws : List (Option (Vec m))) (hz : zs ≠ []) (w : Vec m) (Rs : Option (List (MatArg m)))
    (dts : UKF.DtArg) :
    s.batchFilter (zs ++ (some w :: ws)) Rs dts =
      thenBatch (s.batchFilter zs Rs dts)
        (fun t => t.batchFilter (some w :: ws) (Rs.map (·.drop zs.length)) (dtsFrom zs.length dts)) := by
  obtain ⟨z, zs, rfl⟩ := List.exists_cons_of_ne_nil hz
  cases z with
  | none => rfl
  | some z =>
    cases dts with
    | scalar c => rfl
    | list d =>
      rw [List.cons_append, ukf_batch_run, ukf_batch_run, ← List.cons_append, ukfRun_append,
        ukfRun_long s (some z :: zs) (Rs := Rs.getD (List.replicate (some z :: zs).length (.mat s.R))) (dts := d)
          (by rw [List.length_append, getD_take]) rfl]
      cases h : ukfRun s (some z :: zs) (Rs.getD (List.replicate (some z :: zs).length (.mat s.R))) d with
      | error e => rfl
      | ok q =>
        obtain ⟨o, t⟩ := q
        simp only [thenBatch, dtsFrom]
        rw [ukf_batch_run, (ukfRun_keeps h).1, List.length_append, getD_drop]
    | none =>
      rw [List.cons_append, ukf_batch_run_none, ukf_batch_run_none, ← List.cons_append, ukfRun_append,
        ukfRun_long s (some z :: zs) (Rs := Rs.getD (List.replicate (some z :: zs).length (.mat s.R)))
          (dts := List.replicate (some z :: zs).length s.dt)
          (by rw [List.length_append, getD_take]) (by simp)]
      cases h : ukfRun s (some z :: zs) (Rs.getD (List.replicate (some z :: zs).length (.mat s.R)))
          (List.replicate (some z :: zs).length s.dt) with
      | error e => rfl
      | ok q =>
        obtain ⟨o, t⟩ := q
        simp only [thenBatch, dtsFrom]
        rw [ukf_batch_run_none, (ukfRun_keeps h).1, (ukfRun_keeps h).2, List.length_append, getD_drop]
        simp

/-- **C153 (unscented filter).**  If the second part begins with a missing measurement it is refused, although the whole recording
is not: the pieces cannot be cut there. -/
theorem C153_ukf_missing (t : UKF n m p) (ws : List (Option (Vec m))) :
    t.batchFilter (none :: ws) = .error (if m = 1 then .attributeError else .typeError, t) := rfl

/-! ## The g-h filter and the module-level function keep the state outside -/

theorem gh_loop_split (dt g hdt : ℝ) (zs ws : List ℝ) : ∀ x dx : ℝ,
    GH.batchLoop dt g hdt x dx (zs ++ ws) = GH.batchLoop dt g hdt x dx zs ++
      (let e := (((x, dx) :: (GH.batchLoop dt g hdt x dx zs).map fun o => (o.1, o.2.1)).getLast (by simp))
       GH.batchLoop dt g hdt e.1 e.2 ws) := by
  induction zs with
  | nil => intro x dx; simp [GH.batchLoop]
  | cons z zs ih => intro x dx; simp [GH.batchLoop, ih, List.getLast_cons]

/-- **C153** `GHFilter.batch_filter` never changes the object: the second part of the recording continues the first if the user
stores the last row of the results in `x` and `dx` first. -/
theorem C153_gh_partial (s : GH ℝ) (zs ws : List ℝ) {r1 r2 : GH.BatchResult (GH ℝ)} {x dx : ℝ} (h1 : s.batchFilter zs = .ok r1)
    (hl : r1.results.getLast? = some (x, dx)) (h2 : ({ s with x := x, dx := dx } : GH ℝ).batchFilter ws = .ok r2) :
    ∃ r, s.batchFilter (zs ++ ws) = .ok r ∧ r.results = r1.results ++ r2.results.tail ∧
      r.predictions = r1.predictions ++ r2.predictions := by
  unfold GH.batchFilter at h1 h2 ⊢
  split_ifs at h1 h2 ⊢ with h0
  simp only [Except.ok.injEq] at h1 h2
  subst h1 h2
  have hg := gh_loop_split s.dt s.g (s.h / s.dt) zs ws s.x s.dx
  simp only at hl
  rw [List.getLast?_eq_some_getLast (by simp), Option.some.injEq] at hl
  simp only [hl] at hg
  refine ⟨_, rfl, ?_, ?_⟩
  · simp [hg]
  · simp [hg]

/-- **C153 refuted for `GHFilter`**: two calls of `batch_filter` in a row do not process a recording in pieces, since the second
starts again from the initial state. -/
theorem C153_gh_refuted : ∃ (s : GH ℝ) (r1 r2 r : GH.BatchResult (GH ℝ)), s.batchFilter [1] = .ok r1 ∧ r1.after.batchFilter [2] = .ok r2 ∧
    s.batchFilter ([1] ++ [2]) = .ok r ∧ r.results ≠ r1.results ++ r2.results.tail := by
  refine ⟨{ x := 0, dx := 0, dt := 1, g := 1/2, h := 0, dxPred := 0, xPred := 0, y := 0, z := 0 }, ?_⟩
  have key : ∀ zs : List ℝ, ∃ r : GH.BatchResult (GH ℝ),
      ({ x := 0, dx := 0, dt := 1, g := 1/2, h := 0, dxPred := 0, xPred := 0, y := 0, z := 0 } : GH ℝ).batchFilter zs = .ok r ∧
      r.results = (0, 0) :: (GH.batchLoop 1 (1/2) (0/1) 0 0 zs).map (fun o => (o.1, o.2.1)) ∧
      r.after = { x := 0, dx := 0, dt := 1, g := 1/2, h := 0, dxPred := 0, xPred := 0, y := 0, z := 0 } := by
    intro zs
    simp only [GH.batchFilter, one_ne_zero, if_false]
    exact ⟨_, rfl, rfl, rfl⟩
  obtain ⟨r1, h1, e1, a1⟩ := key [1]
  obtain ⟨r2, h2, e2, -⟩ := key [2]
  obtain ⟨r, h, e, -⟩ := key ([1] ++ [2])
  refine ⟨r1, r2, r, h1, a1 ▸ h2, h, ?_⟩
  rw [e, e1, e2]
  simp only [GH.batchLoop, List.cons_append, List.nil_append, List.map_cons, List.map_nil, List.tail_cons, ne_eq, List.cons.injEq,
    Prod.mk.injEq, and_true, true_and]
  norm_num

/-- **C153 refuted for `FixedLagSmoother.smooth_batch`**: it leaves no trace in the object, so a second call starts again from the
initial state. -/
theorem C153_lag_refuted : ∃ xs xh ys yh, flsWalk.smoothBatch ([vc 1] ++ [vc 1]) 1 none = .ok (xs, xh) ∧
    flsWalk.smoothBatch [vc 1] 1 none = .ok (ys, yh) ∧ xh ≠ yh ++ yh := by
  obtain ⟨t, ht, htx, -⟩ := C30_lag_one_refuted
  obtain ⟨s1, h1, h1x, -⟩ := flsWalk_first
  obtain ⟨xs, xh, hx, -, -, -, hxk⟩ := C29_batch flsWalk t [vc 1, vc 1] 1 none (fun _ => .none) (fun _ _ => rfl) ht
  obtain ⟨ys, yh, hy, -, -, hyl, hyk⟩ := C29_batch flsWalk s1 [vc 1] 1 none (fun _ => .none) (fun _ _ => rfl)
    (show runList FLS.smooth flsWalk [(vc 1, .none)] = .ok s1 by rw [runList, h1]; rfl)
  refine ⟨xs, xh, ys, yh, hx, hy, fun e => ?_⟩
  obtain ⟨t1, ht1, hg1⟩ := hxk 1 (by simp)
  obtain ⟨t2, ht2, hg2⟩ := hyk 0 (by simp)
  have e1 : t1 = t := by
    have : (Except.ok t1 : Exec (FLS 1 1 0)) = .ok t := ht1.symm.trans ht
    exact Except.ok.inj this
  have e2 : t2 = s1 := by
    have : (Except.ok t2 : Exec (FLS 1 1 0)) = .ok s1 :=
      ht2.symm.trans (show runList FLS.smooth flsWalk [(vc 1, .none)] = .ok s1 by rw [runList, h1]; rfl)
    exact Except.ok.inj this
  have hyl' : yh.length = 1 := by simpa using hyl
  rw [e, List.getElem?_append_right (by omega), hyl', hg2, e1, e2, htx, h1x] at hg1
  have := congrFun (Option.some.inj hg1) 0
  simp [vc] at this
  norm_num at this

/-- Where a second call of the module-level `batch_filter` has to start: with the last estimate the first call computed (the initial
one if there was none), a posterior or, with `update_first`, a prediction. -/
def Spec.resume (uf : Bool) (x : Vec n) (P : Mat n n) (out : List (KF.BatchOut n)) : Vec n × Mat n n :=
  match out.getLast? with
  | none => (x, P)
  | some e => if uf then (e.meanP, e.covP) else (e.mean, e.cov)

theorem resume_cons (uf : Bool) (x : Vec n) (P : Mat n n) (e : KF.BatchOut n) (out : List (KF.BatchOut n)) :
    Spec.resume uf x P (e :: out) = Spec.resume uf (if uf then e.meanP else e.mean) (if uf then e.covP else e.cov) out := by
  cases out with
  | nil => cases uf <;> rfl
  | cons a out =>
    simp only [Spec.resume, List.getLast?_cons_cons]
    rw [List.getLast?_eq_some_getLast (List.cons_ne_nil a out)]

theorem kfun_loop_append (uf : Bool) (r1 r2 : List (KFun.Row n m l)) : ∀ (x : Vec n) (P : Mat n n),
    KFun.batchLoop uf x P (r1 ++ r2) = (do
      let o ← KFun.batchLoop uf x P r1
      let o' ← KFun.batchLoop uf (Spec.resume uf x P o).1 (Spec.resume uf x P o).2 r2
      .ok (o ++ o')) := by
  induction r1 with
  | nil =>
    intro x P
    simp only [List.nil_append, KFun.batchLoop, bind, Except.bind, Spec.resume, List.getLast?_nil]
    cases KFun.batchLoop uf x P r2 <;> rfl
  | cons r r1 ih =>
    intro x P
    cases uf with
    | true =>
      simp only [List.cons_append, KFun.batchLoop, if_true, bind, Except.bind] at ih ⊢
      cases KFun.update x P r.z (.mat r.R) (some r.H) with
      | error e => rfl
      | ok q1 =>
        obtain ⟨x1, P1⟩ := q1
        simp only
        cases KFun.predict x1 P1 (.mat r.F) (.mat r.Q) r.bu with
        | error e => rfl
        | ok q2 =>
          obtain ⟨x2, P2⟩ := q2
          simp only [ih]
          cases KFun.batchLoop true x2 P2 r1 with
          | error e => rfl
          | ok o =>
            simp only [resume_cons, if_true]
            cases KFun.batchLoop true (Spec.resume true x2 P2 o).1 (Spec.resume true x2 P2 o).2 r2 <;> rfl
    | false =>
      simp only [List.cons_append, KFun.batchLoop, Bool.false_eq_true, if_false, bind, Except.bind] at ih ⊢
      cases KFun.predict x P (.mat r.F) (.mat r.Q) r.bu with
      | error e => rfl
      | ok q1 =>
        obtain ⟨x1, P1⟩ := q1
        simp only
        cases KFun.update x1 P1 r.z (.mat r.R) (some r.H) with
        | error e => rfl
        | ok q2 =>
          obtain ⟨x2, P2⟩ := q2
          simp only [ih]
          cases KFun.batchLoop false x2 P2 r1 with
          | error e => rfl
          | ok o =>
            simp only [resume_cons, Bool.false_eq_true, if_false]
            cases KFun.batchLoop false (Spec.resume false x2 P2 o).1 (Spec.resume false x2 P2 o).2 r2 <;> rfl

theorem zip7_split {α β γ δ ε ζ η θ : Type*} (f : α → β → γ → δ → ε → ζ → η → θ) (as as' : List α) (bs : List β) (cs : List γ)
    (ds : List δ) (es : List ε) (gs : List ζ) (hs : List η) :
    KF.zip7 f (as ++ as') bs cs ds es gs hs = KF.zip7 f as bs cs ds es gs hs ++
      KF.zip7 f as' (bs.drop as.length) (cs.drop as.length) (ds.drop as.length) (es.drop as.length) (gs.drop as.length)
        (hs.drop as.length) := by
  induction as generalizing bs cs ds es gs hs with
  | nil => simp [KF.zip7]
  | cons a as ih =>
    cases bs with
    | nil => simp [zip7_nil2]
    | cons b bs => cases cs with
      | nil => simp [zip7_nil3]
      | cons c cs => cases ds with
        | nil => simp [zip7_nil4]
        | cons d ds => cases es with
          | nil => simp [zip7_nil5]
          | cons e es => cases gs with
            | nil => simp [zip7_nil6]
            | cons g gs => cases hs with
              | nil => simp [zip7_nil7]
              | cons h hs => simp [KF.zip7, ih]

/-- **C153** the module-level `batch_filter` with controls: a second call with the rest of every list, started with the last estimate
of the first call, continues it. -/
theorem C153_function (x : Vec n) (P : Mat n n) (zs ws : List (Option (Vec m))) (Fs Qs : List (Mat n n)) (Hs : List (Mat m n))
    (Rs : List (Mat m m)) (Bs : Option (List (Mat n l))) (us : Option (List (Vec l))) (uf : Bool) :
    let k := zs.length
    KFun.batchFilter x P (zs ++ ws) Fs Qs Hs Rs Bs us uf = (do
      let o ← KFun.batchFilter x P zs Fs Qs Hs Rs Bs us uf
      let o' ← KFun.batchFilter (Spec.resume uf x P o).1 (Spec.resume uf x P o).2 ws (Fs.drop k) (Qs.drop k) (Hs.drop k) (Rs.drop k)
        (Bs.map (·.drop k)) (us.map (·.drop k)) uf
      .ok (o ++ o')) := by
  intro k
  unfold KFun.batchFilter
  cases us with
  | none =>
    simp only [Option.map_none]
    rw [zip7_split, kfun_loop_append]
    have e1 : ∀ j : ℕ, (List.replicate (zs ++ ws).length (0 : ℝ)).drop zs.length = List.replicate ws.length 0 := by simp
    have e2 : KF.zip7 (fun z F Q H R B u => (⟨z, F, Q, H, R, .scalars B u⟩ : KFun.Row n m l)) zs Fs Qs Hs Rs
        (List.replicate (zs ++ ws).length 0) (List.replicate (zs ++ ws).length 0) =
        KF.zip7 (fun z F Q H R B u => (⟨z, F, Q, H, R, .scalars B u⟩ : KFun.Row n m l)) zs Fs Qs Hs Rs
        (List.replicate zs.length 0) (List.replicate zs.length 0) := by
      rw [← List.take_of_length_le (zip7_length_le _ zs Fs Qs Hs Rs (List.replicate (zs ++ ws).length 0) _),
        ← List.take_of_length_le (zip7_length_le _ zs Fs Qs Hs Rs (List.replicate zs.length 0) _), zip7_take, zip7_take]
      simp
    rw [e2, e1 0]
  | some us =>
    cases Bs with
    | none => simp [bind, Except.bind]
    | some Bs =>
      simp only [Option.map_some]
      rw [zip7_split, kfun_loop_append]

/-! ## Cases -/

/-- The two calls both succeed in a case with a missing measurement, and together give three estimates. -/
example (uf : Bool) : ∃ o1 t o2 t', cvKF.batchFilter [some ![1], none] {} uf = .ok (o1, t) ∧
    t.batchFilter [some ![3]] (argsFrom 2 {}) uf = .ok (o2, t') ∧
    cvKF.batchFilter ([some ![1], none] ++ [some ![3]]) {} uf = .ok (o1 ++ o2, t') := by
  obtain ⟨r, t, h⟩ := batchLoop_total uf cvKF (cvKF.batchRows ([some ![1], none] ++ [some ![3]]) {}) rfl
    PosSemidef.one (by simp [cvKF, KF.fresh]) (by
      intro r hr
      simp only [KF.batchRows, KF.zip7, List.cons_append, List.nil_append, List.length_cons, List.length_nil, Option.getD_none,
        List.replicate, List.mem_cons, List.not_mem_nil, or_false] at hr
      rcases hr with rfl | rfl | rfl <;>
        exact ⟨PosSemidef.one, PosDef.one, _, rfl⟩)
  have h' : cvKF.batchFilter ([some ![1], none] ++ [some ![3]]) {} uf = .ok (r, t) := h
  have e := C153_batch cvKF [some ![1], none] [some ![3]] {} uf
  rw [h'] at e
  cases h1 : cvKF.batchFilter [some ![1], none] {} uf with
  | error e1 => simp [h1, thenBatch] at e
  | ok q1 =>
    obtain ⟨o1, t1⟩ := q1
    simp only [h1, thenBatch] at e
    cases h2 : t1.batchFilter [some ![3]] (argsFrom 2 {}) uf with
    | error e2 => rw [show ([some ![1], none] : List (Option (Vec 1))).length = 2 from rfl, h2] at e; simp at e
    | ok q2 =>
      obtain ⟨o2, t2⟩ := q2
      rw [show ([some ![1], none] : List (Option (Vec 1))).length = 2 from rfl, h2] at e
      exact ⟨o1, t1, o2, t2, rfl, h2, by rw [h']; exact e⟩

end Filterpy
