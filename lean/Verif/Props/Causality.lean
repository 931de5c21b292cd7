import Verif.Props.KalmanBatch
import Verif.Props.FixedLag
import Verif.Model.KalmanFuncs
import Verif.Model.FadingKF
import Verif.Model.HInfinity
import Verif.Model.UKF
import Verif.Model.GH

/-!
# C152: no estimate depends on later measurements

A batch method sees the whole recording at once, an on-line program only what has arrived.  The estimates a batch method reports
for a step are those it reports when the recording ends with that step; the fixed-lag smoother looks ahead at most `N - 1` steps.
-/

namespace Filterpy

open Matrix

variable {n m l : ℕ} {p : SigmaPts n}

/-! ## Zipped arguments -/

theorem zip7_take {α β γ δ ε ζ η θ : Type*} (f : α → β → γ → δ → ε → ζ → η → θ) (k : ℕ) (as : List α) (bs : List β) (cs : List γ)
    (ds : List δ) (es : List ε) (gs : List ζ) (hs : List η) :
    (KF.zip7 f as bs cs ds es gs hs).take k =
      KF.zip7 f (as.take k) (bs.take k) (cs.take k) (ds.take k) (es.take k) (gs.take k) (hs.take k) := by
  induction k generalizing as bs cs ds es gs hs with
  | zero => cases as <;> simp [KF.zip7]
  | succ k ih =>
    cases as <;> cases bs <;> cases cs <;> cases ds <;> cases es <;> cases gs <;> cases hs <;> simp [KF.zip7, ih]

theorem zip7_length_le {α β γ δ ε ζ η θ : Type*} (f : α → β → γ → δ → ε → ζ → η → θ) (as : List α) (bs : List β) (cs : List γ)
    (ds : List δ) (es : List ε) (gs : List ζ) (hs : List η) : (KF.zip7 f as bs cs ds es gs hs).length ≤ as.length := by
  induction as generalizing bs cs ds es gs hs with
  | nil => simp [KF.zip7]
  | cons a as ih =>
    cases bs <;> cases cs <;> cases ds <;> cases es <;> cases gs <;> cases hs <;> simp [KF.zip7, ih]

theorem zip_take {α β : Type*} (as : List α) (bs : List β) (k : ℕ) : (as.zip bs).take k = (as.take k).zip (bs.take k) := by
  induction k generalizing as bs with
  | zero => simp
  | succ k ih => cases as <;> cases bs <;> simp [ih]

theorem getD_take {α : Type*} (o : Option (List α)) (a : α) (k j : ℕ) :
    (o.getD (List.replicate (k + j) a)).take k = (o.getD (List.replicate k a)).take k := by
  cases o with
  | none => simp
  | some l => rfl

theorem batchRows_take (s : KF n m l) (zs ws : List (Option (Vec m))) (a : KF.BatchArgs n m l) :
    (KF.batchRows s (zs ++ ws) a).take zs.length = KF.batchRows s zs a := by
  rw [← List.take_of_length_le (l := KF.batchRows s zs a) (i := zs.length) (zip7_length_le _ zs _ _ _ _ _ _)]
  unfold KF.batchRows
  simp only [zip7_take, List.length_append, getD_take, List.take_left', List.take_length]

/-! ## The loops on the first rows -/

theorem kf_loop_take (uf : Bool) (rows : List (KF.BatchRow n m l)) : ∀ (k : ℕ) (s : KF n m l) {out t},
    KF.batchLoop uf s rows = .ok (out, t) → ∃ t', KF.batchLoop uf s (rows.take k) = .ok (out.take k, t') := by
  induction rows with
  | nil =>
    intro k s out t h
    simp only [KF.batchLoop, Except.ok.injEq, Prod.mk.injEq] at h
    exact ⟨s, by simp [KF.batchLoop, ← h.1]⟩
  | cons r rows ih =>
    intro k s out t h
    cases k with
    | zero => exact ⟨s, by simp [KF.batchLoop]⟩
    | succ k =>
      cases uf with
      | true =>
        simp only [KF.batchLoop, if_true, bind, Except.bind, List.take_succ_cons] at h ⊢
        cases h1 : s.update r.z r.R (some r.H) with
        | error e => simp [h1] at h
        | ok s1 =>
          simp only [h1] at h ⊢
          cases h2 : s1.predict r.u r.B (some r.F) r.Q with
          | error e => simp [h2] at h
          | ok s2 =>
            simp only [h2] at h ⊢
            cases h3 : KF.batchLoop true s2 rows with
            | error e => simp [h3] at h
            | ok q =>
              obtain ⟨o, t2⟩ := q
              simp only [h3, Except.ok.injEq, Prod.mk.injEq] at h
              obtain ⟨t', ht'⟩ := ih k s2 h3
              exact ⟨t', by simp [ht', ← h.1]⟩
      | false =>
        simp only [KF.batchLoop, Bool.false_eq_true, if_false, bind, Except.bind, List.take_succ_cons] at h ⊢
        cases h1 : s.predict r.u r.B (some r.F) r.Q with
        | error e => simp [h1] at h
        | ok s1 =>
          simp only [h1] at h ⊢
          cases h2 : s1.update r.z r.R (some r.H) with
          | error e => simp [h2] at h
          | ok s2 =>
            simp only [h2] at h ⊢
            cases h3 : KF.batchLoop false s2 rows with
            | error e => simp [h3] at h
            | ok q =>
              obtain ⟨o, t2⟩ := q
              simp only [h3, Except.ok.injEq, Prod.mk.injEq] at h
              obtain ⟨t', ht'⟩ := ih k s2 h3
              exact ⟨t', by simp [ht', ← h.1]⟩

theorem fkf_loop_take (uf : Bool) (rows : List (Option (Vec m) × MatArg m)) : ∀ (k : ℕ) (s : FKF n m l) {out t},
    FKF.batchLoop uf s rows = .ok (out, t) → ∃ t', FKF.batchLoop uf s (rows.take k) = .ok (out.take k, t') := by
  induction rows with
  | nil =>
    intro k s out t h
    simp only [FKF.batchLoop, Except.ok.injEq, Prod.mk.injEq] at h
    exact ⟨s, by simp [FKF.batchLoop, ← h.1]⟩
  | cons r rows ih =>
    intro k s out t h
    cases k with
    | zero => exact ⟨s, by simp [FKF.batchLoop]⟩
    | succ k =>
      cases uf with
      | true =>
        simp only [FKF.batchLoop, if_true, bind, Except.bind, List.take_succ_cons] at h ⊢
        cases h1 : s.update r.1 r.2 with
        | error e => simp [h1] at h
        | ok s1 =>
          simp only [h1] at h ⊢
          cases h2 : s1.predict with
          | error e => simp [h2] at h
          | ok s2 =>
            simp only [h2] at h ⊢
            cases h3 : FKF.batchLoop true s2 rows with
            | error e => simp [h3] at h
            | ok q =>
              obtain ⟨o, t2⟩ := q
              simp only [h3, Except.ok.injEq, Prod.mk.injEq] at h
              obtain ⟨t', ht'⟩ := ih k s2 h3
              exact ⟨t', by simp [ht', ← h.1]⟩
      | false =>
        simp only [FKF.batchLoop, Bool.false_eq_true, if_false, bind, Except.bind, List.take_succ_cons] at h ⊢
        cases h1 : s.predict with
        | error e => simp [h1] at h
        | ok s1 =>
          simp only [h1] at h ⊢
          cases h2 : s1.update r.1 r.2 with
          | error e => simp [h2] at h
          | ok s2 =>
            simp only [h2] at h ⊢
            cases h3 : FKF.batchLoop false s2 rows with
            | error e => simp [h3] at h
            | ok q =>
              obtain ⟨o, t2⟩ := q
              simp only [h3, Except.ok.injEq, Prod.mk.injEq] at h
              obtain ⟨t', ht'⟩ := ih k s2 h3
              exact ⟨t', by simp [ht', ← h.1]⟩

theorem hinf_take (uf : Bool) (sv : HInf.SaverArg) (zs : List (Option (Vec m))) : ∀ (k : ℕ) (s : HInf n m l) {out t},
    HInf.batchFilter uf sv s zs = .ok (out, t) → ∃ t', HInf.batchFilter uf sv s (zs.take k) = .ok (out.take k, t') := by
  induction zs with
  | nil =>
    intro k s out t h
    simp only [HInf.batchFilter, Except.ok.injEq, Prod.mk.injEq] at h
    exact ⟨s, by simp [HInf.batchFilter, ← h.1]⟩
  | cons z zs ih =>
    intro k s out t h
    cases k with
    | zero => exact ⟨s, by simp [HInf.batchFilter]⟩
    | succ k =>
      simp only [HInf.batchFilter, bind, Except.bind, List.take_succ_cons] at h ⊢
      cases h1 : HInf.batchRow uf sv s z with
      | error e => simp [h1] at h
      | ok q1 =>
        obtain ⟨o, s1⟩ := q1
        simp only [h1] at h ⊢
        cases h3 : HInf.batchFilter uf sv s1 zs with
        | error e => simp [h3] at h
        | ok q =>
          obtain ⟨os, t2⟩ := q
          simp only [h3, Except.ok.injEq, Prod.mk.injEq] at h
          obtain ⟨t', ht'⟩ := ih k s1 h3
          exact ⟨t', by simp [ht', ← h.1]⟩

theorem ukf_loop_take (rows : List (Option (Vec m) × MatArg m × ℝ)) : ∀ (k : ℕ) (s : UKF n m p) {out t},
    UKF.batchLoop s rows = .ok (out, t) → ∃ t', UKF.batchLoop s (rows.take k) = .ok (out.take k, t') := by
  induction rows with
  | nil =>
    intro k s out t h
    simp only [UKF.batchLoop, Except.ok.injEq, Prod.mk.injEq] at h
    exact ⟨s, by simp [UKF.batchLoop, ← h.1]⟩
  | cons r rows ih =>
    intro k s out t h
    cases k with
    | zero => exact ⟨s, by simp [UKF.batchLoop]⟩
    | succ k =>
      obtain ⟨z, R, dt⟩ := r
      simp only [UKF.batchLoop, List.take_succ_cons] at h ⊢
      cases h1 : s.predict (some dt) with
      | error e => simp [h1] at h
      | ok s1 =>
        simp only [h1] at h ⊢
        cases h2 : s1.update z R with
        | error e => simp [h2] at h
        | ok s2 =>
          simp only [h2] at h ⊢
          cases h3 : UKF.batchLoop s2 rows with
          | error e => simp [h3] at h
          | ok q =>
            obtain ⟨o, t2⟩ := q
            simp only [h3, Except.ok.injEq, Prod.mk.injEq] at h
            obtain ⟨t', ht'⟩ := ih k s2 h3
            exact ⟨t', by simp [ht', ← h.1]⟩

theorem kfun_loop_take (uf : Bool) (rows : List (KFun.Row n m l)) : ∀ (k : ℕ) (x : Vec n) (P : Mat n n) {out},
    KFun.batchLoop uf x P rows = .ok out → KFun.batchLoop uf x P (rows.take k) = .ok (out.take k) := by
  induction rows with
  | nil =>
    intro k x P out h
    simp only [KFun.batchLoop, Except.ok.injEq] at h
    simp [KFun.batchLoop, ← h]
  | cons r rows ih =>
    intro k x P out h
    cases k with
    | zero => simp [KFun.batchLoop]
    | succ k =>
      cases uf with
      | true =>
        simp only [KFun.batchLoop, if_true, bind, Except.bind, List.take_succ_cons] at h ⊢
        cases h1 : KFun.update x P r.z (.mat r.R) (some r.H) with
        | error e => simp [h1] at h
        | ok q1 =>
          obtain ⟨x1, P1⟩ := q1
          simp only [h1] at h ⊢
          cases h2 : KFun.predict x1 P1 (.mat r.F) (.mat r.Q) r.bu with
          | error e => simp [h2] at h
          | ok q2 =>
            obtain ⟨x2, P2⟩ := q2
            simp only [h2] at h ⊢
            cases h3 : KFun.batchLoop true x2 P2 rows with
            | error e => simp [h3] at h
            | ok o =>
              simp only [h3, Except.ok.injEq] at h
              simp [ih k x2 P2 h3, ← h]
      | false =>
        simp only [KFun.batchLoop, Bool.false_eq_true, if_false, bind, Except.bind, List.take_succ_cons] at h ⊢
        cases h1 : KFun.predict x P (.mat r.F) (.mat r.Q) r.bu with
        | error e => simp [h1] at h
        | ok q1 =>
          obtain ⟨x1, P1⟩ := q1
          simp only [h1] at h ⊢
          cases h2 : KFun.update x1 P1 r.z (.mat r.R) (some r.H) with
          | error e => simp [h2] at h
          | ok q2 =>
            obtain ⟨x2, P2⟩ := q2
            simp only [h2] at h ⊢
            cases h3 : KFun.batchLoop false x2 P2 rows with
            | error e => simp [h3] at h
            | ok o =>
              simp only [h3, Except.ok.injEq] at h
              simp [ih k x2 P2 h3, ← h]

theorem gh_loop_append (dt g hdt : ℝ) (zs ws : List ℝ) : ∀ x dx : ℝ,
    (GH.batchLoop dt g hdt x dx (zs ++ ws)).take zs.length = GH.batchLoop dt g hdt x dx zs := by
  induction zs with
  | nil => intro x dx; simp [GH.batchLoop]
  | cons z zs ih => intro x dx; simp [GH.batchLoop, ih]

/-! ## The theorems for the batch methods -/

/-- **C152** `KalmanFilter.batch_filter`: adding measurements at the end of the list changes none of the estimates reported
for the measurements before (and a list with the later measurements left out is not refused). -/
theorem C152_batch (s : KF n m l) (zs ws : List (Option (Vec m))) (a : KF.BatchArgs n m l) (uf : Bool) {out t}
    (h : s.batchFilter (zs ++ ws) a uf = .ok (out, t)) :
    ∃ t', s.batchFilter zs a uf = .ok (out.take zs.length, t') := by
  unfold KF.batchFilter at h ⊢
  rw [← batchRows_take s zs ws a]
  exact kf_loop_take uf _ _ s h

/-- **C152** the module-level function `batch_filter`. -/
theorem C152_function (x : Vec n) (P : Mat n n) (zs ws : List (Option (Vec m))) (Fs Qs : List (Mat n n)) (Hs : List (Mat m n))
    (Rs : List (Mat m m)) (Bs : Option (List (Mat n l))) (us : Option (List (Vec l))) (uf : Bool) {out}
    (h : KFun.batchFilter x P (zs ++ ws) Fs Qs Hs Rs Bs us uf = .ok out) :
    KFun.batchFilter x P zs Fs Qs Hs Rs Bs us uf = .ok (out.take zs.length) := by
  unfold KFun.batchFilter at h ⊢
  cases us with
  | none =>
    simp only at h ⊢
    have := kfun_loop_take uf _ zs.length x P h
    rw [zip7_take] at this
    rw [← this, ← List.take_of_length_le (zip7_length_le _ zs _ _ _ _ _ _), zip7_take]
    simp
  | some us =>
    cases Bs with
    | none => simp at h
    | some Bs =>
      simp only at h ⊢
      have := kfun_loop_take uf _ zs.length x P h
      rw [zip7_take] at this
      rw [← this, ← List.take_of_length_le (zip7_length_le _ zs _ _ _ _ _ _), zip7_take]
      simp

/-- **C152** `FadingKalmanFilter.batch_filter`. -/
theorem C152_fading (s : FKF n m l) (zs ws : List (Option (Vec m))) (Rs : Option (List (MatArg m))) (uf : Bool) {out t}
    (h : s.batchFilter (zs ++ ws) Rs uf = .ok (out, t)) :
    ∃ t', s.batchFilter zs Rs uf = .ok (out.take zs.length, t') := by
  unfold FKF.batchFilter at h ⊢
  obtain ⟨t', ht'⟩ := fkf_loop_take uf _ zs.length s h
  refine ⟨t', ?_⟩
  rw [← ht', zip_take, List.length_append, getD_take, List.take_left' rfl]
  rw [← List.take_of_length_le (i := zs.length) (l := zs.zip _) (by simp), zip_take, List.take_length]

/-- **C152** `HInfinityFilter.batch_filter`. -/
theorem C152_hinfinity (s : HInf n m l) (zs ws : List (Option (Vec m))) (uf : Bool) (sv : HInf.SaverArg) {out t}
    (h : HInf.batchFilter uf sv s (zs ++ ws) = .ok (out, t)) :
    ∃ t', HInf.batchFilter uf sv s zs = .ok (out.take zs.length, t') := by
  have := hinf_take uf sv _ zs.length s h
  rwa [List.take_left' rfl] at this

/-- **C152** `UnscentedKalmanFilter.batch_filter`: the arrays are as long as the list of measurements. -/
theorem C152_ukf (s : UKF n m p) (zs ws : List (Option (Vec m))) (hz : zs ≠ []) (Rs : Option (List (MatArg m)))
    (dts : UKF.DtArg) {out t} (h : s.batchFilter (zs ++ ws) Rs dts = .ok (out, t)) :
    ∃ t', s.batchFilter zs Rs dts = .ok (out.take zs.length, t') := by
  cases zs with
  | nil => exact absurd rfl hz
  | cons z zs =>
    cases z with
    | none => simp [UKF.batchFilter] at h
    | some z =>
      have key : ∀ (d d' : List ℝ) {out t}, d'.take (some z :: zs).length = d.take (some z :: zs).length →
          (match s.batchLoop ((some z :: (zs ++ ws)).zip ((Rs.getD (List.replicate (some z :: (zs ++ ws)).length (.mat s.R))).zip d')) with
            | .error e => .error e
            | .ok (o, s') => .ok (o ++ List.replicate ((some z :: (zs ++ ws)).length - o.length) (0, 0), s')
              : Except (Err × UKF n m p) (List (Vec n × Mat n n) × UKF n m p)) = .ok (out, t) →
          ∃ t', (match s.batchLoop ((some z :: zs).zip ((Rs.getD (List.replicate (some z :: zs).length (.mat s.R))).zip d)) with
            | .error e => .error e
            | .ok (o, s') => .ok (o ++ List.replicate ((some z :: zs).length - o.length) (0, 0), s')
              : Except (Err × UKF n m p) (List (Vec n × Mat n n) × UKF n m p)) = .ok (out.take (some z :: zs).length, t') := by
        intro d d' out t hd h
        cases hl : s.batchLoop ((some z :: (zs ++ ws)).zip ((Rs.getD (List.replicate (some z :: (zs ++ ws)).length (.mat s.R))).zip d')) with
        | error e => rw [hl] at h; cases h
        | ok q =>
          obtain ⟨o, t2⟩ := q
          simp only [hl, Except.ok.injEq, Prod.mk.injEq] at h
          obtain ⟨t', ht'⟩ := ukf_loop_take _ (some z :: zs).length s hl
          refine ⟨t', ?_⟩
          have e : ((some z :: zs).zip ((Rs.getD (List.replicate (some z :: zs).length (.mat s.R))).zip d)) =
              ((some z :: (zs ++ ws)).zip ((Rs.getD (List.replicate (some z :: (zs ++ ws)).length (.mat s.R))).zip d')).take
                (some z :: zs).length := by
            rw [zip_take, zip_take, hd, ← List.cons_append, List.length_append, getD_take, List.take_left' rfl]
            rw [← List.take_of_length_le (i := (some z :: zs).length) (l := (some z :: zs).zip _) (by simp), zip_take,
              zip_take, List.take_length]
          rw [e, ht', ← h.1]
          simp only [Except.ok.injEq, Prod.mk.injEq, and_true]
          rw [List.take_append, List.take_replicate]
          congr 2
          simp only [List.length_take, List.length_cons, List.length_append]
          omega
      cases dts with
      | none =>
        refine key _ _ ?_ h
        simp
      | list d => exact key d d rfl h
      | scalar c => simp [UKF.batchFilter] at h

/-- **C152** `GHFilter.batch_filter`: the array of results begins with the initial state. -/
theorem C152_gh (s : GH ℝ) (zs ws : List ℝ) {r} (h : s.batchFilter (zs ++ ws) = .ok r) :
    ∃ r', s.batchFilter zs = .ok r' ∧ r'.results = r.results.take (zs.length + 1) ∧
      r'.predictions = r.predictions.take zs.length := by
  unfold GH.batchFilter at h ⊢
  split_ifs at h ⊢ with h0
  simp only [Except.ok.injEq] at h
  refine ⟨_, rfl, ?_, ?_⟩
  · rw [← h]; simp [← List.map_take, gh_loop_append]
  · rw [← h]; simp [← List.map_take, gh_loop_append]

/-! ## The fixed-lag smoother -/

theorem lagLoop_below (HTSI : Mat n m) (FLH : Mat n n) (y : Vec m) (N : ℕ) : ∀ (si : ℕ) (PS : Mat n n) (xs : List (Vec n)) (j : ℕ),
    j + N ≤ si → (FLS.lagLoop HTSI FLH y N si PS xs)[j]? = xs[j]? := by
  induction N with
  | zero => intros; rfl
  | succ N ih =>
    intro si PS xs j hj
    rw [FLS.lagLoop, ih _ _ _ _ (by omega), List.getElem?_modify]
    simp [show si ≠ j by omega]

theorem lagStep_below (F : Mat n n) (H : Mat m n) (N k : ℕ) (c : FLS.Cycle n m) (xs : List (Vec n)) (j : ℕ) (hj : j + N ≤ k) (hk : j < k) :
    (FLS.lagStep F H N k c xs)[j]? = xs[j]? := by
  unfold FLS.lagStep
  split_ifs with h
  · exact lagLoop_below _ _ _ _ _ _ _ _ hj
  · rw [List.getElem?_set_ne (by omega)]

theorem lagLoop_take (HTSI : Mat n m) (FLH : Mat n n) (y : Vec m) (N L : ℕ) : ∀ (si : ℕ) (PS : Mat n n) (xs : List (Vec n)),
    (FLS.lagLoop HTSI FLH y N si PS xs).take L = FLS.lagLoop HTSI FLH y N si PS (xs.take L) := by
  induction N with
  | zero => intros; rfl
  | succ N ih =>
    intro si PS xs
    rw [FLS.lagLoop, ih, FLS.lagLoop]
    congr 1
    apply List.ext_getElem?
    intro i
    simp only [List.getElem?_take, List.getElem?_modify]
    split_ifs <;> simp

theorem lagStep_take (F : Mat n n) (H : Mat m n) (N k L : ℕ) (c : FLS.Cycle n m) (xs : List (Vec n)) :
    (FLS.lagStep F H N k c xs).take L = FLS.lagStep F H N k c (xs.take L) := by
  unfold FLS.lagStep
  split_ifs with h
  · exact lagLoop_take _ _ _ _ _ _ _ _
  · rw [List.take_set]

theorem lagLoop_keeps_length (HTSI : Mat n m) (FLH : Mat n n) (y : Vec m) (N : ℕ) : ∀ (si : ℕ) (PS : Mat n n) (xs : List (Vec n)),
    (FLS.lagLoop HTSI FLH y N si PS xs).length = xs.length := by
  induction N with
  | zero => intros; rfl
  | succ N ih => intro si PS xs; rw [FLS.lagLoop, ih, List.length_modify]

theorem lagStep_keeps_length (F : Mat n n) (H : Mat m n) (N k : ℕ) (c : FLS.Cycle n m) (xs : List (Vec n)) :
    (FLS.lagStep F H N k c xs).length = xs.length := by
  unfold FLS.lagStep
  split_ifs with h
  · exact lagLoop_keeps_length _ _ _ _ _ _ _
  · rw [List.length_set]

theorem smooth_one {N : ℕ} {zu : Vec m × UArg l} {s t : FLS n m l} {xs : List (Vec n)} (hN : s.N = some N) (hx : s.xSmooth = some xs)
    (hc : xs.length = s.count) (h : s.smooth zu = .ok t) :
    t.N = some N ∧ t.count = s.count + 1 ∧ ∃ ys, t.xSmooth = some ys ∧ ys.length = t.count ∧
      ∀ j, j + N ≤ s.count → j < s.count → ys[j]? = xs[j]? := by
  unfold FLS.smooth at h
  cases hb : FLS.control s.B zu.2 with
  | error e => simp [hb] at h
  | ok bu =>
    simp only [hb] at h
    generalize npInv _ = q at h
    cases q with
    | none => simp at h
    | some SI =>
      simp only [hx, hN, Except.ok.injEq] at h
      subst h
      refine ⟨rfl, rfl, _, rfl, ?_, ?_⟩
      · simp [lagStep_keeps_length, hc]
      · intro j hj hk
        rw [lagStep_below _ _ _ _ _ _ _ hj hk, List.getElem?_append_left (by omega)]

/-- **C152** `FixedLagSmoother.smooth`: with lag `N`, the smoothed state of step `j` no longer changes once the measurement of
step `j + N - 1` is in (`j` for `N = 0`): a call of `smooth` leaves it alone, however many calls follow. -/
theorem C152_lag (N : ℕ) (zus : List (Vec m × UArg l)) : ∀ (s t : FLS n m l) (xs : List (Vec n)), s.N = some N → s.xSmooth = some xs →
    xs.length = s.count → runList FLS.smooth s zus = .ok t →
    ∃ ys, t.xSmooth = some ys ∧ ys.length = s.count + zus.length ∧
      ∀ j, j + N ≤ s.count → j < s.count → ys[j]? = xs[j]? := by
  induction zus with
  | nil =>
    intro s t xs hN hx hc h
    simp only [runList, Except.ok.injEq] at h
    subst h
    exact ⟨xs, hx, by simp [hc], fun _ _ _ => rfl⟩
  | cons zu zus ih =>
    intro s t xs hN hx hc h
    cases h1 : s.smooth zu with
    | error e => simp [runList, h1] at h
    | ok s1 =>
      simp only [runList, h1] at h
      obtain ⟨hN1, hc1, ys, hy, hl, hj⟩ := smooth_one hN hx hc h1
      obtain ⟨vs, hv, hvl, hvj⟩ := ih s1 t ys hN1 hy hl h
      refine ⟨vs, hv, by rw [hvl, hc1, List.length_cons]; omega, fun j h1 h2 => ?_⟩
      rw [hvj j (by omega) (by omega), hj j h1 h2]

theorem lag_rest (s : FLS n m l) (N : ℕ) (us : Option (List (UArg l))) (K : ℕ) (ws : List (Vec m)) :
    ∀ (k : ℕ) (x : Vec n) (P : Mat n n) (xs xh : List (Vec n)) {X Xh}, K ≤ k → FLS.batchLoop s N us k x P xs xh ws = .ok (X, Xh) →
      Xh.take K = xh.take K ∧ ∀ j, j + N ≤ K → j < K → X[j]? = xs[j]? := by
  induction ws with
  | nil =>
    intro k x P xs xh X Xh hk h
    simp only [FLS.batchLoop, Except.ok.injEq, Prod.mk.injEq] at h
    obtain ⟨rfl, rfl⟩ := h
    exact ⟨rfl, fun _ _ _ => rfl⟩
  | cons z ws ih =>
    intro k x P xs xh X Xh hk h
    rw [FLS.batchLoop] at h
    cases hu : FLS.usAt us k with
    | error e => simp [hu] at h
    | ok u =>
      simp only [hu] at h
      cases hb : FLS.control s.B u with
      | error e => simp [hb] at h
      | ok bu =>
        simp only [hb] at h
        generalize npInv _ = q at h
        cases q with
        | none => simp at h
        | some SI =>
          simp only at h
          obtain ⟨h1, h2⟩ := ih _ _ _ _ _ (by omega) h
          refine ⟨?_, fun j hj hjk => ?_⟩
          · rw [h1, List.take_set_of_le (by omega)]
          · rw [h2 j hj hjk, lagStep_below _ _ _ _ _ _ _ (by omega) (by omega), List.getElem?_set_ne (by omega)]

theorem lag_prefix (s : FLS n m l) (N : ℕ) (us : Option (List (UArg l))) (ws : List (Vec m)) (L : ℕ) (zs : List (Vec m)) :
    ∀ (k : ℕ) (x : Vec n) (P : Mat n n) (xs xh : List (Vec n)) {X Xh}, L = k + zs.length →
      FLS.batchLoop s N us k x P xs xh (zs ++ ws) = .ok (X, Xh) →
      ∃ ys, FLS.batchLoop s N us k x P (xs.take L) (xh.take L) zs = .ok (ys, Xh.take L) ∧
        ∀ j, j + N ≤ L → j < L → X[j]? = ys[j]? := by
  induction zs with
  | nil =>
    intro k x P xs xh X Xh hL h
    obtain ⟨h1, h2⟩ := lag_rest s N us L ws k x P xs xh (by simp at hL; omega) h
    refine ⟨xs.take L, by rw [FLS.batchLoop, h1], fun j hj hjk => ?_⟩
    rw [h2 j hj hjk, List.getElem?_take_of_lt hjk]
  | cons z zs ih =>
    intro k x P xs xh X Xh hL h
    rw [List.cons_append, FLS.batchLoop] at h
    rw [FLS.batchLoop]
    cases hu : FLS.usAt us k with
    | error e => simp [hu] at h
    | ok u =>
      simp only [hu] at h ⊢
      cases hb : FLS.control s.B u with
      | error e => simp [hb] at h
      | ok bu =>
        simp only [hb] at h ⊢
        generalize npInv _ = q at h ⊢
        cases q with
        | none => simp at h
        | some SI =>
          simp only at h ⊢
          obtain ⟨ys, h1, h2⟩ := ih _ _ _ _ _ (by rw [hL, List.length_cons]; omega) h
          refine ⟨ys, ?_, h2⟩
          rw [← h1, lagStep_take, List.take_set, List.take_set]

/-- **C152** `FixedLagSmoother.smooth_batch`: the filtered states depend on no later measurement, and the smoothed state of
step `j` on none after that of step `j + N - 1` (`j` for `N = 0`). -/
theorem C152_lag_batch (s : FLS n m l) (zs ws : List (Vec m)) (N : ℕ) (us : Option (List (UArg l))) {xs xh}
    (h : s.smoothBatch (zs ++ ws) N us = .ok (xs, xh)) :
    ∃ ys, s.smoothBatch zs N us = .ok (ys, xh.take zs.length) ∧
      ∀ j, j + N ≤ zs.length → j < zs.length → xs[j]? = ys[j]? := by
  obtain ⟨ys, h1, h2⟩ := lag_prefix s N us ws zs.length zs 0 _ _ _ _ (by simp) h
  refine ⟨ys, ?_, h2⟩
  simpa [FLS.smoothBatch] using h1

/-! ## The hypotheses can be met -/

/-- Two measurements (one of them missing) and a later one. -/
example (uf : Bool) : ∃ r t r' t', cvKF.batchFilter ([some ![1], none] ++ [some ![3]]) {} uf = .ok (r, t) ∧
    cvKF.batchFilter [some ![1], none] {} uf = .ok (r', t') ∧ r' = r.take 2 := by
  obtain ⟨r, t, h⟩ := batchLoop_total uf cvKF (cvKF.batchRows ([some ![1], none] ++ [some ![3]]) {}) rfl
    PosSemidef.one (by simp [cvKF, KF.fresh]) (by
      intro r hr
      simp only [KF.batchRows, KF.zip7, List.cons_append, List.nil_append, List.length_cons, List.length_nil, Option.getD_none,
        List.replicate, List.mem_cons, List.not_mem_nil, or_false] at hr
      rcases hr with rfl | rfl | rfl <;>
        exact ⟨PosSemidef.one, PosDef.one, _, rfl⟩)
  obtain ⟨t', h'⟩ := C152_batch cvKF [some ![1], none] [some ![3]] {} uf h
  exact ⟨r, t, _, t', h, h', rfl⟩

/-- A smoother with lag one that has seen one measurement and sees another: the first smoothed state is settled. -/
example : ∃ (s t : FLS 1 1 0) (xs : List (Vec 1)), s.N = some 1 ∧ s.xSmooth = some xs ∧ xs.length = s.count ∧ s.count = 1 ∧
    runList FLS.smooth s [(vc 1, .none)] = .ok t := by
  obtain ⟨s1, h1, -, -, hc, hxs, hN, -⟩ := flsWalk_first
  obtain ⟨t, ht, -⟩ := C30_lag_one_refuted
  rw [runList, h1] at ht
  exact ⟨s1, t, _, hN, hxs, by rw [hc]; rfl, hc, ht⟩

/-- `smooth_batch` on one measurement and a later one. -/
example : ∃ r, flsWalk.smoothBatch ([vc 1] ++ [vc 1]) 1 none = .ok r := by
  obtain ⟨t, ht, -⟩ := C30_lag_one_refuted
  obtain ⟨xs, xh, h, -⟩ := C29_batch flsWalk t [vc 1, vc 1] 1 none (fun _ => .none) (fun _ _ => rfl) ht
  exact ⟨_, h⟩

example : ∃ r, ({ x := 0, dx := 1, dt := 1, g := 1/2, h := 1/4, dxPred := 0, xPred := 0, y := 0, z := 0 } : GH ℝ).batchFilter ([1, 2] ++ [5]) = .ok r := by
  unfold GH.batchFilter
  rw [if_neg (by norm_num)]
  exact ⟨_, rfl⟩

end Filterpy
