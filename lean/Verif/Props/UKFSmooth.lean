import Verif.Props.UKF
import Verif.Model.KalmanFuncs

/-!
# C63: the unscented RTS smoother on linear systems; C70: `UnscentedKalmanFilter.batch_filter`
-/

namespace Filterpy

open Matrix SigmaPts Spec

variable {n m l : ℕ} {p : SigmaPts n}

/-- The configuration of a linear `UnscentedKalmanFilter` as far as the smoother uses it. -/
structure LinearUkf (F : ℝ → Mat n n) (u : UKF n m p) : Prop where
  fx : u.fx = fun v t => F t *ᵥ v
  xMean : u.xMean = none
  resX : u.residualX = none
  inv : ∀ {j : ℕ} (A : Mat j j), u.inv A = npInv A

theorem ukf_rtsStep (he : Encodes p) {F : ℝ → Mat n n} {u : UKF n m p} (hl : LinearUkf F u)
    (hn : NoiseOK F u.Q) (x : Vec n) (P : Mat n n) (hP : P.PosDef) (t : ℝ) (nxt : KF.RtsOut n) :
    ∃ o, KF.rtsStep npInv x P (F t) u.Q nxt = .ok o ∧
      u.rtsStep x P (some t) ⟨nxt.x, nxt.P, nxt.K⟩ = .ok ⟨o.x, o.P, o.K⟩ := by
  obtain ⟨s, hs, -, -⟩ := he.pts x P hP
  have hut := ut_linear he hP hs (F t) u.Q
  have hcr := cross_linear he hP hs (F t)
  have hpd := pred_pd hn hP t
  have hinv := npInv_of_det_ne (PD.det_ne hpd)
  refine ⟨⟨x + (P * (F t)ᵀ * (F t * P * (F t)ᵀ + u.Q)⁻¹) *ᵥ (nxt.x - F t *ᵥ x),
      P + (P * (F t)ᵀ * (F t * P * (F t)ᵀ + u.Q)⁻¹) * (nxt.P - (F t * P * (F t)ᵀ + u.Q)) *
        (P * (F t)ᵀ * (F t * P * (F t)ᵀ + u.Q)⁻¹)ᵀ,
      P * (F t)ᵀ * (F t * P * (F t)ᵀ + u.Q)⁻¹, F t * P * (F t)ᵀ + u.Q⟩, ?_, ?_⟩
  · simp only [KF.rtsStep, hinv]
  · simp only [UKF.rtsStep, hs, hl.fx, hl.xMean, hl.resX, hut, hl.inv, hinv, hcr]
    rfl

/-- Rows for the unscented loop and rows for the Kalman loop that stand for the same system. -/
inductive RtsRows (F : ℝ → Mat n n) (Q : Mat n n) :
    List ((Vec n × Mat n n) × Option ℝ) → List ((Vec n × Mat n n) × (Mat n n × Mat n n)) → Prop
  | nil : RtsRows F Q [] []
  | last (e : Vec n × Mat n n) (t : Option ℝ) (g : Mat n n × Mat n n) : RtsRows F Q [(e, t)] [(e, g)]
  | cons (e : Vec n × Mat n n) (t : ℝ) {a b as bs} (hP : e.2.PosDef) (h : RtsRows F Q (a :: as) (b :: bs)) :
      RtsRows F Q ((e, some t) :: a :: as) ((e, (F t, Q)) :: b :: bs)

theorem ukf_rtsLoop (he : Encodes p) {F : ℝ → Mat n n} {u : UKF n m p} (hl : LinearUkf F u)
    (hn : NoiseOK F u.Q) {as bs} (h : RtsRows F u.Q as bs) :
    ∃ out, KFun.rtsLoop bs = .ok out ∧ out.length = bs.length ∧
      u.rtsLoop as = .ok (out.map fun o => ⟨o.x, o.P, o.K⟩) := by
  induction h with
  | nil => exact ⟨[], rfl, rfl, rfl⟩
  | last e t g => exact ⟨_, rfl, rfl, rfl⟩
  | cons e t hP h ih =>
    obtain ⟨out, h1, h2, h3⟩ := ih
    cases out with
    | nil => simp at h2
    | cons nxt tail =>
      obtain ⟨o, g1, g2⟩ := ukf_rtsStep he hl hn e.1 e.2 hP t nxt
      refine ⟨o :: nxt :: tail, ?_, by simpa using h2, ?_⟩
      · simp only [KFun.rtsLoop, h1, bind, Except.bind, g1]
      · simp only [UKF.rtsLoop, h3, List.map_cons, g2]

theorem rtsRows_zip (F : ℝ → Mat n n) (Q : Mat n n) :
    ∀ (Xs : List (Vec n)) (Ps : List (Mat n n)) (ts : List ℝ), Xs.length = Ps.length →
      Xs.length ≤ ts.length + 1 → (∀ P ∈ Ps, P.PosDef) →
      RtsRows F Q ((Xs.zip Ps).zip ((List.range Xs.length).map fun i => ts[i]?))
        ((Xs.zip Ps).zip ((ts.map F ++ [0]).zip (List.replicate ts.length Q ++ [0])))
  | [], [], ts, _, _, _ => by simpa using RtsRows.nil
  | [x], [P], ts, _, _, _ => by
    cases ts with
    | nil => exact RtsRows.last _ _ _
    | cons t ts => exact RtsRows.last _ _ _
  | x :: x' :: Xs, P :: P' :: Ps, [], _, h, _ => by simp at h
  | x :: x' :: Xs, P :: P' :: Ps, t :: ts, h1, h2, h3 => by
    have ih := rtsRows_zip F Q (x' :: Xs) (P' :: Ps) ts (by simpa using h1) (by simpa using h2)
      (fun P hP => h3 P (by simp at hP ⊢; tauto))
    have hr : ((List.range (x :: x' :: Xs).length).map fun i => (t :: ts)[i]?)
        = some t :: ((List.range (x' :: Xs).length).map fun i => ts[i]?) := by
      rw [List.length_cons, List.range_succ_eq_map, List.map_cons, List.map_map]
      rfl
    rw [hr]
    have hz : ((List.range (x' :: Xs).length).map fun i => ts[i]?)
        = ts[0]? :: ((List.range Xs.length).map fun i => ts[i + 1]?) := by
      rw [List.length_cons, List.range_succ_eq_map, List.map_cons, List.map_map]
      rfl
    rw [hz] at ih ⊢
    cases ts with
    | nil => exact RtsRows.cons (x, P) t (h3 P (by simp)) ih
    | cons t' ts => exact RtsRows.cons (x, P) t (h3 P (by simp)) ih
  | [], _ :: _, _, h, _, _ => by simp at h
  | _ :: _, [], _, h, _, _ => by simp at h
  | [_], _ :: _ :: _, _, h, _, _ => by simp at h
  | _ :: _ :: _, [_], _, h, _, _ => by simp at h

/-- **C63 (partial).**  On a linear system with steps `ts`, the unscented smoother returns the means,
covariances and gains of the Kalman RTS smoother function for the transition matrices of those steps and
the constant process noise `self.Q`, for every sequence of positive definite filter covariances.
Missing: the `Qs` argument is not used (see `C63_Qs_refuted`); the result below holds whatever is passed
for it. -/
theorem C63_rts_partial (hp : ValidPoints p) (F : ℝ → Mat n n) (u : UKF n m p) (hl : LinearUkf F u)
    (hn : NoiseOK F u.Q) (Xs : List (Vec n)) (Ps : List (Mat n n)) (hlen : Xs.length = Ps.length)
    (hPs : ∀ P ∈ Ps, P.PosDef) (ts : List ℝ) (hts : Xs.length ≤ ts.length + 1)
    (Qs : Option (List (Mat n n))) :
    ∃ out, KFun.rtsSmoother Xs Ps (ts.map F) (List.replicate ts.length u.Q) = .ok out ∧
      u.rtsSmoother Xs Ps Qs (.list ts) = .ok (out.map fun o => ⟨o.x, o.P, o.K⟩) := by
  obtain ⟨out, h1, -, h2⟩ := ukf_rtsLoop hp.encodes hl hn (rtsRows_zip F u.Q Xs Ps ts hlen hts hPs)
  refine ⟨out, ?_, ?_⟩
  · have hnot : ¬ ((ts.map F).length + 1 < Xs.length ∨
        (List.replicate ts.length u.Q).length + 1 < Xs.length) := by
      simp only [List.length_map, List.length_replicate]; omega
    simp only [KFun.rtsSmoother, hlen, ne_eq, not_true, if_false]
    rw [← hlen, if_neg hnot, h1]
  · simp only [UKF.rtsSmoother, hlen, ne_eq, not_true, if_false, UKF.rtsDts]
    rw [← hlen, h2]

theorem range_replicate {α : Type*} (k : ℕ) (c : α) :
    ((List.range k).map fun i => (List.replicate k c)[i]?) = List.replicate k (some c) := by
  apply List.ext_getElem (by simp)
  intro i h1 h2
  simp at h1
  simp [h1]

/-- A scalar `dts`, or none, is the list of that step repeated. -/
theorem C63_dts (u : UKF n m p) (Xs : List (Vec n)) (Ps : List (Mat n n))
    (Qs : Option (List (Mat n n))) (c : ℝ) :
    u.rtsSmoother Xs Ps Qs (.scalar c) = u.rtsSmoother Xs Ps Qs (.list (List.replicate Xs.length c)) ∧
    u.rtsSmoother Xs Ps Qs .none = u.rtsSmoother Xs Ps Qs (.list (List.replicate Xs.length u.dt)) := by
  constructor <;> simp only [UKF.rtsSmoother, UKF.rtsDts, range_replicate]

/-- Sequences of different length are refused. -/
theorem C63_length_error (u : UKF n m p) (Xs : List (Vec n)) (Ps : List (Mat n n))
    (Qs : Option (List (Mat n n))) (dts : UKF.DtArg) (h : Xs.length ≠ Ps.length) :
    u.rtsSmoother Xs Ps Qs dts = .error .valueError := by
  simp [UKF.rtsSmoother, h]

/-- **C63 (refuted part).**  `Qs` is ignored: a random walk whose process noise is 1 although the
filter's `Q` is 3, smoothed over two steps.  The Kalman smoother with `Qs = [1, 1]` gives the first
variance 3/4, the unscented one 13/16, the value for `Q = 3`. -/
theorem C63_Qs_refuted {p : SigmaPts 1} (hp : ValidPoints p) :
    ∃ (u : UKF 1 1 p) (Xs : List (Vec 1)) (Ps Qs : List (Mat 1 1)) (out : List (KF.RtsOut 1))
      (out' : List (UKF.RtsOut 1)),
      LinearUkf (fun _ => 1) u ∧ NoiseOK (fun _ => 1) u.Q ∧ (∀ Q ∈ Qs, Q.PosDef) ∧
      KFun.rtsSmoother Xs Ps [1, 1] Qs = .ok out ∧
      u.rtsSmoother Xs Ps (some Qs) (.list [1, 1]) = .ok out' ∧
      out.map (fun o => o.P) ≠ out'.map (fun o => o.P) := by
  set u : UKF 1 1 p := { UKF.fresh 1 p 1 (fun v => (1 : Mat 1 1) *ᵥ v) (fun v _ => (1 : Mat 1 1) *ᵥ v) with
    Q := (3 : ℝ) • 1 } with hu
  have hlin : LinearUkf (fun _ => 1) u := by constructor <;> first | rfl | (intros; rfl)
  have hQ : u.Q.PosDef := PosDef.one.smul (by norm_num)
  obtain ⟨out', h1, h2⟩ := C63_rts_partial hp (fun _ => 1) u hlin (Or.inl hQ) [0, 0] [1, 1] rfl
    (by intro P hP; simp at hP; subst hP; exact PosDef.one) [1, 1] (by simp) (some [1, 1])
  have hi : ∀ c : ℝ, 0 < c → npInv (c • (1 : Mat 1 1)) = some (c⁻¹ • 1) := by
    intro c hc
    rw [npInv_eq_some]
    refine ⟨by simp [hc.ne'], ?_⟩
    symm
    apply inv_eq_right_inv
    ext i j; fin_cases i; fin_cases j; simp [hc.ne']
  have g : ∀ (c : ℝ) (Q : Mat 1 1), 0 < c → (1 : Mat 1 1) * 1 * (1 : Mat 1 1)ᵀ + Q = c • 1 →
      KFun.rtsSmoother [0, 0] [1, 1] [1, 1] [Q, Q]
      = .ok [⟨0 + (1 * (1 : Mat 1 1)ᵀ * (c⁻¹ • 1)) *ᵥ (0 - (1 : Mat 1 1) *ᵥ (0 : Vec 1)),
          1 + (1 * (1 : Mat 1 1)ᵀ * (c⁻¹ • 1)) * (1 - c • 1) *
            (1 * (1 : Mat 1 1)ᵀ * (c⁻¹ • 1))ᵀ, 1 * (1 : Mat 1 1)ᵀ * (c⁻¹ • 1), c • 1⟩,
        ⟨0, 1, 0, 1⟩] := by
    intro c Q hc e
    have hl : KFun.rtsLoop [(((0 : Vec 1), (1 : Mat 1 1)), ((1 : Mat 1 1), Q))] = .ok [⟨0, 1, 0, 1⟩] := rfl
    have hst : KF.rtsStep npInv 0 1 1 Q ⟨0, 1, 0, 1⟩
        = .ok ⟨0 + (1 * (1 : Mat 1 1)ᵀ * (c⁻¹ • 1)) *ᵥ (0 - (1 : Mat 1 1) *ᵥ (0 : Vec 1)),
          1 + (1 * (1 : Mat 1 1)ᵀ * (c⁻¹ • 1)) * (1 - c • 1) *
            (1 * (1 : Mat 1 1)ᵀ * (c⁻¹ • 1))ᵀ, 1 * (1 : Mat 1 1)ᵀ * (c⁻¹ • 1), c • 1⟩ := by
      simp only [KF.rtsStep, e, hi c hc]
    show (if _ then _ else if (2 + 1 < 2 ∨ 2 + 1 < 2) then _ else
      KFun.rtsLoop [((0, 1), (1, Q)), ((0, 1), (1, Q))]) = _
    rw [if_neg (by simp), if_neg (by norm_num), KFun.rtsLoop, hl]
    simp only [bind, Except.bind, hst]
  have g1 := g 2 1 (by norm_num) (by ext i j; fin_cases i; fin_cases j; simp; norm_num)
  have g2 := g 4 u.Q (by norm_num) (by ext i j; fin_cases i; fin_cases j; simp [hu]; norm_num)
  refine ⟨u, [0, 0], [1, 1], [1, 1], _, _, hlin, Or.inl hQ, ?_, g1, h2, ?_⟩
  · intro Q hQ; simp at hQ; subst hQ; exact PosDef.one
  · have h1' : KFun.rtsSmoother [0, 0] [1, 1] [1, 1] [u.Q, u.Q] = .ok out' := h1
    rw [g2] at h1'
    obtain rfl := Except.ok.inj h1'
    intro h
    have := congrArg (fun l : List (Mat 1 1) => (l.headD 0) 0 0) h
    simp at this
    norm_num at this

/-! ### C70: `batch_filter` -/

/-- The estimates after each of the calls `predict(dt); update(z, R)`, for the rows in order. -/
inductive BatchTrace : UKF n m p → List (Option (Vec m) × MatArg m × ℝ) → List (Vec n × Mat n n) →
    UKF n m p → Prop
  | nil (s) : BatchTrace s [] [] s
  | cons {s s1 s2 s3 z r dt rows out} (h1 : s.predict (some dt) = .ok s1) (h2 : s1.update z r = .ok s2)
      (h3 : BatchTrace s2 rows out s3) : BatchTrace s ((z, r, dt) :: rows) ((s2.x, s2.P) :: out) s3

theorem batchLoop_trace (rows : List (Option (Vec m) × MatArg m × ℝ)) :
    ∀ (s s' : UKF n m p) (out), s.batchLoop rows = .ok (out, s') ↔ BatchTrace s rows out s' := by
  induction rows with
  | nil =>
    intro s s' out
    constructor
    · intro h
      simp only [UKF.batchLoop, Except.ok.injEq, Prod.mk.injEq] at h
      obtain ⟨rfl, rfl⟩ := h
      exact .nil s
    · intro h; cases h; rfl
  | cons row rows ih =>
    obtain ⟨z, r, dt⟩ := row
    intro s s' out
    constructor
    · intro h
      simp only [UKF.batchLoop] at h
      cases h1 : s.predict (some dt) with
      | error e => simp [h1] at h
      | ok s1 =>
        cases h2 : s1.update z r with
        | error e => simp [h1, h2] at h
        | ok s2 =>
          cases h3 : s2.batchLoop rows with
          | error e => simp [h1, h2, h3] at h
          | ok q =>
            obtain ⟨out', s3⟩ := q
            simp only [h1, h2, h3, Except.ok.injEq, Prod.mk.injEq] at h
            obtain ⟨rfl, rfl⟩ := h
            exact .cons h1 h2 ((ih _ _ _).1 h3)
    · intro h
      cases h with
      | cons h1 h2 h3 => simp only [UKF.batchLoop, h1, h2, (ih _ _ _).2 h3]

theorem trace_length {s s' : UKF n m p} {rows out} (h : BatchTrace s rows out s') :
    out.length = rows.length := by
  induction h with
  | nil => rfl
  | cons _ _ _ ih => simp [ih]

/-- **C70.**  `batch_filter(zs, Rs, dts)` whose first measurement is present, with lists `Rs` and `dts` of
the length of `zs` (or left out: the filter's `R` and step), returns the estimates of, and leaves the
filter in the state after, the loop `predict(dts[i]); update(zs[i], Rs[i])`. -/
theorem C70_batch (s : UKF n m p) (z : Vec m) (zs : List (Option (Vec m)))
    (Rs : Option (List (MatArg m))) (dts : Option (List ℝ))
    (hR : ∀ l, Rs = some l → l.length = zs.length + 1)
    (hd : ∀ l, dts = some l → l.length = zs.length + 1) (out : List (Vec n × Mat n n)) (s' : UKF n m p) :
    s.batchFilter (some z :: zs) Rs (dts.elim .none .list) = .ok (out, s') ↔
      BatchTrace s ((some z :: zs).zip ((Rs.getD (List.replicate (zs.length + 1) (.mat s.R))).zip
        (dts.getD (List.replicate (zs.length + 1) s.dt)))) out s' := by
  have hRl : (Rs.getD (List.replicate (zs.length + 1) (.mat s.R))).length = zs.length + 1 := by
    cases Rs with
    | none => simp
    | some l => exact hR l rfl
  have hdl : (dts.getD (List.replicate (zs.length + 1) s.dt)).length = zs.length + 1 := by
    cases dts with
    | none => simp
    | some l => exact hd l rfl
  have key : s.batchFilter (some z :: zs) Rs (dts.elim .none .list)
      = match s.batchLoop ((some z :: zs).zip ((Rs.getD (List.replicate (zs.length + 1) (.mat s.R))).zip
        (dts.getD (List.replicate (zs.length + 1) s.dt)))) with
      | .error e => .error e
      | .ok (out, s') => .ok (out ++ List.replicate ((zs.length + 1) - out.length) (0, 0), s') := by
    cases dts <;> rfl
  rw [key]
  constructor
  · intro h
    split at h
    · simp at h
    · rename_i o t ho
      have ht := (batchLoop_trace _ _ _ _).1 ho
      have hlen := trace_length ht
      simp only [List.length_zip, List.length_cons, hRl, hdl, min_self] at hlen
      simp only [hlen, Nat.sub_self, List.replicate_zero, List.append_nil, Except.ok.injEq,
        Prod.mk.injEq] at h
      obtain ⟨rfl, rfl⟩ := h
      exact ht
  · intro h
    have hlen := trace_length h
    simp only [List.length_zip, List.length_cons, hRl, hdl, min_self] at hlen
    rw [(batchLoop_trace _ _ _ _).2 h]
    simp only [hlen, Nat.sub_self, List.replicate_zero, List.append_nil]

/-- **C70 (refuted part).**  A scalar `dts`, which the documentation allows, and a missing first
measurement are refused with an exception. -/
theorem C70_scalar_dts_refuted (s : UKF n m p) (z : Vec m) (zs : List (Option (Vec m)))
    (Rs : Option (List (MatArg m))) (c : ℝ) :
    s.batchFilter (some z :: zs) Rs (.scalar c) = .error (.typeError, s) ∧
    (∃ e, s.batchFilter (none :: zs) Rs .none = .error (e, s)) := ⟨rfl, _, rfl⟩

/-- The trace is inhabited: a fresh linear filter over two measurements. -/
example {p : SigmaPts 1} (hp : ValidPoints p) (z : Vec 1) :
    ∃ out s', (UKF.fresh 1 p 1 (fun v => (1 : Mat 1 1) *ᵥ v) (fun v _ => (1 : Mat 1 1) *ᵥ v)).batchFilter
      [some z, some z] none .none = .ok (out, s') := by
  set u := UKF.fresh 1 p 1 (fun v => (1 : Mat 1 1) *ᵥ v) (fun v _ => (1 : Mat 1 1) *ᵥ v) with hu
  obtain ⟨u', k', h, -⟩ := C22_linear hp (fun _ => 1) u { KF.fresh 1 1 0 with H := 1 }
    (by constructor <;> first | rfl | (intros; rfl)) (by constructor <;> rfl) PosDef.one
    (Or.inl PosDef.one)
    [.predict (some 1), .update (some z) (.mat 1) none, .predict (some 1), .update (some z) (.mat 1) none]
    (by simp [Alternating]) (by
      intro op hop
      simp only [List.mem_cons, List.not_mem_nil, or_false] at hop
      rcases hop with rfl | rfl | rfl | rfl <;> simp [UkfOp.GoodR, MatArg.resolve, PosDef.one])
  simp only [runList, UkfOp.onUkf, Option.map_none] at h
  cases h1 : u.predict (some 1) with
  | error e => simp [h1] at h
  | ok s1 =>
    cases h2 : s1.update (some z) (.mat 1) none with
    | error e => simp [h1, h2] at h
    | ok s2 =>
      cases h3 : s2.predict (some 1) with
      | error e => simp [h1, h2, h3] at h
      | ok s3 =>
        cases h4 : s3.update (some z) (.mat 1) none with
        | error e => simp [h1, h2, h3, h4] at h
        | ok s4 =>
          refine ⟨[(s2.x, s2.P), (s4.x, s4.P)], s4, (C70_batch u z [some z] none none (by simp) (by simp) _ _).2 ?_⟩
          exact .cons h1 h2 (.cons h3 h4 (.nil _))

end Filterpy
