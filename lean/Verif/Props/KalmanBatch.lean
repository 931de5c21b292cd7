import Verif.Lemmas.Kalman
import Verif.Lemmas.Scalar1
import Verif.Model.KalmanFuncs
import Verif.Props.KalmanBasic
import Mathlib.Data.List.GetD

/-!
# KalmanFilter: C10 (batch_filter), C16 (steady state), C19 (module functions), C13 (smoothers)
-/

namespace Filterpy

open Matrix KF

variable {n m l : ℕ}

/-! ## C10 -/

/-- The two calls a user makes by hand for one row, in the requested order. -/
def KF.BatchRow.first (updateFirst : Bool) (r : BatchRow n m l) : KFOp n m l :=
  if updateFirst then .update r.z r.R (some r.H) else .predict r.u r.B (some r.F) r.Q

@[inherit_doc KF.BatchRow.first]
def KF.BatchRow.second (updateFirst : Bool) (r : BatchRow n m l) : KFOp n m l :=
  if updateFirst then .predict r.u r.B (some r.F) r.Q else .update r.z r.R (some r.H)

/-- The hand-written loop over the rows. -/
def handLoop (updateFirst : Bool) (rows : List (BatchRow n m l)) : List (KFOp n m l) :=
  rows.flatMap fun r => [r.first updateFirst, r.second updateFirst]

theorem batchLoop_cons (expf : ℝ → ℝ) (uf : Bool) (s : KF n m l) (r : BatchRow n m l)
    (rows : List (BatchRow n m l)) :
    batchLoop uf s (r :: rows) = (match s.step expf (r.first uf) with
      | .error e => .error e
      | .ok s1 => match s1.step expf (r.second uf) with
        | .error e => .error e
        | .ok s2 => match batchLoop uf s2 rows with
          | .error e => .error e
          | .ok (out, s') => .ok ((if uf then ⟨s1.x, s1.P, s2.x, s2.P⟩
              else ⟨s2.x, s2.P, s1.x, s1.P⟩) :: out, s')) := by
  cases uf <;> simp only [batchLoop, BatchRow.first, BatchRow.second, step, if_true, if_false,
    Bool.false_eq_true]
  · cases s.predict r.u r.B (some r.F) r.Q with
    | error e => rfl
    | ok s1 =>
      simp only [Bind.bind, Except.bind]
      cases s1.update r.z r.R (some r.H) with
      | error e => rfl
      | ok s2 => dsimp only; cases batchLoop _ s2 rows <;> rfl
  · cases s.update r.z r.R (some r.H) with
    | error e => rfl
    | ok s1 =>
      simp only [Bind.bind, Except.bind]
      cases s1.predict r.u r.B (some r.F) r.Q with
      | error e => rfl
      | ok s2 => dsimp only; cases batchLoop _ s2 rows <;> rfl

/-- What `batch_filter` must return for the given rows: at index `k`, the state after the first
and after the second call of row `k` of the hand-written loop, sorted into posterior and prior. -/
def BatchSpec (expf : ℝ → ℝ) (uf : Bool) (s : KF n m l) (rows : List (BatchRow n m l))
    (outs : List (BatchOut n)) : Prop :=
  outs.length = rows.length ∧ ∀ (k : ℕ) (hk : k < rows.length) (hk' : k < outs.length),
    ∃ a b : KF n m l,
      s.run expf (handLoop uf (rows.take k) ++ [(rows[k]).first uf]) = .ok a ∧
      s.run expf (handLoop uf (rows.take (k + 1))) = .ok b ∧
      outs[k] = if uf then ⟨a.x, a.P, b.x, b.P⟩ else ⟨b.x, b.P, a.x, a.P⟩

/-- **C10.** `batch_filter` returns the posteriors and priors of the hand-written loop at every
index and leaves the object in the same final state; if a call of the loop raises, `batch_filter`
raises the same exception and leaves the object in the same state. -/
theorem C10_batch_equals_loop (expf : ℝ → ℝ) (s : KF n m l) (zs : List (Option (Vec m)))
    (a : BatchArgs n m l) (uf : Bool) :
    match s.batchFilter zs a uf with
    | .ok (outs, s') => s.run expf (handLoop uf (s.batchRows zs a)) = .ok s' ∧
        BatchSpec expf uf s (s.batchRows zs a) outs
    | .error e => s.run expf (handLoop uf (s.batchRows zs a)) = .error e := by
  unfold batchFilter
  generalize s.batchRows zs a = rows
  induction rows generalizing s with
  | nil =>
    simp only [batchLoop]
    exact ⟨rfl, rfl, fun k hk => absurd hk (by simp)⟩
  | cons r rows ih =>
    rw [batchLoop_cons expf]
    have hl : ∀ rs : List (BatchRow n m l), handLoop uf (r :: rs)
        = r.first uf :: r.second uf :: handLoop uf rs := fun rs => rfl
    rw [hl]
    cases h1 : s.step expf (r.first uf) with
    | error e => simp only [run, h1]
    | ok s1 =>
      cases h2 : s1.step expf (r.second uf) with
      | error e => simp only [run, h1, h2]
      | ok s2 =>
        have := ih s2
        cases h3 : batchLoop uf s2 rows with
        | error e => rw [h3] at this; simp only [run, h1, h2, h3]; exact this
        | ok p =>
          obtain ⟨outs, s'⟩ := p
          rw [h3] at this
          obtain ⟨ha, hb, hc⟩ := this
          simp only [run, h1, h2, h3]
          refine ⟨ha, by simp [hb], fun k hk hk' => ?_⟩
          cases k with
          | zero =>
            refine ⟨s1, s2, ?_, ?_, rfl⟩
            · simp [handLoop, run, h1]
            · simp [handLoop, run, h1, h2]
          | succ k =>
            simp only [List.length_cons, Nat.add_lt_add_iff_right] at hk hk'
            obtain ⟨a, b, e1, e2, e3⟩ := hc k hk hk'
            refine ⟨a, b, ?_, ?_, e3⟩
            · rw [List.take_succ_cons, hl]
              simp only [List.cons_append, run, h1, h2, List.getElem_cons_succ]
              exact e1
            · rw [List.take_succ_cons, hl]
              simp only [run, h1, h2]
              exact e2

theorem zip7_length {α β γ δ ε ζ η θ : Type*} (f : α → β → γ → δ → ε → ζ → η → θ)
    (as : List α) (bs : List β) (cs : List γ) (ds : List δ) (es : List ε) (gs : List ζ)
    (hs : List η) : (zip7 f as bs cs ds es gs hs).length =
      min as.length (min bs.length (min cs.length (min ds.length (min es.length
        (min gs.length hs.length))))) := by
  induction as generalizing bs cs ds es gs hs with
  | nil => simp [zip7]
  | cons a as ih =>
    rcases bs with _ | ⟨b, bs⟩ <;> rcases cs with _ | ⟨c, cs⟩ <;> rcases ds with _ | ⟨d, ds⟩ <;>
      rcases es with _ | ⟨e, es⟩ <;> rcases gs with _ | ⟨g, gs⟩ <;> rcases hs with _ | ⟨h, hs⟩ <;>
      simp [zip7, ih, Nat.add_min_add_right]

theorem zip7_getElem {α β γ δ ε ζ η θ : Type*} (f : α → β → γ → δ → ε → ζ → η → θ)
    (as : List α) (bs : List β) (cs : List γ) (ds : List δ) (es : List ε) (gs : List ζ)
    (hs : List η) (k : ℕ) (h0 : k < (zip7 f as bs cs ds es gs hs).length)
    (h1 : k < as.length) (h2 : k < bs.length) (h3 : k < cs.length) (h4 : k < ds.length)
    (h5 : k < es.length) (h6 : k < gs.length) (h7 : k < hs.length) :
    (zip7 f as bs cs ds es gs hs)[k] = f as[k] bs[k] cs[k] ds[k] es[k] gs[k] hs[k] := by
  induction as generalizing bs cs ds es gs hs k with
  | nil => simp at h1
  | cons a as ih =>
    rcases bs with _ | ⟨b, bs⟩ <;> rcases cs with _ | ⟨c, cs⟩ <;> rcases ds with _ | ⟨d, ds⟩ <;>
      rcases es with _ | ⟨e, es⟩ <;> rcases gs with _ | ⟨g, gs⟩ <;> rcases hs with _ | ⟨h, hs⟩ <;>
      try (simp at h2 h3 h4 h5 h6 h7; done)
    cases k with
    | zero => rfl
    | succ k =>
      simp only [List.length_cons, Nat.add_lt_add_iff_right] at h1 h2 h3 h4 h5 h6 h7
      simp only [zip7, List.getElem_cons_succ]
      exact ih _ _ _ _ _ _ k _ h1 h2 h3 h4 h5 h6 h7

/-- The entry an optional per-step list supplies at step `k`. -/
def stepArg {α : Type*} (xs : Option (List α)) (dflt : α) (k : ℕ) : α :=
  match xs with
  | none => dflt
  | some xs => xs.getD k dflt

/-- **C10.** The rows: there are as many as the shortest list supplied, and row `k` holds the
`k`-th measurement with the `k`-th matrices; lists not supplied stand for the filter's own
matrices and for zero control. -/
theorem C10_rows (s : KF n m l) (zs : List (Option (Vec m))) (a : BatchArgs n m l) :
    (s.batchRows zs a).length = min zs.length (min ((a.Fs.map List.length).getD zs.length)
      (min ((a.Qs.map List.length).getD zs.length) (min ((a.Hs.map List.length).getD zs.length)
      (min ((a.Rs.map List.length).getD zs.length) (min ((a.Bs.map List.length).getD zs.length)
      ((a.us.map List.length).getD zs.length)))))) ∧
    ∀ (k : ℕ) (hk : k < (s.batchRows zs a).length), (s.batchRows zs a)[k]
      = { z := zs.getD k none
          F := stepArg a.Fs s.F k
          Q := stepArg a.Qs (.mat s.Q) k
          H := stepArg a.Hs s.H k
          R := stepArg a.Rs (.mat s.R) k
          B := stepArg a.Bs s.B k
          u := stepArg a.us (.scalar 0) k } := by
  have len : ∀ {α : Type} (xs : Option (List α)) (d : α) (N : ℕ),
      (xs.getD (List.replicate N d)).length = (xs.map List.length).getD N := by
    intro α xs d N; cases xs <;> simp
  have get : ∀ {α : Type} (xs : Option (List α)) (d : α) (N k : ℕ)
      (h : k < (xs.getD (List.replicate N d)).length),
      (xs.getD (List.replicate N d))[k] = stepArg xs d k := by
    intro α xs d N k h
    cases xs with
    | none => simp [stepArg]
    | some xs =>
      simp only [Option.getD_some] at h
      simp only [stepArg, Option.getD_some, List.getD_eq_getElem _ _ h]
  refine ⟨?_, fun k hk => ?_⟩
  · simp only [batchRows, zip7_length, len]
  · unfold batchRows at hk ⊢
    have hk' := hk
    rw [zip7_length] at hk'
    simp only [lt_min_iff] at hk'
    obtain ⟨h1, h2, h3, h4, h5, h6, h7⟩ := hk'
    rw [zip7_getElem _ _ _ _ _ _ _ _ k hk h1 h2 h3 h4 h5 h6 h7]
    simp only [get, List.getD_eq_getElem _ _ h1]

/-- `batch_filter` succeeds when every `R` is positive definite, every `Q` positive semidefinite
and the control terms conform. -/
theorem batchLoop_total (uf : Bool) (s : KF n m l) (rows : List (BatchRow n m l))
    (hinv : s.inv = npInv) (hP : s.P.PosSemidef) (ha : 0 ≤ s.alphaSq)
    (hrows : ∀ r ∈ rows, (r.Q.resolve s.Q).PosSemidef ∧ (r.R.resolve s.R).PosDef ∧
      ∃ b, KF.control (r.B.or s.B) r.u = .ok b) :
    ∃ outs s', batchLoop uf s rows = .ok (outs, s') := by
  induction rows generalizing s with
  | nil => exact ⟨_, _, rfl⟩
  | cons r rows ih =>
    have hpred : ∀ t : KF n m l, t.Q = s.Q → t.B = s.B → t.alphaSq = s.alphaSq → t.P.PosSemidef →
        ∃ t', t.predict r.u r.B (some r.F) r.Q = .ok t' ∧ t'.P.PosSemidef ∧ t'.inv = t.inv ∧
          t'.Q = t.Q ∧ t'.R = t.R ∧ t'.B = t.B ∧ t'.alphaSq = t.alphaSq := by
      intro t e1 e2 e3 hp
      obtain ⟨hQ, _, b, hb⟩ := hrows r (by simp)
      have : ∃ t', t.predict r.u r.B (some r.F) r.Q = .ok t' := by
        unfold KF.predict; simp only [e2, hb]; exact ⟨_, rfl⟩
      obtain ⟨t', ht'⟩ := this
      refine ⟨t', ht', ?_⟩
      obtain ⟨x, rfl⟩ := predict_ok ht'
      refine ⟨?_, rfl, rfl, rfl, rfl, rfl⟩
      rw [e1, e3]
      exact ((PSD.congr' hp _).smul ha).add hQ
    have hupd : ∀ t : KF n m l, t.R = s.R → t.inv = npInv → t.P.PosSemidef →
        ∃ t', t.update r.z r.R (some r.H) = .ok t' ∧ t'.P.PosSemidef ∧ t'.inv = t.inv ∧
          t'.Q = t.Q ∧ t'.R = t.R ∧ t'.B = t.B ∧ t'.alphaSq = t.alphaSq := by
      intro t e1 e2 hp
      obtain ⟨_, hR, _⟩ := hrows r (by simp)
      cases hz : r.z with
      | none => exact ⟨_, rfl, hp, rfl, rfl, rfl, rfl, rfl⟩
      | some z =>
        have hS : (r.H * (t.P * r.Hᵀ) + r.R.resolve t.R).PosDef := S_pd hp (e1 ▸ hR)
        have : ∃ t', t.update (some z) r.R (some r.H) = .ok t' := by
          simp only [KF.update, e2, Option.getD_some, npInv_of_det_ne (PD.det_ne hS)]
          exact ⟨_, rfl⟩
        obtain ⟨t', ht'⟩ := this
        refine ⟨t', ht', ?_⟩
        obtain ⟨SI, _, rfl⟩ := update_ok ht'
        refine ⟨?_, rfl, rfl, rfl, rfl, rfl⟩
        exact joseph_psd hp (e1 ▸ hR.posSemidef) _
    cases uf with
    | false =>
      obtain ⟨s1, e1, hp1, i1, q1, r1, b1, a1⟩ := hpred s rfl rfl rfl hP
      obtain ⟨s2, e2, hp2, i2, q2, r2, b2, a2⟩ := hupd s1 r1 (i1.trans hinv) hp1
      obtain ⟨outs, s', h⟩ := ih s2 (i2.trans (i1.trans hinv)) hp2 (by rw [a2, a1]; exact ha)
        (fun r' hr' => by rw [q2, q1, r2, r1, b2, b1]; exact hrows r' (by simp [hr']))
      rw [batchLoop_cons Real.exp]
      simp only [BatchRow.first, BatchRow.second, step, Bool.false_eq_true, if_false, e1, e2, h]
      exact ⟨_, _, rfl⟩
    | true =>
      obtain ⟨s1, e1, hp1, i1, q1, r1, b1, a1⟩ := hupd s rfl hinv hP
      obtain ⟨s2, e2, hp2, i2, q2, r2, b2, a2⟩ := hpred s1 q1 b1 a1 hp1
      obtain ⟨outs, s', h⟩ := ih s2 (i2.trans (i1.trans hinv)) hp2 (by rw [a2, a1]; exact ha)
        (fun r' hr' => by rw [q2, q1, r2, r1, b2, b1]; exact hrows r' (by simp [hr']))
      rw [batchLoop_cons Real.exp]
      simp only [BatchRow.first, BatchRow.second, step, if_true, e1, e2, h]
      exact ⟨_, _, rfl⟩

example (uf : Bool) : ∃ r s', cvKF.batchFilter [some ![1], none, some ![3]] {} uf = .ok (r, s') ∧
    r.length = 3 := by
  obtain ⟨r, s', h⟩ := batchLoop_total uf cvKF (cvKF.batchRows [some ![1], none, some ![3]] {}) rfl
    PosSemidef.one (by simp [cvKF, KF.fresh]) (by
      intro r hr
      simp only [batchRows, zip7, List.length_cons, List.length_nil, Option.getD_none,
        List.replicate, List.mem_cons, List.not_mem_nil, or_false] at hr
      rcases hr with rfl | rfl | rfl <;>
        exact ⟨PosSemidef.one, PosDef.one, _, rfl⟩)
  refine ⟨r, s', h, ?_⟩
  have := C10_batch_equals_loop Real.exp cvKF [some ![1], none, some ![3]] {} uf
  rw [show cvKF.batchFilter [some ![1], none, some ![3]] {} uf = .ok (r, s') from h] at this
  rw [this.2.1, (C10_rows _ _ _).1]; rfl

/-! ## C16: steady-state operation -/

/-- **C16.** No steady-state call, on any measurement, touches `P`, `K`, `S`, `SI` or the model
matrices. -/
theorem C16_frozen (expf : ℝ → ℝ) (s s' : KF n m l) (ops : List (KFOp n m l))
    (hops : ∀ op ∈ ops, (∃ u B, op = .predictSteadystate u B) ∨ ∃ z, op = .updateSteadystate z)
    (h : s.run expf ops = .ok s') :
    s'.P = s.P ∧ s'.K = s.K ∧ s'.S = s.S ∧ s'.SI = s.SI ∧ s'.F = s.F ∧ s'.H = s.H ∧
    s'.Q = s.Q ∧ s'.R = s.R ∧ s'.B = s.B := by
  induction ops generalizing s with
  | nil => simp only [run, Except.ok.injEq] at h; subst h; simp
  | cons op ops ih =>
    simp only [run] at h
    cases h1 : s.step expf op with
    | error e => rw [h1] at h; cases h
    | ok t =>
      rw [h1] at h
      have ih := ih t (fun o ho => hops o (by simp [ho])) h
      rcases hops op (by simp) with ⟨u, B, rfl⟩ | ⟨z, rfl⟩
      · obtain ⟨x, rfl⟩ := predictSteadystate_ok h1; exact ih
      · simp only [step, Except.ok.injEq] at h1
        subst h1
        cases z <;> exact ih

/-- One cycle of the full filter: `predict(u)` then `update(z)`. -/
def fullCycles (hist : List (UArg l × Vec m)) : List (KFOp n m l) :=
  hist.flatMap fun e => [.predict e.1 none none .none, .update (some e.2) .none none]

/-- The same cycles with the steady-state methods. -/
def steadyCycles (hist : List (UArg l × Vec m)) : List (KFOp n m l) :=
  hist.flatMap fun e => [.predictSteadystate e.1 none, .updateSteadystate (some e.2)]

/-- The filter is at the fixed point of its own predict/update cycle: its gain is the gain for
the predicted covariance, and updating the predicted covariance gives `P` back. -/
structure AtFixedPoint (s : KF n m l) : Prop where
  invertible : s.inv = npInv ∧
    (s.H * (s.alphaSq • (s.F * s.P * s.Fᵀ) + s.Q) * s.Hᵀ + s.R).det ≠ 0
  gain : s.K = (s.alphaSq • (s.F * s.P * s.Fᵀ) + s.Q) * s.Hᵀ *
    (s.H * (s.alphaSq • (s.F * s.P * s.Fᵀ) + s.Q) * s.Hᵀ + s.R)⁻¹
  cov : s.P = (1 - s.K * s.H) * (s.alphaSq • (s.F * s.P * s.Fᵀ) + s.Q) * (1 - s.K * s.H)ᵀ
    + s.K * s.R * s.Kᵀ

/-- **C16.** At the fixed point the steady-state calls give, for every history of controls and
measurements, the same state as the full filter: one run succeeds iff the other does, and the
final `x`, `P`, `K`, `y` agree.  With a control matrix the controls must be given: `u=None` is refused
by `predict_steadystate` (`C16_none_control`). -/
theorem C16_same_as_full (expf : ℝ → ℝ) (s : KF n m l) (hs : AtFixedPoint s)
    (hist : List (UArg l × Vec m)) (hu : s.B = none ∨ ∀ e ∈ hist, e.1 ≠ .none) :
    match s.run expf (fullCycles hist), s.run expf (steadyCycles hist) with
    | .ok a, .ok b => a.x = b.x ∧ a.P = b.P ∧ a.K = b.K ∧ a.xPost = b.xPost ∧ a.PPost = b.PPost ∧
        (hist ≠ [] → a.y = b.y)
    | .error e, .error e' => e.1 = e'.1
    | _, _ => False := by
  suffices H : ∀ (hist : List (UArg l × Vec m)) (a b : KF n m l), AtFixedPoint a →
      a.x = b.x → a.P = b.P → a.K = b.K → a.xPost = b.xPost → a.PPost = b.PPost →
      a.F = b.F → a.H = b.H → a.B = b.B → (a.B = none ∨ ∀ e ∈ hist, e.1 ≠ .none) →
      match a.run expf (fullCycles hist), b.run expf (steadyCycles hist) with
      | .ok a, .ok b => a.x = b.x ∧ a.P = b.P ∧ a.K = b.K ∧ a.xPost = b.xPost ∧
          a.PPost = b.PPost ∧ (hist ≠ [] → a.y = b.y)
      | .error e, .error e' => e.1 = e'.1
      | _, _ => False from H hist s s hs rfl rfl rfl rfl rfl rfl rfl rfl hu
  intro hist
  induction hist with
  | nil =>
    intro a b _ h1 h2 h3 h4 h5 _ _ _ _
    simp only [fullCycles, steadyCycles, List.flatMap_nil, run]
    exact ⟨h1, h2, h3, h4, h5, fun h => absurd rfl h⟩
  | cons e hist ih =>
    intro a b ha h1 h2 h3 h4 h5 h6 h7 h8 hu
    have hsc : KF.steadyControl a.B e.1 = KF.control a.B e.1 := by
      rcases hu with h | h
      · rw [h]; cases e.1 <;> rfl
      · exact KF.steadyControl_of_ne _ (h e (by simp))
    have hu' : a.B = none ∨ ∀ e ∈ hist, e.1 ≠ .none := hu.imp id fun h e he => h e (by simp [he])
    have hf : fullCycles (n := n) (e :: hist) = .predict e.1 none none .none ::
        .update (some e.2) .none none :: fullCycles hist := rfl
    have hst : steadyCycles (n := n) (e :: hist) = .predictSteadystate e.1 none ::
        .updateSteadystate (some e.2) :: steadyCycles hist := rfl
    rw [hf, hst]
    simp only [run, step, KF.predict, KF.predictSteadystate, Option.none_or, ← h8, hsc]
    cases hc : KF.control a.B e.1 with
    | error er => simp only
    | ok bu =>
      simp only [KF.update, Option.getD_none, MatArg.resolve, ha.invertible.1]
      set P1 := a.alphaSq • (a.F * a.P * a.Fᵀ) + a.Q with hP1
      have hdet : (a.H * (P1 * a.Hᵀ) + a.R).det ≠ 0 := by
        rw [← Matrix.mul_assoc]; exact ha.invertible.2
      rw [npInv_of_det_ne hdet]
      have hg : P1 * a.Hᵀ * (a.H * (P1 * a.Hᵀ) + a.R)⁻¹ = a.K := by
        rw [ha.gain, Matrix.mul_assoc a.H P1]
      have hcov := ha.cov
      rw [← hP1] at hcov
      simp only [hg, ← hcov]
      cases hist with
      | nil =>
        cases bu <;> simp [fullCycles, steadyCycles, run, KF.updateSteadystate, ← h1, ← h2, ← h3, ← h6, ← h7]
      | cons e' hist =>
        have := ih { a with
            logLik := none, lik := none, mahal := none
            x := (match (generalizing := false) bu with | some b => a.F *ᵥ a.x + b | none => a.F *ᵥ a.x) +
              a.K *ᵥ (e.2 - a.H *ᵥ (match (generalizing := false) bu with | some b => a.F *ᵥ a.x + b | none => a.F *ᵥ a.x))
            xPrior := (match (generalizing := false) bu with | some b => a.F *ᵥ a.x + b | none => a.F *ᵥ a.x)
            PPrior := P1
            y := e.2 - a.H *ᵥ (match (generalizing := false) bu with | some b => a.F *ᵥ a.x + b | none => a.F *ᵥ a.x)
            S := a.H * (P1 * a.Hᵀ) + a.R, SI := (a.H * (P1 * a.Hᵀ) + a.R)⁻¹
            z := fun i => some (e.2 i)
            xPost := (match (generalizing := false) bu with | some b => a.F *ᵥ a.x + b | none => a.F *ᵥ a.x) +
              a.K *ᵥ (e.2 - a.H *ᵥ (match (generalizing := false) bu with | some b => a.F *ᵥ a.x + b | none => a.F *ᵥ a.x))
            PPost := a.P }
          (KF.updateSteadystate { b with
            x := (match (generalizing := false) bu with | some c => b.F *ᵥ b.x + c | none => b.F *ᵥ b.x)
            xPrior := (match (generalizing := false) bu with | some c => b.F *ᵥ b.x + c | none => b.F *ᵥ b.x)
            PPrior := b.P } (some e.2))
          ⟨ha.invertible, ha.gain, ha.cov⟩
          (by simp [KF.updateSteadystate, ← h1, ← h3, ← h6, ← h7]) h2 h3
          (by simp [KF.updateSteadystate, ← h1, ← h3, ← h6, ← h7]) h2 h6 h7 h8 hu'
        revert this
        simp only [ne_eq, reduceCtorEq, not_false_eq_true, forall_const]
        rw [ha.invertible.1]
        rw [h8]; exact id

/-- `predict_steadystate(u=None)` raises `TypeError` if there is a control matrix (where `predict` adds
no control), and leaves the filter as it was. -/
theorem C16_none_control (s : KF n m l) (B : Option (Mat n l)) (h : (B.or s.B).isSome) :
    s.predictSteadystate .none B = .error (.typeError, s) := by
  obtain ⟨B', hB⟩ := Option.isSome_iff_exists.1 h
  simp only [KF.predictSteadystate, hB, KF.steadyControl]

/-- A random-walk filter at its fixed point: `Q = 1/2`, `R = 1`, `P = 1/2`, `K = 1/2`. -/
noncomputable def steadyKF : KF 1 1 0 :=
  { KF.fresh 1 1 0 with H := 1, Q := !![1/2], P := !![1/2], K := !![1/2] }

theorem steadyKF_fixed : AtFixedPoint steadyKF := by
  have e : steadyKF.H * (steadyKF.alphaSq • (steadyKF.F * steadyKF.P * steadyKF.Fᵀ) + steadyKF.Q)
      * steadyKF.Hᵀ + steadyKF.R = !![2] := by
    ext i j; fin_cases i; fin_cases j
    norm_num [steadyKF, KF.fresh, Matrix.mul_apply]
  have e2 : (!![(2 : ℝ)] : Mat 1 1)⁻¹ = !![1/2] := by
    apply inv_eq_right_inv; ext i j; fin_cases i; fin_cases j; norm_num [Matrix.mul_apply]
  refine ⟨⟨rfl, by rw [e]; norm_num⟩, ?_, ?_⟩
  · rw [e, e2]; ext i j; fin_cases i; fin_cases j
    norm_num [steadyKF, KF.fresh, Matrix.mul_apply]
  · ext i j; fin_cases i; fin_cases j
    norm_num [steadyKF, KF.fresh, Matrix.mul_apply, Matrix.vecMul]

/-! ## C19: module-level functions -/

/-- **C19.** `kalman.predict(x, P, F, Q, u, B, alpha)` returns the `x`, `P` of the method
`predict(u, B, F, Q)` on a filter with that state and `alpha`. -/
theorem C19_predict (s s' : KF n m l) (u : Vec l) (B : Mat n l) (F Q : Mat n n) (alpha : ℝ)
    (ha : s.setAlpha alpha = .ok s') :
    ∃ s'', s'.predict (.vec u) (some B) (some F) (.mat Q) = .ok s'' ∧
      KFun.predict s.x s.P (.mat F) (.mat Q) (.matVec B u) alpha = .ok (s''.x, s''.P) := by
  obtain ⟨_, rfl⟩ := setAlpha_ok ha
  refine ⟨_, rfl, ?_⟩
  simp only [KFun.predict, KFun.addArg, KFun.FArg.congr, KFun.FArg.apply, KFun.BUArg.term,
    Option.getD_some, MatArg.resolve, pow_two]

/-- **C19.** With the default arguments `u=0, B=1` it is the method without control input, and
with `F=1, Q=0` it returns its arguments. -/
theorem C19_predict_defaults (s s' : KF n m l) (F Q : Mat n n) (hB : s.B = none)
    (ha : s.alphaSq = 1) (h : s.predict .none none (some F) (.mat Q) = .ok s') :
    KFun.predict (l := l) s.x s.P (.mat F) (.mat Q) = .ok (s'.x, s'.P) ∧
    KFun.predict (l := l) s.x s.P = .ok (s.x, s.P) := by
  constructor
  · simp only [KF.predict, hB, Option.none_or, KF.control, ha, one_smul, Option.getD_some,
      MatArg.resolve, Except.ok.injEq] at h
    subst h
    simp only [KFun.predict, KFun.addArg, KFun.FArg.congr, KFun.FArg.apply, KFun.BUArg.term]
    simp; rfl
  · simp only [KFun.predict, KFun.addArg, KFun.FArg.congr, KFun.FArg.apply, KFun.BUArg.term]
    simp only [one_smul, mul_zero, mul_one, add_zero]
    rw [show (fun _ => (0:ℝ)) = (0 : Vec n) from rfl, add_zero]

/-- **C19.** `kalman.update(x, P, z, R, H, return_all=True)` returns the `x`, `P`, `y`, `K`, `S`
of the method `update(z, R, H)`, for every input on which the method succeeds; for a missing
measurement both leave `x` and `P` alone. -/
theorem C19_update (s s' : KF n m l) (z : Option (Vec m)) (R : Mat m m) (H : Mat m n)
    (hinv : s.inv = npInv) (h : s.update z (.mat R) (some H) = .ok s') :
    KFun.update s.x s.P z (.mat R) (some H) = .ok (s'.x, s'.P) ∧
    ∀ z', z = some z' → ∃ ll, KFun.updateAll s.x s.P z' (.mat R) (some H)
      = .ok ⟨s'.x, s'.P, s'.y, s'.K, s'.S, ll⟩ := by
  cases z with
  | none =>
    simp only [KF.update, Except.ok.injEq] at h
    subst h
    exact ⟨rfl, fun _ h => by cases h⟩
  | some z =>
    obtain ⟨SI, h1, rfl⟩ := update_ok h
    rw [hinv] at h1
    simp only [Option.getD_some, MatArg.resolve] at h1
    have key : ∃ ll, KFun.updateAll s.x s.P z (.mat R) (some H)
        = .ok ⟨s.x + (s.P * Hᵀ * SI) *ᵥ (z - H *ᵥ s.x),
          (1 - s.P * Hᵀ * SI * H) * s.P * (1 - s.P * Hᵀ * SI * H)ᵀ
            + s.P * Hᵀ * SI * R * (s.P * Hᵀ * SI)ᵀ, z - H *ᵥ s.x, s.P * Hᵀ * SI,
          H * (s.P * Hᵀ) + R, ll⟩ := by
      simp only [KFun.updateAll, KFun.resolveH, KFun.addArg, KFun.gain, Bind.bind, Except.bind,
        Matrix.mul_assoc H s.P, h1, KFun.mulArg]
      exact ⟨_, rfl⟩
    obtain ⟨ll, hll⟩ := key
    refine ⟨?_, fun z' hz' => ?_⟩
    · simp only [KFun.update, hll, Bind.bind, Except.bind]; rfl
    · cases hz'; exact ⟨ll, hll⟩

/-- **C19.** `predict_steadystate` and `update_steadystate` agree with the methods. -/
theorem C19_steadystate (s : KF n m l) (u : Vec l) (B : Mat n l) (z : Option (Vec m)) :
    (∃ s', s.predictSteadystate (.vec u) (some B) = .ok s' ∧
      KFun.predictSteadystate s.x (.mat s.F) (.matVec B u) = s'.x) ∧
    KFun.updateSteadystate s.x z s.K (some s.H) = .ok (s.updateSteadystate z).x := by
  refine ⟨⟨_, rfl, rfl⟩, ?_⟩
  cases z <;> rfl

/-- **C19.** `kalman.batch_filter` returns what the method returns: for matrices given at every
step, whenever the method succeeds (default `alpha`), the outputs are equal. -/
theorem C19_batch (s : KF n m l) (zs : List (Option (Vec m))) (Fs Qs : List (Mat n n))
    (Hs : List (Mat m n)) (Rs : List (Mat m m)) (Bs : List (Mat n l)) (us : List (Vec l))
    (uf : Bool) (hinv : s.inv = npInv) (ha : s.alphaSq = 1) (outs : List (BatchOut n))
    (s' : KF n m l)
    (h : s.batchFilter zs ⟨some Fs, some (Qs.map .mat), some Hs, some (Rs.map .mat),
      some (Bs.map some), some (us.map .vec)⟩ uf = .ok (outs, s')) :
    KFun.batchFilter s.x s.P zs Fs Qs Hs Rs (some Bs) (some us) uf = .ok outs := by
  have hrows : ∀ (zs : List (Option (Vec m))) (Fs Qs : List (Mat n n)) (Hs : List (Mat m n))
      (Rs : List (Mat m m)) (Bs : List (Mat n l)) (us : List (Vec l)),
      zip7 BatchRow.mk zs Fs (Qs.map .mat) Hs (Rs.map .mat) (Bs.map some) (us.map .vec)
      = (zip7 (fun z F Q H R B u => (z, F, Q, H, R, B, u)) zs Fs Qs Hs Rs Bs us).map
        fun r => ⟨r.1, r.2.1, .mat r.2.2.1, r.2.2.2.1, .mat r.2.2.2.2.1, some r.2.2.2.2.2.1,
          .vec r.2.2.2.2.2.2⟩ := by
    intro zs
    induction zs with
    | nil => intros; simp [zip7]
    | cons a as ih =>
      intro bs cs ds es gs hs
      rcases bs with _ | ⟨b, bs⟩ <;> rcases cs with _ | ⟨c, cs⟩ <;> rcases ds with _ | ⟨d, ds⟩ <;>
      rcases es with _ | ⟨e, es⟩ <;> rcases gs with _ | ⟨g, gs⟩ <;> rcases hs with _ | ⟨h, hs⟩ <;>
      simp [zip7, ih]
  have hrows' : ∀ (zs : List (Option (Vec m))) (Fs Qs : List (Mat n n)) (Hs : List (Mat m n))
      (Rs : List (Mat m m)) (Bs : List (Mat n l)) (us : List (Vec l)),
      zip7 (fun z F Q H R B u => (⟨z, F, Q, H, R, .matVec B u⟩ : KFun.Row n m l))
        zs Fs Qs Hs Rs Bs us
      = (zip7 (fun z F Q H R B u => (z, F, Q, H, R, B, u)) zs Fs Qs Hs Rs Bs us).map
        fun r => ⟨r.1, r.2.1, r.2.2.1, r.2.2.2.1, r.2.2.2.2.1,
          .matVec r.2.2.2.2.2.1 r.2.2.2.2.2.2⟩ := by
    intro zs
    induction zs with
    | nil => intros; simp [zip7]
    | cons a as ih =>
      intro bs cs ds es gs hs
      rcases bs with _ | ⟨b, bs⟩ <;> rcases cs with _ | ⟨c, cs⟩ <;> rcases ds with _ | ⟨d, ds⟩ <;>
      rcases es with _ | ⟨e, es⟩ <;> rcases gs with _ | ⟨g, gs⟩ <;> rcases hs with _ | ⟨h, hs⟩ <;>
      simp [zip7, ih]
  simp only [batchFilter, batchRows, Option.getD_some, hrows] at h
  simp only [KFun.batchFilter, hrows']
  generalize zip7 (fun z F Q H R B u => (z, F, Q, H, R, B, u)) zs Fs Qs Hs Rs Bs us = rows at h ⊢
  have hpred : ∀ (t t' : KF n m l) (F Q : Mat n n) (B : Mat n l) (u : Vec l), t.alphaSq = 1 →
      t.predict (.vec u) (some B) (some F) (.mat Q) = .ok t' →
      KFun.predict t.x t.P (.mat F) (.mat Q) (.matVec B u) = .ok (t'.x, t'.P) ∧
      t'.inv = t.inv ∧ t'.alphaSq = t.alphaSq := by
    intro t t' F Q B u hal ht
    have hsa : t.setAlpha 1 = .ok { t with alphaSq := 1 ^ 2 } := by
      simp [KF.setAlpha]
    obtain ⟨t2, h1, h2⟩ := C19_predict t _ u B F Q 1 hsa
    have : ({ t with alphaSq := (1:ℝ) ^ 2 } : KF n m l) = t := by rw [one_pow, ← hal]
    rw [this, ht, Except.ok.injEq] at h1
    subst h1
    obtain ⟨x, hx⟩ := predict_ok ht
    exact ⟨h2, by rw [hx], by rw [hx]⟩
  have hupd : ∀ (t t' : KF n m l) (z : Option (Vec m)) (R : Mat m m) (H : Mat m n),
      t.inv = npInv → t.update z (.mat R) (some H) = .ok t' →
      KFun.update t.x t.P z (.mat R) (some H) = .ok (t'.x, t'.P) ∧
      t'.inv = t.inv ∧ t'.alphaSq = t.alphaSq := by
    intro t t' z R H hi ht
    refine ⟨(C19_update t t' z R H hi ht).1, ?_⟩
    cases z with
    | none => simp only [KF.update, Except.ok.injEq] at ht; rw [← ht]; exact ⟨rfl, rfl⟩
    | some z => obtain ⟨SI, _, rfl⟩ := update_ok ht; exact ⟨rfl, rfl⟩
  induction rows generalizing s outs s' with
  | nil =>
    simp only [List.map_nil, batchLoop, Except.ok.injEq, Prod.mk.injEq] at h
    simp [KFun.batchLoop, h.1]
  | cons r rows ih =>
    rw [List.map_cons, batchLoop_cons Real.exp] at h
    rw [List.map_cons]
    cases uf with
    | false =>
      simp only [BatchRow.first, BatchRow.second, step, Bool.false_eq_true, if_false] at h
      split at h
      · cases h
      · rename_i s1 h1
        split at h
        · cases h
        · rename_i s2 h2
          obtain ⟨a1, a2, a3⟩ := hpred _ _ _ _ _ _ ha h1
          obtain ⟨b1, b2, b3⟩ := hupd _ _ _ _ _ (a2.trans hinv) h2
          split at h
          · cases h
          · rename_i out s3 h3
            have := ih s2 (b2.trans (a2.trans hinv)) (b3.trans (a3.trans ha)) _ _ h3
            simp only [Except.ok.injEq, Prod.mk.injEq] at h
            simp only [KFun.batchLoop, Bool.false_eq_true, if_false, Bind.bind, Except.bind,
              a1, b1, this, h.1]
    | true =>
      simp only [BatchRow.first, BatchRow.second, step, if_true] at h
      split at h
      · cases h
      · rename_i s1 h1
        split at h
        · cases h
        · rename_i s2 h2
          obtain ⟨b1, b2, b3⟩ := hupd _ _ _ _ _ hinv h1
          obtain ⟨a1, a2, a3⟩ := hpred _ _ _ _ _ _ (b3.trans ha) h2
          split at h
          · cases h
          · rename_i out s3 h3
            have := ih s2 (a2.trans (b2.trans hinv)) (a3.trans (b3.trans ha)) _ _ h3
            simp only [Except.ok.injEq, Prod.mk.injEq] at h
            simp only [KFun.batchLoop, if_true, Bind.bind, Except.bind,
              a1, b1, this, h.1]

/-- **C19.** Without control inputs (`us=None`, and no control matrix set on the object) the two
`batch_filter`s agree as well; the function then ignores `Bs`. -/
theorem C19_batch_plain (s : KF n m l) (zs : List (Option (Vec m))) (Fs Qs : List (Mat n n))
    (Hs : List (Mat m n)) (Rs : List (Mat m m)) (Bs : Option (List (Mat n l)))
    (uf : Bool) (hinv : s.inv = npInv) (ha : s.alphaSq = 1) (hB : s.B = none) (outs : List (BatchOut n))
    (s' : KF n m l)
    (h : s.batchFilter zs ⟨some Fs, some (Qs.map .mat), some Hs, some (Rs.map .mat), none, none⟩ uf
      = .ok (outs, s')) :
    KFun.batchFilter s.x s.P zs Fs Qs Hs Rs Bs none uf = .ok outs := by
  have hrows : ∀ (zs : List (Option (Vec m))) (Fs Qs : List (Mat n n)) (Hs : List (Mat m n))
      (Rs : List (Mat m m)),
      zip7 BatchRow.mk zs Fs (Qs.map .mat) Hs (Rs.map .mat) (List.replicate zs.length s.B)
          (List.replicate zs.length (.scalar 0 : UArg l))
      = (zip7 (fun z F Q H R _ _ => (z, F, Q, H, R)) zs Fs Qs Hs Rs (List.replicate zs.length (0 : ℝ))
          (List.replicate zs.length (0 : ℝ))).map
        fun r => ⟨r.1, r.2.1, .mat r.2.2.1, r.2.2.2.1, .mat r.2.2.2.2, none, .scalar 0⟩ := by
    intro zs
    induction zs with
    | nil => intros; simp [zip7]
    | cons a as ih =>
      intro bs cs ds es
      rcases bs with _ | ⟨b, bs⟩ <;> rcases cs with _ | ⟨c, cs⟩ <;> rcases ds with _ | ⟨d, ds⟩ <;>
      rcases es with _ | ⟨e, es⟩ <;> simp [zip7, List.replicate_succ, hB]
      rw [← ih, hB]
  have hrows' : ∀ (zs : List (Option (Vec m))) (Fs Qs : List (Mat n n)) (Hs : List (Mat m n))
      (Rs : List (Mat m m)),
      zip7 (fun z F Q H R B u => (⟨z, F, Q, H, R, .scalars B u⟩ : KFun.Row n m l))
        zs Fs Qs Hs Rs (List.replicate zs.length 0) (List.replicate zs.length 0)
      = (zip7 (fun z F Q H R _ _ => (z, F, Q, H, R)) zs Fs Qs Hs Rs (List.replicate zs.length (0 : ℝ))
          (List.replicate zs.length (0 : ℝ))).map
        fun r => ⟨r.1, r.2.1, r.2.2.1, r.2.2.2.1, r.2.2.2.2, .scalars 0 0⟩ := by
    intro zs
    induction zs with
    | nil => intros; simp [zip7]
    | cons a as ih =>
      intro bs cs ds es
      rcases bs with _ | ⟨b, bs⟩ <;> rcases cs with _ | ⟨c, cs⟩ <;> rcases ds with _ | ⟨d, ds⟩ <;>
      rcases es with _ | ⟨e, es⟩ <;> simp [zip7, List.replicate_succ, ih]
  simp only [batchFilter, batchRows, Option.getD_some, Option.getD_none, hrows] at h
  simp only [KFun.batchFilter, hrows']
  generalize zip7 (fun z F Q H R _ _ => (z, F, Q, H, R)) zs Fs Qs Hs Rs (List.replicate zs.length (0 : ℝ))
    (List.replicate zs.length (0 : ℝ)) = rows at h ⊢
  have hpred : ∀ (t t' : KF n m l) (F Q : Mat n n), t.alphaSq = 1 → t.B = none →
      t.predict (.scalar 0) none (some F) (.mat Q) = .ok t' →
      KFun.predict t.x t.P (.mat F) (.mat Q) (.scalars 0 0 : KFun.BUArg n l) = .ok (t'.x, t'.P) ∧
      t'.inv = t.inv ∧ t'.alphaSq = t.alphaSq ∧ t'.B = t.B := by
    intro t t' F Q hal hb ht
    simp only [KF.predict, hb, Option.none_or, KF.control, Except.ok.injEq] at ht
    subst ht
    refine ⟨?_, rfl, rfl, hb.symm⟩
    simp only [KFun.predict, KFun.addArg, KFun.FArg.congr, KFun.FArg.apply, KFun.BUArg.term, MatArg.resolve,
      Option.getD_some, hal, mul_one, one_smul]
    congr 2
    ext i; simp
  have hupd : ∀ (t t' : KF n m l) (z : Option (Vec m)) (R : Mat m m) (H : Mat m n),
      t.inv = npInv → t.update z (.mat R) (some H) = .ok t' →
      KFun.update t.x t.P z (.mat R) (some H) = .ok (t'.x, t'.P) ∧
      t'.inv = t.inv ∧ t'.alphaSq = t.alphaSq ∧ t'.B = t.B := by
    intro t t' z R H hi ht
    refine ⟨(C19_update t t' z R H hi ht).1, ?_⟩
    cases z with
    | none => simp only [KF.update, Except.ok.injEq] at ht; rw [← ht]; exact ⟨rfl, rfl, rfl⟩
    | some z => obtain ⟨SI, _, rfl⟩ := update_ok ht; exact ⟨rfl, rfl, rfl⟩
  clear hrows hrows'
  induction rows generalizing s outs s' with
  | nil =>
    simp only [List.map_nil, batchLoop, Except.ok.injEq, Prod.mk.injEq] at h
    simp [KFun.batchLoop, h.1]
  | cons r rows ih =>
    rw [List.map_cons, batchLoop_cons Real.exp] at h
    rw [List.map_cons]
    cases uf with
    | false =>
      simp only [BatchRow.first, BatchRow.second, step, Bool.false_eq_true, if_false] at h
      split at h
      · cases h
      · rename_i s1 h1
        split at h
        · cases h
        · rename_i s2 h2
          obtain ⟨a1, a2, a3, a4⟩ := hpred _ _ _ _ ha hB h1
          obtain ⟨b1, b2, b3, b4⟩ := hupd _ _ _ _ _ (a2.trans hinv) h2
          split at h
          · cases h
          · rename_i out s3 h3
            have := ih s2 (b2.trans (a2.trans hinv)) (b3.trans (a3.trans ha)) (b4.trans (a4.trans hB)) _ _ h3
            simp only [Except.ok.injEq, Prod.mk.injEq] at h
            simp only [KFun.batchLoop, Bool.false_eq_true, if_false, Bind.bind, Except.bind,
              a1, b1, this, h.1]
    | true =>
      simp only [BatchRow.first, BatchRow.second, step, if_true] at h
      split at h
      · cases h
      · rename_i s1 h1
        split at h
        · cases h
        · rename_i s2 h2
          obtain ⟨b1, b2, b3, b4⟩ := hupd _ _ _ _ _ hinv h1
          obtain ⟨a1, a2, a3, a4⟩ := hpred _ _ _ _ (b3.trans ha) (b4.trans hB) h2
          split at h
          · cases h
          · rename_i out s3 h3
            have := ih s2 (a2.trans (b2.trans hinv)) (a3.trans (b3.trans ha)) (a4.trans (b4.trans hB)) _ _ h3
            simp only [Except.ok.injEq, Prod.mk.injEq] at h
            simp only [KFun.batchLoop, if_true, Bind.bind, Except.bind,
              a1, b1, this, h.1]

/-- Non-vacuity of `C19_batch_plain`: one measurement and one gap. -/
example : ∃ outs, KFun.batchFilter (l := 0) (vc 0) (sc 1) [some (vc 4), none] [sc 1, sc 1] [sc 1, sc 1]
    [sc 1, sc 1] [sc 2, sc 2] none none = .ok outs ∧ outs.length = 2 := by
  have e : npInv (sc ((1 : ℝ) * (1 * 1 * 1) + 1 + 2)) = some (sc 4⁻¹) := by
    have := sc_npInv 4 (by norm_num)
    norm_num at this ⊢; exact this
  obtain ⟨outs, s', h, hl⟩ : ∃ outs s', ({ KF.fresh 1 1 0 with x := vc 0, P := sc 1 } : KF 1 1 0).batchFilter
      [some (vc 4), none] ⟨some [sc 1, sc 1], some ([sc 1, sc 1].map .mat), some [sc 1, sc 1],
        some ([sc 2, sc 2].map .mat), none, none⟩ = .ok (outs, s') ∧ outs.length = 2 := by
    refine ⟨_, _, by
      simp only [batchFilter, batchRows, Option.getD_some, Option.getD_none, List.map, zip7, List.length,
        List.replicate, KF.batchLoop, Bool.false_eq_true, if_false, bind, Except.bind, KF.predict, KF.fresh,
        Option.none_or, KF.control, MatArg.resolve, KF.update, sc_transpose, sc_mul, sc_smul, sc_add, mul_one,
        one_mul] at e ⊢
      rw [e], rfl⟩
  exact ⟨outs, C19_batch_plain _ _ _ _ _ _ none _ rfl rfl rfl outs s' h, hl⟩

/-- **C19.** `kalman.batch_filter` with control inputs but no control matrices raises
`TypeError`. -/
theorem C19_batch_us_without_Bs (x : Vec n) (P : Mat n n) (zs : List (Option (Vec m)))
    (Fs Qs : List (Mat n n)) (Hs : List (Mat m n)) (Rs : List (Mat m m)) (us : List (Vec l)) (uf : Bool) :
    KFun.batchFilter x P zs Fs Qs Hs Rs none (some us) uf = .error .typeError := rfl

/-- **C19.** The default `H=None` of `kalman.update` and `kalman.update_steadystate` means `H = 1`
for a scalar state and measurement, and raises `ValueError` for every other size; missing
measurements never look at it. -/
theorem C19_default_H (x : Vec n) (P : Mat n n) (z : Vec m) (R : MatArg m) (K : Mat n m) :
    (m = 1 ∧ n = 1 → KFun.update x P (some z) R none = KFun.update x P (some z) R (some fun _ _ => 1) ∧
      KFun.updateSteadystate x (some z) K none = KFun.updateSteadystate x (some z) K (some fun _ _ => 1)) ∧
    (¬ (m = 1 ∧ n = 1) → KFun.update x P (some z) R none = .error .valueError ∧
      KFun.updateSteadystate x (some z) K none = .error .valueError) ∧
    KFun.update x P none R (none : Option (Mat m n)) = .ok (x, P) := by
  refine ⟨fun h => ?_, fun h => ?_, rfl⟩
  · simp only [KFun.update, KFun.updateSteadystate, KFun.updateAll, KFun.resolveH, if_pos h, and_self]
  · simp only [KFun.update, KFun.updateSteadystate, KFun.updateAll, KFun.resolveH, if_neg h]
    exact ⟨rfl, rfl⟩

/-- **C19 refuted.** The log-likelihood returned by `kalman.update(..., return_all=True)` is not
the method's: it is evaluated at the already updated state. -/
theorem C19_loglik_refuted : ∃ (s s' : KF 1 1 0) (z : Vec 1) (o : KFun.UpdateOut 1 1),
    s.update (some z) (.mat s.R) (some s.H) = .ok s' ∧
    KFun.updateAll s.x s.P z (.mat s.R) (some s.H) = .ok o ∧ o.logLik ≠ s'.readLogLik.1 := by
  have h2 : npInv ((1 : Mat 1 1) * (1 * (1 : Mat 1 1)ᵀ) + 1) = some !![1/2] := by
    have e : (1 : Mat 1 1) * (1 * (1 : Mat 1 1)ᵀ) + 1 = !![2] := by
      ext i j; fin_cases i; fin_cases j; norm_num
    rw [e, npInv_of_det_ne (by norm_num)]
    congr 1
    apply inv_eq_right_inv; ext i j; fin_cases i; fin_cases j; norm_num [Matrix.mul_apply]
  obtain ⟨s', h⟩ : ∃ s', ({ KF.fresh 1 1 0 with H := 1 } : KF 1 1 0).update (some ![2]) (.mat 1)
      (some 1) = .ok s' := by
    simp only [KF.update, KF.fresh, Option.getD_some, MatArg.resolve, h2]
    exact ⟨_, rfl⟩
  obtain ⟨ll, hll⟩ := (C19_update _ _ _ _ _ rfl h).2 _ rfl
  refine ⟨_, s', ![2], _, h, hll, ?_⟩
  have h1 := h
  simp only [KF.update, KF.fresh, Option.getD_some, MatArg.resolve, h2, Except.ok.injEq] at h1
  have hll' := hll
  simp only [KFun.updateAll, KFun.resolveH, KFun.addArg, KFun.gain, Bind.bind, Except.bind,
        KF.fresh, Matrix.mul_assoc (1 : Mat 1 1) (1 : Mat 1 1), h2, Except.ok.injEq,
        KFun.UpdateOut.mk.injEq] at hll'
  have e := hll'.2.2.2.2.2
  rw [← e, ← h1]
  have e : (1 : Mat 1 1) * (1 * (1 : Mat 1 1)ᵀ) + 1 = !![2] := by
      ext i j; fin_cases i; fin_cases j; norm_num
  have e2 : (!![(2 : ℝ)] : Mat 1 1)⁻¹ = !![1/2] := by
    apply inv_eq_right_inv; ext i j; fin_cases i; fin_cases j; norm_num [Matrix.mul_apply]
  simp only [readLogLik, logpdfMean, logpdf, e, e2]
  norm_num [Matrix.mulVec, dotProduct]

/-- **C19 refuted for singular `S`.** Where the method raises `LinAlgError`, the function
silently uses the entrywise reciprocal of `S` and returns a state. -/
theorem C19_singular_refuted : ∃ (s : KF 1 2 0) (z : Vec 2) (H : Mat 2 1) (e : Err × KF 1 2 0)
    (o : KFun.UpdateOut 1 2), s.update (some z) (.mat 0) (some H) = .error e ∧
    e.1 = .linAlgError ∧ KFun.updateAll s.x s.P z (.mat 0) (some H) = .ok o ∧ o.x = ![4] := by
  have e : (!![1; 1] : Mat 2 1) * ((1 : Mat 1 1) * (!![1; 1] : Mat 2 1)ᵀ) + (0 : Mat 2 2)
      = !![1, 1; 1, 1] := by
    ext i j; fin_cases i <;> fin_cases j <;> norm_num [Matrix.mul_apply, Matrix.vecMul, dotProduct]
  have hn : npInv (!![1, 1; 1, 1] : Mat 2 2) = none := by
    rw [npInv_eq_none]; norm_num [det_fin_two]
  have hz : ¬ ∃ i j, (!![1, 1; 1, 1] : Mat 2 2) i j = 0 := by
    rintro ⟨i, j, h⟩; fin_cases i <;> fin_cases j <;> norm_num at h
  have h1 : ∃ er, (KF.fresh 1 2 0).update (some ![1, 1]) (.mat 0) (some !![1; 1]) = .error er ∧
      er.1 = .linAlgError := by
    simp only [KF.update, KF.fresh, Option.getD_some, MatArg.resolve, e, hn]
    exact ⟨_, rfl, rfl⟩
  have h2 : ∃ o, KFun.updateAll (KF.fresh 1 2 0).x (KF.fresh 1 2 0).P ![1, 1] (.mat 0)
      (some !![1; 1]) = .ok o ∧ o.x = ![4] := by
    simp only [KFun.updateAll, KFun.resolveH, KFun.addArg, KFun.gain, Bind.bind, Except.bind,
      KF.fresh, Matrix.mul_assoc _ (1 : Mat 1 1), e, hn, if_neg hz]
    refine ⟨_, rfl, ?_⟩
    funext i; fin_cases i
    norm_num [Matrix.mulVec, dotProduct, Matrix.mul_apply, Fin.sum_univ_two]
  obtain ⟨er, a1, a2⟩ := h1
  obtain ⟨o, b1, b2⟩ := h2
  exact ⟨_, _, _, er, o, a1, a2, b1, b2⟩

/-- **C19 refuted for a scalar `R`.** With a scalar `R` and two measurements the function adds
`R` to every entry of `S`, while the method uses `R` times the identity. -/
theorem C19_scalar_R_refuted : ∃ (s s' : KF 2 2 0) (z : Vec 2) (o : KFun.UpdateOut 2 2),
    s.update (some z) (.scalar 1) none = .ok s' ∧
    KFun.updateAll s.x s.P z (.scalar 1) (some s.H) = .ok o ∧ o.S ≠ s'.S := by
  have e : (1 : Mat 2 2) * ((1 : Mat 2 2) * (1 : Mat 2 2)ᵀ) + (1 : ℝ) • (1 : Mat 2 2)
      = !![2, 0; 0, 2] := by
    ext i j; fin_cases i <;> fin_cases j <;> norm_num
  have e' : (fun i j => ((1 : Mat 2 2) * ((1 : Mat 2 2) * (1 : Mat 2 2)ᵀ)) i j + 1)
      = !![2, 1; 1, 2] := by
    ext i j; fin_cases i <;> fin_cases j <;> norm_num
  have h1 : ∃ s', ({ KF.fresh 2 2 0 with H := 1 } : KF 2 2 0).update (some 0) (.scalar 1) none
      = .ok s' ∧ s'.S = !![2, 0; 0, 2] := by
    simp only [KF.update, KF.fresh, Option.getD_none, MatArg.resolve, e]
    rw [npInv_of_det_ne (by norm_num [det_fin_two])]
    exact ⟨_, rfl, rfl⟩
  have h2 : ∃ o, KFun.updateAll (KF.fresh 2 2 0).x (KF.fresh 2 2 0).P 0 (.scalar 1)
      (some (1 : Mat 2 2)) = .ok o ∧ o.S = !![2, 1; 1, 2] := by
    simp only [KFun.updateAll, KFun.resolveH, KFun.addArg, KFun.gain, Bind.bind, Except.bind,
      KF.fresh, Matrix.mul_assoc _ (1 : Mat 2 2), e']
    rw [npInv_of_det_ne (by norm_num [det_fin_two])]
    exact ⟨_, rfl, rfl⟩
  obtain ⟨s', a1, a2⟩ := h1
  obtain ⟨o, b1, b2⟩ := h2
  refine ⟨_, s', 0, o, a1, b1, ?_⟩
  rw [a2, b2]
  intro h
  have := congrFun (congrFun h 0) 1
  norm_num at this

/-- **C19 refuted for floats.** The docstring's univariate call `update(1, 2, 1, 1, 1)` raises
`AttributeError`. -/
theorem C19_float_refuted (x P z : ℝ) :
    KFun.updateFloat x P (some z) = .error .attributeError := rfl

/-- **C19 for a scalar `Q` is false.** `kalman.predict(x, P, F, Q)` with a number `Q = q ≠ 0` adds `q` to every entry
of the covariance, where the method adds `q` times the identity: with two or more states the two never agree. -/
theorem C19_scalar_Q_refuted (hn : 2 ≤ n) (s s' : KF n m l) (F : Mat n n) {q : ℝ} (hq : q ≠ 0) (ha : s.alphaSq = 1)
    (h : s.predict .none none (some F) (.scalar q) = .ok s') :
    ∃ x P, KFun.predict (l := l) s.x s.P (.mat F) (.scalar q) = .ok (x, P) ∧ P ≠ s'.P := by
  have hP : s'.P = F * s.P * Fᵀ + q • (1 : Mat n n) := by
    unfold KF.predict at h
    simp only [Option.getD_some, MatArg.resolve, ha, one_smul] at h
    split at h
    · cases h
    · cases h; rfl
  refine ⟨_, _, rfl, fun hc => hq ?_⟩
  rw [hP] at hc
  have h01 := congrFun (congrFun hc ⟨0, by omega⟩) ⟨1, by omega⟩
  simp [KFun.FArg.congr, Matrix.add_apply] at h01
  exact h01

/-- **C19.** A number for `F` means that multiple of the identity. -/
theorem C19_scalar_F (x : Vec n) (P : Mat n n) (c : ℝ) (Q : MatArg n) (bu : KFun.BUArg n l) (alpha : ℝ) :
    KFun.predict x P (.scalar c) Q bu alpha = KFun.predict x P (.mat (c • 1)) Q bu alpha ∧
    KFun.predictSteadystate x (.scalar c) bu = KFun.predictSteadystate x (.mat (c • 1)) bu := by
  have h1 : KFun.FArg.congr (.scalar c) P = KFun.FArg.congr (.mat (c • 1)) P := by
    simp [KFun.FArg.congr]
  have h2 : KFun.FArg.apply (.scalar c) x = KFun.FArg.apply (.mat (c • 1)) x := by
    simp [KFun.FArg.apply, smul_mulVec]
  simp only [KFun.predict, KFun.predictSteadystate, h1, h2, and_self]

end Filterpy
