import Verif.Lemmas.Sim
import Verif.Lemmas.Kalman
import Verif.Model.FadingKF
import Verif.Props.KalmanBasic

/-!
# FadingKalmanFilter: C18
-/

namespace Filterpy

open Matrix

variable {n m l : ℕ}

/-- The calls both classes offer; `predict none` is `predict()`. -/
inductive FadingOp (m l : ℕ)
  | predict (u : Option (Vec l))
  | update (z : Option (Vec m)) (R : MatArg m)

/-- The call on a `FadingKalmanFilter`. -/
noncomputable def FadingOp.onFKF (s : FKF n m l) : FadingOp m l → Exec (FKF n m l)
  | .predict none => s.predict
  | .predict (some u) => s.predict (.vec u)
  | .update z R => s.update z R

/-- The same call on a `KalmanFilter`. -/
noncomputable def FadingOp.onKF (s : KF n m l) : FadingOp m l → Exec (KF n m l)
  | .predict none => s.predict
  | .predict (some u) => s.predict (.vec u)
  | .update z R => s.update z R

/-- A `FadingKalmanFilter` and a `KalmanFilter` with the same model, estimate and records. -/
structure FadingSame (a : FKF n m l) (b : KF n m l) : Prop where
  x : a.x = b.x
  P : a.P = b.P
  F : a.F = b.F
  Q : a.Q = b.Q
  H : a.H = b.H
  R : a.R = b.R
  B : a.B = b.B
  alphaSq : a.alphaSq = b.alphaSq
  z : a.z = b.z
  K : a.K = b.K
  S : a.S = b.S
  SI : a.SI = b.SI
  xPrior : a.xPrior = b.xPrior
  PPrior : a.PPrior = b.PPrior
  xPost : a.xPost = b.xPost
  PPost : a.PPost = b.PPost
  inv : b.inv = npInv

/-- The control shapes numpy keeps a state vector for: `predict(u)` with a matrix `B` (or with
`u` broadcastable), `predict()` with no `B` or one control input. -/
def FadingOp.Shaped (n : ℕ) {m l : ℕ} (B : Option (Mat n l)) : FadingOp m l → Prop
  | .predict none => B = none ∨ l = 1
  | .predict (some _) => B ≠ none ∨ l = n ∨ l = 1
  | .update .. => True

theorem fading_step (a : FKF n m l) (b : KF n m l) (op : FadingOp m l) (h : FadingSame a b)
    (hs : op.Shaped n b.B) : Agree FadingSame (op.onFKF a) (op.onKF b) := by
  obtain ⟨aalpha, ax, aP, aQ, aB, aF, aH, aR, az, aK, ay, aS, aSI, all, al, am, axp, aPp, axq, aPq⟩ := a
  obtain ⟨bx, bP, bQ, bB, bF, bH, bR, balpha, bM, bz, bK, by', bS, bSI, bxp, bPp, bxq, bPq, bll,
    bl, bm, binv⟩ := b
  obtain ⟨h1, h2, h3, h4, h5, h6, h7, h8, h9, h10, h11, h12, h13, h14, h15, h16, h17⟩ := h
  simp only at h1 h2 h3 h4 h5 h6 h7 h8 h9 h10 h11 h12 h13 h14 h15 h16 h17
  subst h1 h2 h3 h4 h5 h6 h7 h8 h9 h10 h11 h12 h13 h14 h15 h16 h17
  cases op with
  | update z R =>
    cases z with
    | none =>
      simp only [FadingOp.onFKF, FadingOp.onKF, FKF.update, KF.update, KF.updateNone, Agree]
      constructor <;> rfl
    | some z =>
      simp only [FadingOp.onFKF, FadingOp.onKF, FKF.update, KF.update, Option.getD_none]
      cases npInv (aH * (aP * aHᵀ) + R.resolve aR) with
      | none => simp only [Agree]; exact ⟨trivial, by constructor <;> rfl⟩
      | some SI => simp only [Agree]; constructor <;> rfl
  | predict u =>
    cases u with
    | none =>
      simp only [FadingOp.Shaped] at hs
      cases aB with
      | none =>
        simp only [FadingOp.onFKF, FadingOp.onKF, FKF.predict, KF.predict, FKF.control, KF.control,
          Option.or_none, Option.none_or]
        simp only [add_zero, Option.getD_none, MatArg.resolve, Agree]
        constructor <;> rfl
      | some B =>
        have hl : l = 1 := by simpa using hs
        simp only [FadingOp.onFKF, FadingOp.onKF, FKF.predict, KF.predict, FKF.control, KF.control,
          Option.or_none, Option.none_or, dif_pos hl, zero_mul]
        rw [show (fun _ : Fin n => (0 : ℝ)) = 0 from rfl]
        simp only [add_zero, Option.getD_none, MatArg.resolve, Agree]
        constructor <;> rfl
    | some u =>
      cases aB with
      | none =>
        have hl : l = n ∨ l = 1 := by simpa [FadingOp.Shaped] using hs
        simp only [FadingOp.onFKF, FadingOp.onKF, FKF.predict, KF.predict, FKF.control, KF.control,
          Option.or_none, Option.none_or, if_pos hl]
        simp only [add_zero, Option.getD_none, MatArg.resolve, Agree]
        constructor <;> rfl
      | some B =>
        simp only [FadingOp.onFKF, FadingOp.onKF, FKF.predict, KF.predict, FKF.control, KF.control,
          Option.or_none, Option.none_or]
        simp only [Option.getD_none, MatArg.resolve, Agree]
        constructor <;> rfl

theorem fading_keeps_B {b b' : KF n m l} {op : FadingOp m l} (h : (op.onKF b).left = b') :
    b'.B = b.B := by
  subst h
  cases op with
  | update z R =>
    simp only [FadingOp.onKF]
    rcases hu : b.update z R with e | b'
    · cases z with
      | none => simp [KF.update] at hu
      | some z =>
        simp only [KF.update] at hu
        split at hu <;> cases hu
        rfl
    · cases z with
      | none => simp only [KF.update, Except.ok.injEq] at hu; subst hu; rfl
      | some z =>
        simp only [KF.update] at hu
        split at hu <;> cases hu
        rfl
  | predict u =>
    have key : ∀ v : UArg l, (b.predict v).left.B = b.B := by
      intro v
      unfold KF.predict
      simp only
      split <;> rfl
    cases u with
    | none => exact key _
    | some u => exact key _

/-- **C18.** A `FadingKalmanFilter` and a `KalmanFilter` with the same attributes and the same
`alpha` give, for every sequence of `predict` / `update` calls (including missing measurements,
per-call `R`, and calls that raise `LinAlgError`), the same outcome with the same `x`, `P`,
`K`, `S`, priors and posteriors.  (`y` and the likelihood caches are not in the list:
`KalmanFilter.update(None)` resets them, `FadingKalmanFilter.update(None)` does not.) -/
theorem C18_fading_equiv (a : FKF n m l) (b : KF n m l) (h : FadingSame a b)
    (ops : List (FadingOp m l)) (hs : ∀ op ∈ ops, op.Shaped n b.B) :
    Agree FadingSame (runList FadingOp.onFKF a ops) (runList FadingOp.onKF b ops) := by
  have := runList_agree (R := fun (s : FKF n m l) (t : KF n m l) => FadingSame s t ∧ t.B = b.B)
    (f := FadingOp.onFKF) (g := FadingOp.onKF) ops ?_ a b ⟨h, rfl⟩
  · exact this.mono fun _ _ h => h.1
  · intro s t op hop ⟨h1, h2⟩
    have h3 := fading_step s t op h1 (by rw [h2]; exact hs op hop)
    have h4 := fading_keeps_B (b := t) (op := op) rfl
    cases hf : op.onFKF s <;> cases hg : op.onKF t <;> rw [hf, hg] at h3 <;> rw [hg] at h4 <;>
      simp only [Agree] at h3 ⊢
    · exact ⟨h3.1, h3.2, h4.trans h2⟩
    · exact ⟨h3, h4.trans h2⟩

/-- **C18.** Starting point of `C18_fading_equiv`: for `alpha ≥ 1` and valid dimensions the two
constructors (and the `alpha` setter) give objects with the same attributes; for `alpha < 1` the
`FadingKalmanFilter` constructor raises `AssertionError`. -/
theorem C18_fading_init (alpha : ℝ) (dimX dimZ dimU : ℤ) :
    (alpha < 1 → FKF.init alpha dimX dimZ dimU = .error .assertion) ∧
    (1 ≤ alpha → 0 < dimX → 0 < dimZ → 0 ≤ dimU →
      ∃ (n m l : ℕ) (a : FKF n m l) (b b' : KF n m l), (n : ℤ) = dimX ∧ (m : ℤ) = dimZ ∧
        (l : ℤ) = dimU ∧ FKF.init alpha dimX dimZ dimU = .ok ⟨n, m, l, a⟩ ∧
        KF.init dimX dimZ dimU = .ok ⟨n, m, l, b⟩ ∧ b.setAlpha alpha = .ok b' ∧
        a.alpha = alpha ∧ FadingSame a b') := by
  constructor
  · intro h; simp [FKF.init, not_le.2 h]
  · intro h h1 h2 h3
    refine ⟨dimX.toNat, dimZ.toNat, dimU.toNat, FKF.fresh alpha _ _ _, KF.fresh _ _ _,
      { KF.fresh _ _ _ with alphaSq := alpha ^ 2 }, by omega, by omega, by omega, ?_, ?_, ?_, ?_, ?_⟩
    · simp [FKF.init, h, h1, h2, h3, not_lt.2 h, not_le.2 h1, not_le.2 h2, not_lt.2 h3]
    · unfold KF.init
      rw [if_neg (by omega), if_neg (by omega), if_neg (by omega)]
    · simp [KF.setAlpha, not_lt.2 h]
    · simp only [FKF.alpha, FKF.fresh]; exact Real.sqrt_sq (by linarith)
    · constructor <;> rfl

/-- **C18 refuted** for two or more control inputs: once a control matrix is set, `predict()` on
a `FadingKalmanFilter` uses `dot(B, 0)`, an `(n, l)` array, and the state stops being a vector
(it leaves the model), while `KalmanFilter.predict()` works. -/
theorem C18_fading_control_refuted :
    (({ FKF.fresh 1.5 1 1 2 with B := some !![1, 1] } : FKF 1 1 2).predict = .error
      (.shape, { FKF.fresh 1.5 1 1 2 with B := some !![1, 1] })) ∧
    ∃ s', ({ KF.fresh 1 1 2 with B := some !![1, 1] } : KF 1 1 2).predict = .ok s' := by
  refine ⟨?_, _, rfl⟩
  simp [FKF.predict, FKF.control]

/-- Non-vacuity of C18: predict, measure, miss a measurement, measure with another `R`. -/
example : Agree FadingSame
    (runList FadingOp.onFKF (FKF.fresh 1.5 2 1 1)
      [.predict none, .update (some ![1]) .none, .update none .none, .predict none,
        .update (some ![2]) (.scalar 3)])
    (runList FadingOp.onKF { KF.fresh 2 1 1 with alphaSq := 1.5 ^ 2 }
      [.predict none, .update (some ![1]) .none, .update none .none, .predict none,
        .update (some ![2]) (.scalar 3)]) := by
  apply C18_fading_equiv
  · constructor <;> rfl
  · intro op hop
    simp only [List.mem_cons, List.not_mem_nil, or_false] at hop
    rcases hop with rfl | rfl | rfl | rfl | rfl <;> simp [FadingOp.Shaped, KF.fresh]

/-! ## Previews -/

/-- **C09** (`FadingKalmanFilter`): `get_prediction` returns what `predict` would produce, or the
exception it would raise. -/
theorem C09_fading_get_prediction (s : FKF n m l) (u : UArg l) :
    s.getPrediction u = match s.predict u with
      | .ok s' => .ok (s'.x, s'.P)
      | .error e => .error e.1 := by
  simp only [FKF.getPrediction, FKF.predict]
  split <;> rfl

/-- **C09** (`FadingKalmanFilter`): `residual_of(z)` is the `y` that `update(z)` stores. -/
theorem C09_fading_residual_of (s s' : FKF n m l) (z : Vec m) (R : MatArg m)
    (h : s.update (some z) R = .ok s') : s.residualOf z = s'.y := by
  simp only [FKF.update] at h
  split at h
  · cases h
  · simp only [Except.ok.injEq] at h
    rw [← h]; rfl

/-! ## `batch_filter` of `FadingKalmanFilter` -/

/-- The measurements and per-step noises handed to `batch_filter`: without `Rs` every step uses the
filter's own `R`. -/
def fadingRows (zs : List (Option (Vec m))) : Option (List (MatArg m)) → List (Option (Vec m) × MatArg m)
  | none => zs.map fun z => (z, .none)
  | some Rs => zs.zip Rs

/-- The first and second call made for a row. -/
def fadingFirst (uf : Bool) (r : Option (Vec m) × MatArg m) : FadingOp m l :=
  if uf then .update r.1 r.2 else .predict none
def fadingSecond (uf : Bool) (r : Option (Vec m) × MatArg m) : FadingOp m l :=
  if uf then .predict none else .update r.1 r.2

/-- The calls the loop over the rows makes. -/
def fadingCalls (uf : Bool) (rows : List (Option (Vec m) × MatArg m)) : List (FadingOp m l) :=
  rows.flatMap fun r => [fadingFirst uf r, fadingSecond uf r]

/-- **C10** (`FadingKalmanFilter`): `batch_filter(zs, Rs, update_first)` is the loop of `predict()` and
`update(z, R)` calls.  It raises exactly when the loop does, with the same exception and the object
left in the same state; otherwise it leaves the object as the loop does, and row `k` holds the
estimate after the `update` and after the `predict` of step `k`. -/
theorem C10_fading_batch (s : FKF n m l) (zs : List (Option (Vec m))) (Rs : Option (List (MatArg m)))
    (uf : Bool) :
    match s.batchFilter zs Rs uf with
    | .error e => runList FadingOp.onFKF s (fadingCalls uf (fadingRows zs Rs)) = .error e
    | .ok (out, s') =>
      runList FadingOp.onFKF s (fadingCalls uf (fadingRows zs Rs)) = .ok s' ∧
      out.length = (fadingRows zs Rs).length ∧
      ∀ k (hk : k < out.length) (hr : k < (fadingRows zs Rs).length), ∃ s1 s2,
        runList FadingOp.onFKF s (fadingCalls uf ((fadingRows zs Rs).take k) ++
          [fadingFirst uf (fadingRows zs Rs)[k]]) = .ok s1 ∧
        runList FadingOp.onFKF s (fadingCalls uf ((fadingRows zs Rs).take (k + 1))) = .ok s2 ∧
        (if uf then out[k] = ⟨s1.x, s1.P, s2.x, s2.P⟩ else out[k] = ⟨s2.x, s2.P, s1.x, s1.P⟩) := by
  have hrows : zs.zip (Rs.getD (List.replicate zs.length .none)) = fadingRows zs Rs := by
    cases Rs with
    | some Rs => rfl
    | none =>
      simp only [Option.getD_none, fadingRows]
      induction zs with
      | nil => rfl
      | cons z zs ih => simp [List.replicate_succ, ih]
  simp only [FKF.batchFilter, hrows]
  generalize fadingRows zs Rs = rows
  clear hrows
  induction rows generalizing s with
  | nil =>
    simp only [FKF.batchLoop]
    exact ⟨rfl, rfl, fun k hk => absurd hk (by simp)⟩
  | cons r rows ih =>
    have hloop : FKF.batchLoop uf s (r :: rows) = match FadingOp.onFKF s (fadingFirst uf r) with
        | .error e => .error e
        | .ok s1 => match FadingOp.onFKF s1 (fadingSecond uf r) with
          | .error e => .error e
          | .ok s2 => match FKF.batchLoop uf s2 rows with
            | .error e => .error e
            | .ok o => .ok ((if uf then ⟨s1.x, s1.P, s2.x, s2.P⟩ else ⟨s2.x, s2.P, s1.x, s1.P⟩) :: o.1, o.2) := by
      cases uf
      · simp only [FKF.batchLoop, Bool.false_eq_true, if_false, fadingFirst, fadingSecond, FadingOp.onFKF,
          bind, Except.bind]
        cases s.predict with
        | error e => rfl
        | ok s1 =>
          simp only []
          cases s1.update r.1 r.2 with
          | error e => rfl
          | ok s2 =>
            simp only []
            cases FKF.batchLoop false s2 rows <;> rfl
      · simp only [FKF.batchLoop, if_true, fadingFirst, fadingSecond, FadingOp.onFKF, bind, Except.bind]
        cases s.update r.1 r.2 with
        | error e => rfl
        | ok s1 =>
          simp only []
          cases s1.predict with
          | error e => rfl
          | ok s2 =>
            simp only []
            cases FKF.batchLoop true s2 rows <;> rfl
    rw [hloop]
    cases h1 : FadingOp.onFKF s (fadingFirst uf r) with
    | error e => simp [fadingCalls, runList, h1]
    | ok s1 =>
      cases h2 : FadingOp.onFKF s1 (fadingSecond uf r) with
      | error e => simp [fadingCalls, runList, h1, h2]
      | ok s2 =>
        have hstep : ∀ L : List (FadingOp m l), runList FadingOp.onFKF s
            (fadingFirst uf r :: fadingSecond uf r :: L) = runList FadingOp.onFKF s2 L := by
          intro L; simp [runList, h1, h2]
        have := ih s2
        cases h3 : FKF.batchLoop uf s2 rows with
        | error e =>
          rw [h3] at this
          simp only [h2, h3]
          simpa [fadingCalls, hstep] using this
        | ok o =>
          rw [h3] at this
          obtain ⟨g1, g2, g3⟩ := this
          simp only [h2, h3]
          refine ⟨by simpa [fadingCalls, hstep] using g1, by simp [g2], fun k hk hr => ?_⟩
          cases k with
          | zero =>
            refine ⟨s1, s2, by simp [fadingCalls, runList, h1], by simp [fadingCalls, hstep, runList], ?_⟩
            cases uf <;> simp
          | succ k =>
            obtain ⟨t1, t2, e1, e2, e3⟩ := g3 k (by simpa using hk) (by simpa using hr)
            exact ⟨t1, t2, by simpa [fadingCalls, hstep] using e1, by simpa [fadingCalls, hstep] using e2,
              by simpa using e3⟩

end Filterpy
