import Verif.Lemmas.KalmanShapes
import Verif.Lemmas.Sim
import Verif.Lemmas.Kalman
import Verif.Lemmas.Scalar1
import Verif.Props.Helpers

/-!
# C72 (the state may be a 1-D array or a column) and C71 (`test_matrix_dimensions`)
-/

namespace Filterpy

open Matrix Nd

variable {n m l : ℕ}

open Spec

theorem stepX_vecAs (col : Bool) (F : Mat n n) (x : Vec n) (B : Option (Mat n l)) (u : UArg l)
    (hu : ∀ c, u = .scalar c → col = true ∧ (B.isSome → l = 1)) :
    ∃ bu, KF.control B u = .ok bu ∧
      NKF.stepX (.d2 n n F) (vecAs col x) (B.map fun B => .d2 n l B) (controlAs col u)
        = .ok (vecAs col (match bu with
          | some b => F *ᵥ x + b
          | none => F *ᵥ x)) := by
  have hd := dot_vecAs col F x
  cases B with
  | none =>
    refine ⟨none, rfl, ?_⟩
    simp only [NKF.stepX, hd, Option.map_none]
    rfl
  | some B =>
    cases u with
    | none =>
      refine ⟨none, rfl, ?_⟩
      simp only [NKF.stepX, hd, Option.map_some, controlAs]
      rfl
    | vec u =>
      refine ⟨_, rfl, ?_⟩
      simp only [NKF.stepX, hd, Option.map_some, controlAs]
      show (do let Bu ← dot (.d2 n l B) (vecAs col u); add (vecAs col (F *ᵥ x)) Bu) = _
      rw [dot_vecAs]
      exact add_vecAs _ _ _
    | scalar c =>
      obtain ⟨rfl, h1⟩ := hu c rfl
      obtain rfl := h1 rfl
      refine ⟨some fun i => c * B i 0, by simp [KF.control], ?_⟩
      simp only [NKF.stepX, hd, Option.map_some, controlAs]
      show (do let Bu ← dot (.d2 n 1 B) (.d0 c); add (vecAs true (F *ᵥ x)) Bu) = _
      rw [dot_ms]
      show add (vecAs true (F *ᵥ x)) (.d2 n 1 (c • B)) = _
      rw [← add_vecAs]
      congr 1
      simp only [vecAs, if_true]
      congr 1
      ext i j
      rw [Subsingleton.elim j 0]
      rfl

theorem resolve_matAs (Q : MatArg n) (D : Mat n n) :
    (matAs Q).resolve n (.d2 n n D) = .d2 n n (Q.resolve D) := by
  cases Q <;> rfl

theorem getD_map {α β : Type*} (f : α → β) (o : Option α) (a : α) :
    (o.map f).getD (f a) = f (o.getD a) := by
  cases o <;> rfl

theorem or_map {α β : Type*} (f : α → β) (a b : Option α) :
    (a.map f).or (b.map f) = (a.or b).map f := by
  cases a <;> rfl

/-- **C72, `predict`.**  Whatever the representation of the state (1-D or column), `predict` called
with a control vector of the same representation computes the numbers of the mathematical model and
keeps every attribute in its shape.  A scalar control is only covered for a column state and a
one-column `B` (see `C72_scalar_control_refuted`). -/
theorem C72_predict_partial (col : Bool) (s : NKF) (t : KF n m l) (h : Stores col s t) (u : UArg l)
    (B : Option (Mat n l)) (F : Option (Mat n n)) (Q : MatArg n)
    (hu : ∀ c, u = .scalar c → col = true ∧ ((B.or t.B).isSome → l = 1)) :
    ∃ s' t', s.predict (controlAs col u) (B.map fun B => .d2 n l B) (F.map fun F => .d2 n n F) (matAs Q)
        = .ok s' ∧ t.predict u B F Q = .ok t' ∧ Stores col s' t' := by
  obtain ⟨bu, h1, h2⟩ := stepX_vecAs col (F.getD t.F) t.x (B.or t.B) u hu
  set x' : Vec n := match bu with
    | some b => F.getD t.F *ᵥ t.x + b
    | none => F.getD t.F *ᵥ t.x with hx'
  set P' : Mat n n := t.alphaSq • (F.getD t.F * t.P * (F.getD t.F)ᵀ) + Q.resolve t.Q with hP'
  have e1 : s.predict (controlAs col u) (B.map fun B => .d2 n l B) (F.map fun F => .d2 n n F) (matAs Q)
      = .ok { s with
          x := vecAs col x', P := .d2 n n P', xPrior := vecAs col x', PPrior := .d2 n n P' } := by
    simp only [NKF.predict, h.B, h.F, h.Q, h.x, h.dimX, or_map, getD_map (fun F => Nd.d2 n n F),
      resolve_matAs, h2, h.P, h.alphaSq]
    simp only [NKF.lift, NKF.stepP, dot_mm, Nd.T, Nd.smul, add_mm, bind, Except.bind]
    cases bu <;> rfl
  have e2 : t.predict u B F Q = .ok { t with x := x', P := P', xPrior := x', PPrior := P' } := by
    simp only [KF.predict, h1]
    cases bu <;> rfl
  exact ⟨_, _, e1, e2, { h with x := rfl, P := rfl, xPrior := rfl, PPrior := rfl }⟩

/-- **C72, `predict_steadystate`**, likewise. -/
theorem C72_predict_steadystate_partial (col : Bool) (s : NKF) (t : KF n m l) (h : Stores col s t)
    (u : Vec l) (B : Option (Mat n l)) :
    ∃ s' t', s.predictSteadystate (vecAs col u) (B.map fun B => .d2 n l B) = .ok s' ∧
      t.predictSteadystate (.vec u) B = .ok t' ∧ Stores col s' t' := by
  obtain ⟨bu, h1, h2⟩ := stepX_vecAs col t.F t.x (B.or t.B) (.vec u) (by intro c hc; cases hc)
  set x' : Vec n := match bu with
    | some b => t.F *ᵥ t.x + b
    | none => t.F *ᵥ t.x with hx'
  have e1 : s.predictSteadystate (vecAs col u) (B.map fun B => .d2 n l B)
      = .ok { s with x := vecAs col x', xPrior := vecAs col x', PPrior := s.P } := by
    simp only [NKF.predictSteadystate, h.B, h.F, h.x, or_map]
    rw [show (some (vecAs col u)) = controlAs col (.vec u) from rfl, h2]
    cases bu <;> rfl
  have e2 : t.predictSteadystate (.vec u) B = .ok { t with x := x', xPrior := x', PPrior := t.P } := by
    simp only [KF.predictSteadystate, KF.steadyControl_vec, h1]
    cases bu <;> rfl
  exact ⟨_, _, e1, e2, { h with x := rfl, xPrior := rfl, PPrior := h.P }⟩

theorem updateNone_vecAs (col : Bool) (s : NKF) (t : KF n m l) (h : Stores col s t) :
    Stores col s.updateNone t.updateNone :=
  { h with
    y := ⟨true, fun _ => rfl, by simp only [NKF.updateNone, h.dimZ]; rfl⟩
    logLik := rfl, lik := rfl, mahal := rfl, xPost := h.x, PPost := h.P
    z := Or.inl ⟨rfl, fun _ => rfl⟩ }

theorem update_vecAs (col : Bool) (s : NKF) (t : KF n m l) (h : Stores col s t) (z : Nd) (v : Vec m)
    (R : MatArg m) (H : Option (Mat m n))
    (hz : match H with
      | none => Holds v z
      | some _ => z = vecAs col v) :
    Agree (Stores col) (s.update (some z) (matAs R) (H.map fun H => .d2 m n H))
      (t.update (some v) R H) := by
  have hzz : s.measured z (H.map fun H => Nd.d2 m n H) = .ok (vecAs col v) := by
    cases H with
    | none => simp only [NKF.measured, Option.map_none, h.dimZ, h.x, vecAs_ndim, reshapeZ_holds col hz]
    | some H => simp only [NKF.measured, Option.map_some]; rw [hz]
  have hS := h.inv (H.getD t.H * (t.P * (H.getD t.H)ᵀ) + R.resolve t.R)
  simp only [NKF.update, hzz]
  simp only [bind, Except.bind, h.H, getD_map (fun H => Nd.d2 m n H), h.x, NKF.residual, dot_vecAs,
    sub_vecAs, NKF.lift, h.P, h.R, h.dimZ, resolve_matAs, dot_mm, NKF.innovCov, add_mm, Nd.T, hS]
  simp only [KF.update]
  cases t.inv (H.getD t.H * (t.P * (H.getD t.H)ᵀ) + R.resolve t.R) with
  | none =>
    exact ⟨rfl, { h with
      dimZ := rfl, x := rfl, P := rfl, H := rfl, R := rfl
      y := ⟨col, id, rfl⟩, S := rfl, logLik := rfl, lik := rfl, mahal := rfl }⟩
  | some SI =>
    simp only [NKF.joseph, h.dimX]
    simp only [NKF.correct, bind, Except.bind, dot_mm, dot_vecAs, add_vecAs, sub_mm,
      add_mm, Nd.eye, Nd.T, h.x]
    exact { h with
      dimX := rfl, dimZ := rfl, H := rfl, R := rfl
      y := ⟨col, id, rfl⟩, S := rfl, SI := rfl, K := rfl, logLik := rfl, lik := rfl, mahal := rfl
      x := rfl, P := rfl, xPost := rfl, PPost := rfl
      z := Or.inr ⟨_, v, rfl, by cases col; exacts [.vector, .column], fun _ => rfl⟩ }

/-- **C72, `update`.**  Whatever the representation of the state, `update(z, R)` accepts `z` as a
number (for one measured value), a vector, a row or a column and computes the numbers of the
mathematical model, keeping every attribute in its shape; the same exceptions are raised. -/
theorem C72_update (col : Bool) (s : NKF) (t : KF n m l) (h : Stores col s t) (z : Nd) (v : Vec m)
    (hz : Holds v z) (R : MatArg m) :
    Agree (Stores col) (s.update (some z) (matAs R) none) (t.update (some v) R) ∧
    Agree (Stores col) (s.update none (matAs R) none) (t.update none R) :=
  ⟨update_vecAs col s t h z v R none hz, updateNone_vecAs col s t h⟩

/-- **C72, `update` with an explicit `H`**: the same, if `z` is passed in the representation of the
state.  Missing: any other representation (`C72_update_H_refuted`). -/
theorem C72_update_H_partial (col : Bool) (s : NKF) (t : KF n m l) (h : Stores col s t) (v : Vec m)
    (R : MatArg m) (H : Mat m n) :
    Agree (Stores col) (s.update (some (vecAs col v)) (matAs R) (some (.d2 m n H)))
      (t.update (some v) R (some H)) :=
  update_vecAs col s t h _ v R (some H) rfl

/-- **C72, `update_steadystate`.** -/
theorem C72_update_steadystate (col : Bool) (s : NKF) (t : KF n m l) (h : Stores col s t) (z : Nd)
    (v : Vec m) (hz : Holds v z) :
    ∃ s', s.updateSteadystate (some z) = .ok s' ∧ Stores col s' (t.updateSteadystate (some v)) := by
  have e : s.updateSteadystate (some z) = .ok { s with
      logLik := none, lik := none, mahal := none
      y := vecAs col (v - t.H *ᵥ t.x), x := vecAs col (t.x + t.K *ᵥ (v - t.H *ᵥ t.x))
      z := some (vecAs col v), xPost := vecAs col (t.x + t.K *ᵥ (v - t.H *ᵥ t.x)), PPost := s.P } := by
    simp only [NKF.updateSteadystate, h.dimZ, h.x, vecAs_ndim, reshapeZ_holds col hz, NKF.residual,
      NKF.correct, NKF.lift, bind, Except.bind, h.H, h.K, dot_vecAs, sub_vecAs, add_vecAs]
  exact ⟨_, e, { h with
    y := ⟨col, id, rfl⟩, logLik := rfl, lik := rfl, mahal := rfl, x := rfl, xPost := rfl, PPost := h.P
    z := Or.inr ⟨_, v, rfl, by cases col; exacts [.vector, .column], fun _ => rfl⟩ }⟩

/-- **C72.**  An array that is not a number, vector, row or column of `dim_z` values is refused with
`ValueError`; only the likelihood caches have been cleared. -/
theorem C72_update_bad_z (col : Bool) (s : NKF) (t : KF n m l) (h : Stores col s t) (z : Nd)
    (hz : ∀ v : Vec m, ¬ Holds v z) (R : NdArg) :
    s.update (some z) R none
      = .error (.valueError, { s with logLik := none, lik := none, mahal := none }) := by
  have hr : Nd.reshapeZ z m s.x.ndim = .error .valueError := by
    unfold Nd.reshapeZ
    have hnot : ¬ IsMeasurement m z.toArr := by
      intro hm
      cases z with
      | d0 a => exact hz (fun _ => a) (.number a hm fun _ => rfl)
      | d1 k v =>
        obtain rfl : k = m := hm
        exact hz v .vector
      | d2 r c A =>
        rcases hm with ⟨h1, h2⟩ | ⟨h1, h2⟩
        · subst h1; subst h2
          refine hz (A 0) ?_
          have : A = of fun _ j => A 0 j := by ext i j; rw [Subsingleton.elim i 0]; rfl
          rw [this]
          exact .row
        · subst h1; subst h2
          refine hz (fun i => A i 0) ?_
          have : A = of fun i _ => A i 0 := by ext i j; rw [Subsingleton.elim j 0]; rfl
          rw [this]
          exact .column
    rw [(C57_reshape_z_partial z.toArr m s.x.ndim).2 hnot]
  simp only [NKF.update, NKF.measured, h.dimZ, hr]
  rfl

/-- **C72, matrices of the wrong shape.**  A transition matrix whose number of columns is not the number of state
variables makes `predict` raise `ValueError` with the filter unchanged; so does a control vector, 1-D or column, of
the wrong length.  A measurement matrix with the wrong number of columns makes `update` raise `ValueError`; only the
likelihood caches have been cleared. -/
theorem C72_bad_shapes (col : Bool) (s : NKF) (t : KF n m l) (h : Stores col s t) :
    (∀ (k j : ℕ) (F : Mat k j), j ≠ n → ∀ u B Q, s.predict u B (some (.d2 k j F)) Q = .error (.valueError, s)) ∧
    (∀ (k : ℕ) (w : Vec k), k ≠ l → (B : Option (Mat n l)) → (B.or t.B).isSome → ∀ (c : Bool) (F : Option (Mat n n)) Q,
      s.predict (some (vecAs c w)) (B.map fun B => .d2 n l B) (F.map fun F => .d2 n n F) Q = .error (.valueError, s)) ∧
    (∀ (k j : ℕ) (H : Mat k j), j ≠ n → ∀ z R,
      s.update (some z) R (some (.d2 k j H))
        = .error (.valueError, { s with logLik := none, lik := none, mahal := none })) := by
  have hd : ∀ (k j : ℕ) (F : Mat k j), j ≠ n → dot (.d2 k j F) (vecAs col t.x) = .error .valueError := by
    intro k j F hj
    cases col
    · exact dot_mv_ne hj.symm F _
    · exact dot_mm_ne hj.symm F _
  refine ⟨fun k j F hj u B Q => ?_, fun k w hk B hB c F Q => ?_, fun k j H hj z R => ?_⟩
  · simp only [NKF.predict, NKF.stepX, h.x, Option.getD, hd k j F hj]
    rfl
  · obtain ⟨B', hB'⟩ := Option.isSome_iff_exists.1 hB
    have hu : dot (.d2 n l B') (vecAs c w) = .error .valueError := by
      cases c
      · exact dot_mv_ne hk B' _
      · exact dot_mm_ne hk B' _
    have hs : NKF.stepX (.d2 n n (F.getD t.F)) (vecAs col t.x) (some (.d2 n l B')) (some (vecAs c w))
        = .error .valueError := by
      simp only [NKF.stepX, dot_vecAs col (F.getD t.F) t.x]
      show (do let Bu ← dot (.d2 n l B') (vecAs c w); add (vecAs col (F.getD t.F *ᵥ t.x)) Bu) = _
      rw [hu]
      rfl
    simp only [NKF.predict, h.x, h.B, h.F, or_map, getD_map (fun F => Nd.d2 n n F), hB', Option.map_some, hs]
    rfl
  · simp only [NKF.update, NKF.measured, NKF.residual, h.x, Option.getD, hd k j H hj]
    rfl

/-- **C72, histories.**  Whatever the representation of the state, every history of calls computes
the numbers of the mathematical model, ends with the same exception if any, and leaves every
attribute in its shape. -/
theorem C72_history_partial (col : Bool) (expf : ℝ → ℝ) (calls : List NKF.Call) (ops : List (KFOp n m l))
    (hc : List.Forall₂ (IsCall col) calls ops) (s : NKF) (t : KF n m l) (h : Stores col s t) :
    Agree (Stores col) (runList NKF.step s calls) (t.run expf ops) := by
  induction hc generalizing s t with
  | nil => exact h
  | @cons c o cs os hco _ ih =>
    have key : Agree (Stores col) (s.step c) (t.step expf o) := by
      cases hco with
      | predict u B F Q =>
        cases u with
        | none =>
          obtain ⟨s', t', h1, h2, h3⟩ := C72_predict_partial col s t h .none B F Q (by intro c hc; cases hc)
          simp only [NKF.step, KF.step, Option.map_none]
          rw [show (none : Option Nd) = controlAs col (UArg.none : UArg l) from rfl, h1, h2]
          exact h3
        | some u =>
          obtain ⟨s', t', h1, h2, h3⟩ := C72_predict_partial col s t h (.vec u) B F Q (by intro c hc; cases hc)
          simp only [NKF.step, KF.step, Option.map_some]
          rw [show some (vecAs col u) = controlAs col (UArg.vec u) from rfl, h1, h2]
          exact h3
      | predictSteadystate u B =>
        obtain ⟨s', t', h1, h2, h3⟩ := C72_predict_steadystate_partial col s t h u B
        simp only [NKF.step, KF.step, h1, h2]
        exact h3
      | update z v R hz => exact update_vecAs col s t h z v R none hz
      | updateH v R H => exact update_vecAs col s t h _ v R (some H) rfl
      | updateNone R H => exact updateNone_vecAs col s t h
      | updateSteadystate z v hz =>
        obtain ⟨s', h1, h2⟩ := C72_update_steadystate col s t h z v hz
        simp only [NKF.step, KF.step, h1]
        exact h2
      | updateSteadystateNone => exact updateNone_vecAs col s t h
    simp only [runList, KF.run]
    cases hs : s.step c <;> cases ht : t.step expf o <;> rw [hs, ht] at key <;> simp only [Agree] at key
    · exact key
    · exact ih _ _ key

/-- The constructor's object stores the constructor's filter, with a column state. -/
theorem C72_fresh (n m l : ℕ) : Stores true (NKF.fresh n m) (KF.fresh n m l) where
  dimX := rfl
  dimZ := rfl
  x := rfl
  P := rfl
  Q := rfl
  B := rfl
  F := rfl
  H := rfl
  R := rfl
  alphaSq := rfl
  M := rfl
  z := Or.inl ⟨rfl, fun _ => rfl⟩
  K := rfl
  y := ⟨true, fun _ => rfl, rfl⟩
  S := rfl
  SI := rfl
  xPrior := rfl
  PPrior := rfl
  xPost := rfl
  PPost := rfl
  logLik := rfl
  lik := rfl
  mahal := rfl
  inv := fun A => Nd.inv_sq A

example : ∃ (s : NKF) (t : KF 2 1 1), Stores false s t ∧ s.x.shape = [2] :=
  ⟨{ NKF.fresh 2 1 with x := .d1 2 0, xPrior := .d1 2 0, xPost := .d1 2 0 }, KF.fresh 2 1 1,
    { C72_fresh 2 1 1 with x := rfl, xPrior := rfl, xPost := rfl, y := ⟨true, fun _ => rfl, rfl⟩ }, rfl⟩

/-- **C72 is false for a scalar control.**  With a 1-D state of `n` values and an `(n, 1)` control
matrix, `predict(u=c)` (and so `batch_filter` without `us`, which passes `u=0`) turns the state into
an `n × n` array. -/
theorem C72_scalar_control_refuted (s : NKF) (t : KF n m 1) (h : Stores false s t) (B : Mat n 1) (c : ℝ) :
    ∃ s', s.predict (some (.d0 c)) (some (.d2 n 1 B)) none .none = .ok s' ∧ s'.x.shape = [n, n] := by
  simp only [NKF.predict, NKF.stepX, Option.some_or, Option.getD_none, h.F, h.x, h.P, h.Q, NdArg.resolve,
    NKF.stepP, dot_mm, Nd.T, Nd.smul, add_mm, bind, Except.bind, NKF.lift, vecAs, dot_mv, dot_ms,
    Bool.false_eq_true, if_false, Nd.add, broadcast_vec_col, broadcast_d2]
  exact ⟨_, rfl, rfl⟩

/-- **C72 is false for a control vector in the other representation.**  A column state with a 1-D
control vector, or a 1-D state with a column, also becomes an `n × n` array. -/
theorem C72_mixed_control_refuted (col : Bool) (s : NKF) (t : KF n m l) (h : Stores col s t)
    (B : Mat n l) (u : Vec l) :
    ∃ s', s.predict (some (vecAs (!col) u)) (some (.d2 n l B)) none .none = .ok s' ∧
      s'.x.shape = [n, n] := by
  cases col
  · simp only [NKF.predict, NKF.stepX, Option.some_or, Option.getD_none, h.F, h.x, h.P, h.Q,
      NdArg.resolve, NKF.stepP, dot_mm, Nd.T, Nd.smul, bind, Except.bind, NKF.lift, vecAs, dot_mv,
      Bool.false_eq_true, if_false, Nd.add, broadcast_vec_col, broadcast_d2, Bool.not_false, if_true]
    exact ⟨_, rfl, rfl⟩
  · simp only [NKF.predict, NKF.stepX, Option.some_or, Option.getD_none, h.F, h.x, h.P, h.Q,
      NdArg.resolve, NKF.stepP, dot_mm, Nd.T, Nd.smul, bind, Except.bind, NKF.lift, vecAs, dot_mv,
      Bool.false_eq_true, if_false, Nd.add, broadcast_col_vec, broadcast_d2, Bool.not_true, if_true]
    exact ⟨_, rfl, rfl⟩

/-- **C72 is false for `update` with an explicit `H` and a measurement in the other
representation.**  A column state of `n` values and a 1-D `z` of `m` values: no exception, the state
becomes an `n × m` array and the residual `m × m`. -/
theorem C72_update_H_refuted (s : NKF) (t : KF n m l) (h : Stores true s t) (H : Mat m n) (v : Vec m)
    (hS : (t.inv (H * (t.P * Hᵀ) + t.R)).isSome) :
    ∃ s', s.update (some (.d1 m v)) .none (some (.d2 m n H)) = .ok s' ∧
      s'.x.shape = [n, m] ∧ s'.y.shape = [m, m] := by
  obtain ⟨SI, hSI⟩ := Option.isSome_iff_exists.1 hS
  have hi := h.inv (H * (t.P * Hᵀ) + t.R)
  rw [hSI] at hi
  simp only [NKF.update, NKF.joseph, h.dimX]
  simp only [NKF.measured, NKF.residual, NKF.innovCov, NKF.correct, Option.getD_some,
    NdArg.resolve, h.x, h.P, h.R, vecAs, if_true, dot_mm, dot_mv, bind, Except.bind, NKF.lift, Nd.T,
    Nd.sub, Nd.add, broadcast_vec_col, broadcast_d2, broadcast_col_mat, Nd.eye]
  rw [show (of fun i j => (H * (t.P * Hᵀ)) i j + t.R i j) = H * (t.P * Hᵀ) + t.R from rfl, hi]
  simp only [dot_mm, broadcast_col_mat, broadcast_d2]
  exact ⟨_, rfl, rfl, rfl⟩

/-- **C72 is false for the documented use of `H`.**  The documentation asks for a column `z` when
`H` is passed; with a 1-D state and one measured value the state then becomes an `n × n` array. -/
theorem C72_update_H_documented_refuted (s : NKF) (t : KF n 1 l) (h : Stores false s t) (H : Mat 1 n)
    (v : Vec 1) (hS : (t.inv (H * (t.P * Hᵀ) + t.R)).isSome) :
    ∃ s', s.update (some (vecAs true v)) .none (some (.d2 1 n H)) = .ok s' ∧ s'.x.shape = [n, n] := by
  obtain ⟨SI, hSI⟩ := Option.isSome_iff_exists.1 hS
  have hi := h.inv (H * (t.P * Hᵀ) + t.R)
  rw [hSI] at hi
  simp only [NKF.update, NKF.joseph, h.dimX]
  simp only [NKF.measured, NKF.residual, NKF.innovCov, NKF.correct, Option.getD_some,
    NdArg.resolve, h.x, h.P, h.R, vecAs, if_true, dot_mm, dot_mv, bind, Except.bind, NKF.lift, Nd.T,
    Nd.sub, Nd.add, broadcast_vec_col, broadcast_col_vec, broadcast_d2, Nd.eye, Bool.false_eq_true, if_false]
  rw [show (of fun i j => (H * (t.P * Hᵀ)) i j + t.R i j) = H * (t.P * Hᵀ) + t.R from rfl, hi]
  simp only [dot_mm, broadcast_vec_col, broadcast_d2]
  exact ⟨_, rfl, rfl⟩

/-- **C72 is false for the shape of the residual.**  With a 1-D state, `y` is 1-D after `update(z)`
and a column after `update(None)`. -/
theorem C72_residual_shape_refuted (s : NKF) (t : KF n m l) (h : Stores false s t) (v : Vec m)
    (hS : (t.inv (t.H * (t.P * t.Hᵀ) + t.R)).isSome) :
    ∃ s1 s2, s.update (some (.d1 m v)) .none none = .ok s1 ∧ s1.y.shape = [m] ∧
      s1.update none .none none = .ok s2 ∧ s2.y.shape = [m, 1] := by
  obtain ⟨SI, hSI⟩ := Option.isSome_iff_exists.1 hS
  have hi := h.inv (t.H * (t.P * t.Hᵀ) + t.R)
  rw [hSI] at hi
  have hz := reshapeZ_holds false (Holds.vector (v := v))
  simp only [Bool.false_eq_true, if_false] at hz
  simp only [NKF.update, NKF.joseph, h.dimX]
  simp only [NKF.measured, NKF.residual, NKF.innovCov, NKF.correct, Option.getD_none, h.dimZ, h.H,
    NdArg.resolve, h.x, vecAs_ndim, Bool.false_eq_true, if_false, hz, h.P, h.R, dot_vecAs, sub_vecAs,
    dot_mm, bind, Except.bind, NKF.lift, Nd.T, add_mm, hi, add_vecAs, Nd.eye, sub_mm]
  refine ⟨_, _, rfl, rfl, rfl, ?_⟩
  rfl

end Filterpy
