import Verif.Lemmas.KalmanShapesMore
import Verif.Props.KalmanShapes
import Verif.Props.KalmanFuncShapes

/-!
# C137: the other methods of `KalmanFilter` on 1-D and column states

C72 is about `predict`, `update` and their steady-state versions.  Here are `update_correlated`, `update_sequential`, the
previews, `residual_of`, `measurement_of_state` and `mahalanobis`.
-/

namespace Filterpy

open Matrix Nd Spec

variable {n m l : ℕ}

/-- A column is left alone if the state is a column. -/
theorem wrapped_true (x : Vec n) {k : ℕ} (w : Vec k) : NKF.wrapped (NKF.unwrapped (vecAs true x) (vecAs true w)) = vecAs true w := by
  match k with
  | 0 => rfl
  | 1 => rfl
  | k + 2 => rfl

/-- A 1-D array is left alone if the state is 1-D. -/
theorem wrapped_false (x : Vec n) {k : ℕ} (w : Vec k) :
    NKF.wrapped (NKF.unwrapped (vecAs false x) (vecAs false w)) = vecAs false w := rfl

/-- A vector of the shape of the state is left alone. -/
theorem wrapped_vecAs (col : Bool) (x : Vec n) (w : Vec m) :
    NKF.wrapped (NKF.unwrapped (vecAs col x) (vecAs col w)) = vecAs col w := by
  cases col
  · rfl
  · exact wrapped_true x w

/-- The residual for a single measured value passed with an explicit `H` in any form. -/
theorem residual_one (col : Bool) (x : Vec n) (H : Mat 1 n) {v : Vec 1} {z : Nd} (hz : Holds v z) :
    ∃ z', NKF.wrapped (NKF.unwrapped (vecAs col x) z) = z' ∧ Holds v z' ∧
      NKF.residual z' (.d2 1 n H) (vecAs col x) = .ok (vecAs col (v - H *ᵥ x)) := by
  have key : ∀ w : Vec 1, NKF.residual (vecAs false w) (.d2 1 n H) (vecAs true x) = .ok (vecAs true (w - H *ᵥ x)) := by
    intro w
    simp only [NKF.residual, bind, Except.bind, dot_vecAs]
    simp only [vecAs, if_true, Nd.sub, broadcast_vec_col, Bool.false_eq_true, if_false]
    congr 2
    ext i j
    rw [Subsingleton.elim i 0, Subsingleton.elim j 0]
    rfl
  have key2 : ∀ (c : Bool) (w : Vec 1), NKF.residual (vecAs c w) (.d2 1 n H) (vecAs c x) = .ok (vecAs c (w - H *ᵥ x)) := by
    intro c w
    simp only [NKF.residual, bind, Except.bind, dot_vecAs, sub_vecAs]
  have hu : ∀ A : Mat 1 1, NKF.wrapped (NKF.unwrapped (vecAs false x) (.d2 1 1 A)) = vecAs false (fun _ : Fin 1 => A 0 0) :=
    fun _ => rfl
  have hv0 : (fun _ : Fin 1 => v 0) = v := by funext i; rw [Subsingleton.elim i 0]
  have hone : ∀ a : ℝ, (∀ i, v i = a) → v = fun _ => a := fun a h => funext h
  cases hz with
  | number a hm hv =>
    refine ⟨_, rfl, ?_, ?_⟩
    · rw [hone a hv]; exact .vector
    · rw [hone a hv]
      cases col
      · exact key2 false _
      · exact key _
  | vector =>
    refine ⟨_, rfl, .vector, ?_⟩
    cases col
    · exact key2 false _
    · exact key _
  | row =>
    have e : (of fun (_ : Fin 1) j => v j : Mat 1 1) = of fun i _ => v i := by
      ext i j; rw [Subsingleton.elim i j]; rfl
    cases col
    · exact ⟨vecAs false v, (hu _).trans (congrArg _ hv0), .vector, key2 false v⟩
    · refine ⟨_, rfl, .row, ?_⟩
      have := key2 true v
      simp only [vecAs, if_true] at this
      rw [← e] at this
      exact this
  | column =>
    cases col
    · exact ⟨vecAs false v, (hu _).trans (congrArg _ hv0), .vector, key2 false v⟩
    · exact ⟨_, rfl, .column, key2 true v⟩

/-- `update_correlated` on arrays is `update_correlated` of the mathematical model. -/
theorem correlated_vecAs (col : Bool) (s : NKF) (t : KF n m l) (h : Stores col s t) (z : Nd) (v : Vec m)
    (R : MatArg m) (H : Option (Mat m n))
    (hz : match H with
      | none => Holds v z
      | some _ => z = vecAs col v ∨ (m = 1 ∧ Holds v z)) :
    Agree (Stores col) (s.updateCorrelated (some z) (matAs R) (H.map fun H => .d2 m n H))
      (t.updateCorrelated (some v) R H) := by
  obtain ⟨z0, z', hm, hw, hh, hres⟩ : ∃ z0 z', s.measured z (H.map fun H => Nd.d2 m n H) = .ok z0 ∧
      NKF.wrapped (NKF.unwrapped (vecAs col t.x) z0) = z' ∧ Holds v z' ∧
      NKF.residual z' (.d2 m n (H.getD t.H)) (vecAs col t.x) = .ok (vecAs col (v - H.getD t.H *ᵥ t.x)) := by
    have hv : Holds v (vecAs col v) := by cases col; exacts [.vector, .column]
    have hr : ∀ H' : Mat m n, NKF.residual (vecAs col v) (.d2 m n H') (vecAs col t.x) = .ok (vecAs col (v - H' *ᵥ t.x)) := by
      intro H'
      simp only [NKF.residual, bind, Except.bind, dot_vecAs, sub_vecAs]
    cases H with
    | none =>
      refine ⟨vecAs col v, vecAs col v, ?_, wrapped_vecAs col t.x v, hv, hr _⟩
      simp only [NKF.measured, Option.map_none, h.dimZ, h.x, vecAs_ndim, reshapeZ_holds col hz]
    | some H =>
      rcases hz with rfl | ⟨rfl, hz⟩
      · exact ⟨vecAs col v, vecAs col v, rfl, wrapped_vecAs col t.x v, hv, hr _⟩
      · obtain ⟨z', a, b, c⟩ := residual_one col t.x H hz
        exact ⟨z, z', rfl, a, b, c⟩
  have hS := h.inv (H.getD t.H * (t.P * (H.getD t.H)ᵀ) + H.getD t.H * t.M + t.Mᵀ * (H.getD t.H)ᵀ + R.resolve t.R)
  simp only [NKF.updateCorrelated, hm]
  simp only [bind, Except.bind, h.H, getD_map (fun H => Nd.d2 m n H), h.x, hw, hres, NKF.lift, h.P, h.R, h.M, h.dimZ,
    resolve_matAs, dot_mm, NKF.correlatedS, add_mm, Nd.T, hS]
  simp only [KF.updateCorrelated]
  cases t.inv (H.getD t.H * (t.P * (H.getD t.H)ᵀ) + H.getD t.H * t.M + t.Mᵀ * (H.getD t.H)ᵀ + R.resolve t.R) with
  | none =>
    exact ⟨rfl, { h with
      dimZ := rfl, x := rfl, P := rfl, H := rfl, R := rfl, M := rfl
      y := ⟨col, id, rfl⟩, S := rfl, logLik := rfl, lik := rfl, mahal := rfl }⟩
  | some SI =>
    simp only [NKF.correlatedK, NKF.correlatedP, NKF.correct, bind, Except.bind, dot_mm, dot_vecAs, add_vecAs, sub_mm,
      add_mm, Nd.T]
    exact { h with
      dimZ := rfl, H := rfl, R := rfl, M := rfl
      y := ⟨col, id, rfl⟩, S := rfl, SI := rfl, K := rfl, logLik := rfl, lik := rfl, mahal := rfl
      x := rfl, P := rfl, xPost := rfl, PPost := rfl
      z := Or.inr ⟨_, v, rfl, hh, fun _ => rfl⟩ }

/-- **C137, `update_correlated`.**  Whatever the representation of the state, `update_correlated(z, R)` accepts `z` as a
number (for one measured value), a vector, a row or a column, computes the numbers of the mathematical model, keeps every
attribute in its shape and raises the same exceptions. -/
theorem C137_correlated (col : Bool) (s : NKF) (t : KF n m l) (h : Stores col s t) (z : Nd) (v : Vec m)
    (hz : Holds v z) (R : MatArg m) :
    Agree (Stores col) (s.updateCorrelated (some z) (matAs R) none) (t.updateCorrelated (some v) R) ∧
    Agree (Stores col) (s.updateCorrelated none (matAs R) none) (t.updateCorrelated none R) :=
  ⟨correlated_vecAs col s t h z v R none hz, updateNone_vecAs col s t h⟩

/-- **C137, `update_correlated` with an explicit `H`**: the same, if `z` is passed in the representation of the state, or
in any representation if one value is measured (`update` refuses or corrupts more of these, see
`C72_update_H_documented_refuted`).  Missing: several values in the other representation. -/
theorem C137_correlated_H_partial (col : Bool) (s : NKF) (t : KF n m l) (h : Stores col s t) (z : Nd) (v : Vec m)
    (hz : z = vecAs col v ∨ (m = 1 ∧ Holds v z)) (R : MatArg m) (H : Mat m n) :
    Agree (Stores col) (s.updateCorrelated (some z) (matAs R) (some (.d2 m n H)))
      (t.updateCorrelated (some v) R (some H)) :=
  correlated_vecAs col s t h z v R (some H) hz

/-- **C137 is false for `update_correlated` with an explicit `H` and a measurement in the other representation.**  A column
state of `n` values and a 1-D `z` of `m` values: no exception, the state becomes an `n × m` array. -/
theorem C137_correlated_H_refuted (s : NKF) (t : KF n m l) (h : Stores true s t) (H : Mat m n) (v : Vec m)
    (hS : (t.inv (H * (t.P * Hᵀ) + H * t.M + t.Mᵀ * Hᵀ + t.R)).isSome) :
    ∃ s', s.updateCorrelated (some (.d1 m v)) .none (some (.d2 m n H)) = .ok s' ∧
      s'.x.shape = [n, m] ∧ s'.y.shape = [m, m] := by
  obtain ⟨SI, hSI⟩ := Option.isSome_iff_exists.1 hS
  have hi := h.inv (H * (t.P * Hᵀ) + H * t.M + t.Mᵀ * Hᵀ + t.R)
  rw [hSI] at hi
  simp only [NKF.updateCorrelated, NKF.measured, NKF.residual, NKF.correlatedS, Option.getD_some, NKF.unwrapped, NKF.wrapped,
    NdArg.resolve, h.x, h.P, h.R, h.M, vecAs, if_true, dot_mm, bind, Except.bind, NKF.lift, Nd.T,
    Nd.sub, add_mm, broadcast_vec_col, hi, NKF.correct, NKF.correlatedK, NKF.correlatedP]
  simp only [Nd.add, dot_mm, broadcast_col_mat, broadcast_d2]
  exact ⟨_, rfl, rfl, rfl⟩


/-- **C137, `get_prediction`.**  Whatever the shapes of the attributes and of the arguments, right or wrong: if
`predict(u, B, F, Q)` succeeds, `get_prediction(u, B, F, Q)` returns the state and the covariance that it would store, and
if it raises, `get_prediction` raises the same exception. -/
theorem C137_get_prediction (s : NKF) (u B F : Option Nd) (Q : NdArg) :
    (∀ s', s.predict u B F Q = .ok s' → s.getPrediction u B F Q = .ok (s'.x, s'.P)) ∧
    (∀ e s', s.predict u B F Q = .error (e, s') → s.getPrediction u B F Q = .error e) := by
  simp only [NKF.predict, NKF.getPrediction, bind, Except.bind]
  cases NKF.stepX (F.getD s.F) s.x (B.or s.B) u with
  | error e => simp [NKF.lift]
  | ok x =>
    simp only [NKF.lift]
    cases NKF.stepP s.alphaSq (F.getD s.F) s.P (Q.resolve s.dimX s.Q) with
    | error e => simp
    | ok P =>
      simp only [Except.ok.injEq, reduceCtorEq, false_implies, implies_true, and_true]
      rintro s' rfl
      rfl

/-- **C137, `get_update`.**  The same for `get_update(z)` and `update(z)`, whatever the shapes. -/
theorem C137_get_update (s : NKF) (z : Option Nd) :
    (∀ s', s.update z .none none = .ok s' → s.getUpdate z = .ok (s'.x, s'.P)) ∧
    (∀ e s', s.update z .none none = .error (e, s') → s.getUpdate z = .error e) := by
  cases z with
  | none => exact ⟨by rintro s' h; cases h; rfl, by rintro e s' h; cases h⟩
  | some z =>
    simp only [NKF.update, NKF.getUpdate, NKF.measured, NdArg.resolve, Option.getD_none, bind, Except.bind]
    cases Nd.reshapeZ z s.dimZ s.x.ndim with
    | error e => simp [NKF.lift]
    | ok z =>
    simp only [NKF.lift]
    cases NKF.residual z s.H s.x with
    | error e => simp
    | ok y =>
    simp only
    cases Nd.dot s.P s.H.T with
    | error e => simp
    | ok PHT =>
    simp only
    cases NKF.innovCov s.H PHT s.R with
    | error e => simp
    | ok S =>
    simp only
    cases s.inv S with
    | error e => simp
    | ok SI =>
    simp only
    cases Nd.dot PHT SI with
    | error e => simp
    | ok K =>
    simp only
    cases NKF.correct s.x K y with
    | error e => simp
    | ok x =>
    simp only
    cases NKF.joseph s.dimX K s.H s.P s.R with
    | error e => simp
    | ok P =>
      simp only [Except.ok.injEq, reduceCtorEq, false_implies, implies_true, and_true]
      rintro s' rfl
      rfl

/-- **C137, `residual_of`.**  For 1-D and column states: every form of `m` values is accepted and the residual to the
prior has the shape of the state; anything else raises `ValueError`. -/
theorem C137_residual_of (col : Bool) (s : NKF) (t : KF n m l) (h : Stores col s t) (z : Nd) :
    (∀ v : Vec m, Holds v z → s.residualOf z = .ok (vecAs col (t.residualOf v))) ∧
    ((∀ v : Vec m, ¬ Holds v z) → s.residualOf z = .error .valueError) := by
  constructor
  · intro v hz
    simp only [NKF.residualOf, h.dimZ, h.x, vecAs_ndim, reshapeZ_holds col hz, bind, Except.bind, NKF.residual, h.H,
      h.xPrior, dot_vecAs, sub_vecAs, KF.residualOf]
  · intro hz
    have hr := reshapeZ_bad z s.x.ndim hz
    simp only [NKF.residualOf, h.dimZ, hr, bind, Except.bind]

/-- **C137, `measurement_of_state`.**  The result has the shape of the argument, which need not be the shape of the state of
the filter; a matrix of states, one per column, gives the matrix of their measurements. -/
theorem C137_measurement_of_state (col c : Bool) (s : NKF) (t : KF n m l) (h : Stores col s t) (x : Vec n) :
    s.measurementOfState (vecAs c x) = .ok (vecAs c (t.measurementOfState x)) ∧
    ∀ (k : ℕ) (X : Mat n k), s.measurementOfState (.d2 n k X)
      = .ok (.d2 m k (of fun i j => t.measurementOfState (fun i => X i j) i)) := by
  refine ⟨by simp only [NKF.measurementOfState, h.H, dot_vecAs, KF.measurementOfState], fun k X => ?_⟩
  simp only [NKF.measurementOfState, h.H, dot_mm, KF.measurementOfState]
  rfl

/-- **C137, `mahalanobis`.**  The property has the value of the mathematical model whether the residual is stored as a 1-D
array or as a column, and it changes the cache only. -/
theorem C137_mahalanobis (col : Bool) (s : NKF) (t : KF n m l) (h : Stores col s t) :
    (∀ d t', t.readMahal = .ok (d, t') → ∃ s', s.mahalanobis = .ok (d, s') ∧ Stores col s' t') ∧
    (∀ e, t.readMahal = .error e → s.mahalanobis = .error (e, s)) := by
  obtain ⟨c, hc, hy⟩ := h.y
  unfold NKF.mahalanobis KF.readMahal
  rw [h.mahal]
  cases hm : t.mahal with
  | some v =>
    refine ⟨?_, by simp⟩
    rintro d t' h'
    cases h'
    exact ⟨s, rfl, h⟩
  | none =>
    have e : (s.lift (Nd.dot s.y.T s.SI) >>= fun a => s.lift (Nd.dot a s.y) >>= fun a => s.lift (NKF.toFloat a))
        = .ok (t.y ⬝ᵥ (t.SI *ᵥ t.y)) := by
      rw [hy, h.SI]
      cases c
      · simp only [vecAs, Bool.false_eq_true, if_false, Nd.T]
        simp [Nd.dot, NKF.lift, bind, Except.bind, NKF.toFloat, dotProduct_mulVec]
      · simp only [vecAs, if_true, Nd.T, dot_mm, NKF.lift, bind, Except.bind, NKF.toFloat, and_self, dite_true]
        congr 1
        simp only [Matrix.mul_apply, transpose_apply, of_apply, dotProduct, mulVec, Finset.sum_mul, Finset.mul_sum]
        rw [Finset.sum_comm]
        simp only [mul_assoc]
    simp only [bind, Except.bind] at e ⊢
    cases h1 : s.lift (Nd.dot s.y.T s.SI) with
    | error e' => rw [h1] at e; simp at e
    | ok a =>
    rw [h1] at e
    simp only at e ⊢
    cases h2 : s.lift (Nd.dot a s.y) with
    | error e' => rw [h2] at e; simp at e
    | ok b =>
    rw [h2] at e
    simp only at e ⊢
    rw [e]
    simp only
    by_cases hd : t.y ⬝ᵥ (t.SI *ᵥ t.y) < 0
    · simp only [if_pos hd]
      refine ⟨by simp, ?_⟩
      rintro e' h'
      cases h'
      rfl
    · simp only [if_neg hd]
      refine ⟨?_, by simp⟩
      rintro d t' h'
      cases h'
      exact ⟨_, rfl, { h with mahal := rfl }⟩

/-- All forms become the same column. -/
theorem Spec.HoldsCol.shape {len : ℕ} {v : Vec len} {z : Nd} (h : HoldsCol v z) :
    z.len = len ∧ Nd.reshape z len 1 = .ok (vecAs true v) := by
  cases h with
  | number a hm hv =>
    subst hm
    exact ⟨rfl, by rw [reshape_num, show v = fun _ => a from funext hv]⟩
  | vector => exact ⟨rfl, reshape_vec v⟩
  | column => exact ⟨rfl, reshape_self _⟩

/-- The noise of a slice inside the matrix. -/
theorem sliceR_mat {start len : ℕ} (hb : start + len ≤ m) (R : Mat m m) (Ri : MatArg len) :
    NKF.sliceR (.d2 m m R) start len (matAs Ri)
      = .ok (.d2 len len (Ri.resolve (R.submatrix (KF.sliceIdx hb) (KF.sliceIdx hb)))) := by
  cases Ri with
  | none => exact slice2_d2 hb R
  | scalar c => rfl
  | mat A => rfl

/-- The measurement matrix of a slice inside the matrix. -/
theorem sliceH_mat {start len : ℕ} (hb : start + len ≤ m) (H : Mat m n) (Hi : Option (Mat len n)) :
    NKF.sliceH (.d2 m n H) n start len (Hi.map fun H => .d2 len n H)
      = .ok (.d2 len n (Hi.getD (H.submatrix (KF.sliceIdx hb) id))) := by
  cases Hi with
  | none => simp only [NKF.sliceH, Option.map_none, slice_d2 hb, bind, Except.bind, reshape_self, Option.getD_none]
  | some H => simp only [NKF.sliceH, Option.map_some, reshape_self, Option.getD_some]

/-- The gain of a slice. -/
theorem sliceK_mat {len : ℕ} (PHT : Mat n len) (S : Mat len len) :
    NKF.sliceK len (.d2 n len PHT) (.d2 len len S)
      = if hl : len = 1 then
          (if S ⟨0, by omega⟩ ⟨0, by omega⟩ = 0 then .error .nonFinite
            else .ok (.d2 n len ((1.0 / S ⟨0, by omega⟩ ⟨0, by omega⟩) • PHT)))
        else match npInv S with
          | none => .error .linAlgError
          | some SI => .ok (.d2 n len (PHT * SI)) := by
  unfold NKF.sliceK
  by_cases hl : len = 1
  · subst hl
    rw [if_pos rfl, dif_pos rfl]
    by_cases h0 : S ⟨0, by omega⟩ ⟨0, by omega⟩ = 0
    · rw [oneOver_zero (by exact h0), if_pos h0]; rfl
    · rw [oneOver_one (by exact h0), if_neg h0]
      exact mul_col_one _ _
  · rw [if_neg hl, dif_neg hl, Nd.inv_sq]
    cases npInv S with
    | none => rfl
    | some SI => exact dot_mm _ _

/-- **C137, `update_sequential`.**  For a column state, a slice inside `0 … dim_z` and values passed as a number, 1-D array
or column, `update_sequential` computes the numbers of the mathematical model (`C14`), keeps the shapes and raises the
same exceptions.  Missing: 1-D states (`C137_sequential_refuted`); the attribute `z` is not followed here. -/
theorem C137_sequential_partial (s : NKF) (t : KF n m l) (h : Stores true s t) {start len : ℕ} (hb : start + len ≤ m)
    (z : Nd) (v : Vec len) (hz : HoldsCol v z) (Ri : MatArg len) (Hi : Option (Mat len n)) :
    Agree (fun s' t' => Stores true s' { t' with z := t.z })
      (s.updateSequential start z (matAs Ri) (Hi.map fun H => .d2 len n H)) (t.updateSequential start v Ri Hi) := by
  obtain ⟨hl, hr⟩ := hz.shape
  obtain ⟨c, hc, hy⟩ := h.y
  rw [hc rfl] at hy
  unfold NKF.updateSequential KF.updateSequential
  rw [dif_pos hb]
  simp only [hl, hr, h.R, h.H, h.dimX, sliceR_mat hb, sliceH_mat hb, NKF.lift, NKF.residual, h.x, dot_vecAs, sub_vecAs, hy,
    setRows_col hb, h.P, Nd.T, dot_mm, NKF.innovCov, add_mm, bind, Except.bind]
  generalize Ri.resolve (t.R.submatrix (KF.sliceIdx hb) (KF.sliceIdx hb)) = R
  generalize Hi.getD (t.H.submatrix (KF.sliceIdx hb) id) = H
  rw [sliceK_mat]
  by_cases hl1 : len = 1
  · simp only [dif_pos hl1]
    split_ifs with h0
    · exact ⟨rfl, { h with
      dimX := rfl, x := rfl, P := rfl, H := rfl, R := rfl, y := ⟨true, id, rfl⟩ }⟩
    · simp only [h.K, setCols_mat hb, NKF.sliceIKH, dot_mm, Nd.eye, sub_mm, NKF.sliceX, dot_vecAs, addInto_vecAs,
        NKF.sliceP, Nd.T, add_mm, bind, Except.bind]
      exact { h with
        dimX := rfl, H := rfl, R := rfl, y := ⟨true, id, rfl⟩, K := rfl, x := rfl, P := rfl, xPost := rfl, PPost := rfl }
  · simp only [dif_neg hl1]
    cases npInv (H * (t.P * Hᵀ) + R) with
    | none => exact ⟨rfl, { h with
      dimX := rfl, x := rfl, P := rfl, H := rfl, R := rfl, y := ⟨true, id, rfl⟩ }⟩
    | some SI =>
      simp only [h.K, setCols_mat hb, NKF.sliceIKH, dot_mm, Nd.eye, sub_mm, NKF.sliceX, dot_vecAs, addInto_vecAs,
        NKF.sliceP, Nd.T, add_mm, bind, Except.bind]
      exact { h with
        dimX := rfl, H := rfl, R := rfl, y := ⟨true, id, rfl⟩, K := rfl, x := rfl, P := rfl, xPost := rfl, PPost := rfl }


/-- Elementwise arithmetic with a 2-D array gives a 2-D array. -/
theorem broadcast_d2_left (f : ℝ → ℝ → ℝ) {a b : ℕ} (A : Mat a b) (c d : Nd) (h : broadcast f (.d2 a b A) c = .ok d) :
    d.ndim = 2 := by
  unfold broadcast at h
  have hn : max (Nd.d2 a b A).ndim c.ndim = 2 := by
    cases c <;> rfl
  rw [hn] at h
  split at h
  · simp only [Except.ok.injEq] at h
    rw [← h]; rfl
  · cases h

/-- Elementwise arithmetic with a 2-D array gives a 2-D array. -/
theorem broadcast_d2_right (f : ℝ → ℝ → ℝ) {a b : ℕ} (A : Mat a b) (c d : Nd) (h : broadcast f c (.d2 a b A) = .ok d) :
    d.ndim = 2 := by
  unfold broadcast at h
  have hn : max c.ndim (Nd.d2 a b A).ndim = 2 := by
    cases c <;> rfl
  rw [hn] at h
  split at h
  · simp only [Except.ok.injEq] at h
    rw [← h]; rfl
  · cases h

/-- An array with two axes. -/
theorem ndim_two {a : Nd} (h : a.ndim = 2) : ∃ m n A, a = .d2 m n A := by
  cases a with
  | d0 a => simp [Nd.ndim, Nd.shape] at h
  | d1 n v => simp [Nd.ndim, Nd.shape] at h
  | d2 m n A => exact ⟨m, n, A, rfl⟩

/-- The product of 2-D arrays is a 2-D array. -/
theorem dot_d2_ndim {a b c d : ℕ} (A : Mat a b) (B : Mat c d) (r : Nd) (h : Nd.dot (.d2 a b A) (.d2 c d B) = .ok r) :
    r.ndim = 2 := by
  simp only [Nd.dot] at h
  split at h
  · cases h; rfl
  · cases h

/-- `np.reshape(a, [k, p])` has shape `(k, p)`. -/
theorem reshape_ndim {a b : Nd} {k p : ℕ} (h : Nd.reshape a k p = .ok b) : ∃ A : Mat k p, b = .d2 k p A := by
  unfold Nd.reshape at h
  split at h
  · cases h; exact ⟨_, rfl⟩
  · cases h

/-- The measurement matrix of a slice is a 2-D array. -/
theorem sliceH_ndim {H b : Nd} {d start L : ℕ} {Hi : Option Nd} (h : NKF.sliceH H d start L Hi = .ok b) :
    ∃ A : Mat L d, b = .d2 L d A := by
  cases Hi with
  | some H => exact reshape_ndim h
  | none =>
    simp only [NKF.sliceH, bind, Except.bind] at h
    cases hs : Nd.slice H start (start + L) with
    | error e => rw [hs] at h; cases h
    | ok H' => rw [hs] at h; exact reshape_ndim h

/-- The gain of a slice is a 2-D array. -/
theorem sliceK_ndim {L a b : ℕ} {PHT : Mat a b} {S K : Nd} (h : NKF.sliceK L (.d2 a b PHT) S = .ok K) : K.ndim = 2 := by
  unfold NKF.sliceK at h
  split at h
  · simp only [bind, Except.bind] at h
    cases ho : Nd.oneOver S with
    | error e => rw [ho] at h; cases h
    | ok r => rw [ho] at h; exact broadcast_d2_left _ _ _ _ h
  · simp only [bind, Except.bind] at h
    cases S with
    | d0 a => cases h
    | d1 k v => cases h
    | d2 p q S =>
      cases hi : Nd.inv (.d2 p q S) with
      | error e => rw [hi] at h; cases h
      | ok SI =>
        rw [hi] at h
        by_cases hpq : q = p
        · subst hpq
          rw [Nd.inv_sq] at hi
          cases hq : npInv S with
          | none => rw [hq] at hi; cases hi
          | some B => rw [hq] at hi; cases hi; exact dot_d2_ndim _ _ _ h
        · simp [Nd.inv, hpq] at hi

/-- A 2-D correction cannot be added in place to a 1-D state. -/
theorem sliceX_vec {k a b c d : ℕ} (x : Vec k) (K : Mat a b) (y : Mat c d) :
    NKF.sliceX (.d1 k x) (.d2 a b K) (.d2 c d y) = .error .valueError := by
  simp only [NKF.sliceX, bind, Except.bind]
  cases hd : Nd.dot (.d2 a b K) (.d2 c d y) with
  | error e =>
    simp only [Nd.dot] at hd
    split at hd
    · cases hd
    · cases hd; rfl
  | ok r =>
    obtain ⟨p, q, A, rfl⟩ := ndim_two (dot_d2_ndim _ _ _ hd)
    simp only [Nd.addInto]
    cases ha : Nd.add (.d1 k x) (.d2 p q A) with
    | error e =>
      unfold Nd.add broadcast at ha
      simp only
      congr 1
      split at ha
      · split at ha <;> cases ha
      · cases ha; rfl
    | ok c =>
      obtain ⟨_, _, _, rfl⟩ := ndim_two (broadcast_d2_right _ _ _ _ ha)
      simp [Nd.shape]

/-- **C137 is false for `update_sequential` and a 1-D state.**  Whatever is passed, it never succeeds: it raises an
exception and leaves `x` and `P` as they were. -/
theorem C137_sequential_refuted (s : NKF) (t : KF n m l) (h : Stores false s t) (start : ℕ) (z : Nd) (Ri : NdArg)
    (Hi : Option Nd) :
    ∃ e s', s.updateSequential start z Ri Hi = .error (e, s') ∧ s'.x = s.x ∧ s'.P = s.P := by
  unfold NKF.updateSequential
  simp only [bind, Except.bind, h.dimX, h.x, h.P]
  cases hz : Nd.reshape z z.len 1 with
  | error e => exact ⟨_, _, rfl, h.x, h.P⟩
  | ok zi =>
  obtain ⟨zi, rfl⟩ := reshape_ndim hz
  simp only [NKF.lift]
  cases NKF.sliceR s.R start z.len Ri with
  | error e => exact ⟨_, _, rfl, h.x, h.P⟩
  | ok R =>
  simp only
  cases hH : NKF.sliceH s.H n start z.len Hi with
  | error e => exact ⟨_, _, rfl, h.x, h.P⟩
  | ok H =>
  obtain ⟨H, rfl⟩ := sliceH_ndim hH
  simp only [NKF.residual, bind, Except.bind, dot_vecAs]
  simp only [vecAs, Bool.false_eq_true, if_false, Nd.sub, broadcast_col_vec]
  cases Nd.setRows s.y start (start + z.len) (.d2 z.len z.len (of fun i j => zi i 0 - (H *ᵥ t.x) j)) with
  | error e => exact ⟨_, _, rfl, h.x, h.P⟩
  | ok y =>
  simp only [Nd.T, dot_mm]
  cases NKF.innovCov (.d2 z.len n H) (.d2 n z.len (t.P * Hᵀ)) R with
  | error e => exact ⟨_, _, rfl, rfl, rfl⟩
  | ok S =>
  simp only
  cases hK : NKF.sliceK z.len (.d2 n z.len (t.P * Hᵀ)) S with
  | error e => exact ⟨_, _, rfl, rfl, rfl⟩
  | ok Ki =>
  obtain ⟨a, b, Ki, rfl⟩ := ndim_two (sliceK_ndim hK)
  simp only
  cases Nd.setCols s.K start (start + z.len) (.d2 a b Ki) with
  | error e => exact ⟨_, _, rfl, rfl, rfl⟩
  | ok K =>
  simp only
  cases NKF.sliceIKH n (.d2 a b Ki) (.d2 z.len n H) with
  | error e => exact ⟨_, _, rfl, rfl, rfl⟩
  | ok I =>
  simp only [sliceX_vec]
  exact ⟨_, _, rfl, rfl, rfl⟩

/-- One value stored in the residual, 1-D or column. -/
theorem setRows_one (c : Bool) {start : ℕ} (hb : start + 1 ≤ m) (y : Vec m) (b : Mat 1 1) :
    Nd.setRows (vecAs c y) start (start + 1) (.d2 1 1 b) = .ok (vecAs c (KF.sliceSet hb y fun _ : Fin 1 => b 0 0)) := by
  cases c
  · simp only [vecAs, Bool.false_eq_true, if_false, Nd.setRows, Nd.rows, Nd.cols, sliceLen_le hb, fits, true_or, and_self, if_true]
    congr 2
  · have := setRows_col hb y fun _ : Fin 1 => b 0 0
    rw [← this]
    congr 1
    simp only [vecAs, if_true]
    congr 1
    ext i j
    rw [Subsingleton.elim i 0, Subsingleton.elim j 0]
    rfl

/-- **C137: the failed `update_sequential` has side effects.**  With a 1-D state and one measured value the residual and the
gain have been overwritten when the `ValueError` is raised, while the state and covariance have not been updated. -/
theorem C137_sequential_half_done_refuted (s : NKF) (t : KF n m l) (h : Stores false s t) {start : ℕ} (hb : start + 1 ≤ m)
    (a : ℝ) (hS : (t.H * (t.P * t.Hᵀ) + t.R) ⟨start, hb⟩ ⟨start, hb⟩ ≠ 0) :
    ∃ s', s.updateSequential start (.d0 a) .none none = .error (.valueError, s') ∧
      s'.x = s.x ∧ s'.P = s.P ∧
      (∃ c, s'.y = vecAs c (KF.sliceSet hb t.y fun _ : Fin 1 => a - (t.H *ᵥ t.x) ⟨start, hb⟩)) ∧
      s'.K = .d2 n m (fun i => KF.sliceSet hb (t.K i) fun _ : Fin 1 =>
        (t.P * t.Hᵀ) i ⟨start, hb⟩ / (t.H * (t.P * t.Hᵀ) + t.R) ⟨start, hb⟩ ⟨start, hb⟩) := by
  obtain ⟨c, -, hy⟩ := h.y
  have hidx : KF.sliceIdx hb (0 : Fin 1) = ⟨start, hb⟩ := rfl
  have hR := sliceR_mat hb t.R .none
  have hH := sliceH_mat hb t.H none
  simp only [matAs, Option.map_none, MatArg.resolve, Option.getD_none] at hR hH
  unfold NKF.updateSequential
  simp only [bind, Except.bind, h.dimX, h.x, h.P, h.R, h.H, Nd.len, reshape_num, NKF.lift, hR, hH, NKF.residual, dot_vecAs]
  simp only [vecAs, Bool.false_eq_true, if_false, if_true, Nd.sub, broadcast_col_vec]
  rw [hy, setRows_one c hb]
  have hSe : (t.H.submatrix (KF.sliceIdx hb) id * (t.P * (t.H.submatrix (KF.sliceIdx hb) id)ᵀ)
      + t.R.submatrix (KF.sliceIdx hb) (KF.sliceIdx hb)) 0 0 = (t.H * (t.P * t.Hᵀ) + t.R) ⟨start, hb⟩ ⟨start, hb⟩ := by
    simp [Matrix.mul_apply, hidx]
  simp only [NKF.innovCov, Nd.T, dot_mm, add_mm, bind, Except.bind]
  rw [sliceK_mat, dif_pos rfl, if_neg (by exact fun h0 => hS (hSe ▸ h0))]
  simp only [h.K, setCols_mat hb, NKF.sliceIKH, dot_mm, Nd.eye, sub_mm, bind, Except.bind, sliceX_vec]
  refine ⟨_, rfl, rfl, rfl, ⟨c, ?_⟩, ?_⟩
  · congr 2
  · refine congrArg (Nd.d2 n m) (funext fun i => congrArg (KF.sliceSet hb (t.K i)) (funext fun j => ?_))
    rw [Subsingleton.elim j 0, ← hSe]
    have hP : (t.P * (t.H.submatrix (KF.sliceIdx hb) id)ᵀ) i 0 = (t.P * t.Hᵀ) i ⟨start, hb⟩ := by
      simp [Matrix.mul_apply, hidx]
    rw [← hP, Matrix.smul_apply, smul_eq_mul, show (1.0 : ℝ) = 1 by norm_num, one_div, inv_mul_eq_div]
    rfl

/-- **C137: an index beyond the last sensor may pass silently.**  `update_sequential(start, z, R, H)` with `start ≥ dim_z`
and a single value with its own noise and measurement matrix raises nothing: state and covariance are updated exactly as
by an ordinary `update` with this sensor, but `y`, `K` and `S` keep the values of earlier measurements. -/
theorem C137_sequential_beyond_refuted (s : NKF) (t : KF n m l) (h : Stores true s t) {start : ℕ} (hb : m ≤ start)
    (z : Nd) (v : Vec 1) (hz : HoldsCol v z) (R : Mat 1 1) (H : Mat 1 n) (t1 : KF n 1 l) (hx : t1.x = t.x) (hP : t1.P = t.P)
    (hinv : t1.inv = npInv) (hS : (H * (t.P * Hᵀ) + R).det ≠ 0) :
    ∃ s' t1', s.updateSequential start z (.arr (.d2 1 1 R)) (some (.d2 1 n H)) = .ok s' ∧
      t1.update (some v) (.mat R) (some H) = .ok t1' ∧
      s'.x = vecAs true t1'.x ∧ s'.P = .d2 n n t1'.P ∧ s'.y = s.y ∧ s'.K = s.K ∧ s'.S = s.S := by
  obtain ⟨hl, hr⟩ := hz.shape
  obtain ⟨c, hc, hy⟩ := h.y
  rw [hc rfl] at hy
  have hS0 : (H * (t.P * Hᵀ) + R) 0 0 ≠ 0 := by rwa [det_fin_one] at hS
  have hi : npInv (H * (t.P * Hᵀ) + R) = some (H * (t.P * Hᵀ) + R)⁻¹ := npInv_of_det_ne hS
  have hK : t.P * Hᵀ * (H * (t.P * Hᵀ) + R)⁻¹ = (1.0 / (H * (t.P * Hᵀ) + R) 0 0) • (t.P * Hᵀ) := by
    have e : (H * (t.P * Hᵀ) + R) = ((H * (t.P * Hᵀ) + R) 0 0) • (1 : Mat 1 1) := by
      ext i j
      rw [Subsingleton.elim i 0, Subsingleton.elim j 0]
      simp
    have e2 : (H * (t.P * Hᵀ) + R)⁻¹ = ((H * (t.P * Hᵀ) + R) 0 0)⁻¹ • (1 : Mat 1 1) := by
      refine inv_eq_left_inv ?_
      generalize (H * (t.P * Hᵀ) + R) 0 0 = c at e hS0
      rw [e, smul_mul_smul_comm, inv_mul_cancel₀ hS0, _root_.one_smul, Matrix.mul_one]
    rw [e2, Matrix.mul_smul, Matrix.mul_one]
    congr 1
    norm_num
  unfold NKF.updateSequential
  simp only [hl, hr, h.dimX, NKF.sliceR, NKF.sliceH, reshape_self, NKF.lift, NKF.residual, h.x, dot_vecAs, sub_vecAs, hy,
    setRows_beyond hb, h.P, Nd.T, dot_mm, NKF.innovCov, add_mm, bind, Except.bind]
  rw [sliceK_mat, dif_pos rfl, if_neg (by exact hS0)]
  simp only [h.K, setCols_beyond hb, NKF.sliceIKH, dot_mm, Nd.eye, sub_mm, NKF.sliceX, dot_vecAs, addInto_vecAs,
        NKF.sliceP, Nd.T, add_mm, bind, Except.bind]
  have hu : ∃ t1', t1.update (some v) (.mat R) (some H) = .ok t1' := by
    simp only [KF.update, hinv, hP, MatArg.resolve, Option.getD_some, hi]
    exact ⟨_, rfl⟩
  obtain ⟨t1', hu⟩ := hu
  refine ⟨_, t1', rfl, hu, ?_, ?_, rfl, rfl, rfl⟩
  all_goals
    simp only [KF.update, hinv, hP, hx, MatArg.resolve, Option.getD_some, hi, hK, Except.ok.injEq] at hu
    subst hu
    rfl

/-- **C137: every other slice that runs past the end is refused** with `ValueError`, and the filter is unchanged. -/
theorem C137_sequential_range (s : NKF) (t : KF n m l) (h : Stores true s t) (hn : 0 < n) {start len : ℕ} (hl : 0 < len)
    (hb : m < start + len) (z : Nd) (v : Vec len) (hz : HoldsCol v z) (Ri : MatArg len) (Hi : Option (Mat len n))
    (hown : len = 1 → Ri = .none ∨ Hi = none) :
    s.updateSequential start z (matAs Ri) (Hi.map fun H => .d2 len n H) = .error (.valueError, s) := by
  obtain ⟨hlz, hr⟩ := hz.shape
  obtain ⟨c, hc, hy⟩ := h.y
  rw [hc rfl] at hy
  have hsl : sliceLen m start (start + len) < len := by unfold sliceLen; omega
  obtain ⟨R, hR⟩ : ∃ R, NKF.sliceR s.R start len (matAs Ri) = .ok R := by
    cases Ri with
    | none => rw [h.R]; exact ⟨_, rfl⟩
    | scalar c => exact ⟨_, rfl⟩
    | mat A => exact ⟨_, rfl⟩
  unfold NKF.updateSequential
  simp only [hlz, hr, hR, h.dimX, NKF.lift, bind, Except.bind]
  cases Hi with
  | none =>
    have : NKF.sliceH s.H n start len none = .error .valueError := by
      simp only [NKF.sliceH, h.H, Nd.slice, bind, Except.bind, Nd.reshape]
      refine if_neg fun h0 => ?_
      simp only [Nd.size] at h0
      exact absurd (Nat.eq_of_mul_eq_mul_right hn h0) (by omega)
    simp only [Option.map_none, this]
  | some H =>
    simp only [Option.map_some, NKF.sliceH, reshape_self, NKF.residual, h.x, dot_vecAs, sub_vecAs, bind, Except.bind]
    by_cases h1 : len = 1
    · subst h1
      have hRi : Ri = .none := by
        rcases hown rfl with h | h
        · exact h
        · cases h
      subst hRi
      have hm : m ≤ start := by omega
      have h00 : sliceLen m start (start + 1) = 0 := by unfold sliceLen; omega
      have hR0 : ∃ A : Mat 0 0, R = .d2 0 0 A := by
        rw [h.R] at hR
        simp only [NKF.sliceR, matAs, Nd.slice2, Except.ok.injEq] at hR
        rw [← hR]
        refine ⟨0, ext_d2 h00 h00 fun i j hi hj => ?_⟩
        rw [h00] at hi
        omega
      obtain ⟨A, rfl⟩ := hR0
      have hs : ({ s with dimX := n, x := vecAs true t.x, P := .d2 n n t.P, y := vecAs true t.y } : NKF) = s := by
        have h1 := h.dimX
        have h2 := h.x
        have h3 := h.P
        cases s
        simp only at h1 h2 h3 hy
        subst h2 h3 hy
        simp [h1]
      simp only [hy, setRows_beyond hm, h.P, Nd.T, dot_mm, NKF.innovCov, bind, Except.bind]
      have hadd : ∀ B : Mat 1 1, Nd.add (.d2 1 1 B) (.d2 0 0 A) = .ok (.d2 0 0 0) := by
        intro B
        simp only [Nd.add, broadcast, Nd.rows, Nd.cols, one_bdim, Nd.ndim, Nd.shape, List.length_cons, List.length_nil,
          max_self]
        congr 1
        exact ext_d2 rfl rfl fun i j hi hj => by omega
      have hover : Nd.oneOver (.d2 0 0 0) = .ok (.d2 0 0 0) := by
        unfold Nd.oneOver
        rw [if_neg]
        · exact congrArg Except.ok (ext_d2 rfl rfl fun i j hi hj => by omega)
        · rintro ⟨i, j, hi, -⟩
          simp [Nd.rows] at hi
      simp only [hadd, NKF.sliceK, if_true, hover, bind, Except.bind]
      by_cases hn1 : n = 1
      · subst hn1
        have hmul : ∀ B : Mat 1 1, Nd.mul (.d2 1 1 B) (.d2 0 0 0) = .ok (.d2 0 0 0) := by
          intro B
          simp only [Nd.mul, broadcast, Nd.rows, Nd.cols, one_bdim, Nd.ndim, Nd.shape, List.length_cons, List.length_nil,
            max_self]
          congr 1
          exact ext_d2 rfl rfl fun i j hi hj => by omega
        have hset : Nd.setCols s.K start (start + 1) (.d2 0 0 0) = .error .valueError := by
          rw [h.K]
          simp only [Nd.setCols]
          refine if_neg fun h0 => ?_
          have := h0.1
          simp only [Nd.rows] at this
          omega
        simp only [hmul, hset]
        rw [hs]
      · have hmul : ∀ B : Mat n 1, Nd.mul (.d2 n 1 B) (.d2 0 0 0) = .error .valueError := by
          intro B
          have : bdim n 0 = none := by
            unfold bdim
            rw [if_neg (by omega), if_neg hn1, if_neg (by omega)]
          simp only [Nd.mul, broadcast, Nd.rows, Nd.cols, this]
        simp only [hmul]
        rw [hs]
    · have : Nd.setRows s.y start (start + len) (vecAs true (v - H *ᵥ t.x)) = .error .valueError := by
        rw [hy]
        simp only [vecAs, if_true, Nd.setRows, Nd.rows, Nd.cols, fits]
        rw [if_neg (by omega)]
      simp only [this]

/-! ### The hypotheses are met -/

/-- A new filter with two state variables and one sensor, column and 1-D. -/
example : Stores true (NKF.fresh 2 1) (KF.fresh 2 1 1) ∧
    Stores false { NKF.fresh 2 1 with x := .d1 2 0, xPrior := .d1 2 0, xPost := .d1 2 0 } (KF.fresh 2 1 1) :=
  ⟨C72_fresh 2 1 1, { C72_fresh 2 1 1 with x := rfl, xPrior := rfl, xPost := rfl, y := ⟨true, fun _ => rfl, rfl⟩ }⟩

/-- On the new filter `update_sequential(0, 5)` succeeds with the column state and fails with the 1-D state. -/
example : (∃ s', (NKF.fresh 2 1).updateSequential 0 (.d0 5) .none none = .ok s') ∧
    ∃ s', ({ NKF.fresh 2 1 with x := .d1 2 0, xPrior := .d1 2 0, xPost := .d1 2 0 } : NKF).updateSequential 0 (.d0 5) .none none
      = .error (.valueError, s') := by
  constructor
  · have h := C137_sequential_partial (NKF.fresh 2 1) (KF.fresh 2 1 1) (C72_fresh 2 1 1) (start := 0) (len := 1) (le_refl _)
      (.d0 5) (fun _ => 5) (.number 5 rfl fun _ => rfl) .none none
    obtain ⟨t', ht⟩ := KF.updateSequential_total (KF.fresh 2 1 1) (start := 0) (len := 1) (le_refl _) (fun _ => 5) .none none (by
      simp [KF.fresh, MatArg.resolve, det_fin_one, KF.sliceIdx])
    rw [ht] at h
    cases hs : (NKF.fresh 2 1).updateSequential 0 (.d0 5) .none none with
    | ok s' => exact ⟨s', rfl⟩
    | error e =>
      simp only [matAs, Option.map_none] at h
      rw [hs] at h
      exact h.elim
  · obtain ⟨s', h, -⟩ := C137_sequential_half_done_refuted
      { NKF.fresh 2 1 with x := .d1 2 0, xPrior := .d1 2 0, xPost := .d1 2 0 } (KF.fresh 2 1 1)
      { C72_fresh 2 1 1 with x := rfl, xPrior := rfl, xPost := rfl, y := ⟨true, fun _ => rfl, rfl⟩ } (start := 0) (le_refl _) 5
      (by simp [KF.fresh])
    exact ⟨s', h⟩

end Filterpy
