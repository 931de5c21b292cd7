import Verif.Props.KalmanShapes

/-!
# C71: `test_matrix_dimensions`
-/

namespace Filterpy

open Matrix Nd Spec

variable {n m l : ℕ}

theorem check_ok {c : Prop} [Decidable c] : NKF.check c = .ok () ↔ c := by
  unfold NKF.check
  split_ifs with h <;> simp [h]

theorem bind_ok {α : Type} {a : Except Err Unit} {f : Unit → Except Err α} {r : α} :
    (a >>= f) = .ok r ↔ a = .ok () ∧ f () = .ok r := by
  cases a with
  | error e => simp [bind, Except.bind]
  | ok u => simp [bind, Except.bind]

theorem shape_mat (A : Mat m n) : (Nd.d2 m n A).shape = [m, n] := rfl

theorem shape_vec (v : Vec n) : (Nd.d1 n v).shape = [n] := rfl

theorem ndim_mat (A : Mat m n) : (Nd.d2 m n A).ndim = 2 := rfl

theorem shape_d2 {a : Nd} (h : a.shape = [m, n]) : ∃ A : Mat m n, a = .d2 m n A := by
  cases a with
  | d0 _ => simp [Nd.shape] at h
  | d1 _ _ => simp [Nd.shape] at h
  | d2 p q A =>
    simp only [Nd.shape, List.cons.injEq, and_true] at h
    obtain ⟨rfl, rfl⟩ := h
    exact ⟨A, rfl⟩

theorem shape_d1 {a : Nd} (h : a.shape = [n]) : ∃ v : Vec n, a = .d1 n v := by
  cases a with
  | d0 _ => simp [Nd.shape] at h
  | d2 _ _ _ => simp [Nd.shape] at h
  | d1 p v =>
    simp only [Nd.shape, List.cons.injEq, and_true] at h
    subst h
    exact ⟨v, rfl⟩

/-- What a passed check says about the attributes. -/
theorem passed_shapes {s : NKF} {z : Option Nd} {H R F Q : Option Nd}
    (h : s.testMatrixDimensions z H R F Q = .ok ()) :
    ∃ (col : Bool) (x : Vec s.dimX) (k : ℕ) (H' : Mat k s.dimX),
      s.x = vecAs col x ∧ s.P.shape = [s.dimX, s.dimX] ∧ (Q.getD s.Q).shape = [s.dimX, s.dimX] ∧
      (F.getD s.F).shape = [s.dimX, s.dimX] ∧ H.getD s.H = .d2 k s.dimX H' ∧
      NKF.checkR k (R.getD s.R).shape = .ok () ∧
      NKF.checkZ (NKF.zShape s.dimZ z) (if col then [k, 1] else [k]) = .ok () := by
  simp only [NKF.testMatrixDimensions, bind_ok, check_ok] at h
  obtain ⟨h1, h2, h3, h4, h5, h6, h7, h8, h9⟩ := h
  have hx : ∃ (col : Bool) (x : Vec s.dimX), s.x = vecAs col x := by
    unfold NKF.checkX at h2
    by_cases hn : s.x.ndim = 1
    · rw [if_pos hn] at h2
      obtain ⟨v, hv⟩ := shape_d1 (check_ok.1 h2)
      exact ⟨false, v, hv⟩
    · rw [if_neg hn] at h2
      obtain ⟨A, hA⟩ := shape_d2 (check_ok.1 h2)
      refine ⟨true, fun i => A i 0, ?_⟩
      rw [hA]
      simp only [vecAs, if_true]
      congr 1
      ext i j
      rw [Subsingleton.elim j 0]
      rfl
  obtain ⟨col, x, hx⟩ := hx
  obtain ⟨P, hP⟩ := shape_d2 h3
  rw [hP] at h7
  generalize H.getD s.H = H0 at *
  cases H0 with
  | d0 _ => simp [Nd.ndim, Nd.shape] at h6
  | d1 _ _ => simp [Nd.ndim, Nd.shape] at h6
  | d2 k c H' =>
    obtain rfl : c = s.dimX := h7
    refine ⟨col, x, k, H', hx, h3, h4, h5, rfl, h8, ?_⟩
    rw [hx, dot_vecAs] at h9
    simpa only [vecAs_shape, bind, Except.bind] using h9

/-- **C71, accepted.**  A well-formed filter passes the check: with `z` in the representation of the
state, and without `z` if the state is a column or there is one measured value.  Missing: a 1-D state
without `z`, and a `z` that `update` accepts in another representation
(`C71_default_rejects_refuted`, `C71_vector_z_refuted`). -/
theorem C71_accepts_partial (col : Bool) (s : NKF) (t : KF n m l) (h : Stores col s t) :
    (∀ v : Vec m, s.testMatrixDimensions (some (vecAs col v)) none none none none = .ok ()) ∧
    ((col = true ∨ m = 1) → s.testMatrixDimensions none none none none none = .ok ()) := by
  have hR : NKF.checkR m [m, m] = .ok () := by
    unfold NKF.checkR
    split_ifs with h1
    · subst h1; exact check_ok.2 (by simp)
    · exact check_ok.2 rfl
  have key : ∀ z, NKF.checkZ (NKF.zShape m z) (if col then [m, 1] else [m]) = .ok () →
      s.testMatrixDimensions z none none none none = .ok () := by
    intro z hz
    simp only [NKF.testMatrixDimensions, bind_ok, check_ok, Option.getD_none, h.x, h.P, h.Q, h.F, h.H,
      h.R, h.dimX, h.dimZ, vecAs_ndim, dot_vecAs, shape_mat, ndim_mat, Nd.rows, Nd.cols,
      hR, NKF.checkX, vecAs_shape, List.length_cons, List.length_nil, true_and, and_true]
    refine ⟨by cases col <;> simp, by cases col <;> simp [check_ok], ?_⟩
    simpa only [bind, Except.bind, vecAs_shape] using hz
  refine ⟨fun v => key _ ?_, fun hc => key _ ?_⟩
  · simp only [NKF.zShape, vecAs_shape, NKF.checkZ, NKF.checkZ1, bind_ok]
    cases col <;> by_cases hm : m = 1 <;> simp [hm, check_ok]
  · rcases hc with rfl | rfl
    · simp only [NKF.zShape, NKF.checkZ, NKF.checkZ1, bind_ok]
      by_cases hm : m = 1 <;> simp [hm, check_ok]
    · simp only [NKF.zShape, NKF.checkZ, NKF.checkZ1, bind_ok]
      cases col <;> simp [check_ok]

/-- **C71, what a passed check guarantees.**  If the check passes for `z`, `R` is a 2-D array, `H` has
`dim_z` rows, and the state is a column or `z` is 1-D, then neither `predict()` nor `update(z)` raises
a shape error: `predict` succeeds, `update` succeeds or reports a singular system uncertainty, and
the shapes of the state and the covariance are kept.  Each condition is needed
(`C71_vector_R_refuted`, `C71_wrong_H_refuted`, `C71_scalar_z_refuted`). -/
theorem C71_sound_partial (s : NKF) (z : Nd) (hinv : s.inv = Nd.inv)
    (hpass : s.testMatrixDimensions (some z) none none none none = .ok ())
    (hR : s.R.ndim = 2) (hH : s.H.rows = s.dimZ) (hz : s.x.ndim = 2 ∨ z.ndim = 1) :
    (∃ s', s.predict none none none .none = .ok s' ∧ s'.x.shape = s.x.shape ∧
      s'.P.shape = s.P.shape) ∧
    ((∃ s', s.update (some z) .none none = .ok s' ∧ s'.x.shape = s.x.shape ∧
      s'.P.shape = s.P.shape) ∨ ∃ s', s.update (some z) .none none = .error (.linAlgError, s')) := by
  obtain ⟨col, x, k, H, hx, hP, hQ, hF, hH', hcR, hcZ⟩ := passed_shapes hpass
  simp only [Option.getD_none] at hQ hF hH' hcR
  obtain ⟨P, hP'⟩ := shape_d2 hP
  obtain ⟨Q, hQ'⟩ := shape_d2 hQ
  obtain ⟨F, hF'⟩ := shape_d2 hF
  rw [hH'] at hH
  obtain rfl : k = s.dimZ := hH
  have hR' : ∃ R : Mat s.dimZ s.dimZ, s.R = .d2 s.dimZ s.dimZ R := by
    apply shape_d2
    unfold NKF.checkR at hcR
    split_ifs at hcR with h1
    · rw [h1]
      rcases check_ok.1 hcR with h | h | h
      · simp [Nd.ndim, h] at hR
      · simp [Nd.ndim, h] at hR
      · exact h
    · exact check_ok.1 hcR
  obtain ⟨R, hR'⟩ := hR'
  have hv : ∃ v : Vec s.dimZ, Holds v z := by
    simp only [NKF.zShape, NKF.checkZ, bind_ok] at hcZ
    obtain ⟨c1, c2⟩ := hcZ
    cases col
    · have hz1 : z.ndim = 1 := by
        rcases hz with h | h
        · rw [hx, vecAs_ndim] at h; simp at h
        · exact h
      cases z with
      | d0 a => simp [Nd.ndim, Nd.shape] at hz1
      | d2 a b A => simp [Nd.ndim, Nd.shape] at hz1
      | d1 k v =>
        have hk : k = s.dimZ := by
          simp only [NKF.checkZ1, Nd.shape, Bool.false_eq_true, if_false, List.cons_ne_nil] at c1
          split_ifs at c1 with h1
          · have := check_ok.1 c1
            simp at this h1
            omega
          · rcases check_ok.1 c1 with h | ⟨-, h⟩
            · simpa using h
            · simp at h
        subst hk
        exact ⟨v, .vector⟩
    · simp only [if_true] at c1 c2
      cases z with
      | d0 a =>
        have : s.dimZ = 1 := by
          simp only [NKF.checkZ1, Nd.shape, if_true] at c1
          simpa using check_ok.1 c1
        exact ⟨fun _ => a, .number a this fun _ => rfl⟩
      | d1 k v =>
        have hk : k = s.dimZ := by
          simp only [NKF.checkZ1, Nd.shape, List.cons_ne_nil, if_false] at c1
          rw [if_neg (by simp)] at c1
          have := check_ok.1 c1
          simp at this
          omega
        subst hk
        exact ⟨v, .vector⟩
      | d2 a b A =>
        have hk : a = s.dimZ ∧ b = 1 := by
          simp only [NKF.checkZ1, Nd.shape, List.cons_ne_nil, if_false] at c1
          rw [if_neg (by simp)] at c1
          have := check_ok.1 c1
          simpa using this
        obtain ⟨rfl, rfl⟩ := hk
        refine ⟨fun i => A i 0, ?_⟩
        have : A = of fun i _ => A i 0 := by ext i j; rw [Subsingleton.elim j 0]; rfl
        rw [this]
        exact .column
  obtain ⟨v, hv⟩ := hv
  have hz' : s.measured z none = .ok (vecAs col v) := by
    simp only [NKF.measured]
    rw [hx, vecAs_ndim]
    exact reshapeZ_holds col hv
  constructor
  · have e : s.predict none none none .none = .ok { s with
        x := vecAs col (F *ᵥ x), P := .d2 s.dimX s.dimX (s.alphaSq • (F * P * Fᵀ) + Q)
        xPrior := vecAs col (F *ᵥ x), PPrior := .d2 s.dimX s.dimX (s.alphaSq • (F * P * Fᵀ) + Q) } := by
      simp only [NKF.predict, Option.none_or, Option.getD_none, NdArg.resolve, hF', hx, hP', hQ', NKF.stepX,
        NKF.stepP, dot_vecAs, dot_mm, Nd.T, Nd.smul, add_mm, bind, Except.bind, NKF.lift]
      cases s.B <;> rfl
    refine ⟨_, e, ?_, ?_⟩
    · rw [hx, vecAs_shape, vecAs_shape]
    · rw [hP']; rfl
  · have hi := Nd.inv_sq (H * (P * Hᵀ) + R)
    cases hc : npInv (H * (P * Hᵀ) + R) with
    | none =>
      right
      rw [hc] at hi
      simp only [NKF.update, hz', bind, Except.bind, NKF.lift, Option.getD_none, hH', hx, hP', hR',
        NdArg.resolve, NKF.residual, NKF.innovCov, dot_vecAs, sub_vecAs, dot_mm, Nd.T, add_mm, hinv, hi]
      exact ⟨_, rfl⟩
    | some SI =>
      left
      rw [hc] at hi
      simp only [NKF.update, hz', bind, Except.bind, NKF.lift, Option.getD_none, hH', hx, hP', hR',
        NdArg.resolve, NKF.residual, NKF.innovCov, dot_vecAs, sub_vecAs, dot_mm, Nd.T, add_mm, hinv, hi,
        NKF.correct, NKF.joseph, add_vecAs, Nd.eye, sub_mm]
      refine ⟨_, rfl, ?_, ?_⟩
      · simp only [vecAs_shape]
      · rfl

/-- **C71 is false: the default check refuses good filters.**  A well-formed filter with a 1-D state
and several measured values never passes `test_matrix_dimensions()`. -/
theorem C71_default_rejects_refuted (s : NKF) (t : KF n m l) (h : Stores false s t) (hm : m ≠ 1) :
    s.testMatrixDimensions none none none none none = .error .assertion := by
  have hR : NKF.checkR m [m, m] = .ok () := by
    rw [NKF.checkR, if_neg hm]; exact check_ok.2 rfl
  have hx : NKF.checkX n (vecAs false t.x) = .ok () := check_ok.2 rfl
  have c : ∀ {p : Prop} [Decidable p], p → NKF.check p = .ok () := fun h => check_ok.2 h
  have hz : NKF.checkZ [m, 1] [m] = .error .assertion := by
    simp [NKF.checkZ, NKF.checkZ1, hm, NKF.check, bind, Except.bind]
  simp only [NKF.testMatrixDimensions, Option.getD_none, h.x, h.P, h.Q, h.F, h.H, h.R, h.dimX, h.dimZ, hx,
    vecAs_ndim, shape_mat, ndim_mat, Nd.rows, Nd.cols, dot_vecAs, vecAs_shape, hR, Bool.false_eq_true,
    if_false, NKF.zShape, bind, Except.bind, c, hz, true_or, true_and]

/-- **C71 is false: a measurement `update` accepts is refused.**  A column state and a 1-D `z` of
several values, which `update` accepts by `C72_update`. -/
theorem C71_vector_z_refuted (s : NKF) (t : KF n m l) (h : Stores true s t) (hm : m ≠ 1) (v : Vec m) :
    s.testMatrixDimensions (some (.d1 m v)) none none none none = .error .assertion ∧
    Agree (Stores true) (s.update (some (.d1 m v)) .none none) (t.update (some v)) := by
  refine ⟨?_, (C72_update true s t h (.d1 m v) v .vector .none).1⟩
  have hR : NKF.checkR m [m, m] = .ok () := by
    rw [NKF.checkR, if_neg hm]; exact check_ok.2 rfl
  have hx : NKF.checkX n (vecAs true t.x) = .ok () := check_ok.2 rfl
  have c : ∀ {p : Prop} [Decidable p], p → NKF.check p = .ok () := fun h => check_ok.2 h
  have hz : NKF.checkZ [m] [m, 1] = .error .assertion := by
    simp [NKF.checkZ, NKF.checkZ1, hm, NKF.check, bind, Except.bind]
  simp only [NKF.testMatrixDimensions, Option.getD_none, h.x, h.P, h.Q, h.F, h.H, h.R, h.dimX, h.dimZ, hx,
    vecAs_ndim, shape_mat, ndim_mat, Nd.rows, Nd.cols, dot_vecAs, vecAs_shape, hR,
    if_true, NKF.zShape, bind, Except.bind, c, hz, or_true, shape_vec]

/-- **C71 is false: a one-element 1-D `R` passes, but `update` raises.**  The documentation of the check
allows `R` of shape `(1,)`; with two or more state variables `update` then raises `ValueError` - after
the state has been overwritten, but not the covariance. -/
theorem C71_vector_R_refuted (col : Bool) (s : NKF) (t : KF n 1 l) (h : Stores col s t) (hn : n ≠ 1)
    (r : Vec 1) (v : Vec 1) (hS : (t.inv (t.H * (t.P * t.Hᵀ) + of fun _ j => r j)).isSome) :
    let s0 := { s with R := .d1 1 r }
    s0.testMatrixDimensions (some (vecAs col v)) none none none none = .ok () ∧
    ∃ s', s0.update (some (vecAs col v)) .none none = .error (.valueError, s') ∧
      s'.P = s0.P ∧ ∃ K : Mat n 1, s'.x = vecAs col (t.x + K *ᵥ (v - t.H *ᵥ t.x)) := by
  intro s0
  obtain ⟨SI, hSI⟩ := Option.isSome_iff_exists.1 hS
  have hi := h.inv (t.H * (t.P * t.Hᵀ) + of fun _ j => r j)
  rw [hSI] at hi
  have c : ∀ {p : Prop} [Decidable p], p → NKF.check p = .ok () := fun h => check_ok.2 h
  constructor
  · have hR : NKF.checkR 1 [1] = .ok () := check_ok.2 (by simp)
    have hx : NKF.checkX n (vecAs col t.x) = .ok () := by cases col <;> exact check_ok.2 rfl
    have hx2 : ((if col = true then 2 else 1) = 1 ∨ (if col = true then 2 else 1) = 2) = True := by
      cases col <;> simp
    have hz : NKF.checkZ (if col = true then [1, 1] else [1]) (if col = true then [1, 1] else [1])
        = .ok () := by
      cases col <;> simp [NKF.checkZ, NKF.checkZ1, NKF.check, bind, Except.bind]
    simp only [s0, NKF.testMatrixDimensions, Option.getD_none, h.x, h.P, h.Q, h.F, h.H, h.dimX, hx, hx2,
      vecAs_ndim, shape_mat, shape_vec, ndim_mat, Nd.rows, Nd.cols, dot_vecAs, vecAs_shape, hR,
      NKF.zShape, bind, Except.bind, c, hz]
  · have hz : Nd.reshapeZ (vecAs col v) 1 (if col then 2 else 1) = .ok (vecAs col v) :=
      reshapeZ_holds col (by cases col; exacts [.vector, .column])
    have hS : (of fun i j => (t.H * (t.P * t.Hᵀ)) i 0 + r j) = t.H * (t.P * t.Hᵀ) + of fun _ j => r j := by
      ext i j
      rw [Subsingleton.elim j 0]
      rfl
    simp only [NKF.update, NKF.measured, h.dimZ, vecAs_ndim, hz, bind, Except.bind, NKF.lift, Option.getD_none, s0, h.H, h.x, h.P,
      NdArg.resolve, NKF.residual, NKF.innovCov, dot_vecAs, sub_vecAs, dot_mm, Nd.T, Nd.add,
      broadcast_col_vec, hS, hi, NKF.correct]
    simp only [NKF.joseph, h.dimX]
    simp only [bind, Except.bind, dot_mm, Nd.eye, sub_mm, Nd.T, dot_mv, dot_vm_ne (Ne.symm hn)]
    have hadd := add_vecAs col t.x ((t.P * t.Hᵀ * SI) *ᵥ (v - t.H *ᵥ t.x))
    unfold Nd.add at hadd
    simp only [hadd]
    exact ⟨_, rfl, rfl, _, rfl⟩

/-- **C71 is false: a scalar `z` passes, but `update` raises.**  A 1-D state and several measured
values. -/
theorem C71_scalar_z_refuted (s : NKF) (t : KF n m l) (h : Stores false s t) (hm : m ≠ 1) (a : ℝ) :
    s.testMatrixDimensions (some (.d0 a)) none none none none = .ok () ∧
    ∃ s', s.update (some (.d0 a)) .none none = .error (.valueError, s') := by
  constructor
  · have hR : NKF.checkR m [m, m] = .ok () := by
      rw [NKF.checkR, if_neg hm]; exact check_ok.2 rfl
    have hx : NKF.checkX n (vecAs false t.x) = .ok () := check_ok.2 rfl
    have c : ∀ {p : Prop} [Decidable p], p → NKF.check p = .ok () := fun h => check_ok.2 h
    have hz : NKF.checkZ [] [m] = .ok () := by
      simp [NKF.checkZ, NKF.checkZ1, NKF.check, bind, Except.bind]
    have hs : (Nd.d0 a).shape = [] := rfl
    simp only [NKF.testMatrixDimensions, Option.getD_none, h.x, h.P, h.Q, h.F, h.H, h.R, h.dimX, hx,
      vecAs_ndim, shape_mat, ndim_mat, Nd.rows, Nd.cols, dot_vecAs, vecAs_shape, hR, Bool.false_eq_true,
      if_false, NKF.zShape, bind, Except.bind, c, hz, true_or, hs]
  · refine ⟨_, C72_update_bad_z false s t h (.d0 a) ?_ .none⟩
    intro v hv
    cases hv with
    | number _ h1 _ => exact hm h1

/-- **C71 is false: an `H` with the wrong number of rows passes, but `update` raises.**  The check
compares `H` with `R` and `z` only, never with `dim_z`. -/
theorem C71_wrong_H_refuted (s : NKF) (t : KF n m l) (h : Stores true s t) (k : ℕ) (hk : k ≠ m)
    (hk1 : k ≠ 1) (H : Mat k n) (R : Mat k k) (v : Vec k) :
    let s0 := { s with H := .d2 k n H, R := .d2 k k R }
    s0.testMatrixDimensions (some (vecAs true v)) none none none none = .ok () ∧
    ∃ s', s0.update (some (vecAs true v)) .none none = .error (.valueError, s') := by
  intro s0
  constructor
  · have hR : NKF.checkR k [k, k] = .ok () := by
      rw [NKF.checkR, if_neg hk1]; exact check_ok.2 rfl
    have hx : NKF.checkX n (vecAs true t.x) = .ok () := check_ok.2 rfl
    have c : ∀ {p : Prop} [Decidable p], p → NKF.check p = .ok () := fun h => check_ok.2 h
    have hz : NKF.checkZ [k, 1] [k, 1] = .ok () := by
      simp [NKF.checkZ, NKF.checkZ1, NKF.check, bind, Except.bind]
    simp only [s0, NKF.testMatrixDimensions, Option.getD_none, h.x, h.P, h.Q, h.F, h.dimX, hx,
      vecAs_ndim, shape_mat, ndim_mat, Nd.rows, Nd.cols, dot_vecAs, vecAs_shape, hR,
      if_true, NKF.zShape, bind, Except.bind, c, hz, or_true]
  · have hr : Nd.reshapeZ (vecAs true v) m s.x.ndim = .error .valueError := by
      unfold Nd.reshapeZ
      rw [(C57_reshape_z_partial (vecAs true v).toArr m s.x.ndim).2]
      rintro (⟨h1, h2⟩ | ⟨h1, -⟩)
      · exact hk1 h1
      · exact hk h1
    simp only [NKF.update, NKF.measured, s0, h.dimZ, hr]
    exact ⟨_, rfl⟩

/-- The conditions of `C71_sound_partial` are met by a non-trivial filter. -/
example : ∃ s : NKF, s.inv = Nd.inv ∧ s.x.shape = [2] ∧ s.R.ndim = 2 ∧ s.H.rows = s.dimZ ∧
    s.testMatrixDimensions (some (.d1 3 0)) none none none none = .ok () := by
  have h : Stores false { NKF.fresh 2 3 with x := .d1 2 0, xPrior := .d1 2 0, xPost := .d1 2 0 }
      (KF.fresh 2 3 0) := { C72_fresh 2 3 0 with
        x := rfl, xPrior := rfl, xPost := rfl, y := ⟨true, fun _ => rfl, rfl⟩ }
  exact ⟨_, rfl, rfl, rfl, rfl, (C71_accepts_partial false _ _ h).1 0⟩

end Filterpy
