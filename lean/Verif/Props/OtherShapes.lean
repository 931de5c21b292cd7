import Verif.Lemmas.OtherShapes
import Verif.Props.KalmanFuncShapes

/-!
# C138: 1-D and column states in the other filters
-/

namespace Filterpy

open Matrix Nd Spec

variable {n m l : ℕ}

/-- Closes the goals that two objects agree field by field. -/
macro "fields" : tactic =>
  `(tactic| (constructor <;> first | rfl | assumption | exact ⟨_, rfl⟩))

/-! ## `FadingKalmanFilter` -/

/-- **C138, `FadingKalmanFilter.predict`.**  For a 1-D or column state and a control input that fits, `predict` computes the
numbers of the mathematical model and keeps the form of the state, or raises the same exception. -/
theorem C138_fading_predict_partial (col : Bool) (s : NFKF n m l) (t : FKF n m l) (h : FKFStores col s t) (u : UArg l)
    (hu : UOk col t.B u) : Agree (FKFStores col) (s.predict (controlAs col u)) (t.predict u) := by
  obtain ⟨⟩ := s
  obtain ⟨rfl, rfl, rfl, rfl, rfl, rfl, rfl, rfl, hz, rfl, ⟨c, rfl⟩, rfl, rfl, rfl, rfl, rfl, rfl, rfl, rfl, rfl⟩ := h
  cases hc : FKF.control t.B u with
  | error e =>
    simp only [NFKF.predict, FKF.predict, moveX_err col t.F t.x t.B u hu hc, hc, liftAt, bind, Except.bind]
    exact ⟨rfl, by fields⟩
  | ok bu =>
    simp only [NFKF.predict, FKF.predict, moveX_ok col t.F t.x t.B u hu hc, hc, liftAt, bind, Except.bind]
    show FKFStores _ _ _
    fields

/-- **C138, `FadingKalmanFilter.update`.**  The same for every measurement that fits. -/
theorem C138_fading_update_partial (col : Bool) (s : NFKF n m l) (t : FKF n m l) (h : FKFStores col s t) (z : Nd)
    (v : Vec m) (hz : Accepted col v z) (R : MatArg m) :
    Agree (FKFStores col) (s.update (some z) R) (t.update (some v) R) := by
  obtain ⟨⟩ := s
  obtain ⟨rfl, rfl, rfl, rfl, rfl, rfl, rfl, rfl, hz', rfl, ⟨c, rfl⟩, rfl, rfl, rfl, rfl, rfl, rfl, rfl, rfl, rfl⟩ := h
  simp only [NFKF.update, FKF.update, resid_fits col hz t.H t.x, liftAt, bind, Except.bind]
  cases npInv (t.H * (t.P * t.Hᵀ) + R.resolve t.R) with
  | none => exact ⟨rfl, by fields⟩
  | some SI =>
    simp only [corr_vecAs]
    have hz2 : ZAs col (some z) fun i => some (v i) := .inr ⟨z, v, rfl, hz, fun _ => rfl⟩
    show FKFStores _ _ _
    fields

/-- **C138, `FadingKalmanFilter.update(None)`**, likewise. -/
theorem C138_fading_update_none (col : Bool) (s : NFKF n m l) (t : FKF n m l) (h : FKFStores col s t) (R : MatArg m) :
    Agree (FKFStores col) (s.update none R) (t.update none R) := by
  obtain ⟨⟩ := s
  obtain ⟨rfl, rfl, rfl, rfl, rfl, rfl, rfl, rfl, hz', rfl, ⟨c, rfl⟩, rfl, rfl, rfl, rfl, rfl, rfl, rfl, rfl, rfl⟩ := h
  have hz2 : ZAs col none fun _ : Fin m => (none : Option ℝ) := .inl ⟨rfl, fun _ => rfl⟩
  show FKFStores _ _ _
  fields

/-- **C138: exactly the fitting measurements** keep the form of the state. -/
theorem C138_fading_exactly (col : Bool) (s s' : NFKF n m l) (t : FKF n m l) (h : FKFStores col s t) (z : Nd) (R : MatArg m)
    (hok : s.update (some z) R = .ok s') (x' : Vec n) (hx : s'.x = vecAs col x') : ∃ v : Vec m, Accepted col v z := by
  simp only [NFKF.update, bind, Except.bind, h.x] at hok
  cases hy : resid z s.H (vecAs col t.x) with
  | error e => simp [hy, liftAt] at hok
  | ok y =>
    simp only [hy, liftAt] at hok
    cases hi : npInv (s.H * (s.P * s.Hᵀ) + R.resolve s.R) with
    | none => simp [hi] at hok
    | some SI =>
      simp only [hi] at hok
      cases hc : corr (vecAs col t.x) (s.P * s.Hᵀ * SI) y with
      | error e => simp [hc] at hok
      | ok x =>
        simp only [hc, Except.ok.injEq] at hok
        subst hok
        simp only at hx
        exact fits_of_resid col t.x x' s.H _ hy (hx ▸ hc)

/-- **C138 is false for `FadingKalmanFilter.update` of a new (column) filter and a 1-D measurement**: with two or more sensors
the call succeeds and the state has become a matrix. -/
theorem C138_fading_refuted (s : NFKF n m l) (t : FKF n m l) (h : FKFStores true s t) (v : Vec m) (R : MatArg m)
    {SI : Mat m m} (hS : npInv (t.H * (t.P * t.Hᵀ) + R.resolve t.R) = some SI) :
    ∃ s', s.update (some (.d1 m v)) R = .ok s' ∧ s'.x = .d2 n m (of fun i j =>
      t.x i + ((t.P * t.Hᵀ * SI) * (of fun k j => v j - (t.H *ᵥ t.x) k : Mat m m)) i j) := by
  simp only [NFKF.update, bind, Except.bind, h.x, h.H, h.P, h.R, resid_mixed, liftAt, hS, corr_mixed]
  exact ⟨_, rfl, rfl⟩

/-- **C138 is false for `predict()` of `FadingKalmanFilter` with a matrix `B`**: the default `u = 0` is a number, `0·B` is a
matrix, and a column state becomes a matrix with as many columns as `B`, although no control was asked for. -/
theorem C138_fading_predict_refuted (s : NFKF n m l) (t : FKF n m l) (h : FKFStores true s t) (B : Mat n l)
    (hB : t.B = some B) : ∃ s', s.predict = .ok s' ∧ s'.x = .d2 n l (of fun i _ => (t.F *ᵥ t.x) i) := by
  simp only [NFKF.predict, bind, Except.bind, h.x, h.F, h.B, hB, moveX_matrix, liftAt]
  refine ⟨_, rfl, ?_⟩
  simp

/-- The same for a 1-D state and one control input: the state becomes an `n × n` matrix. -/
theorem C138_fading_predict_vec_refuted (s : NFKF n m 1) (t : FKF n m 1) (h : FKFStores false s t) (B : Mat n 1)
    (hB : t.B = some B) : ∃ s', s.predict = .ok s' ∧ s'.x = .d2 n n (of fun _ j => (t.F *ᵥ t.x) j) := by
  simp only [NFKF.predict, bind, Except.bind, h.x, h.F, h.B, hB, moveX_matrix_vec, liftAt]
  refine ⟨_, rfl, ?_⟩
  simp

/-- **C138: exactly the fitting control inputs** keep the form of the state. -/
theorem C138_fading_predict_exactly (col : Bool) (s s' : NFKF n m l) (t : FKF n m l) (h : FKFStores col s t) (u : UArg l)
    (hok : s.predict (controlAs col u) = .ok s') (x' : Vec n) (hx : s'.x = vecAs col x') : UOk col t.B u := by
  simp only [NFKF.predict, bind, Except.bind, h.x, h.B, h.F] at hok
  cases hm : moveX t.F (vecAs col t.x) t.B (controlAs col u) with
  | error e => simp [hm, liftAt] at hok
  | ok x =>
    simp only [hm, liftAt, Except.ok.injEq] at hok
    subst hok
    simp only at hx
    exact uok_of_moveX col t.F t.x x' t.B u (hx ▸ hm)

/-- What two runs of `batch_filter` have in common. -/
def Spec.SameBatch (col : Bool) : Except (Err × NFKF n m l) (List (KF.BatchOut n) × NFKF n m l) →
    Except (Err × FKF n m l) (List (KF.BatchOut n) × FKF n m l) → Prop
  | .ok a, .ok b => a.1 = b.1 ∧ FKFStores col a.2 b.2
  | .error e, .error e' => e.1 = e'.1 ∧ FKFStores col e.2 e'.2
  | _, _ => False

/-- A row of measurements: `None` for `None`, or an array that fits. -/
def Spec.FitsRow (col : Bool) (a : Option Nd × MatArg m) (b : Option (Vec m) × MatArg m) : Prop :=
  a.2 = b.2 ∧ ((a.1 = none ∧ b.1 = none) ∨ ∃ z v, a.1 = some z ∧ b.1 = some v ∧ Accepted col v z)

theorem toColumn_col (x : Vec n) : toColumn n (vecAs true x) = .ok x := by
  unfold toColumn
  rw [if_pos ⟨.inl rfl, .inl rfl⟩]
  congr 1
  funext i
  have hi : bidx n (i : ℕ) = i := bidx_lt i.2
  have h0 := get_d2 (of fun i (_ : Fin 1) => x i) i 0
  simp only [vecAs, if_true, rows, hi]
  simpa using h0

theorem toColumn_vec (hn : n ≠ 1) (x : Vec n) : toColumn n (vecAs false x) = .error .valueError := by
  unfold toColumn
  rw [if_neg]
  rintro ⟨_, h | h⟩ <;> exact hn h

theorem FKF.update_B {t t' : FKF n m l} {z : Option (Vec m)} {R : MatArg m} (h : t.update z R = .ok t') : t'.B = t.B := by
  cases z with
  | none => simp only [FKF.update, Except.ok.injEq] at h; subst h; rfl
  | some z =>
    simp only [FKF.update] at h
    split at h
    · cases h
    · injection h with h; subst h; rfl

theorem FKF.predict_B {t t' : FKF n m l} {u : UArg l} (h : t.predict u = .ok t') : t'.B = t.B := by
  simp only [FKF.predict] at h
  split at h
  · cases h
  · injection h with h; subst h; rfl

theorem update_row (col : Bool) (s : NFKF n m l) (t : FKF n m l) (h : FKFStores col s t) (a : Option Nd × MatArg m)
    (b : Option (Vec m) × MatArg m) (hab : FitsRow col a b) : Agree (FKFStores col) (s.update a.1 a.2) (t.update b.1 b.2) := by
  obtain ⟨a1, a2⟩ := a
  obtain ⟨b1, b2⟩ := b
  obtain ⟨h2, h1⟩ := hab
  simp only at h1 h2
  subst h2
  rcases h1 with ⟨rfl, rfl⟩ | ⟨z, v, rfl, rfl, hz⟩
  · exact C138_fading_update_none col s t h a2
  · exact C138_fading_update_partial col s t h z v hz a2

/-- **C138, `FadingKalmanFilter.batch_filter`** of a filter with a column state: the arrays it returns and the final state are
those of the mathematical model. -/
theorem C138_fading_batch_partial (upd : Bool) (s : NFKF n m l) (t : FKF n m l) (h : FKFStores true s t)
    (hB : t.B.isSome → l = 1) (rows : List (Option Nd × MatArg m)) (rows' : List (Option (Vec m) × MatArg m))
    (hr : List.Forall₂ (FitsRow true) rows rows') :
    SameBatch true (NFKF.batchLoop upd s rows) (FKF.batchLoop upd t rows') := by
  induction hr generalizing s t with
  | nil => exact ⟨rfl, h⟩
  | @cons a b as bs hab hr ih =>
    have hp : ∀ (s : NFKF n m l) (t : FKF n m l), FKFStores true s t → (t.B.isSome → l = 1) →
        Agree (FKFStores true) (s.predict) (t.predict) := fun s t h hl =>
      C138_fading_predict_partial true s t h (.scalar 0) fun hb => ⟨rfl, hl hb⟩
    cases upd
    · simp only [NFKF.batchLoop, FKF.batchLoop, Bool.false_eq_true, if_false, bind, Except.bind]
      have g1 := hp s t h hB
      cases e1 : s.predict <;> cases e2 : t.predict <;> rw [e1, e2] at g1
      · exact g1
      · exact g1.elim
      · exact g1.elim
      · rename_i s1 t1
        have g1 : FKFStores true s1 t1 := g1
        simp only [g1.x, toColumn_col, liftAt]
        have g2 := update_row true s1 t1 g1 a b hab
        cases e3 : s1.update a.1 a.2 <;> cases e4 : t1.update b.1 b.2 <;> rw [e3, e4] at g2
        · exact g2
        · exact g2.elim
        · exact g2.elim
        · rename_i s2 t2
          have g2 : FKFStores true s2 t2 := g2
          simp only [g2.x, toColumn_col]
          have g3 := ih s2 t2 g2 (by rw [FKF.update_B e4, FKF.predict_B e2]; exact hB)
          cases e5 : NFKF.batchLoop false s2 as <;> cases e6 : FKF.batchLoop false t2 bs <;> rw [e5, e6] at g3
          · exact g3
          · exact g3.elim
          · exact g3.elim
          · exact ⟨by simp only [g3.1, g1.P, g2.P], g3.2⟩
    · simp only [NFKF.batchLoop, FKF.batchLoop, if_true, bind, Except.bind]
      have g1 := update_row true s t h a b hab
      cases e1 : s.update a.1 a.2 <;> cases e2 : t.update b.1 b.2 <;> rw [e1, e2] at g1
      · exact g1
      · exact g1.elim
      · exact g1.elim
      · rename_i s1 t1
        have g1 : FKFStores true s1 t1 := g1
        simp only [g1.x, toColumn_col, liftAt]
        have g2 := hp s1 t1 g1 (by rw [FKF.update_B e2]; exact hB)
        cases e3 : s1.predict <;> cases e4 : t1.predict <;> rw [e3, e4] at g2
        · exact g2
        · exact g2.elim
        · exact g2.elim
        · rename_i s2 t2
          have g2 : FKFStores true s2 t2 := g2
          simp only [g2.x, toColumn_col]
          have g3 := ih s2 t2 g2 (by rw [FKF.predict_B e4, FKF.update_B e2]; exact hB)
          cases e5 : NFKF.batchLoop true s2 as <;> cases e6 : FKF.batchLoop true t2 bs <;> rw [e5, e6] at g3
          · exact g3
          · exact g3.elim
          · exact g3.elim
          · exact ⟨by simp only [g3.1, g1.P, g2.P], g3.2⟩

/-- **C138 is false for `FadingKalmanFilter.batch_filter` and a 1-D state**: unless there is a single state variable it raises
`ValueError` for every list of measurements, after the first prediction has been made. -/
theorem C138_fading_batch_refuted (s : NFKF n m l) (t : FKF n m l) (h : FKFStores false s t) (hn : n ≠ 1) (hB : t.B = none)
    (a : Option Nd × MatArg m) (rows : List (Option Nd × MatArg m)) :
    ∃ s1, s.predict = .ok s1 ∧ NFKF.batchLoop false s (a :: rows) = .error (.valueError, s1) := by
  have g := C138_fading_predict_partial false s t h (.scalar 0) (by simp [UOk, hB])
  have e2 : ∃ t1, t.predict (.scalar 0) = .ok t1 := by simp [FKF.predict, hB, FKF.control]
  obtain ⟨t1, e2⟩ := e2
  rw [e2] at g
  obtain ⟨s1, e1, g1⟩ := g.ok_right
  have e1 : s.predict = .ok s1 := e1
  refine ⟨s1, e1, ?_⟩
  simp only [NFKF.batchLoop, Bool.false_eq_true, if_false, bind, Except.bind, e1, g1.x, toColumn_vec hn, liftAt]

/-! ## `ExtendedKalmanFilter` -/

/-- **C138, `ExtendedKalmanFilter.predict`**, as for the other filters. -/
theorem C138_ekf_predict_partial (col : Bool) (s : NEKF n m l) (t : EKF n m l) (h : EKFStores col s t) (u : UArg l)
    (hu : UOk col t.B u) : Agree (EKFStores col) (s.predict (controlAs col u)) (t.predict u) := by
  obtain ⟨⟩ := s
  obtain ⟨rfl, rfl, rfl, rfl, rfl, rfl, ⟨c, rfl⟩, hz, rfl, rfl, rfl, rfl, rfl, rfl, rfl, rfl, rfl, rfl⟩ := h
  cases hc : FKF.control t.B u with
  | error e =>
    simp only [NEKF.predict, EKF.predict, moveX_err col t.F t.x t.B u hu hc, hc, liftAt, bind, Except.bind]
    exact ⟨rfl, by fields⟩
  | ok bu =>
    simp only [NEKF.predict, EKF.predict, moveX_ok col t.F t.x t.B u hu hc, hc, liftAt, bind, Except.bind]
    show EKFStores _ _ _
    fields

theorem listed_fits (col : Bool) {v : Vec m} {z : Nd} (h : Accepted col v z) : Accepted col v (NEKF.listed m z) := by
  cases h with
  | same => cases col <;> exact .same
  | number a hv =>
    unfold NEKF.listed
    split_ifs with hm
    · exact .vec1 _ hv
    · exact .number a hv
  | vec1 w hv => exact .vec1 w hv
  | mat1 w hc hv => exact .mat1 w hc hv

theorem fits_of_listed (col : Bool) {v : Vec m} {z : Nd} (h : Accepted col v (NEKF.listed m z)) : ∃ v : Vec m, Accepted col v z := by
  cases z with
  | d0 a => exact ⟨fun _ => a, .number a fun _ => rfl⟩
  | d1 k w => exact ⟨v, h⟩
  | d2 a b w => exact ⟨v, h⟩

/-- **C138, `ExtendedKalmanFilter.update`.**  If `Hx` returns the expected measurement in the form of the state, every
measurement that fits gives the numbers of the mathematical model in the form of the state. -/
theorem C138_ekf_update_partial (col : Bool) (s : NEKF n m l) (t : EKF n m l) (h : EKFStores col s t) (z : Nd) (v : Vec m)
    (hz : Accepted col v z) (HJ : Nd → Mat m n) (hx : Nd → Nd) (HJ' : Vec n → Mat m n) (hx' : Vec n → Vec m)
    (hH : HJ (vecAs col t.x) = HJ' t.x) (hh : hx (vecAs col t.x) = vecAs col (hx' t.x)) (R : MatArg m) :
    Agree (EKFStores col) (s.update (some z) HJ hx R) (t.update (some v) HJ' hx' R) := by
  obtain ⟨⟩ := s
  obtain ⟨rfl, rfl, rfl, rfl, rfl, rfl, ⟨c, rfl⟩, hz', rfl, rfl, rfl, rfl, rfl, rfl, rfl, rfl, rfl, rfl⟩ := h
  simp only [NEKF.update, EKF.update, hH, hh]
  cases npInv (HJ' t.x * (t.P * (HJ' t.x)ᵀ) + R.resolve t.R) with
  | none => exact ⟨rfl, by fields⟩
  | some SI =>
    simp only [sub_fits col (listed_fits col hz), corr_vecAs, liftAt, bind, Except.bind]
    have hz2 : ZAs col (some (NEKF.listed m z)) fun i => some (v i) := .inr ⟨_, v, rfl, listed_fits col hz, fun _ => rfl⟩
    show EKFStores _ _ _
    fields

/-- **C138, `ExtendedKalmanFilter.update(None)`**, likewise. -/
theorem C138_ekf_update_none (col : Bool) (s : NEKF n m l) (t : EKF n m l) (h : EKFStores col s t) (HJ : Nd → Mat m n)
    (hx : Nd → Nd) (HJ' : Vec n → Mat m n) (hx' : Vec n → Vec m) (R : MatArg m) :
    Agree (EKFStores col) (s.update none HJ hx R) (t.update none HJ' hx' R) := by
  obtain ⟨⟩ := s
  obtain ⟨rfl, rfl, rfl, rfl, rfl, rfl, ⟨c, rfl⟩, hz', rfl, rfl, rfl, rfl, rfl, rfl, rfl, rfl, rfl, rfl⟩ := h
  have hz2 : ZAs col none fun _ : Fin m => (none : Option ℝ) := .inl ⟨rfl, fun _ => rfl⟩
  show EKFStores _ _ _
  fields

/-- **C138: exactly the fitting measurements** keep the form of the state, if `Hx` returns the form of the state. -/
theorem C138_ekf_exactly (col : Bool) (s s' : NEKF n m l) (t : EKF n m l) (h : EKFStores col s t) (z : Nd)
    (HJ : Nd → Mat m n) (hx : Nd → Nd) (e : Vec m) (hh : hx (vecAs col t.x) = vecAs col e) (R : MatArg m)
    (hok : s.update (some z) HJ hx R = .ok s') (x' : Vec n) (hx' : s'.x = vecAs col x') : ∃ v : Vec m, Accepted col v z := by
  simp only [NEKF.update, bind, Except.bind, h.x, hh] at hok
  cases hi : npInv (HJ (vecAs col t.x) * (s.P * (HJ (vecAs col t.x))ᵀ) + R.resolve s.R) with
  | none => simp [hi] at hok
  | some SI =>
    simp only [hi] at hok
    cases hy : Nd.sub (NEKF.listed m z) (vecAs col e) with
    | error e => simp [hy, liftAt] at hok
    | ok y =>
      simp only [hy, liftAt] at hok
      cases hc : corr (vecAs col t.x) (s.P * (HJ (vecAs col t.x))ᵀ * SI) y with
      | error e => simp [hc] at hok
      | ok x =>
        simp only [hc, Except.ok.injEq] at hok
        subst hok
        simp only at hx'
        obtain ⟨v, hv⟩ := fits_of_sub col t.x x' e _ hy (hx' ▸ hc)
        exact fits_of_listed col hv

/-- **C138 is false for `ExtendedKalmanFilter.update` of a new (column) filter if `Hx` returns a 1-D array**, for example
`x[0]**2 + x[1]**2`: the call succeeds with a measurement of the same form (a number, for one sensor) and the state has become
an `n × n` matrix. -/
theorem C138_ekf_refuted (s : NEKF n m l) (t : EKF n m l) (h : EKFStores true s t) (v e : Vec m) (HJ : Nd → Mat m n)
    (hx : Nd → Nd) (hh : hx (vecAs true t.x) = .d1 m e) (z : Nd) (hz : NEKF.listed m z = .d1 m v) (R : MatArg m)
    {SI : Mat m m} (hS : npInv (HJ (vecAs true t.x) * (t.P * (HJ (vecAs true t.x))ᵀ) + R.resolve t.R) = some SI) :
    ∃ s', s.update (some z) HJ hx R = .ok s' ∧ s'.x = .d2 n n (of fun i j =>
      t.x i + ((t.P * (HJ (vecAs true t.x))ᵀ * SI) *ᵥ (v - e)) j) := by
  have hc : corr (vecAs true t.x) (t.P * (HJ (vecAs true t.x))ᵀ * SI) (.d1 m (v - e)) = .ok (.d2 n n (of fun i j =>
      t.x i + ((t.P * (HJ (vecAs true t.x))ᵀ * SI) *ᵥ (v - e)) j)) := by
    simp only [corr, NKF.correct, dot_mv, bind, Except.bind, vecAs, if_true]
    exact broadcast_col_vec _ _ _
  simp only [NEKF.update, bind, Except.bind, h.x, h.P, h.R, hh, hS, hz, sub_vv, liftAt, hc]
  exact ⟨_, rfl, rfl⟩

/-! ## `HInfinityFilter` -/

theorem HInf.control_eq (B : Option (Mat n l)) (u : UArg l) : HInf.control B u = FKF.control B u := by
  cases B <;> cases u <;> rfl

/-- **C138, `HInfinityFilter.predict`**, as for the other filters. -/
theorem C138_hinf_predict_partial (col : Bool) (s : NHInf n m l) (t : HInf n m l) (h : HInfStores col s t) (u : UArg l)
    (hu : UOk col t.B u) : Agree (HInfStores col) (s.predict (controlAs col u)) (t.predict u) := by
  obtain ⟨⟩ := s
  obtain ⟨rfl, rfl, rfl, rfl, rfl, rfl, rfl, rfl, rfl, rfl, ⟨c, rfl⟩, hz⟩ := h
  cases hc : FKF.control t.B u with
  | error e =>
    simp only [NHInf.predict, HInf.predict, HInf.control_eq, moveX_err col t.F t.x t.B u hu hc, hc, liftAt, bind, Except.bind]
    exact ⟨rfl, by fields⟩
  | ok bu =>
    simp only [NHInf.predict, HInf.predict, HInf.control_eq, moveX_ok col t.F t.x t.B u hu hc, hc, liftAt, bind, Except.bind]
    show HInfStores _ _ _
    fields

/-- **C138, `HInfinityFilter.update`**, with or without a measurement. -/
theorem C138_hinf_update_partial (col : Bool) (s : NHInf n m l) (t : HInf n m l) (h : HInfStores col s t) (z : Nd)
    (v : Vec m) (hz : Accepted col v z) : Agree (HInfStores col) (s.update (some z)) (t.update (some v)) ∧
      Agree (HInfStores col) (s.update none) (t.update none) := by
  refine ⟨?_, h⟩
  obtain ⟨⟩ := s
  obtain ⟨rfl, rfl, rfl, rfl, rfl, rfl, rfl, rfl, rfl, rfl, ⟨c, rfl⟩, hz'⟩ := h
  simp only [NHInf.update, HInf.update]
  cases npInv (1 - t.gamma • (t.Q * t.P) + t.Hᵀ * t.VInv * t.H * t.P) with
  | none => exact ⟨rfl, by fields⟩
  | some L =>
    simp only [resid_fits col hz, corr_vecAs, liftAt, bind, Except.bind]
    have hz2 : ∃ c, Accepted c v z := ⟨col, hz⟩
    show HInfStores _ _ _
    fields

/-- **C138: exactly the fitting measurements** keep the form of the state. -/
theorem C138_hinf_exactly (col : Bool) (s s' : NHInf n m l) (t : HInf n m l) (h : HInfStores col s t) (z : Nd)
    (hok : s.update (some z) = .ok s') (x' : Vec n) (hx : s'.x = vecAs col x') : ∃ v : Vec m, Accepted col v z := by
  simp only [NHInf.update, bind, Except.bind, h.x] at hok
  cases hi : npInv (1 - s.gamma • (s.Q * s.P) + s.Hᵀ * s.VInv * s.H * s.P) with
  | none => simp [hi] at hok
  | some L =>
    simp only [hi] at hok
    cases hy : resid z s.H (vecAs col t.x) with
    | error e => simp [hy, liftAt] at hok
    | ok y =>
      simp only [hy, liftAt] at hok
      cases hc : corr (vecAs col t.x) (s.F * (s.P * L) * (s.Hᵀ * s.VInv)) y with
      | error e => simp [hc] at hok
      | ok x =>
        simp only [hc, Except.ok.injEq] at hok
        subst hok
        simp only at hx
        exact fits_of_resid col t.x x' s.H _ hy (hx ▸ hc)

/-- **C138 is false for `HInfinityFilter.update` of a new (column) filter and a 1-D measurement.** -/
theorem C138_hinf_refuted (s : NHInf n m l) (t : HInf n m l) (h : HInfStores true s t) (v : Vec m) {L : Mat n n}
    (hL : npInv (1 - t.gamma • (t.Q * t.P) + t.Hᵀ * t.VInv * t.H * t.P) = some L) :
    ∃ s', s.update (some (.d1 m v)) = .ok s' ∧ s'.x = .d2 n m (of fun i j =>
      t.x i + ((t.F * (t.P * L) * (t.Hᵀ * t.VInv)) * (of fun k j => v j - (t.H *ᵥ t.x) k : Mat m m)) i j) := by
  simp only [NHInf.update, bind, Except.bind, h.x, h.H, h.P, h.Q, h.F, h.gamma, h.VInv, resid_mixed, liftAt, hL, corr_mixed]
  exact ⟨_, rfl, rfl⟩

/-! ## `SquareRootKalmanFilter` -/

/-- **C138, `SquareRootKalmanFilter.predict`**, as for the other filters. -/
theorem C138_square_root_predict_partial (L : SqrtLib n m) (col : Bool) (s : NSR n m l) (t : SRKF n m l)
    (h : SRStores col s t) (u : UArg l) (hu : UOk col t.B u) :
    Agree (SRStores col) (s.predict L (controlAs col u)) (t.predict L u) := by
  obtain ⟨⟩ := s
  obtain ⟨rfl, rfl, rfl, rfl, rfl, rfl, rfl, hz, rfl, rfl, rfl, ⟨c, rfl⟩, rfl, rfl, rfl, rfl⟩ := h
  cases hc : FKF.control t.B u with
  | error e =>
    simp only [NSR.predict, SRKF.predict, moveX_err col t.F t.x t.B u hu hc, hc, liftAt, bind, Except.bind]
    exact ⟨rfl, by fields⟩
  | ok bu =>
    simp only [NSR.predict, SRKF.predict, moveX_ok col t.F t.x t.B u hu hc, hc, liftAt, bind, Except.bind]
    show SRStores _ _ _
    fields

/-- **C138, `SquareRootKalmanFilter.update`**, with or without a measurement. -/
theorem C138_square_root_update_partial (L : SqrtLib n m) (col : Bool) (s : NSR n m l) (t : SRKF n m l)
    (h : SRStores col s t) (z : Nd) (v : Vec m) (hz : Accepted col v z) (R2 : MatArg m) :
    Agree (SRStores col) (s.update L (some z) R2) (.ok (t.update L (some v) R2)) ∧
      Agree (SRStores col) (s.update L none R2) (.ok (t.update L none R2)) := by
  obtain ⟨⟩ := s
  obtain ⟨rfl, rfl, rfl, rfl, rfl, rfl, rfl, hz', rfl, rfl, rfl, ⟨c, rfl⟩, rfl, rfl, rfl, rfl⟩ := h
  constructor
  · simp only [NSR.update, SRKF.update, resid_fits col hz, corrInto_vecAs, liftAt, bind, Except.bind]
    have hz2 : ZAs col (some z) fun i => some (v i) := .inr ⟨z, v, rfl, hz, fun _ => rfl⟩
    show SRStores _ _ _
    fields
  · have hz2 : ZAs col none fun _ : Fin m => (none : Option ℝ) := .inl ⟨rfl, fun _ => rfl⟩
    show SRStores _ _ _
    fields

/-- **C138: exactly the fitting measurements** are accepted by a filter with a column state or a 1-D state. -/
theorem C138_square_root_exactly (L : SqrtLib n m) (col : Bool) (s s' : NSR n m l) (t : SRKF n m l) (h : SRStores col s t)
    (z : Nd) (R2 : MatArg m) (hok : s.update L (some z) R2 = .ok s') : ∃ v : Vec m, Accepted col v z := by
  simp only [NSR.update, bind, Except.bind, h.x] at hok
  cases hy : resid z s.H (vecAs col t.x) with
  | error e => simp [hy, liftAt] at hok
  | ok y =>
    simp only [hy, liftAt] at hok
    cases hc : corrInto (vecAs col t.x)
        ((L.qrU (NSR.arrayU s (R2.resolve s.R12))).toBlocks₁₂ᵀ * L.pinv (L.qrU (NSR.arrayU s (R2.resolve s.R12))).toBlocks₁₁ᵀ) y with
    | error e => simp [hc] at hok
    | ok x =>
      obtain ⟨x', rfl, hx⟩ := corrInto_form col t.x _ y hc
      exact fits_of_resid col t.x x' s.H _ hy hx

/-- **C138 is false for `SquareRootKalmanFilter.update` of a new (column) filter and a 1-D measurement of two or more
sensors**: `ValueError`, with the gain and the residual already overwritten. -/
theorem C138_square_root_refuted (L : SqrtLib n m) (s : NSR n m l) (t : SRKF n m l) (h : SRStores true s t) (hm : m ≠ 1)
    (v : Vec m) (R2 : MatArg m) :
    ∃ s', s.update L (some (.d1 m v)) R2 = .error (.valueError, s') ∧ s'.x = s.x ∧ s'.P12 = s.P12 ∧ s'.z = s.z ∧
      s'.y = .d2 m m (of fun i j => v j - (t.H *ᵥ t.x) i) ∧ s'.K = (t.update L (some v) R2).K := by
  obtain ⟨⟩ := s
  obtain ⟨rfl, rfl, rfl, rfl, rfl, rfl, rfl, hz', rfl, rfl, rfl, ⟨c, rfl⟩, rfl, rfl, rfl, rfl⟩ := h
  simp only [NSR.update, bind, Except.bind, resid_mixed, liftAt, corrInto_mixed hm]
  exact ⟨_, rfl, rfl, rfl, rfl, rfl, rfl⟩

/-! ## `InformationFilter` -/

theorem IF.llOf_cast {k : ℕ} (hk : k = m) (w : Vec k) (y : Vec m) (hw : ∀ (i : ℕ) (hi : i < k), w ⟨i, hi⟩ = y ⟨i, hk ▸ hi⟩)
    (S : Mat n n) : IF.llOf w S = IF.llOf y S := by
  subst hk
  congr 1
  funext i
  exact hw i i.2

theorem llOf_vecAs (col : Bool) (y : Vec m) (S : Mat n n) : NIF.llOf (vecAs col y) S = IF.llOf y S := by
  cases col
  · refine IF.llOf_cast rfl _ _ (fun i hi => ?_) S
    exact get_d1 y 0 ⟨i, hi⟩
  · refine IF.llOf_cast (by simp [vecAs, Nd.size]) _ _ (fun i hi => ?_) S
    have hi' : i < m := by simpa [vecAs, Nd.size] using hi
    have := get_d2 (of fun i (_ : Fin 1) => y i) ⟨i, hi'⟩ 0
    simpa [vecAs, Nd.flat, Nat.mod_one] using this

/-- **C138, `InformationFilter.update`** of a filter that has information: every measurement that fits and has as many entries
as there are sensors. -/
theorem C138_information_update_partial (expf : ℝ → ℝ) (col : Bool) (s : NIF n m l) (t : IF n m l) (h : IFStores col s t)
    (z : Nd) (v : Vec m) (hz : Accepted col v z) (hz1 : Holds v z) (Rinv : MatArg m) (hi : t.noInformation = false) :
    Agree (IFStores col) (s.update expf (some z) Rinv) (t.update expf (some v) Rinv) := by
  obtain ⟨⟩ := s
  obtain ⟨rfl, rfl, rfl, rfl, rfl, rfl, rfl, rfl, hz', rfl, ⟨c, rfl⟩, rfl, rfl, rfl, rfl, rfl, rfl, rfl, rfl, rfl, rfl⟩ := h
  simp only [NIF.update, IF.update, hi, Bool.false_eq_true, if_false, resid_fits col hz, liftAt, bind, Except.bind]
  cases t.inv (t.Pinv + t.Hᵀ * Rinv.resolve t.Rinv * t.H) with
  | none => exact ⟨rfl, by fields⟩
  | some SI =>
    simp only [corr_vecAs, vecAs_ndim, reshapeZ_holds col hz1, llOf_vecAs]
    have hz2 : (some z = none ∧ some v = none) ∨ ∃ z' v', some z = some z' ∧ some v = some v' ∧ ∃ c, Accepted c v' z' :=
      .inr ⟨z, v, rfl, rfl, col, hz⟩
    have hz3 : (some (vecAs col v) = none ∧ some v = none) ∨
        ∃ z' v', some (vecAs col v) = some z' ∧ some v = some v' ∧ ∃ c, Accepted c v' z' :=
      .inr ⟨_, v, rfl, rfl, col, .same⟩
    by_cases hl : t.computeLL = true
    · simp only [hl, if_true]
      cases IF.llOf (v - t.H *ᵥ t.x) (t.Pinv + t.Hᵀ * Rinv.resolve t.Rinv * t.H) with
      | error e => exact ⟨rfl, by fields⟩
      | ok ll =>
        show IFStores _ _ _
        fields
    · simp only [hl, Bool.false_eq_true, if_false]
      show IFStores _ _ _
      fields

/-- **C138, `InformationFilter.update`** of a filter without information: the measurement in the form of the state. -/
theorem C138_information_none_partial (expf : ℝ → ℝ) (col : Bool) (s : NIF n m l) (t : IF n m l) (h : IFStores col s t)
    (v : Vec m) (Rinv : MatArg m) (hi : t.noInformation = true) :
    Agree (IFStores col) (s.update expf (some (vecAs col v)) Rinv) (t.update expf (some v) Rinv) := by
  obtain ⟨⟩ := s
  obtain ⟨rfl, rfl, rfl, rfl, rfl, rfl, rfl, rfl, hz', rfl, ⟨c, rfl⟩, rfl, rfl, rfl, rfl, rfl, rfl, rfl, rfl, rfl, rfl⟩ := h
  simp only [NIF.update, IF.update, hi, if_true, NIF.infoX, dot_vecAs, add_vecAs, liftAt, bind, Except.bind]
  have hz3 : (some (vecAs col v) = none ∧ some v = none) ∨
      ∃ z' v', some (vecAs col v) = some z' ∧ some v = some v' ∧ ∃ c, Accepted c v' z' :=
    .inr ⟨_, v, rfl, rfl, col, .same⟩
  show IFStores _ _ _
  fields

/-- **C138, `InformationFilter.update(None)`**, likewise. -/
theorem C138_information_update_none (expf : ℝ → ℝ) (col : Bool) (s : NIF n m l) (t : IF n m l) (h : IFStores col s t)
    (Rinv : MatArg m) : Agree (IFStores col) (s.update expf none Rinv) (t.update expf none Rinv) := by
  obtain ⟨⟩ := s
  obtain ⟨rfl, rfl, rfl, rfl, rfl, rfl, rfl, rfl, hz', rfl, ⟨c, rfl⟩, rfl, rfl, rfl, rfl, rfl, rfl, rfl, rfl, rfl, rfl⟩ := h
  have hz2 : ((none : Option Nd) = none ∧ (none : Option (Vec m)) = none) ∨
      ∃ z' v', (none : Option Nd) = some z' ∧ (none : Option (Vec m)) = some v' ∧ ∃ c, Accepted c v' z' := .inl ⟨rfl, rfl⟩
  show IFStores _ _ _
  fields

theorem recover_stores (col : Bool) (s : NIF n m l) (t : IF n m l) (h : IFStores col s t) :
    IFStores col s.recover t.recover := by
  obtain ⟨⟩ := s
  obtain ⟨rfl, rfl, rfl, rfl, rfl, rfl, rfl, rfl, hz', rfl, ⟨c, rfl⟩, rfl, rfl, rfl, rfl, rfl, rfl, rfl, rfl, rfl, rfl⟩ := h
  by_cases hn : t.noInformation = true
  · simp only [NIF.recover, IF.recover, hn, if_true, NIF.recoverX]
    cases t.inv t.Pinv with
    | none =>
      simp only [smul_form, zero_smul]
      fields
    | some P =>
      simp only [dot_vecAs]
      fields
  · simp only [NIF.recover, IF.recover, if_neg hn]
    fields

/-- **C138, `InformationFilter.predict`**, with and without information, as for the other filters. -/
theorem C138_information_predict_partial (col : Bool) (s : NIF n m l) (t : IF n m l) (h : IFStores col s t) (u : UArg l)
    (hu : UOk col t.B u) : Agree (IFStores col) (s.predict (controlAs col u)) (t.predict u) := by
  unfold NIF.predict IF.predict
  rw [h.F, h.Finv, h.Pinv, h.inv]
  cases t.F with
  | none => exact ⟨rfl, h⟩
  | some F =>
    cases t.Finv with
    | none => exact ⟨rfl, h⟩
    | some Finv =>
      simp only
      cases t.inv (Finvᵀ * t.Pinv * Finv) with
      | some AI =>
        simp only
        have hr := recover_stores col s t h
        have hB : t.recover.B = t.B := by
          unfold IF.recover
          split_ifs
          · cases t.inv t.Pinv <;> rfl
          · rfl
        have hu' : UOk col t.recover.B u := by rw [hB]; exact hu
        generalize s.recover = s at hr
        generalize t.recover = t at hr hu'
        obtain ⟨⟩ := s
        obtain ⟨rfl, rfl, rfl, rfl, rfl, rfl, rfl, rfl, hz', rfl, ⟨c, rfl⟩, rfl, rfl, rfl, rfl, rfl, rfl, rfl, rfl, rfl,
          rfl⟩ := hr
        cases hc : FKF.control t.B u with
        | error e =>
          simp only [NIF.predictInv, IF.predictInv, moveX_err col F t.x t.B u hu' hc, hc, liftAt, bind, Except.bind]
          exact ⟨rfl, by fields⟩
        | ok bu =>
          simp only [NIF.predictInv, IF.predictInv, moveX_ok col F t.x t.B u hu' hc, hc, liftAt, bind, Except.bind]
          cases t.inv (AI + t.Q) with
          | none => exact ⟨rfl, by fields⟩
          | some Pinv =>
            show IFStores _ _ _
            fields
      | none =>
        obtain ⟨⟩ := s
        obtain ⟨rfl, rfl, rfl, rfl, rfl, rfl, rfl, rfl, hz', rfl, ⟨c, rfl⟩, rfl, rfl, rfl, rfl, rfl, rfl, rfl, rfl, rfl,
          rfl⟩ := h
        simp only [NIF.predictNoInfo, IF.predictNoInfo]
        cases t.inv Fᵀ with
        | none => exact ⟨rfl, by fields⟩
        | some FTI =>
          simp only [dot_vecAs, liftAt, bind, Except.bind]
          cases t.inv (Finvᵀ * t.Pinv * Finv + t.Q) with
          | none => exact ⟨rfl, by fields⟩
          | some AQI =>
            simp only [NIF.noInfoX, dot_vecAs, bind, Except.bind]
            show IFStores _ _ _
            fields

/-- **C138 is false for `InformationFilter.update` and a single number for several sensors**: `ValueError`, but the state and
the information matrix have already been updated. -/
theorem C138_information_half_done_refuted (expf : ℝ → ℝ) (col : Bool) (s : NIF n m l) (t : IF n m l) (h : IFStores col s t)
    (hm : m ≠ 1) (a : ℝ) (Rinv : MatArg m) (hi : t.noInformation = false) {SI : Mat n n}
    (hS : t.inv (t.Pinv + t.Hᵀ * Rinv.resolve t.Rinv * t.H) = some SI) :
    ∃ s', s.update expf (some (.d0 a)) Rinv = .error (.valueError, s') ∧
      s'.x = vecAs col (t.x + (SI * t.Hᵀ * Rinv.resolve t.Rinv) *ᵥ ((fun _ => a) - t.H *ᵥ t.x)) ∧
      s'.Pinv = t.Pinv + t.Hᵀ * Rinv.resolve t.Rinv * t.H ∧ s'.z = s.z := by
  obtain ⟨⟩ := s
  obtain ⟨rfl, rfl, rfl, rfl, rfl, rfl, rfl, rfl, hz', rfl, ⟨c, rfl⟩, rfl, rfl, rfl, rfl, rfl, rfl, rfl, rfl, rfl, rfl⟩ := h
  have hf : Accepted col (fun _ : Fin m => a) (.d0 a) := .number a fun _ => rfl
  have hr : ∀ k, Nd.reshapeZ (.d0 a) m k = .error .valueError := fun k => by
    refine reshapeZ_bad _ k fun v hv => ?_
    cases hv
    exact hm ‹_›
  simp only [NIF.update, hi, Bool.false_eq_true, if_false, resid_fits col hf, liftAt, bind, Except.bind, hS, corr_vecAs, hr]
  exact ⟨_, rfl, rfl, rfl, rfl⟩

/-- **C138 is false for `InformationFilter.update` of a 1-D filter without information and a number**: the state becomes an
`n × n` matrix. -/
theorem C138_information_none_refuted (expf : ℝ → ℝ) (s : NIF n 1 l) (t : IF n 1 l) (h : IFStores false s t) (a : ℝ)
    (Rinv : MatArg 1) (hi : t.noInformation = true) :
    ∃ s', s.update expf (some (.d0 a)) Rinv = .ok s' ∧ s'.x = .d2 n n (of fun i j =>
      (t.Pinv *ᵥ t.x) j + a * (t.Hᵀ * Rinv.resolve t.Rinv) i 0) := by
  have hx : NIF.infoX t.Pinv (vecAs false t.x) (t.Hᵀ * Rinv.resolve t.Rinv) (.d0 a) = .ok (.d2 n n (of fun i j =>
      (t.Pinv *ᵥ t.x) j + a * (t.Hᵀ * Rinv.resolve t.Rinv) i 0)) := by
    simp only [NIF.infoX, dot_vecAs, dot_ms, bind, Except.bind]
    exact broadcast_vec_col _ _ _
  simp only [NIF.update, h.noInformation, hi, if_true, h.x, h.H, h.Pinv, h.Rinv, hx, liftAt, bind, Except.bind]
  exact ⟨_, rfl, rfl⟩

/-- **C138 is false for `InformationFilter.update` of a new (column) filter and a 1-D measurement**, if the likelihood is not
computed. -/
theorem C138_information_refuted (expf : ℝ → ℝ) (s : NIF n m l) (t : IF n m l) (h : IFStores true s t) (v : Vec m)
    (Rinv : MatArg m) (hi : t.noInformation = false) (hl : t.computeLL = false) {SI : Mat n n}
    (hS : t.inv (t.Pinv + t.Hᵀ * Rinv.resolve t.Rinv * t.H) = some SI) :
    ∃ s', s.update expf (some (.d1 m v)) Rinv = .ok s' ∧ s'.x = .d2 n m (of fun i j =>
      t.x i + ((SI * t.Hᵀ * Rinv.resolve t.Rinv) * (of fun k j => v j - (t.H *ᵥ t.x) k : Mat m m)) i j) := by
  obtain ⟨⟩ := s
  obtain ⟨rfl, rfl, rfl, rfl, rfl, rfl, rfl, rfl, hz', rfl, ⟨c, rfl⟩, rfl, rfl, rfl, rfl, rfl, rfl, rfl, rfl, rfl, rfl⟩ := h
  have hr : Nd.reshapeZ (.d1 m v) m 2 = .ok (vecAs true v) := reshapeZ_holds true Holds.vector
  simp only [NIF.update, hi, hl, Bool.false_eq_true, if_false, resid_mixed, liftAt, bind, Except.bind, hS, corr_mixed,
    show ∀ A : Mat n m, (Nd.d2 n m A).ndim = 2 from fun _ => rfl, hr]
  exact ⟨_, rfl, rfl⟩

/-! ## `FixedLagSmoother` -/

theorem lagLoop_vecAs (col : Bool) (HTSI : Mat n m) (FLH : Mat n n) (y : Vec m) (N si : ℕ) (PS : Mat n n) (xs : List (Vec n))
    (h : si < xs.length) :
    NFLS.lagLoop HTSI FLH (vecAs col y) N si PS (xs.map (vecAs col)) = .ok ((FLS.lagLoop HTSI FLH y N si PS xs).map (vecAs col)) := by
  induction N generalizing si PS xs with
  | zero => rfl
  | succ N ih =>
    simp only [NFLS.lagLoop, FLS.lagLoop, List.getElem?_map, List.getElem?_eq_getElem h, Option.map_some, corr_vecAs]
    have e : (xs.map (vecAs col)).set si (vecAs col (xs[si] + (PS * HTSI) *ᵥ y))
        = (xs.modify si (· + (PS * HTSI) *ᵥ y)).map (vecAs col) := by
      rw [List.modify_eq_set_getElem?, List.getElem?_eq_getElem h]
      simp
    rw [e]
    exact ih _ _ _ (by simp; omega)

theorem lagLoop_length (HTSI : Mat n m) (FLH : Mat n n) (y : Vec m) (N si : ℕ) (PS : Mat n n) (xs : List (Vec n)) :
    (FLS.lagLoop HTSI FLH y N si PS xs).length = xs.length := by
  induction N generalizing si PS xs with
  | zero => rfl
  | succ N ih => simp only [FLS.lagLoop, ih, List.length_modify]

/-- The control inputs that fit, passed to `smooth`, whose default is `None`. -/
theorem preX_ok (col : Bool) (F : Mat n n) (x : Vec n) (B : Option (Mat n l)) (u : UArg l) (hu : UOk col B u) :
    ∃ bu, FLS.control B u = .ok bu ∧ NFLS.preX F (vecAs col x) B (controlAs col u) = .ok (vecAs col (F *ᵥ x + bu)) := by
  cases hn : u with
  | none =>
    refine ⟨0, by cases B <;> rfl, ?_⟩
    simp only [NFLS.preX, controlAs, dot_vecAs, bind, Except.bind, add_zero]
  | _ =>
    have hc : ∃ bu, FKF.control B u = .ok bu ∧ FLS.control B u = .ok bu := by
      subst hn
      cases B with
      | none => first
        | exact ⟨_, rfl, rfl⟩
        | (have := hu rfl; simp [FKF.control, FLS.control, this])
      | some B => first
        | exact ⟨_, rfl, rfl⟩
        | (obtain ⟨_, rfl⟩ := hu rfl; simp [FKF.control, FLS.control])
    obtain ⟨bu, h1, h2⟩ := hc
    rw [← hn]
    refine ⟨bu, h2, ?_⟩
    obtain ⟨u', b, h3, h4, h5⟩ := add_control col (F *ᵥ x) B u hu h1
    simp only [NFLS.preX, dot_vecAs, bind, Except.bind, h3, h4, addInto, h5]
    rw [if_pos]
    rw [vecAs_shape, vecAs_shape]

/-- **C138, `FixedLagSmoother.smooth`.**  For a 1-D or column state, a control input and a measurement that fit, `smooth`
computes the numbers of the mathematical model, or raises the same exception, and every smoothed state has the form of the
state. -/
theorem C138_fixed_lag_partial (col : Bool) (s : NFLS n m l) (t : FLS n m l) (h : FLSStores col s t) (u : UArg l)
    (hu : UOk col t.B u) (z : Nd) (v : Vec m) (hz : Accepted col v z) :
    Agree (FLSStores col) (s.smooth z (controlAs col u)) (t.smooth (v, u)) := by
  obtain ⟨⟩ := s
  obtain ⟨rfl, rfl, rfl, rfl, rfl, rfl, rfl, rfl, ⟨c, rfl⟩, rfl, rfl, rfl, hlen, hhas⟩ := h
  obtain ⟨bu, h1, h2⟩ := preX_ok col t.F t.x t.B u hu
  simp only [NFLS.smooth, FLS.smooth, h1, h2, FLS.priorOf, resid_fits col hz, liftAt, bind, Except.bind]
  cases npInv (t.H * (t.F * t.P * t.Fᵀ + t.Q) * t.Hᵀ + t.R) with
  | none => exact ⟨rfl, by fields⟩
  | some SI =>
    simp only [corr_vecAs]
    cases hx : t.xSmooth with
    | none => exact ⟨rfl, rfl, rfl, rfl, rfl, rfl, rfl, rfl, rfl, ⟨_, rfl⟩, rfl, rfl, rfl, by simp, by simp⟩
    | some xs =>
      simp only [Option.map_some]
      cases hN : t.N with
      | none =>
        exact absurd hN (hhas (by simp [hx]))
      | some N =>
        have hl := hlen xs hx
        have e : NFLS.lagStep (t.Hᵀ * SI) ((t.F - (t.F * t.P * t.Fᵀ + t.Q) * t.Hᵀ * SI * t.H)ᵀ) (vecAs col (v - t.H *ᵥ (t.F *ᵥ t.x + bu)))
            N t.count (t.cycleOf (t.F *ᵥ t.x + bu) (t.F * t.P * t.Fᵀ + t.Q) v SI).P
            (vecAs col (t.cycleOf (t.F *ᵥ t.x + bu) (t.F * t.P * t.Fᵀ + t.Q) v SI).x)
            (xs.map (vecAs col) ++ [vecAs col (t.F *ᵥ t.x + bu)]) = .ok ((FLS.lagStep t.F t.H N t.count
              (t.cycleOf (t.F *ᵥ t.x + bu) (t.F * t.P * t.Fᵀ + t.Q) v SI) (xs ++ [t.F *ᵥ t.x + bu])).map (vecAs col)) := by
          have e0 : xs.map (vecAs col) ++ [vecAs col (t.F *ᵥ t.x + bu)] = (xs ++ [t.F *ᵥ t.x + bu]).map (vecAs col) := by simp
          unfold NFLS.lagStep FLS.lagStep
          rw [e0]
          split_ifs with hk
          · exact lagLoop_vecAs col _ _ _ N t.count _ _ (by simp; omega)
          · simp only [List.map_set]
        have e' := e
        simp only [FLS.cycleOf] at e'
        simp only [e']
        refine ⟨rfl, rfl, rfl, rfl, rfl, rfl, rfl, rfl, ⟨_, rfl⟩, rfl, rfl, rfl, ?_, fun _ => by simp⟩
        intro ys hys
        simp only [Option.some.injEq] at hys
        subst hys
        unfold FLS.lagStep
        split_ifs
        · rw [lagLoop_length]
          simp [hl]
        · simp [hl]

/-- **C138: exactly the fitting measurements** keep the form of the state. -/
theorem C138_fixed_lag_exactly (col : Bool) (s s' : NFLS n m l) (t : FLS n m l) (h : FLSStores col s t) (u : UArg l)
    (hu : UOk col t.B u) (z : Nd) (hok : s.smooth z (controlAs col u) = .ok s') (x' : Vec n) (hx : s'.x = vecAs col x') :
    ∃ v : Vec m, Accepted col v z := by
  obtain ⟨bu, _, h2⟩ := preX_ok col t.F t.x t.B u hu
  simp only [NFLS.smooth, h.F, h.x, h.B, h2, liftAt, bind, Except.bind] at hok
  cases hy : resid z s.H (vecAs col (t.F *ᵥ t.x + bu)) with
  | error e => simp [hy] at hok
  | ok y =>
    simp only [hy] at hok
    cases hi : npInv (s.H * (t.F * s.P * t.Fᵀ + s.Q) * s.Hᵀ + s.R) with
    | none => simp [hi] at hok
    | some SI =>
      simp only [hi] at hok
      cases hc : corr (vecAs col (t.F *ᵥ t.x + bu)) ((t.F * s.P * t.Fᵀ + s.Q) * s.Hᵀ * SI) y with
      | error e => simp [hc] at hok
      | ok x =>
        simp only [hc] at hok
        have e : s'.x = x := by
          split at hok
          · cases hok
          · split at hok
            · cases hok
            · split at hok
              · cases hok
              · injection hok with hok
                rw [← hok]
        rw [← e, hx] at hc
        exact fits_of_resid col _ x' s.H _ hy hc

/-- **C138 is false for `FixedLagSmoother.smooth` of a new (column) smoother and a 1-D measurement.** -/
theorem C138_fixed_lag_refuted (s : NFLS n m l) (t : FLS n m l) (h : FLSStores true s t) {N : ℕ} (hN : t.N = some N)
    (hk : t.count < N) (hxs : t.xSmooth ≠ none) (v : Vec m) {SI : Mat m m}
    (hS : npInv (t.H * (t.F * t.P * t.Fᵀ + t.Q) * t.Hᵀ + t.R) = some SI) :
    ∃ s', s.smooth (.d1 m v) = .ok s' ∧ s'.x = .d2 n m (of fun i j => (t.F *ᵥ t.x) i +
      (((t.F * t.P * t.Fᵀ + t.Q) * t.Hᵀ * SI) * (of fun k j => v j - (t.H *ᵥ t.F *ᵥ t.x) k : Mat m m)) i j) := by
  have h2 : NFLS.preX t.F (vecAs true t.x) t.B none = .ok (vecAs true (t.F *ᵥ t.x)) := by
    simp only [NFLS.preX, dot_vecAs, bind, Except.bind]
  obtain ⟨xs, hxs⟩ := Option.ne_none_iff_exists'.1 hxs
  simp only [NFLS.smooth, h.F, h.x, h.B, h.H, h.P, h.Q, h.R, h.N, h.count, h.xSmooth, hxs, hN, h2, liftAt, bind, Except.bind,
    resid_mixed, hS, corr_mixed, Option.map_some, NFLS.lagStep, if_neg (Nat.not_le.2 hk)]
  exact ⟨_, rfl, rfl⟩

/-! ## Previews and further refutations of `predict` -/

/-- **C138: `FadingKalmanFilter.get_prediction`** returns what `predict` with the same argument would store, or raises the
same exception, whatever the shapes of the state and the control. -/
theorem C138_fading_get_prediction (s : NFKF n m l) (u : Option Nd) :
    s.getPrediction u = match s.predict u with
      | .ok s' => .ok (s'.x, s'.P)
      | .error (e, _) => .error e := by
  simp only [NFKF.getPrediction, NFKF.predict, bind, Except.bind]
  cases moveX s.F s.x s.B u <;> rfl

/-- **C138: `FadingKalmanFilter.residual_of`** is `z - H x` in the form of the state, for a fitting measurement. -/
theorem C138_fading_residual_of (col : Bool) (s : NFKF n m l) (t : FKF n m l) (h : FKFStores col s t) (z : Nd) (v : Vec m)
    (hz : Accepted col v z) : s.residualOf z = .ok (vecAs col (v - t.H *ᵥ t.x)) := by
  simp only [NFKF.residualOf, h.H, h.x, resid_fits col hz]

/-- **C138 is false for `predict()` of the other filters with a matrix `B`**: the column state becomes a matrix with as many
columns as `B`. -/
theorem C138_predict_refuted (B : Mat n l) :
    (∀ (s : NEKF n m l) (t : EKF n m l), EKFStores true s t → t.B = some B →
      ∃ s', s.predict = .ok s' ∧ s'.x = .d2 n l (of fun i _ => (t.F *ᵥ t.x) i)) ∧
    (∀ (s : NHInf n m l) (t : HInf n m l), HInfStores true s t → t.B = some B →
      ∃ s', s.predict = .ok s' ∧ s'.x = .d2 n l (of fun i _ => (t.F *ᵥ t.x) i)) ∧
    (∀ (L : SqrtLib n m) (s : NSR n m l) (t : SRKF n m l), SRStores true s t → t.B = some B →
      ∃ s', s.predict L = .ok s' ∧ s'.x = .d2 n l (of fun i _ => (t.F *ᵥ t.x) i)) := by
  refine ⟨fun s t h hB => ?_, fun s t h hB => ?_, fun L s t h hB => ?_⟩
  · simp only [NEKF.predict, bind, Except.bind, h.x, h.F, h.B, hB, moveX_matrix, liftAt]
    exact ⟨_, rfl, by simp⟩
  · simp only [NHInf.predict, bind, Except.bind, h.x, h.F, h.B, hB, moveX_matrix, liftAt]
    exact ⟨_, rfl, by simp⟩
  · simp only [NSR.predict, bind, Except.bind, h.x, h.F, h.B, hB, moveX_matrix, liftAt]
    exact ⟨_, rfl, by simp⟩

/-! ## New objects -/

/-- New objects store the new objects of the mathematical models, with column states. -/
theorem C138_fresh (n m l : ℕ) (a g : ℝ) (N : Option ℕ) (ll : Bool) :
    FKFStores true (NFKF.fresh a n m l) (FKF.fresh a n m l) ∧ EKFStores true (NEKF.fresh n m l) (EKF.fresh n m l) ∧
      HInfStores true (NHInf.fresh n m l g) (HInf.fresh n m l g) ∧ SRStores true (NSR.fresh n m l) (SRKF.fresh n m l) ∧
      IFStores true (NIF.fresh n m l ll) (IF.fresh n m l ll) ∧ FLSStores true (NFLS.fresh n m l N) (FLS.fresh n m l N) := by
  have hz : ZAs true none fun _ : Fin m => (none : Option ℝ) := .inl ⟨rfl, fun _ => rfl⟩
  refine ⟨?_, ?_, ?_, ?_, ?_, ?_⟩
  · constructor <;> first | rfl | exact hz | exact ⟨true, rfl⟩
  · constructor <;> first | rfl | exact hz | exact ⟨true, rfl⟩
  · constructor <;> first | rfl | exact hz | exact ⟨true, rfl⟩ | exact ⟨true, Accepted.same (col := true) (v := (0 : Vec m))⟩
  · constructor <;> first | rfl | exact hz | exact ⟨true, rfl⟩
  · constructor <;> first | rfl | exact ⟨true, rfl⟩ | exact .inr ⟨_, _, rfl, rfl, true, Accepted.same⟩
  · constructor <;> first | rfl | exact ⟨true, rfl⟩ | skip
    · cases N <;> rfl
    · intro xs hxs
      cases N with
      | none => cases hxs
      | some N =>
        simp only [FLS.fresh, Option.map_some, Option.some.injEq] at hxs
        subst hxs
        rfl
    · cases N <;> simp [FLS.fresh]

/-- A new `FadingKalmanFilter` with two state variables and two sensors takes the measurement `[5, 7]` without complaint and
has a 2 × 2 matrix as its state afterwards; with the column it has a column. -/
example : (∃ s', (NFKF.fresh 1 2 2 0).update (some (.d1 2 ![5, 7])) .none = .ok s' ∧ s'.x.shape = [2, 2]) ∧
    ∃ s', (NFKF.fresh 1 2 2 0).update (some (vecAs true ![5, 7])) .none = .ok s' ∧ s'.x.shape = [2, 1] := by
  have h := (C138_fresh 2 2 0 1 0 none true).1
  have hS : npInv ((FKF.fresh 1 2 2 0).H * ((FKF.fresh 1 2 2 0).P * (FKF.fresh 1 2 2 0).Hᵀ)
      + MatArg.none.resolve (FKF.fresh 1 2 2 0).R) = some 1 := by
    simp [FKF.fresh, MatArg.resolve, npInv]
  constructor
  · obtain ⟨s', h1, h2⟩ := C138_fading_refuted _ _ h ![5, 7] .none hS
    exact ⟨s', h1, by rw [h2]; rfl⟩
  · have g := C138_fading_update_partial true _ _ h _ _ (.same (v := ![5, 7])) .none
    have e : ∃ t', (FKF.fresh 1 2 2 0).update (some ![5, 7]) .none = .ok t' := by
      simp only [FKF.update, hS]
      exact ⟨_, rfl⟩
    obtain ⟨t', e⟩ := e
    rw [e] at g
    obtain ⟨s', h1, h2⟩ := g.ok_right
    exact ⟨s', h1, by rw [h2.x]; rfl⟩

/-- Numbers fit one sensor, and columns fit column states. -/
example : Accepted true ![(5 : ℝ)] (.d0 5) ∧ Accepted true ![5, (7 : ℝ)] (vecAs true ![5, 7]) ∧
    ¬ ∃ v : Vec 2, Accepted true v (.d1 2 ![5, 7]) := by
  refine ⟨.number 5 fun i => by fin_cases i; rfl, .same, ?_⟩
  rintro ⟨v, hv⟩
  generalize hz : Nd.d1 2 ![(5 : ℝ), 7] = z at hv
  cases hv <;> simp [vecAs] at hz

end Filterpy
