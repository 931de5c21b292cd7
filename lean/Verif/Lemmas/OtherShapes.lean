import Verif.Spec.OtherShapes
import Verif.Lemmas.KalmanShapesMore
import Verif.Lemmas.Sim

/-! # Array operations of the filters that do not reshape their arguments -/

namespace Filterpy

open Matrix Nd Spec

variable {n m l : ℕ}

/-- An array of one entry `a`, with no more axes than the state. -/
def Nd.One (col : Bool) (a : ℝ) (z : Nd) : Prop :=
  z.rows = 1 ∧ z.cols = 1 ∧ z.ndim ≤ (if col then 2 else 1) ∧ z.get 0 0 = a

theorem One.d0 (col : Bool) (a : ℝ) : One col a (.d0 a) := ⟨rfl, rfl, by simp [ndim, shape], rfl⟩

theorem One.d1 (col : Bool) (w : Vec 1) : One col (w 0) (.d1 1 w) := by
  refine ⟨rfl, rfl, ?_, by simp [Nd.get]⟩
  cases col <;> simp [ndim, shape]

theorem One.d2 (w : Mat 1 1) : One true (w 0 0) (.d2 1 1 w) := ⟨rfl, rfl, by simp [ndim, shape], by simp [Nd.get]⟩

/-- Elementwise arithmetic of a single value with a vector. -/
theorem broadcast_one (f : ℝ → ℝ → ℝ) (col : Bool) {a : ℝ} {z : Nd} (h : One col a z) (w : Vec m) :
    broadcast f z (vecAs col w) = .ok (vecAs col fun i => f a (w i)) := by
  obtain ⟨h1, h2, h3, h4⟩ := h
  simp only [broadcast, h1, h2, one_bdim, show ∀ i, bidx 1 i = 0 from fun i => by simp [bidx], h4]
  cases col
  · simp only [vecAs, Bool.false_eq_true, if_false] at h3 ⊢
    rw [show max z.ndim (Nd.d1 m w).ndim = 1 from max_eq_right h3]
    simp only [rows, cols]
    congr 2
    funext (j : Fin m)
    have hj : bidx m (j : ℕ) = j := bidx_lt j.2
    simp only [hj, get_d1]
  · simp only [vecAs, if_true] at h3 ⊢
    rw [show max z.ndim (Nd.d2 m 1 (of fun i _ => w i)).ndim = 2 from max_eq_right h3]
    simp only [rows, cols]
    congr 2
    funext (i : Fin m) (j : Fin 1)
    have hi : bidx m (i : ℕ) = i := bidx_lt i.2
    have hj : bidx 1 (j : ℕ) = j := bidx_lt j.2
    simp only [hi, hj, get_d2, of_apply]

/-- Elementwise arithmetic of a vector with a single value. -/
theorem broadcast_one_right (f : ℝ → ℝ → ℝ) (col : Bool) {a : ℝ} {z : Nd} (h : One col a z) (w : Vec m) :
    broadcast f (vecAs col w) z = .ok (vecAs col fun i => f (w i) a) := by
  obtain ⟨h1, h2, h3, h4⟩ := h
  simp only [broadcast, h1, h2, bdim_one, show ∀ i, bidx 1 i = 0 from fun i => by simp [bidx], h4]
  cases col
  · simp only [vecAs, Bool.false_eq_true, if_false] at h3 ⊢
    rw [show max (Nd.d1 m w).ndim z.ndim = 1 from max_eq_left h3]
    simp only [rows, cols]
    congr 2
    funext (j : Fin m)
    have hj : bidx m (j : ℕ) = j := bidx_lt j.2
    simp only [hj, get_d1]
  · simp only [vecAs, if_true] at h3 ⊢
    rw [show max (Nd.d2 m 1 (of fun i _ => w i)).ndim z.ndim = 2 from max_eq_left h3]
    simp only [rows, cols]
    congr 2
    funext (i : Fin m) (j : Fin 1)
    have hi : bidx m (i : ℕ) = i := bidx_lt i.2
    have hj : bidx 1 (j : ℕ) = j := bidx_lt j.2
    simp only [hi, hj, get_d2, of_apply]

/-- A measurement in a fitting form minus the expected measurement. -/
theorem sub_fits (col : Bool) {v : Vec m} {z : Nd} (h : Accepted col v z) (w : Vec m) :
    Nd.sub z (vecAs col w) = .ok (vecAs col (v - w)) := by
  have key : ∀ a, (∀ i, v i = a) → One col a z → Nd.sub z (vecAs col w) = .ok (vecAs col (v - w)) := by
    intro a hv h1
    rw [Nd.sub, broadcast_one _ col h1 w]
    congr 2
    funext i
    rw [Pi.sub_apply, hv i]
  cases h with
  | same => exact sub_vecAs col v w
  | number a hv => exact key a hv (One.d0 col a)
  | vec1 u hv => exact key _ hv (One.d1 col u)
  | mat1 u hc hv => subst hc; exact key _ hv (One.d2 u)

theorem resid_fits (col : Bool) {v : Vec m} {z : Nd} (h : Accepted col v z) (H : Mat m n) (x : Vec n) :
    resid z H (vecAs col x) = .ok (vecAs col (v - H *ᵥ x)) := by
  simp only [resid, NKF.residual, dot_vecAs, bind, Except.bind]
  exact sub_fits col h _

theorem corr_vecAs (col : Bool) (x : Vec n) (K : Mat n m) (y : Vec m) :
    corr (vecAs col x) K (vecAs col y) = .ok (vecAs col (x + K *ᵥ y)) := by
  simp only [corr, NKF.correct, dot_vecAs, bind, Except.bind]
  exact add_vecAs _ _ _

theorem corrInto_vecAs (col : Bool) (x : Vec n) (K : Mat n m) (y : Vec m) :
    corrInto (vecAs col x) K (vecAs col y) = .ok (vecAs col (x + K *ᵥ y)) := by
  simp only [corrInto, dot_vecAs, bind, Except.bind]
  exact addInto_vecAs _ _ _

theorem smul_form (col : Bool) (c : ℝ) (v : Vec n) : Nd.smul c (vecAs col v) = vecAs col (c • v) := by
  cases col
  · rfl
  · simp only [vecAs, if_true, Nd.smul]
    rfl

/-- The control term added to a vector in the form of the state. -/
theorem add_control (col : Bool) (w : Vec n) (B : Option (Mat n l)) (u : UArg l) (hu : UOk col B u)
    {bu : Vec n} (h : FKF.control B u = .ok bu) :
    ∃ u' b, controlAs col u = some u' ∧ Nd.dot (ofB B) u' = .ok b ∧ Nd.add (vecAs col w) b = .ok (vecAs col (w + bu)) := by
  cases u with
  | none => cases B <;> simp [FKF.control] at h
  | scalar c =>
    cases B with
    | none =>
      simp only [FKF.control, Except.ok.injEq] at h
      subst h
      refine ⟨.d0 c, .d0 (0 * c), rfl, rfl, ?_⟩
      rw [Nd.add, broadcast_one_right _ col (One.d0 col _) w]
      congr 2
      funext i
      simp
    | some B =>
      obtain ⟨rfl, rfl⟩ := hu rfl
      simp only [FKF.control, dif_pos, Except.ok.injEq] at h
      subst h
      refine ⟨.d0 c, .d2 n 1 (c • B), rfl, dot_ms B c, ?_⟩
      rw [← add_vecAs]
      congr 1
      simp only [vecAs, if_true]
      congr 1
      ext i j
      rw [Subsingleton.elim j 0]
      rfl
  | vec u =>
    cases B with
    | none =>
      have hl : l = n ∨ l = 1 := hu rfl
      simp only [FKF.control, if_pos hl, Except.ok.injEq] at h
      subst h
      refine ⟨_, vecAs col ((0 : ℝ) • u), rfl, by simp only [ofB, Nd.dot, smul_form], ?_⟩
      rw [zero_smul]
      rcases hl with rfl | rfl
      · exact add_vecAs col w 0
      · have h1 : One col 0 (vecAs col (0 : Vec 1)) := by
          cases col
          · exact One.d1 false 0
          · exact One.d2 0
        rw [Nd.add, broadcast_one_right _ col h1 w]
        congr 2
    | some B =>
      simp only [FKF.control, Except.ok.injEq] at h
      subst h
      exact ⟨_, _, rfl, dot_vecAs col B u, add_vecAs _ _ _⟩

/-- The predicted state in the form of the state. -/
theorem moveX_ok (col : Bool) (F : Mat n n) (x : Vec n) (B : Option (Mat n l)) (u : UArg l) (hu : UOk col B u)
    {bu : Vec n} (h : FKF.control B u = .ok bu) :
    moveX F (vecAs col x) B (controlAs col u) = .ok (vecAs col (F *ᵥ x + bu)) := by
  obtain ⟨u', b, h1, h2, h3⟩ := add_control col (F *ᵥ x) B u hu h
  simp only [moveX, dot_vecAs, bind, Except.bind, h1, dotB, h2]
  exact h3

/-- A control input that is refused. -/
theorem moveX_err (col : Bool) (F : Mat n n) (x : Vec n) (B : Option (Mat n l)) (u : UArg l) (hu : UOk col B u)
    {e : Err} (h : FKF.control B u = .error e) :
    moveX F (vecAs col x) B (controlAs col u) = .error e := by
  cases u with
  | none =>
    have : e = .typeError := by cases B <;> simpa [FKF.control, eq_comm] using h
    subst this
    simp only [moveX, dot_vecAs, bind, Except.bind, controlAs, dotB]
  | scalar c =>
    cases B with
    | none => simp [FKF.control] at h
    | some B =>
      obtain ⟨_, rfl⟩ := hu rfl
      simp [FKF.control] at h
  | vec u =>
    cases B with
    | none => simp [FKF.control, hu rfl] at h
    | some B => simp [FKF.control] at h

/-- Two arrays cannot both be in the form of the state and of another shape. -/
theorem vecAs_inj {col : Bool} {v w : Vec n} (h : vecAs col v = vecAs col w) : v = w := by
  cases col
  · simpa [vecAs] using h
  · funext i
    have : (of fun i (_ : Fin 1) => v i : Mat n 1) = of fun i _ => w i := by simpa [vecAs] using h
    simpa using congrFun (congrFun this i) 0

/-- The shape of the result of elementwise arithmetic. -/
theorem broadcast_shape (f : ℝ → ℝ → ℝ) {a b c : Nd} (h : broadcast f a b = .ok c) :
    bdim a.rows b.rows = some c.rows ∧ bdim a.cols b.cols = some c.cols ∧ c.ndim = max a.ndim b.ndim := by
  unfold broadcast at h
  have ha : a.ndim ≤ 2 := by cases a <;> simp [Nd.ndim, Nd.shape]
  have hb : b.ndim ≤ 2 := by cases b <;> simp [Nd.ndim, Nd.shape]
  have r1 : ∀ d : Nd, d.ndim ≤ 1 → d.rows = 1 := by
    intro d hd
    cases d <;> simp [Nd.ndim, Nd.shape, Nd.rows] at hd ⊢
  have c1 : ∀ d : Nd, d.ndim = 0 → d.cols = 1 := by
    intro d hd
    cases d <;> simp [Nd.ndim, Nd.shape, Nd.cols] at hd ⊢
  cases h1 : bdim a.rows b.rows with
  | none => simp [h1] at h
  | some r =>
    cases h2 : bdim a.cols b.cols with
    | none => simp [h1, h2] at h
    | some c' =>
      simp only [h1, h2] at h
      have hd : max a.ndim b.ndim = 0 ∨ max a.ndim b.ndim = 1 ∨ max a.ndim b.ndim = 2 := by omega
      rcases hd with hd | hd | hd <;> rw [hd] at h <;> simp only [Except.ok.injEq] at h <;> subst h
      · have e1 := r1 a (by omega)
        have e2 := r1 b (by omega)
        have e3 := c1 a (by omega)
        have e4 := c1 b (by omega)
        rw [e1, e2, bdim_self] at h1
        rw [e3, e4, bdim_self] at h2
        refine ⟨?_, ?_, hd.symm⟩
        · exact h1.symm ▸ rfl
        · exact h2.symm ▸ rfl
      · have e1 := r1 a (by omega)
        have e2 := r1 b (by omega)
        rw [e1, e2, bdim_self] at h1
        exact ⟨h1.symm ▸ rfl, rfl, hd.symm⟩
      · exact ⟨rfl, rfl, hd.symm⟩

theorem bdim_left {a b : ℕ} (h : bdim a b = some b) : a = b ∨ a = 1 := by
  unfold bdim at h
  split_ifs at h with h1 h2 h3
  · exact .inl h1
  · exact .inr h2
  · exact .inl (by simpa using h)

theorem bdim_comm' (a b : ℕ) : bdim a b = bdim b a := by
  unfold bdim
  split_ifs <;> simp_all

/-- **Only a fitting measurement gives a corrected state in the form of the state.** -/
theorem fits_of_sub (col : Bool) (x w : Vec n) (e : Vec m) (K : Mat n m) {z y : Nd}
    (h1 : Nd.sub z (vecAs col e) = .ok y) (h2 : corr (vecAs col x) K y = .ok (vecAs col w)) : ∃ v : Vec m, Accepted col v z := by
  have s1 := broadcast_shape _ h1
  simp only [corr, NKF.correct, bind, Except.bind] at h2
  cases hK : Nd.dot (.d2 n m K) y with
  | error e => simp [hK] at h2
  | ok Ky =>
    simp only [hK] at h2
    have s2 := broadcast_shape _ h2
    cases col
    · -- a 1-D state
      simp only [vecAs, Bool.false_eq_true, if_false] at s1 s2
      have hy : y.ndim ≤ 1 := by
        by_contra hc
        cases y with
        | d0 a => simp [Nd.ndim, Nd.shape] at hc
        | d1 k v => simp [Nd.ndim, Nd.shape] at hc
        | d2 a b A =>
          have : Ky.ndim = 2 := by
            by_cases ha : a = m
            · subst ha
              rw [dot_mm] at hK
              injection hK with hK
              subst hK
              rfl
            · rw [dot_mm_ne ha] at hK
              cases hK
          have h3 := s2.2.2
          rw [this] at h3
          simp [Nd.ndim, Nd.shape] at h3
      have hz : z.ndim ≤ 1 := by
        have := s1.2.2
        omega
      cases z with
      | d0 a => exact ⟨fun _ => a, .number a fun _ => rfl⟩
      | d2 a b A => simp [Nd.ndim, Nd.shape] at hz
      | d1 k v =>
        have hym : y.cols = m := by
          cases y with
          | d0 a => have := s1.2.2; simp [Nd.ndim, Nd.shape] at this
          | d2 a b A => simp [Nd.ndim, Nd.shape] at hy
          | d1 a A =>
            by_contra hc
            rw [dot_mv_ne (k := a) hc] at hK
            cases hK
        have h3 := s1.2.1
        rw [hym] at h3
        rcases bdim_left (a := k) (b := m) h3 with rfl | rfl
        · exact ⟨v, .same⟩
        · exact ⟨fun _ => v 0, .vec1 v fun _ => rfl⟩
    · simp only [vecAs, if_true] at s1 s2
      cases y with
      | d0 a =>
        have := s1.2.2
        simp only [Nd.ndim, Nd.shape, List.length_cons, List.length_nil] at this
        omega
      | d1 k v =>
        have := s1.2.2
        simp only [Nd.ndim, Nd.shape, List.length_cons, List.length_nil] at this
        omega
      | d2 a b A =>
        have ha : a = m := by
          by_contra ha
          rw [dot_mm_ne ha] at hK
          cases hK
        subst ha
        rw [dot_mm] at hK
        injection hK with hK
        subst hK
        have hb : b = 1 := by
          have h3 : bdim 1 b = some 1 := s2.2.1
          rw [one_bdim] at h3
          simpa using h3
        subst hb
        have h4 : bdim z.rows a = some a := s1.1
        have h5 : z.cols = 1 := by
          have h5 : bdim z.cols 1 = some 1 := s1.2.1
          rw [bdim_one] at h5
          simpa using h5
        cases z with
        | d0 c => exact ⟨fun _ => c, .number c fun _ => rfl⟩
        | d1 k v =>
          obtain rfl : k = 1 := h5
          exact ⟨fun _ => v 0, .vec1 v fun _ => rfl⟩
        | d2 k p v =>
          obtain rfl : p = 1 := h5
          rcases bdim_left (a := k) (b := a) h4 with rfl | rfl
          · refine ⟨fun i => v i 0, ?_⟩
            have : (Nd.d2 k 1 v) = vecAs true fun i => v i 0 := by
              simp only [vecAs, if_true]
              congr 1
              ext i j
              rw [Subsingleton.elim j 0]
              rfl
            rw [this]
            exact .same
          · exact ⟨fun _ => v 0 0, .mat1 v rfl fun _ => rfl⟩

theorem fits_of_resid (col : Bool) (x w : Vec n) (H : Mat m n) (K : Mat n m) {z y : Nd}
    (h1 : resid z H (vecAs col x) = .ok y) (h2 : corr (vecAs col x) K y = .ok (vecAs col w)) : ∃ v : Vec m, Accepted col v z := by
  simp only [resid, NKF.residual, dot_vecAs, bind, Except.bind] at h1
  exact fits_of_sub col x w _ K h1 h2

/-- **Only a fitting control input gives a predicted state in the form of the state.** -/
theorem uok_of_moveX (col : Bool) (F : Mat n n) (x w : Vec n) (B : Option (Mat n l)) (u : UArg l)
    (h : moveX F (vecAs col x) B (controlAs col u) = .ok (vecAs col w)) : UOk col B u := by
  simp only [moveX, dot_vecAs, bind, Except.bind] at h
  cases u with
  | none => trivial
  | scalar c =>
    intro hB
    obtain ⟨B, rfl⟩ := Option.isSome_iff_exists.1 hB
    simp only [controlAs, dotB, ofB, dot_ms] at h
    have s := broadcast_shape _ h
    cases col
    · have := s.2.2
      simp only [vecAs, Bool.false_eq_true, if_false, Nd.ndim, Nd.shape, List.length_cons, List.length_nil] at this
      omega
    · refine ⟨rfl, ?_⟩
      have h3 : bdim 1 l = some 1 := s.2.1
      rw [one_bdim] at h3
      simpa using h3
  | vec u =>
    intro hB
    subst hB
    simp only [controlAs, dotB, ofB, Nd.dot, smul_form] at h
    have s := broadcast_shape _ h
    cases col
    · exact bdim_left (by rw [bdim_comm']; exact s.2.1)
    · exact bdim_left (by rw [bdim_comm']; exact s.1)

/-- A column state and a 1-D measurement: the residual is a matrix. -/
theorem resid_mixed {k : ℕ} (v : Vec k) (H : Mat m n) (x : Vec n) :
    resid (.d1 k v) H (vecAs true x) = .ok (.d2 m k (of fun i j => v j - (H *ᵥ x) i)) := by
  simp only [resid, NKF.residual, dot_vecAs, bind, Except.bind]
  exact broadcast_vec_col _ v _

/-- A column state corrected by a matrix becomes a matrix. -/
theorem corr_mixed {k : ℕ} (x : Vec n) (K : Mat n m) (Y : Mat m k) :
    corr (vecAs true x) K (.d2 m k Y) = .ok (.d2 n k (of fun i j => x i + (K * Y) i j)) := by
  simp only [corr, NKF.correct, dot_mm, bind, Except.bind, vecAs, if_true]
  exact broadcast_col_mat _ _ _

/-- A correction in place keeps the form of the state, and has the value of the correction. -/
theorem corrInto_form (col : Bool) (x : Vec n) (K : Mat n m) (y : Nd) {c : Nd}
    (h : corrInto (vecAs col x) K y = .ok c) : ∃ w : Vec n, c = vecAs col w ∧ corr (vecAs col x) K y = .ok (vecAs col w) := by
  simp only [corrInto, bind, Except.bind] at h
  cases hK : Nd.dot (.d2 n m K) y with
  | error e => simp [hK] at h
  | ok Ky =>
    simp only [hK, addInto] at h
    cases ha : Nd.add (vecAs col x) Ky with
    | error e => simp [ha] at h
    | ok c' =>
      simp only [ha] at h
      split_ifs at h with hs
      injection h with h
      subst h
      have hw : ∃ w : Vec n, c' = vecAs col w := by
        cases col
        · cases c' with
          | d0 a => simp [vecAs, Nd.shape] at hs
          | d1 k w =>
            simp only [vecAs, Bool.false_eq_true, if_false, Nd.shape, List.cons.injEq, and_true] at hs
            subst hs
            exact ⟨w, rfl⟩
          | d2 a b w => simp [vecAs, Nd.shape] at hs
        · cases c' with
          | d0 a => simp [vecAs, Nd.shape] at hs
          | d1 k w => simp [vecAs, Nd.shape] at hs
          | d2 a b w =>
            simp only [vecAs, if_true, Nd.shape, List.cons.injEq, and_true] at hs
            obtain ⟨rfl, rfl⟩ := hs
            refine ⟨fun i => w i 0, ?_⟩
            simp only [vecAs, if_true]
            congr 1
            ext i j
            rw [Subsingleton.elim j 0]
            rfl
      obtain ⟨w, rfl⟩ := hw
      refine ⟨w, rfl, ?_⟩
      simp only [corr, NKF.correct, bind, Except.bind, hK]
      exact ha

/-- In place the correction is refused. -/
theorem corrInto_mixed {k : ℕ} (hk : k ≠ 1) (x : Vec n) (K : Mat n m) (Y : Mat m k) :
    corrInto (vecAs true x) K (.d2 m k Y) = .error .valueError := by
  have h := broadcast_col_mat (· + ·) (of fun i (_ : Fin 1) => x i) (K * Y)
  simp only [corrInto, dot_mm, bind, Except.bind, vecAs, if_true, addInto, Nd.add, h]
  rw [if_neg]
  simp [Nd.shape, hk]

/-- `predict()` with a matrix `B`: the number `0` times the matrix is added to the column. -/
theorem moveX_matrix (F : Mat n n) (x : Vec n) (B : Mat n l) (c : ℝ) :
    moveX F (vecAs true x) (some B) (some (.d0 c)) = .ok (.d2 n l (of fun i j => (F *ᵥ x) i + c * B i j)) := by
  simp only [moveX, dot_vecAs, bind, Except.bind, dotB, ofB, dot_ms]
  exact broadcast_col_mat _ _ _

/-- The same with a 1-D state and one control input. -/
theorem moveX_matrix_vec (F : Mat n n) (x : Vec n) (B : Mat n 1) (c : ℝ) :
    moveX F (vecAs false x) (some B) (some (.d0 c)) = .ok (.d2 n n (of fun i j => (F *ᵥ x) j + c * B i 0)) := by
  simp only [moveX, dot_vecAs, bind, Except.bind, dotB, ofB, dot_ms]
  exact broadcast_vec_col _ _ _

end Filterpy
