import Verif.Model.KalmanShapesMore
import Verif.Lemmas.KalmanShapes
import Verif.Lemmas.Kalman

/-! # Slices, reshaping and assignments to slices on arrays of matching shapes -/

namespace Filterpy.Nd

open Matrix Spec

variable {m n k p : ℕ}

/-- Arrays with the same shape and the same entries are equal. -/
theorem ext_d2 {m' n' : ℕ} {A : Mat m n} {B : Mat m' n'} (hm : m = m') (hn : n = n')
    (h : ∀ i j, i < m → j < n → get (d2 m n A) i j = get (d2 m' n' B) i j) : d2 m n A = d2 m' n' B := by
  subst hm hn
  congr 1
  ext i j
  have := h i j i.2 j.2
  rwa [get_d2, get_d2] at this

theorem get_of {f : Fin m → Fin n → ℝ} {i j : ℕ} (hi : i < m) (hj : j < n) :
    get (d2 m n (of f)) i j = f ⟨i, hi⟩ ⟨j, hj⟩ := by
  simp [get, hi, hj]

theorem get_lt (A : Mat m n) {i j : ℕ} (hi : i < m) (hj : j < n) : get (d2 m n A) i j = A ⟨i, hi⟩ ⟨j, hj⟩ := by
  simp [get, hi, hj]

theorem sliceLen_le {start len m : ℕ} (h : start + len ≤ m) : sliceLen m start (start + len) = len := by
  unfold sliceLen; omega

theorem sliceLen_beyond {start len m : ℕ} (h : m ≤ start) : sliceLen m start (start + len) = 0 := by
  unfold sliceLen; omega

theorem slice_d2 {start len : ℕ} (h : start + len ≤ m) (A : Mat m n) :
    slice (d2 m n A) start (start + len) = .ok (d2 len n (A.submatrix (KF.sliceIdx h) id)) := by
  simp only [slice]
  congr 1
  refine ext_d2 (sliceLen_le h) rfl fun i j hi hj => ?_
  rw [sliceLen_le h] at hi
  rw [get_of (by rw [sliceLen_le h]; exact hi) hj, get_lt _ hi hj]
  simp only [submatrix_apply, id]
  rw [get_lt A (by omega) hj]
  rfl

theorem slice2_d2 {start len : ℕ} (h : start + len ≤ m) (A : Mat m m) :
    slice2 (d2 m m A) start (start + len) = .ok (d2 len len (A.submatrix (KF.sliceIdx h) (KF.sliceIdx h))) := by
  simp only [slice2]
  congr 1
  refine ext_d2 (sliceLen_le h) (sliceLen_le h) fun i j hi hj => ?_
  rw [sliceLen_le h] at hi hj
  rw [get_of (by rw [sliceLen_le h]; exact hi) (by rw [sliceLen_le h]; exact hj), get_lt _ hi hj]
  simp only [submatrix_apply]
  rw [get_lt A (by omega) (by omega)]
  rfl

theorem reshape_self (A : Mat m n) : reshape (d2 m n A) m n = .ok (d2 m n A) := by
  simp only [reshape, size, if_true]
  congr 2
  ext i j
  have hn : 0 < n := j.pos
  simp only [of_apply, flat]
  rw [show ((i : ℕ) * n + j) / n = i from by
      rw [Nat.mul_comm, Nat.mul_add_div hn, Nat.div_eq_of_lt j.2, add_zero],
    show ((i : ℕ) * n + j) % n = j from by
      rw [Nat.mul_comm, Nat.mul_add_mod, Nat.mod_eq_of_lt j.2]]
  exact get_d2 A i j

theorem reshape_vec (v : Vec n) : reshape (d1 n v) n 1 = .ok (vecAs true v) := by
  simp only [reshape, size, mul_one, if_true, vecAs]
  congr 2
  ext i j
  rw [Subsingleton.elim j 0]
  simp [flat, get]

theorem reshape_num (a : ℝ) : reshape (d0 a) 1 1 = .ok (vecAs true fun _ : Fin 1 => a) := by
  simp only [reshape, size, mul_one, if_true, vecAs]
  congr 2

theorem setRows_col {start len : ℕ} (h : start + len ≤ m) (y : Vec m) (b : Vec len) :
    setRows (vecAs true y) start (start + len) (vecAs true b) = .ok (vecAs true (KF.sliceSet h y b)) := by
  simp only [vecAs, if_true, setRows, rows, cols, sliceLen_le h, fits, true_or, and_self]
  congr 2
  ext i j
  rw [Subsingleton.elim j 0]
  simp only [of_apply, KF.sliceSet]
  split_ifs with hi
  · have hb : bidx len ((i : ℕ) - start) = i - start := by
      unfold bidx; split_ifs <;> omega
    rw [hb, show bidx 1 ((0 : Fin 1) : ℕ) = 0 from rfl, get_of (by omega) (by omega)]
  · rfl

theorem setRows_beyond {start : ℕ} (h : m ≤ start) (y : Vec m) (b : Vec 1) :
    setRows (vecAs true y) start (start + 1) (vecAs true b) = .ok (vecAs true y) := by
  simp only [vecAs, if_true, setRows, rows, cols, sliceLen_beyond h, fits, true_or, or_true, and_self]
  congr 2
  ext i j
  rw [of_apply, if_neg (by omega)]

theorem setCols_mat {start len : ℕ} (h : start + len ≤ m) (K : Mat n m) (b : Mat n len) :
    setCols (d2 n m K) start (start + len) (d2 n len b)
      = .ok (d2 n m (fun i => KF.sliceSet h (K i) (b i))) := by
  simp only [setCols, rows, cols, sliceLen_le h, fits, true_or, and_self, if_true]
  congr 2
  ext i j
  simp only [of_apply, KF.sliceSet]
  split_ifs with hj
  · have hb : bidx len ((j : ℕ) - start) = j - start := by
      unfold bidx; split_ifs <;> omega
    rw [hb, bidx_lt i.2, get_lt b i.2 (by omega)]
  · rfl

theorem setCols_beyond {start : ℕ} (h : m ≤ start) (K : Mat n m) (b : Mat n 1) :
    setCols (d2 n m K) start (start + 1) (d2 n 1 b) = .ok (d2 n m K) := by
  simp only [setCols, rows, cols, sliceLen_beyond h, fits, true_or, or_true, and_self, if_true]
  congr 2
  ext i j
  rw [of_apply, if_neg (by omega)]

theorem addInto_vecAs (col : Bool) (v w : Vec n) : addInto (vecAs col v) (vecAs col w) = .ok (vecAs col (v + w)) := by
  simp only [addInto, add_vecAs, vecAs_shape, if_true]

/-- A column cannot be added in place to a 1-D array. -/
theorem addInto_vec_col (v : Vec n) (w : Mat n 1) : addInto (d1 n v) (d2 n 1 w) = .error .valueError := by
  simp [addInto, Nd.add, broadcast_vec_col, shape]

theorem oneOver_one {A : Mat 1 1} (h : A 0 0 ≠ 0) : oneOver (d2 1 1 A) = .ok (d2 1 1 (of fun _ _ => 1.0 / A 0 0)) := by
  unfold oneOver
  rw [if_neg]
  · show Except.ok (d2 1 1 (of fun i j => 1.0 / A i j)) = _
    congr 2
    ext i j
    rw [Subsingleton.elim i 0, Subsingleton.elim j 0]
    rfl
  · rintro ⟨i, j, hi, hj, h0⟩
    simp only [rows, cols, Nat.lt_one_iff] at hi hj
    subst hi hj
    exact h (by simpa [get] using h0)

theorem oneOver_zero {A : Mat 1 1} (h : A 0 0 = 0) : oneOver (d2 1 1 A) = .error .nonFinite := by
  unfold oneOver
  rw [if_pos ⟨0, 0, by simp [rows], by simp [cols], by simpa [get] using h⟩]

theorem mul_col_one (A : Mat n 1) (c : ℝ) :
    mul (d2 n 1 A) (d2 1 1 (of fun _ _ => c)) = .ok (d2 n 1 (c • A)) := by
  simp only [mul, broadcast, rows, cols, bdim_self, bdim_one, ndim, shape, List.length_cons, List.length_nil, max_self]
  congr 2
  funext i j
  rw [Subsingleton.elim j 0]
  have h := get_d2 A i 0
  simp only [Fin.val_zero] at h
  simp only [bidx_lt i.2, show bidx 1 ((0 : Fin 1) : ℕ) = 0 from rfl, show bidx 1 (i : ℕ) = 0 from by simp [bidx], h]
  simp [get, mul_comm]

end Filterpy.Nd
