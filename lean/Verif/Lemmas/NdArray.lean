import Verif.Model.NdArray
import Mathlib.Tactic.FinCases

/-! # numpy operations on arrays of matching shapes -/

namespace Filterpy.Nd

open Matrix

variable {m n k p : ℕ}

theorem dot_mm (A : Mat m n) (B : Mat n p) : dot (d2 m n A) (d2 n p B) = .ok (d2 m p (A * B)) := by
  simp [dot]

theorem dot_mv (A : Mat m n) (v : Vec n) : dot (d2 m n A) (d1 n v) = .ok (d1 m (A *ᵥ v)) := by
  simp [dot]

theorem dot_ms (A : Mat m n) (c : ℝ) : dot (d2 m n A) (d0 c) = .ok (d2 m n (c • A)) := by
  simp [dot]

theorem dot_mm_ne (h : k ≠ n) (A : Mat m n) (B : Mat k p) :
    dot (d2 m n A) (d2 k p B) = .error .valueError := by
  simp [dot, h]

theorem dot_mv_ne (h : k ≠ n) (A : Mat m n) (v : Vec k) :
    dot (d2 m n A) (d1 k v) = .error .valueError := by
  simp [dot, h]

theorem dot_vm_ne (h : k ≠ n) (v : Vec n) (B : Mat k p) :
    dot (d1 n v) (d2 k p B) = .error .valueError := by
  simp [dot, h]

theorem bdim_self (a : ℕ) : bdim a a = some a := by simp [bdim]

theorem bdim_one (a : ℕ) : bdim a 1 = some a := by
  unfold bdim
  by_cases h : a = 1 <;> simp [h]

theorem one_bdim (a : ℕ) : bdim 1 a = some a := by
  unfold bdim
  by_cases h : 1 = a
  · simp [h]
  · simp [h]

theorem bidx_lt {a i : ℕ} (h : i < a) : bidx a i = i := by
  unfold bidx
  split_ifs with h1
  · omega
  · rfl

theorem get_d2 (A : Mat m n) (i : Fin m) (j : Fin n) : get (d2 m n A) i j = A i j := by
  simp [get]

theorem get_d1 (v : Vec n) (i : ℕ) (j : Fin n) : get (d1 n v) i j = v j := by
  simp [get]

theorem broadcast_d2 (f : ℝ → ℝ → ℝ) (A B : Mat m n) :
    broadcast f (d2 m n A) (d2 m n B) = .ok (d2 m n (of fun i j => f (A i j) (B i j))) := by
  simp only [broadcast, rows, cols, bdim_self, ndim, shape, List.length_cons, List.length_nil, max_self]
  congr 2
  funext i j
  simp only [bidx_lt i.2, bidx_lt j.2, get_d2, of_apply]

theorem broadcast_d1 (f : ℝ → ℝ → ℝ) (v w : Vec n) :
    broadcast f (d1 n v) (d1 n w) = .ok (d1 n fun i => f (v i) (w i)) := by
  simp only [broadcast, rows, cols, bdim_self, ndim, shape, List.length_cons, List.length_nil, max_self]
  congr 2
  funext j
  simp only [bidx_lt j.2, get_d1]

/-- A vector combined with a column broadcasts to a matrix. -/
theorem broadcast_vec_col (f : ℝ → ℝ → ℝ) (v : Vec n) (A : Mat m 1) :
    broadcast f (d1 n v) (d2 m 1 A) = .ok (d2 m n (of fun i j => f (v j) (A i 0))) := by
  simp only [broadcast, rows, cols, bdim_one, one_bdim, ndim, shape, List.length_cons, List.length_nil,
    show max (0 + 1) (0 + 1 + 1) = 2 from rfl, show max (0 + 1 + 1) (0 + 1) = 2 from rfl]
  congr 2
  funext i j
  have h := get_d2 A i 0
  simp only [Fin.val_zero] at h
  simp only [bidx_lt i.2, bidx_lt j.2, get_d1, of_apply, h, show bidx 1 (j : ℕ) = 0 from by simp [bidx]]

/-- A column combined with a vector broadcasts to a matrix. -/
theorem broadcast_col_vec (f : ℝ → ℝ → ℝ) (A : Mat m 1) (v : Vec n) :
    broadcast f (d2 m 1 A) (d1 n v) = .ok (d2 m n (of fun i j => f (A i 0) (v j))) := by
  simp only [broadcast, rows, cols, bdim_one, one_bdim, ndim, shape, List.length_cons, List.length_nil,
    show max (0 + 1) (0 + 1 + 1) = 2 from rfl, show max (0 + 1 + 1) (0 + 1) = 2 from rfl]
  congr 2
  funext i j
  have h := get_d2 A i 0
  simp only [Fin.val_zero] at h
  simp only [bidx_lt i.2, bidx_lt j.2, get_d1, of_apply, h, show bidx 1 (j : ℕ) = 0 from by simp [bidx]]

/-- A column combined with a matrix of the same height broadcasts to a matrix. -/
theorem broadcast_col_mat (f : ℝ → ℝ → ℝ) (A : Mat m 1) (B : Mat m n) :
    broadcast f (d2 m 1 A) (d2 m n B) = .ok (d2 m n (of fun i j => f (A i 0) (B i j))) := by
  simp only [broadcast, rows, cols, bdim_self, one_bdim, ndim, shape, List.length_cons,
    List.length_nil, max_self]
  congr 2
  funext i j
  have h := get_d2 A i 0
  simp only [Fin.val_zero] at h
  simp only [bidx_lt i.2, bidx_lt j.2, get_d2, of_apply, h,
    show bidx 1 (j : ℕ) = 0 from by simp [bidx]]

/-- A vector combined with a matrix of as many columns is combined with each row. -/
theorem broadcast_vec_mat (f : ℝ → ℝ → ℝ) (v : Vec n) (B : Mat m n) :
    broadcast f (d1 n v) (d2 m n B) = .ok (d2 m n (of fun i j => f (v j) (B i j))) := by
  simp only [broadcast, rows, cols, bdim_self, one_bdim, ndim, shape, List.length_cons,
    List.length_nil, show max (0 + 1) (0 + 1 + 1) = 2 from rfl]
  congr 2
  funext i j
  simp only [bidx_lt i.2, bidx_lt j.2, get_d2, get_d1, of_apply]

theorem add_mm (A B : Mat m n) : add (d2 m n A) (d2 m n B) = .ok (d2 m n (A + B)) :=
  broadcast_d2 _ A B

theorem sub_mm (A B : Mat m n) : sub (d2 m n A) (d2 m n B) = .ok (d2 m n (A - B)) :=
  broadcast_d2 _ A B

theorem add_vv (v w : Vec n) : add (d1 n v) (d1 n w) = .ok (d1 n (v + w)) := broadcast_d1 _ v w

theorem sub_vv (v w : Vec n) : sub (d1 n v) (d1 n w) = .ok (d1 n (v - w)) := broadcast_d1 _ v w

theorem inv_sq (A : Mat m m) : inv (d2 m m A) = match npInv A with
    | some B => .ok (d2 m m B)
    | none => .error .linAlgError := by
  simp only [inv, dif_pos]
  cases npInv A <;> rfl

end Filterpy.Nd
