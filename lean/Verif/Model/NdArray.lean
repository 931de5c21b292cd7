import Verif.Model.Helpers

/-!
# numpy arrays with run-time shapes

The rest of the model types arrays by their dimensions.  Here arrays of zero, one or two axes carry
their shape at run time and the operations follow numpy's rules: `np.dot` with its alignment
`ValueError`, elementwise arithmetic with broadcasting, `.T`, `reshape_z` and `np.linalg.inv`.
This is library behaviour used by `filterpy/kalman/kalman_filter.py`.
-/

namespace Filterpy

open Matrix

/-- A numpy array of at most two axes: shapes `()`, `(n,)` and `(m, n)`.  Python numbers behave as
`()` arrays in all operations below. -/
inductive Nd
  | d0 (a : ℝ)
  | d1 (n : ℕ) (v : Vec n)
  | d2 (m n : ℕ) (A : Mat m n)

namespace Nd

/-- `a.shape`. -/
def shape : Nd → List ℕ
  | d0 _ => []
  | d1 n _ => [n]
  | d2 m n _ => [m, n]

/-- `a.ndim`. -/
def ndim (a : Nd) : ℕ := a.shape.length

/-- `a.T`: swaps the axes of a 2-D array, leaves others alone. -/
def T : Nd → Nd
  | d0 a => d0 a
  | d1 n v => d1 n v
  | d2 m n A => d2 n m Aᵀ

/-- A number times an array. -/
def smul (c : ℝ) : Nd → Nd
  | d0 a => d0 (c * a)
  | d1 n v => d1 n (c • v)
  | d2 m n A => d2 m n (c • A)

/-- `np.eye(n)`. -/
def eye (n : ℕ) : Nd := d2 n n 1

/-- `zeros((m, n))`. -/
def zeros (m n : ℕ) : Nd := d2 m n 0

/-- `np.dot(a, b)`: a product with a 0-d operand is elementwise; otherwise the last axis of `a` is
contracted with the first axis (of a vector) or the second-to-last axis (of a matrix) of `b`, and
`ValueError: shapes not aligned` is raised when their lengths differ. -/
def dot : Nd → Nd → Except Err Nd
  | d0 a, b => .ok (smul a b)
  | d1 n v, d0 b => .ok (d1 n (b • v))
  | d2 m n A, d0 b => .ok (d2 m n (b • A))
  | d1 n v, d1 k w => if h : k = n then .ok (d0 (v ⬝ᵥ (h ▸ w : Vec n))) else .error .valueError
  | d1 n v, d2 k p B =>
      if h : k = n then .ok (d1 p (v ᵥ* (h ▸ B : Mat n p))) else .error .valueError
  | d2 m n A, d1 k w =>
      if h : k = n then .ok (d1 m (A *ᵥ (h ▸ w : Vec n))) else .error .valueError
  | d2 m n A, d2 k p B =>
      if h : k = n then .ok (d2 m p (A * (h ▸ B : Mat n p))) else .error .valueError

/-- The number of rows of the array seen as a 2-D array, missing leading axes counting one. -/
def rows : Nd → ℕ
  | d2 m _ _ => m
  | _ => 1

/-- The number of columns of the array seen as a 2-D array. -/
def cols : Nd → ℕ
  | d0 _ => 1
  | d1 n _ => n
  | d2 _ n _ => n

/-- Entry `(i, j)` of the array seen as a 2-D array. -/
def get : Nd → ℕ → ℕ → ℝ
  | d0 a, _, _ => a
  | d1 n v, _, j => if h : j < n then v ⟨j, h⟩ else 0
  | d2 m n A, i, j => if h : i < m ∧ j < n then A ⟨i, h.1⟩ ⟨j, h.2⟩ else 0

/-- The common length of two broadcast axes, if there is one. -/
def bdim (a b : ℕ) : Option ℕ :=
  if a = b then some a else if a = 1 then some b else if b = 1 then some a else none

/-- The index used along a broadcast axis of length `a`. -/
def bidx (a i : ℕ) : ℕ := if a = 1 then 0 else i

/-- An elementwise operation with numpy's broadcasting; `ValueError` if the shapes do not
broadcast. -/
def broadcast (f : ℝ → ℝ → ℝ) (a b : Nd) : Except Err Nd :=
  match bdim a.rows b.rows, bdim a.cols b.cols with
  | some m, some n =>
    let e := fun i j => f (a.get (bidx a.rows i) (bidx a.cols j)) (b.get (bidx b.rows i) (bidx b.cols j))
    match max a.ndim b.ndim with
    | 0 => .ok (d0 (e 0 0))
    | 1 => .ok (d1 n fun j => e 0 j)
    | _ => .ok (d2 m n fun i j => e i j)
  | _, _ => .error .valueError

/-- `a + b`. -/
def add (a b : Nd) : Except Err Nd := broadcast (· + ·) a b

/-- `a - b`. -/
def sub (a b : Nd) : Except Err Nd := broadcast (· - ·) a b

/-- `np.linalg.inv(a)`: `LinAlgError` unless `a` is a square, nonsingular 2-D array. -/
noncomputable def inv : Nd → Except Err Nd
  | d2 m n A =>
    if h : n = m then
      match npInv (h ▸ A : Mat m m) with
      | some B => .ok (d2 m m B)
      | none => .error .linAlgError
    else .error .linAlgError
  | _ => .error .linAlgError

/-- The same array in the representation used by `Model/Helpers`. -/
def toArr : Nd → Helpers.Arr
  | d0 a => .d0 a
  | d1 n v => .d1 n fun j => get (d1 n v) 0 j
  | d2 m n A => .d2 m n fun i j => get (d2 m n A) i j

/-- The inverse conversion; `reshape_z` never returns an array of three or more axes. -/
def ofArr : Helpers.Arr → Nd
  | .d0 a => d0 a
  | .d1 n v => d1 n fun j => v j
  | .d2 m n v => d2 m n fun i j => v i j
  | .hi _ => d0 0

/-- `reshape_z(z, dim_z, ndim)` (helpers.py 324-342), modelled in `Model/Helpers`. -/
def reshapeZ (z : Nd) (dimZ ndim : ℕ) : Except Err Nd :=
  match Helpers.reshapeZ z.toArr dimZ ndim with
  | .ok a => .ok (ofArr a)
  | .error e => .error e

end Nd

end Filterpy
