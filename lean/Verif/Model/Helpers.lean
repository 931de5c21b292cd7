import Verif.Model.Saver
import Mathlib.Algebra.BigOperators.Group.Finset.Basic

/-!
# Model of `filterpy/common/helpers.py` 324-506

`reshape_z`, `inv_diagonal`, `outer_product_sum`, `compare_kf`, `copy_states`.
-/

namespace Filterpy.Helpers

/-- A numeric array of run-time shape.  Contents are functions of the indices; entries outside the
shape are meaningless.  Contents of arrays with three or more axes are not modelled. -/
inductive Arr
  | d0 (v : ℝ)
  | d1 (n : ℕ) (v : ℕ → ℝ)
  | d2 (r c : ℕ) (v : ℕ → ℕ → ℝ)
  | hi (shape : List ℕ)

/-- `reshape_z` after `np.atleast_2d` (helpers.py 328-342), for an array of shape `(r, c)`. -/
def reshape2 (r c : ℕ) (v : ℕ → ℕ → ℝ) (dimZ : ℕ) (ndim : ℕ) : Except Err Arr :=
  let r' := if c = dimZ then c else r
  let c' := if c = dimZ then r else c
  let v' := if c = dimZ then fun i j => v j i else v
  if r' = dimZ ∧ c' = 1 then
    if ndim = 1 then .ok (.d1 r' fun i => v' i 0)
    else if ndim = 0 then
      if r' = 0 then .error .indexError else .ok (.d0 (v' 0 0))
    else .ok (.d2 r' c' v')
  else .error .valueError

/-- `reshape_z` (helpers.py 324-342).  `np.atleast_2d` makes a scalar `(1, 1)` and a vector a row
`(1, n)`; arrays with three or more axes never have the shape `(dim_z, 1)`. -/
def reshapeZ (z : Arr) (dimZ ndim : ℕ) : Except Err Arr :=
  match z with
  | .d0 v => reshape2 1 1 (fun _ _ => v) dimZ ndim
  | .d1 n v => reshape2 1 n (fun _ j => v j) dimZ ndim
  | .d2 r c v => reshape2 r c v dimZ ndim
  | .hi _ => .error .valueError

/-- `inv_diagonal` (helpers.py 345-383).  A zero on the diagonal gives `inf` in numpy (`nonFinite`,
outside the model); the off-diagonal entries are never looked at. -/
noncomputable def invDiagonal (S : Arr) : Except Err Arr :=
  match S with
  | .d2 r c v =>
    if r ≠ c then .error .valueError
    else if ∃ i < r, v i i = 0 then .error .nonFinite
    else .ok (.d2 r c fun i j => if i = j then 1 / v i i else 0)
  | _ => .error .valueError

/-- `np.einsum('ij,ik->ijk', A, B)` (helpers.py 436). -/
def einsumOuter {N n m : ℕ} (A : Mat N n) (B : Mat N m) : Fin N → Mat n m :=
  fun i j k => A i j * B i k

/-- `outer_product_sum` (helpers.py 386-437); `np.sum(outer, axis=0)`.  `A` and `B` have the same
number of rows (otherwise `einsum` raises or broadcasts). -/
def outerProductSum {N n : ℕ} (A : Mat N n) (B : Option (Mat N n)) : Mat n n :=
  fun j k => ∑ i, einsumOuter A (B.getD A) i j k

/-- An attribute value: a numeric array, a function or bound method, or something else that numpy
cannot compare (`None`, an object array, ...). -/
inductive AVal (α : Type*)
  | num (a : α)
  | func (name : String)
  | other (name : String)

/-- `np.allclose` of two attribute values: `close` on numeric ones (it may raise, for shapes that
do not broadcast), `TypeError` when either is not numeric. -/
def allclose {α : Type*} (close : α → α → Except Err Bool) : AVal α → AVal α → Except Err Bool
  | .num a, .num b => close a b
  | _, _ => .error .typeError

/-- The loop of `compare_kf` (helpers.py 455-466): `attrs` in the order in which Python enumerates
the set of common names. -/
def compareLoop {α : Type*} (close : α → α → Except Err Bool) (v1 v2 : String → Option (AVal α)) :
    List String → Except Err (List String)
  | [] => .ok []
  | a :: as =>
    if SaverModel.isPrivate a then compareLoop close v1 v2 as
    else match v1 a, v2 a with
      | some x, some y => match allclose close x y with
        | .error e => .error e
        | .ok same => match compareLoop close v1 v2 as with
          | .error e => .error e
          | .ok ds => .ok (if same then ds else a :: ds)
      | _, _ => .error .attributeError

/-- `compare_kf` (helpers.py 440-471).  Line 469 returns the undefined name `different`. -/
def compareKf {α : Type*} (close : α → α → Except Err Bool) (v1 v2 : String → Option (AVal α))
    (attrs : List String) : Except Err (Option (List String)) :=
  match compareLoop close v1 v2 attrs with
  | .error e => .error e
  | .ok ds => if ds.length > 0 then .error .nameError else .ok none

open SaverModel

/-- Two objects on one heap. -/
structure Two (α : Type*) where
  heap : List (AVal α)
  dst : List (String × ℕ)
  src : List (String × ℕ)

/-- The value a reference points to. -/
def Two.val {α : Type*} (w : Two α) (l : ℕ) : Option (AVal α) := w.heap[l]?

/-- One turn of the loop of `copy_states` (helpers.py 503-506). -/
def copyOne {α : Type*} (w : Two α) (key : String) : Two α :=
  match (w.src.lookup key).bind w.val with
  | none => w
  | some (.func _) => w
  | some v => { w with heap := w.heap ++ [v], dst := dictSet w.dst key w.heap.length }

/-- `copy_states(dst, src)` (helpers.py 474-506); `attrs` enumerates the common names. -/
def copyStates {α : Type*} (w : Two α) (attrs : List String) : Two α := attrs.foldl copyOne w

end Filterpy.Helpers
