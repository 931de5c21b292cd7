import Verif.Model.Basic

/-!
# Model of the array views of `Saver` (`filterpy/common/helpers.py` 148-219)

`Saver` keeps every history twice: in `_DL` (a dictionary of lists, what `saver["x"]` shows) and in
its own `__dict__` (what `saver.x` shows). `to_array` and `flatten` change only the latter.
-/

namespace Filterpy.SaverArray

/-- A saved value: a number (`shape = []`) or an array, with its entries in row-major order. -/
structure Arr where
  shape : List ℕ
  data : List ℝ

/-- What an attribute of the saver holds: a list of saved values or one array. -/
inductive View
  | list (l : List Arr)
  | arr (a : Arr)

/-- A saver: the keys of `_DL` in insertion order, `_DL`, the attributes, and `_len`.
(The saver's own attributes `_kf`, `_DL`, `_ignore`, ... are left out of `view`; no filter class has
attributes of those names.) -/
structure Sv where
  keys : List String
  dl : String → List Arr
  view : String → Option View
  len : ℕ

/-- `self._DL = defaultdict(list)`, `self._len = 0` (helpers.py 98-102). -/
def Sv.empty : Sv := ⟨[], fun _ => [], fun _ => none, 0⟩

/-- `self._DL[key].append(v)` for one key (helpers.py 130, 149). -/
def Sv.push (s : Sv) (k : String) (v : Arr) : Sv :=
  { s with
    keys := if k ∈ s.keys then s.keys else s.keys ++ [k]
    dl := fun j => if j = k then s.dl j ++ [v] else s.dl j }

/-- `self.__dict__.update(self._DL)` (helpers.py 151, 159, 187). -/
def Sv.refresh (s : Sv) : Sv :=
  { s with view := fun k => if k ∈ s.keys then some (.list (s.dl k)) else s.view k }

/-- `save()` (helpers.py 121-152) once the values `row` to be recorded are known (see `Model/Saver`
for how they are obtained): append them, refresh the attributes, count. -/
def Sv.save (s : Sv) (row : List (String × Arr)) : Sv :=
  let s1 := row.foldl (fun s p => s.push p.1 p.2) s
  let s2 := s1.refresh
  { s2 with len := s2.len + 1 }

/-- `saver[key] = newvalue` (helpers.py 157-159), for a list `newvalue`. -/
def Sv.setItem (s : Sv) (k : String) (v : List Arr) : Sv :=
  Sv.refresh { s with
    keys := if k ∈ s.keys then s.keys else s.keys ++ [k]
    dl := fun j => if j = k then v else s.dl j }

/-- `np.array(l)` for a list of equally shaped arrays or numbers: stack along a new first axis.
Unequal shapes raise `ValueError` (numpy 1.24 and later; older versions built an array of objects). -/
def npArray : List Arr → Option Arr
  | [] => some ⟨[0], []⟩
  | a :: l => if ∀ b ∈ l, b.shape = a.shape then
      some ⟨(l.length + 1) :: a.shape, (a :: l).flatMap Arr.data⟩ else none

/-- The loop of `to_array` (helpers.py 182-188): at the first key
that cannot be converted all attributes are reset to lists and `ValueError` is raised. -/
def toArrayLoop : Sv → List String → Except (Err × Sv) Sv
  | s, [] => .ok s
  | s, k :: ks => match npArray (s.dl k) with
    | some a => toArrayLoop { s with view := fun j => if j = k then some (.arr a) else s.view j } ks
    | none => .error (.valueError, s.refresh)

/-- `arr.reshape(a, b)`: refused when the number of entries differs. -/
def Arr.reshape2 (x : Arr) (a b : ℕ) : Option Arr :=
  if x.data.length = a * b then some ⟨[a, b], x.data⟩ else none

/-- The second half of the body of `flatten` (helpers.py 208-211): a single column becomes 1-D. -/
def ravelCol (x : Arr) : Arr := match x.shape with
  | [_, 1] => ⟨[x.data.length], x.data⟩
  | _ => x

/-- The body of the loop of `flatten` (helpers.py 203-214). A list has no `shape`, an array with
fewer than three axes has no `shape[2]`, an array with more than three axes cannot be reshaped
unless the further axes have length one: all these exceptions are swallowed and leave the attribute
as it is. -/
def flattenView : View → View
  | .list l => .list l
  | .arr x => match x.shape with
    | a :: b :: c :: _ =>
      if c = 1 then match x.reshape2 a b with
        | some y => .arr (ravelCol y)
        | none => .arr x
      else .arr x
    | _ => .arr x

/-- `flatten()` (helpers.py 190-214). -/
def Sv.flatten (s : Sv) : Sv :=
  { s with view := fun k => if k ∈ s.keys then (s.view k).map flattenView else s.view k }

/-- `to_array(flatten)` (helpers.py 170-189). -/
def Sv.toArray (s : Sv) (flat : Bool) : Except (Err × Sv) Sv :=
  match toArrayLoop s s.keys with
  | .error e => .error e
  | .ok s' => .ok (if flat then s'.flatten else s')

/-- The calls a user makes on a saver. -/
inductive Op
  | save (row : List (String × Arr))
  | setItem (k : String) (v : List Arr)
  | toArray (flat : Bool)
  | flatten

/-- One call; a `ValueError` is caught by the user, who goes on with the saver as it was left. -/
def Sv.step (s : Sv) : Op → Sv
  | .save row => s.save row
  | .setItem k v => s.setItem k v
  | .toArray f => match s.toArray f with
    | .ok s' => s'
    | .error (_, s') => s'
  | .flatten => s.flatten

end Filterpy.SaverArray
