import Verif.Model.SaverArray

/-!
# Reading a `Saver` (filterpy/common/helpers.py)
-/

namespace Filterpy.SaverArray

/-- `saver[key]` (helpers.py 154-155).  `_DL` is a `defaultdict(list)` (helpers.py 104): looking up a missing key stores
an empty list under it. -/
def Sv.getItem (s : Sv) (k : String) : List Arr × Sv :=
  (s.dl k, { s with keys := if k ∈ s.keys then s.keys else s.keys ++ [k] })

/-- `saver.key` (helpers.py 151, 159, 183, 207, 211: the entries of `__dict__`); a missing one raises `AttributeError`. -/
def Sv.getAttr (s : Sv) (k : String) : Except Err View :=
  match s.view k with
  | some v => .ok v
  | none => .error .attributeError

/-- What a user does with a saver: calls, and readings `saver[k]`, `saver.k`, `saver.keys`, `len(saver)` and
`repr(saver)`, of which only the first can change anything (helpers.py 154-167, 216-219). -/
inductive Use
  | call (op : Op)
  | item (k : String)
  | look

/-- The saver afterwards. -/
def Sv.use (s : Sv) : Use → Sv
  | .call op => s.step op
  | .item k => (s.getItem k).2
  | .look => s

end Filterpy.SaverArray
