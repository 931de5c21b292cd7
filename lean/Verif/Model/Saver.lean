import Verif.Model.Basic

/-!
# Model of `Saver` (`filterpy/common/helpers.py` 27-219)

Python objects that can be changed in place (arrays) live on a heap; attributes and saved lists hold
*references*.  `α` is the type of array contents.  The heap is a list: a reference is a position (`ℕ`) in
it and allocation appends.
-/

namespace Filterpy.SaverModel


/-- The heap and the `__dict__` of the saved filter. -/
structure World (α : Type*) where
  heap : List α
  dict : List (String × ℕ)

variable {α : Type*}

/-- Dereference. -/
def World.val [Inhabited α] (w : World α) (l : ℕ) : α := w.heap.getD l default

/-- Value of attribute `k`, if present. -/
def World.attr [Inhabited α] (w : World α) (k : String) : Option α :=
  (w.dict.lookup k).map w.val

/-- `d[k] = l`: replace, or append a new key. -/
def dictSet : List (String × ℕ) → String → ℕ → List (String × ℕ)
  | [], k, l => [(k, l)]
  | (k', l') :: d, k, l => if k' = k then (k, l) :: d else (k', l') :: dictSet d k l

/-- What user code and filter methods do to the filter between two saves. -/
inductive Change (α : Type*)
  /-- in-place change of the object stored in an attribute, e.g. `kf.x[0] = 3`, `kf.P *= 2` -/
  | mutate (k : String) (v : α)
  /-- `kf.k = <new object>` -/
  | rebind (k : String) (v : α)
  /-- `kf.k = kf.k'` -/
  | share (k k' : String)

/-- Effect of a change. -/
def World.change (w : World α) : Change α → World α
  | .mutate k v => match w.dict.lookup k with
    | some l => { w with heap := w.heap.set l v }
    | none => w
  | .rebind k v => ⟨w.heap ++ [v], dictSet w.dict k w.heap.length⟩
  | .share k k' => match w.dict.lookup k' with
    | some l => { w with dict := dictSet w.dict k l }
    | none => w

/-- A property of the filter class: it either hands out an object stored in an attribute
(e.g. `InformationFilter.F`) or computes a new one from the attribute values (e.g. `likelihood`). -/
inductive PropKind (α : Type*)
  | stored (k : String)
  | computed (f : (String → Option α) → α)

/-- The constructor arguments of `Saver` (helpers.py 92-119).  `props` are the property members of
the filter's class; `callable` tells which values are callables. -/
structure Config (α : Type*) where
  props : List (String × PropKind α)
  skipPrivate : Bool
  skipCallable : Bool
  ignore : List String
  callable : α → Bool

/-- `self.properties` (helpers.py 113-116). -/
def Config.properties (c : Config α) : List (String × PropKind α) :=
  c.props.filter fun p => !c.ignore.contains p.1

/-- The saver's lists `_DL` and `_len`. -/
structure Lists where
  dl : String → List ℕ
  len : ℕ

/-- `self._DL[k].append(l)`. -/
def append (dl : String → List ℕ) (k : String) (l : ℕ) : String → List ℕ :=
  fun k' => if k' = k then dl k' ++ [l] else dl k'

/-- The loop over `self.properties` (helpers.py 129-130). -/
def saveProps [Inhabited α] : World α → (String → List ℕ) → List (String × PropKind α) →
    Except Err (World α × (String → List ℕ))
  | w, dl, [] => .ok (w, dl)
  | w, dl, (name, .stored k) :: ps => match w.dict.lookup k with
    | some l => saveProps w (append dl name l) ps
    | none => .error .attributeError
  | w, dl, (name, .computed f) :: ps =>
    saveProps { w with heap := w.heap ++ [f w.attr] } (append dl name w.heap.length) ps

/-- `key.startswith("_")`. -/
def isPrivate (k : String) : Bool := k.toList.head? == some '_'

/-- Is an attribute kept by the filters of `save` (helpers.py 134-146)? -/
def Config.keeps (c : Config α) (k : String) (v : α) : Bool :=
  !(c.skipPrivate && isPrivate k) && !(c.skipCallable && c.callable v) &&
    !c.ignore.contains k

/-- `v = copy.deepcopy(kf.__dict__)`, the filters, and the loop appending the copies
(helpers.py 132-149), attribute by attribute.  (Copies of filtered attributes are dropped; whether
they are allocated first makes no difference.) -/
def saveDict [Inhabited α] (c : Config α) : World α → (String → List ℕ) →
    List (String × ℕ) → World α × (String → List ℕ)
  | w, dl, [] => (w, dl)
  | w, dl, (k, l) :: d =>
    if c.keeps k (w.val l) then
      saveDict c { w with heap := w.heap ++ [w.val l] } (append dl k w.heap.length) d
    else saveDict c w dl d

/-- `Saver.save()` (helpers.py 121-152). -/
def save [Inhabited α] (c : Config α) (w : World α) (s : Lists) : Except Err (World α × Lists) :=
  match saveProps w s.dl c.properties with
  | .error e => .error e
  | .ok (w1, dl1) =>
    let r := saveDict c w1 dl1 w1.dict
    .ok (r.1, ⟨r.2, s.len + 1⟩)

/-- One step of a history. -/
inductive Step (α : Type*)
  | change (c : Change α)
  | save

/-- A history, run from a world and an empty or partly filled saver. -/
def run [Inhabited α] (c : Config α) : World α → Lists → List (Step α) →
    Except Err (World α × Lists)
  | w, s, [] => .ok (w, s)
  | w, s, .change ch :: t => run c (w.change ch) s t
  | w, s, .save :: t => match save c w s with
    | .error e => .error e
    | .ok (w', s') => run c w' s' t

/-- A new saver (`_DL` empty, `_len = 0`). -/
def Lists.empty : Lists := ⟨fun _ => [], 0⟩

/-- What `saver[k]` shows: the current contents of the objects in the list. -/
def shown [Inhabited α] (w : World α) (s : Lists) (k : String) : List α := (s.dl k).map w.val

end Filterpy.SaverModel
