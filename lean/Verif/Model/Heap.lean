import Verif.Model.Basic
import Mathlib.Logic.Function.Basic

/-!
# Python objects that hold references to arrays

The other model files treat the attributes of an object as values.  In Python an attribute is a reference to
an array that the caller, or another object, may hold as well.  This file models that: a memory of arrays,
objects that hold addresses, and calls that either make an attribute refer to a new array (`self.x = ...`) or
overwrite the array it refers to (`self.x += ...`, `self.y[a:b] = ...`, `self.x.fill(0)`).
-/

namespace Filterpy

/-- What a call does with the array behind an attribute. -/
inductive Writes
  /-- the attribute is not assigned -/
  | keep
  /-- `self.x = <new array>`: the attribute refers to a new array, the old one is left alone -/
  | rebind
  /-- `self.x += v`, `self.x[i] = v`, `self.x.fill(v)`: the array itself is overwritten -/
  | inPlace
  deriving DecidableEq

/-- Whether a call raised. -/
def Exec.raised {σ : Type*} : Exec σ → Bool
  | .ok _ => false
  | .error _ => true

/-- A class whose objects have the array attributes `ι`; `V i` are the possible contents of attribute `i`.
`step` is the method call on values, as modelled elsewhere; `get`, `put` read and replace the contents of the
array attributes; `how s op raised i` says what the call `op` on an object `s` does with the array behind
attribute `i`. -/
structure ArrayClass (σ ω ι : Type*) (V : ι → Type*) where
  step : σ → ω → Exec σ
  get : (i : ι) → σ → V i
  put : ((i : ι) → V i) → σ → σ
  how : σ → ω → Bool → ι → Writes

/-- `get` and `put` are the reading and the replacing of attributes, and an attribute that is not assigned
keeps its contents. -/
structure ArrayClass.Lawful {σ ω ι : Type*} {V : ι → Type*} (c : ArrayClass σ ω ι V) : Prop where
  get_put : ∀ v s i, c.get i (c.put v s) = v i
  put_get : ∀ s, c.put (fun i => c.get i s) s = s
  put_put : ∀ v w s, c.put v (c.put w s) = c.put v s
  keep : ∀ s op i, c.how s op (c.step s op).raised i = .keep → c.get i (c.step s op).left = c.get i s

/-- The arrays in memory: for every attribute, the contents of the arrays at the addresses `0, 1, …`; the
addresses from `next` on are not in use. -/
structure Memory (ι : Type*) (V : ι → Type*) where
  cell : (i : ι) → ℕ → V i
  next : ℕ

/-- An object: the address its attribute `i` refers to, and everything that is not an array. -/
structure PyObj (σ ι : Type*) where
  rest : σ
  ref : ι → ℕ

/-- The memory and the objects of a program. -/
structure World (κ σ ι : Type*) (V : ι → Type*) where
  mem : Memory ι V
  obj : κ → PyObj σ ι

namespace World

variable {κ σ ω ι : Type*} {V : ι → Type*} [DecidableEq κ]

/-- The object `k` as its attributes show it now. -/
def view (c : ArrayClass σ ω ι V) (w : World κ σ ι V) (k : κ) : σ :=
  c.put (fun i => w.mem.cell i ((w.obj k).ref i)) (w.obj k).rest

/-- The array at address `a` of attribute `i` after the call. -/
def writeCell (how : Writes) (old : V i) (new : V i) (here fresh a : ℕ) : V i :=
  match how with
  | .keep => old
  | .rebind => if a = fresh then new else old
  | .inPlace => if a = here then new else old

/-- What the attribute refers to after the call. -/
def newRef (how : Writes) (here fresh : ℕ) : ℕ :=
  match how with
  | .rebind => fresh
  | _ => here

/-- One method call `op` on the object `k`. -/
def call (c : ArrayClass σ ω ι V) (w : World κ σ ι V) (k : κ) (op : ω) : World κ σ ι V :=
  let s := w.view c k
  let r := c.step s op
  let how := c.how s op r.raised
  { mem :=
      { cell := fun i a => writeCell (how i) (w.mem.cell i a) (c.get i r.left) ((w.obj k).ref i) w.mem.next a
        next := w.mem.next + 1 }
    obj := Function.update w.obj k
      { rest := r.left, ref := fun i => newRef (how i) ((w.obj k).ref i) w.mem.next } }

/-- A program: method calls on the objects, in any order.  A call that raises leaves the object as it was when
the exception was raised, and the program goes on. -/
def runCalls (c : ArrayClass σ ω ι V) (w : World κ σ ι V) (calls : List (κ × ω)) : World κ σ ι V :=
  calls.foldl (fun w a => w.call c a.1 a.2) w

/-- All references point to existing arrays. -/
def WF (w : World κ σ ι V) : Prop := ∀ k i, (w.obj k).ref i < w.mem.next

end World

/-- The calls a program makes on the object `k`. -/
def callsOn {κ ω : Type*} [DecidableEq κ] (k : κ) (calls : List (κ × ω)) : List ω :=
  (calls.filter fun a => a.1 = k).map Prod.snd

/-- An object on its own, with attributes as values, put through calls of which some may raise. -/
def ArrayClass.alone {σ ω ι : Type*} {V : ι → Type*} (c : ArrayClass σ ω ι V) (s : σ) (ops : List ω) : σ :=
  ops.foldl (fun s op => (c.step s op).left) s

end Filterpy
