import Verif.Model.Heap

/-!
# What callers expect of objects that hold arrays
-/

namespace Filterpy

namespace Spec

variable {σ ω ι : Type} {V : ι → Type}

/-- Arrays that exist keep their contents: whatever calls a program makes on any number of objects, no array
that the caller (or anybody) has got hold of is changed by them. -/
def KeepsArrays (c : ArrayClass σ ω ι V) (allowed : ω → Prop) : Prop :=
  ∀ (κ : Type) [DecidableEq κ] (w : World κ σ ι V), w.WF → ∀ calls : List (κ × ω),
    (∀ a ∈ calls, allowed a.2) → ∀ i a, a < w.mem.next → (w.runCalls c calls).mem.cell i a = w.mem.cell i a

/-- Objects do not influence each other, even if they were handed the same arrays: every object ends up as if
it had been alone and only its own calls had been made. -/
def Isolated (c : ArrayClass σ ω ι V) (allowed : ω → Prop) : Prop :=
  ∀ (κ : Type) [DecidableEq κ] (w : World κ σ ι V), w.WF → ∀ calls : List (κ × ω),
    (∀ a ∈ calls, allowed a.2) → ∀ k, (w.runCalls c calls).view c k = c.alone (w.view c k) (callsOn k calls)

/-- No two objects hold the same array under an attribute that some call overwrites. -/
def Unshared {κ : Type} (c : ArrayClass σ ω ι V) (w : World κ σ ι V) : Prop :=
  ∀ i, (∃ s op raised, c.how s op raised i = .inPlace) → ∀ j k, j ≠ k → (w.obj j).ref i ≠ (w.obj k).ref i

/-- Objects that do not share the arrays that calls overwrite do not influence each other. -/
def IsolatedUnshared (c : ArrayClass σ ω ι V) : Prop :=
  ∀ (κ : Type) [DecidableEq κ] (w : World κ σ ι V), w.WF → Unshared c w → ∀ calls : List (κ × ω), ∀ k,
    (w.runCalls c calls).view c k = c.alone (w.view c k) (callsOn k calls)

/-- A copy is safe: an array that no object refers to is never changed. -/
def CopiesSafe (c : ArrayClass σ ω ι V) : Prop :=
  ∀ (κ : Type) [DecidableEq κ] (w : World κ σ ι V), w.WF → ∀ calls : List (κ × ω), ∀ i a, a < w.mem.next →
    (∀ k, (w.obj k).ref i ≠ a) → (w.runCalls c calls).mem.cell i a = w.mem.cell i a

/-- Attribute by attribute: an array held under the attribute `i` is never changed. -/
def KeepsAttr (c : ArrayClass σ ω ι V) (i : ι) : Prop :=
  ∀ (κ : Type) [DecidableEq κ] (w : World κ σ ι V), w.WF → ∀ calls : List (κ × ω), ∀ a, a < w.mem.next →
    (w.runCalls c calls).mem.cell i a = w.mem.cell i a

/-- An array read off attribute `i` of an object is the object's array for good: whatever calls are made, it
shows the latest contents. -/
def AlwaysLive (c : ArrayClass σ ω ι V) (allowed : ω → Prop) (i : ι) : Prop :=
  ∀ (κ : Type) [DecidableEq κ] (w : World κ σ ι V) (calls : List (κ × ω)), (∀ a ∈ calls, allowed a.2) → ∀ k,
    (w.runCalls c calls).mem.cell i ((w.obj k).ref i) = c.get i ((w.runCalls c calls).view c k)

/-- There are two objects that share nothing but the array under attribute `i`, and a call on one of them that
changes this attribute of the other. -/
def Interferes (c : ArrayClass σ ω ι V) (i : ι) : Prop :=
  ∃ (w : World Bool σ ι V) (op : ω), w.WF ∧ (∀ j ≠ i, (w.obj true).ref j ≠ (w.obj false).ref j) ∧
    c.get i ((w.call c true op).view c false) ≠ c.get i (w.view c false)

/-- There are an object and a call on it that changes the contents of the array read off its attribute `i`
before. -/
def ResultSpoiled (c : ArrayClass σ ω ι V) (i : ι) : Prop :=
  ∃ (w : World Unit σ ι V) (op : ω), w.WF ∧
    (w.call c () op).mem.cell i ((w.obj ()).ref i) ≠ w.mem.cell i ((w.obj ()).ref i)

/-- Objects of the class may be handed the same arrays, and arrays read off them may be kept. -/
def Safe (c : ArrayClass σ ω ι V) : Prop := KeepsArrays c (fun _ => True) ∧ Isolated c (fun _ => True)

end Spec

end Filterpy
