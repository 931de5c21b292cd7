import Verif.Model.SaverArray
import Mathlib.Algebra.BigOperators.Group.List.Basic
import Mathlib.Data.List.Forall2
import Mathlib.Tactic.Ring
import Mathlib.Tactic.Linarith

/-!
# The array views of `Saver`: C79
-/

namespace Filterpy

open SaverArray

namespace Spec

/-- The `i`-th slice of an array along its first axis, as a flat list of entries. -/
def slice (a : Arr) (i : ℕ) : List ℝ := (a.data.drop (i * a.shape.tail.prod)).take a.shape.tail.prod

/-- An array holds as many entries as its shape says. -/
def ArrOK (a : Arr) : Prop := a.data.length = a.shape.prod

/-- Array `a` shows the history `l`: slice `i` is exactly the `i`-th saved value. `f` says what
happened to the shapes of the values. -/
def ShowsStack (f : List ℕ → List ℕ) (a : Arr) (l : List Arr) : Prop :=
  (l = [] ∧ a = ⟨[0], []⟩) ∨
  ∃ sh, l ≠ [] ∧ (∀ b ∈ l, b.shape = sh) ∧ a.shape = l.length :: f sh ∧
    ∀ i (h : i < l.length), slice a i = l[i].data

/-- The shape of a column with the column axis dropped, and a single number for a column of length
one; other shapes stay. (Axes after the second are allowed if they are trivial.) -/
def dropColumn : List ℕ → List ℕ
  | n :: 1 :: rest => if n * rest.prod = n then (if n = 1 then [] else [n]) else n :: 1 :: rest
  | sh => sh

/-- An attribute of the saver shows the history `l`. -/
def Shows (l : List Arr) : View → Prop
  | .list l' => l' = l
  | .arr a => ShowsStack id a l ∨ ShowsStack dropColumn a l

/-- All saved values have one shape. -/
def Homogeneous (l : List Arr) : Prop := ∀ a ∈ l, ∀ b ∈ l, a.shape = b.shape

end Spec

open Spec

theorem flatMap_slice {p : ℕ} : ∀ (l : List Arr) (i : ℕ) (h : i < l.length),
    (∀ b ∈ l, b.data.length = p) → ((l.flatMap Arr.data).drop (i * p)).take p = l[i].data
  | [], i, h, _ => by simp at h
  | a :: l, 0, _, hp => by
    have := hp a (by simp)
    simp [List.flatMap_cons, ← this]
  | a :: l, i + 1, h, hp => by
    have ha := hp a (by simp)
    have := flatMap_slice l i (by simpa using h) fun b hb => hp b (by simp [hb])
    simp only [List.flatMap_cons, List.getElem_cons_succ]
    rw [← this, show (i + 1) * p = a.data.length + i * p by rw [ha]; ring, List.drop_append,
      List.drop_eq_nil_of_le (Nat.le_add_right _ _)]
    simp

theorem flatMap_length {p : ℕ} : ∀ (l : List Arr), (∀ b ∈ l, b.data.length = p) →
    (l.flatMap Arr.data).length = l.length * p
  | [], _ => by simp
  | a :: l, hp => by
    rw [List.flatMap_cons, List.length_append, hp a (by simp),
      flatMap_length l fun b hb => hp b (by simp [hb]), List.length_cons]; ring

theorem npArray_some {l : List Arr} {a : Arr} (h : npArray l = some a) :
    Homogeneous l ∧ ((l = [] ∧ a = ⟨[0], []⟩) ∨
      ∃ sh, l ≠ [] ∧ (∀ b ∈ l, b.shape = sh) ∧ a = ⟨l.length :: sh, l.flatMap Arr.data⟩) := by
  cases l with
  | nil =>
    simp only [npArray, Option.some.injEq] at h
    exact ⟨fun a ha => by simp at ha, .inl ⟨rfl, h.symm⟩⟩
  | cons b l =>
    simp only [npArray] at h
    split at h
    · rename_i hall
      have hb : ∀ c ∈ b :: l, c.shape = b.shape := by
        intro c hc
        rcases List.mem_cons.1 hc with rfl | hc
        · rfl
        · exact hall c hc
      simp only [Option.some.injEq] at h
      exact ⟨fun c hc d hd => by rw [hb c hc, hb d hd], .inr ⟨b.shape, by simp, hb, h.symm⟩⟩
    · cases h

theorem npArray_isSome {l : List Arr} (h : Homogeneous l) : ∃ a, npArray l = some a := by
  cases l with
  | nil => exact ⟨_, rfl⟩
  | cons b l =>
    have : ∀ c ∈ l, c.shape = b.shape := fun c hc => h c (by simp [hc]) b (by simp)
    exact ⟨_, by simp only [npArray]; rw [if_pos this]⟩

theorem npArray_stack {l : List Arr} (hl : ∀ b ∈ l, ArrOK b) {a : Arr} (h : npArray l = some a) :
    ShowsStack id a l := by
  rcases (npArray_some h).2 with h | ⟨sh, h0, h1, rfl⟩
  · exact .inl h
  · refine .inr ⟨sh, h0, h1, rfl, fun i hi => ?_⟩
    exact flatMap_slice l i hi fun b hb => by rw [hl b hb, h1 b hb]; rfl

theorem flatten_stack {l : List Arr} (hl : ∀ b ∈ l, ArrOK b) {a : Arr} (h : npArray l = some a) :
    ∃ a', flattenView (.arr a) = .arr a' ∧ ShowsStack dropColumn a' l := by
  rcases (npArray_some h).2 with ⟨h1, rfl⟩ | ⟨sh, h0, h1, rfl⟩
  · exact ⟨_, rfl, .inl ⟨h1, rfl⟩⟩
  · have hlen : (l.flatMap Arr.data).length = l.length * sh.prod :=
      flatMap_length l fun b hb => by rw [hl b hb, h1 b hb]
    have hpos : 0 < l.length := List.length_pos_iff.2 h0
    have hsl (i : ℕ) (hi : i < l.length) :
        ((l.flatMap Arr.data).drop (i * sh.prod)).take sh.prod = l[i].data :=
      flatMap_slice l i hi fun b hb => by rw [hl b hb, h1 b hb]
    match sh, h1, hlen, hsl with
    | [], h1, _, hsl => exact ⟨_, rfl, .inr ⟨[], h0, h1, rfl, hsl⟩⟩
    | [n], h1, _, hsl => exact ⟨_, rfl, .inr ⟨[n], h0, h1, rfl, hsl⟩⟩
    | n :: c :: rest, h1, hlen, hsl =>
      by_cases hc : c = 1
      · subst hc
        by_cases hn : n * rest.prod = n
        · have hp : (n :: 1 :: rest).prod = n := by simp [hn]
          rw [hp] at hlen hsl
          by_cases hn1 : n = 1
          · subst hn1
            refine ⟨⟨[(l.flatMap Arr.data).length], l.flatMap Arr.data⟩, ?_, .inr ⟨_, h0, h1, ?_, ?_⟩⟩
            · simp only [flattenView, Arr.reshape2, hlen, if_true, ravelCol]
            · simp only [hlen, dropColumn, hn, if_true, mul_one]
            · intro i hi; simpa [slice] using hsl i hi
          · refine ⟨⟨[l.length, n], l.flatMap Arr.data⟩, ?_, .inr ⟨_, h0, h1, ?_, ?_⟩⟩
            · simp only [flattenView, Arr.reshape2, hlen, if_true, ravelCol]
              split
              · rename_i heq; simp at heq; exact absurd heq.2 hn1
              · rfl
            · simp only [dropColumn, hn, if_true, hn1, if_false]
            · intro i hi; simpa [slice] using hsl i hi
        · refine ⟨⟨l.length :: n :: 1 :: rest, l.flatMap Arr.data⟩, ?_, .inr ⟨_, h0, h1, ?_, hsl⟩⟩
          · have : ¬ (l.length * (n :: 1 :: rest).prod = l.length * n) := by
              simp only [List.prod_cons, one_mul]
              intro e; exact hn (Nat.eq_of_mul_eq_mul_left hpos e)
            simp only [flattenView, Arr.reshape2, hlen, this, if_false, if_true]
          · simp only [dropColumn, hn, if_false]
      · refine ⟨⟨l.length :: n :: c :: rest, l.flatMap Arr.data⟩, ?_, .inr ⟨_, h0, h1, ?_, hsl⟩⟩
        · simp only [flattenView, hc, if_false]
        · have : dropColumn (n :: c :: rest) = n :: c :: rest := by
            unfold dropColumn; split
            · rename_i heq; simp at heq; exact absurd heq.2.1 hc
            · rfl
          rw [this]

theorem flattenView_idem (a : Arr) : flattenView (flattenView (.arr a)) = flattenView (.arr a) := by
  have : ∀ x : Arr, flattenView (.arr x) = .arr x ∨ ∃ y : Arr, flattenView (.arr x) = .arr y ∧
      y.shape.length ≤ 2 := by
    intro x
    simp only [flattenView]
    split
    · split
      · split
        · rename_i y hy
          refine .inr ⟨_, rfl, ?_⟩
          simp only [Arr.reshape2] at hy
          split at hy
          · cases hy
            simp only [ravelCol]; split <;> simp
          · cases hy
        · exact .inl rfl
      · exact .inl rfl
    · exact .inl rfl
  rcases this a with h | ⟨y, h, hy⟩
  · rw [h, h]
  · rw [h]
    simp only [flattenView]
    split
    · rename_i heq; rw [heq] at hy; simp at hy
    · rfl

/-- Invariant of a saver. -/
structure SvOK (s : Sv) : Prop where
  ok : ∀ k, ∀ b ∈ s.dl k, ArrOK b
  view : ∀ k ∈ s.keys, ∃ v, s.view k = some v ∧ (v = .list (s.dl k) ∨
    ∃ a, npArray (s.dl k) = some a ∧ (v = .arr a ∨ v = flattenView (.arr a)))

theorem refresh_ok {s : Sv} (h : ∀ k, ∀ b ∈ s.dl k, ArrOK b) : SvOK s.refresh :=
  ⟨h, fun k hk => ⟨.list (s.dl k), by simp only [Sv.refresh]; exact if_pos hk, .inl rfl⟩⟩

theorem push_fold_dl (row : List (String × Arr)) : ∀ (s : Sv) (k : String),
    (row.foldl (fun s p => s.push p.1 p.2) s).dl k =
      s.dl k ++ (row.filter fun p => p.1 = k).map Prod.snd := by
  induction row with
  | nil => intro s k; simp
  | cons p row ih =>
    intro s k
    rw [List.foldl_cons, ih]
    by_cases hk : p.1 = k
    · simp [Sv.push, hk]
    · have hk' : ¬ k = p.1 := fun e => hk e.symm
      simp [Sv.push, hk, hk']

theorem push_fold_keys (row : List (String × Arr)) : ∀ (s : Sv) (k : String),
    k ∈ (row.foldl (fun s p => s.push p.1 p.2) s).keys ↔ k ∈ s.keys ∨ k ∈ row.map Prod.fst := by
  induction row with
  | nil => intro s k; simp
  | cons p row ih =>
    intro s k
    rw [List.foldl_cons, ih]
    simp only [Sv.push, List.map_cons, List.mem_cons]
    by_cases hk : p.1 ∈ s.keys
    · simp only [hk, if_true]
      constructor
      · rintro (h | h) <;> simp [h]
      · rintro (h | rfl | h)
        · exact .inl h
        · exact .inl hk
        · exact .inr h
    · simp only [hk, if_false, List.mem_append, List.mem_singleton]; tauto

theorem push_fold_len (row : List (String × Arr)) : ∀ (s : Sv),
    (row.foldl (fun s p => s.push p.1 p.2) s).len = s.len := by
  induction row with
  | nil => intro s; rfl
  | cons p row ih => intro s; rw [List.foldl_cons, ih]; rfl

theorem toArrayLoop_spec : ∀ (ks : List String) (s : Sv),
    (∀ s', toArrayLoop s ks = .ok s' → s'.dl = s.dl ∧ s'.keys = s.keys ∧ s'.len = s.len ∧
      (∀ k ∈ ks, ∃ a, npArray (s.dl k) = some a ∧ s'.view k = some (.arr a)) ∧
      ∀ k ∉ ks, s'.view k = s.view k) ∧
    (∀ e s', toArrayLoop s ks = .error (e, s') → e = .valueError ∧ s'.dl = s.dl ∧ s'.keys = s.keys ∧
      s'.len = s.len ∧ (∀ k ∈ s.keys, s'.view k = some (.list (s.dl k))) ∧
      ∃ k ∈ ks, npArray (s.dl k) = none)
  | [], s => by
    refine ⟨fun s' h => ?_, fun e s' h => by cases h⟩
    simp only [toArrayLoop, Except.ok.injEq] at h
    subst h; simp
  | k :: ks, s => by
    simp only [toArrayLoop]
    cases ha : npArray (s.dl k) with
    | none =>
      refine ⟨fun s' h => by simp at h, fun e s' h => ?_⟩
      simp only [Except.error.injEq, Prod.mk.injEq] at h
      obtain ⟨rfl, rfl⟩ := h
      exact ⟨rfl, rfl, rfl, rfl, fun j hj => by simp only [Sv.refresh]; exact if_pos hj,
        k, by simp, ha⟩
    | some a =>
      obtain ⟨h1, h2⟩ := toArrayLoop_spec ks
        { s with view := fun j => if j = k then some (.arr a) else s.view j }
      refine ⟨fun s' h => ?_, fun e s' h => ?_⟩
      · obtain ⟨e1, e2, e3, e4, e5⟩ := h1 s' h
        refine ⟨e1, e2, e3, fun j hj => ?_, fun j hj => ?_⟩
        · by_cases hjk : j ∈ ks
          · exact e4 j hjk
          · have : j = k := by simpa [hjk] using hj
            subst this
            exact ⟨a, ha, by rw [e5 j hjk]; simp⟩
        · simp only [List.mem_cons, not_or] at hj
          rw [e5 j hj.2]; simp [hj.1]
      · obtain ⟨e1, e2, e3, e4, e5, j, hj, e6⟩ := h2 e s' h
        exact ⟨e1, e2, e3, e4, e5, j, by simp [hj], e6⟩

theorem flatten_svok {s : Sv} (h : SvOK s) : SvOK s.flatten := by
  refine ⟨h.ok, fun k hk => ?_⟩
  have hk' : k ∈ s.keys := hk
  obtain ⟨v, hv, hv'⟩ := h.view k hk
  refine ⟨flattenView v, by simp only [Sv.flatten, hk', if_true, hv, Option.map_some], ?_⟩
  rcases hv' with rfl | ⟨a, ha, rfl | rfl⟩
  · exact .inl rfl
  · exact .inr ⟨a, ha, .inr rfl⟩
  · exact .inr ⟨a, ha, .inr (flattenView_idem a)⟩

/-- The values a call brings in are proper arrays. -/
def OpOK : Op → Prop
  | .save row => ∀ p ∈ row, ArrOK p.2
  | .setItem _ v => ∀ b ∈ v, ArrOK b
  | _ => True

theorem step_svok {s : Sv} (h : SvOK s) {op : Op} (ho : OpOK op) : SvOK (s.step op) := by
  cases op with
  | save row =>
    have := refresh_ok (s := row.foldl (fun s p => s.push p.1 p.2) s) (by
      intro k b hb
      rw [push_fold_dl] at hb
      rcases List.mem_append.1 hb with hb | hb
      · exact h.ok k b hb
      · obtain ⟨p, hp, rfl⟩ := List.mem_map.1 hb
        exact ho p (List.mem_of_mem_filter hp))
    exact ⟨this.ok, this.view⟩
  | setItem k v =>
    refine refresh_ok fun j b hb => ?_
    by_cases hj : j = k
    · simp only [hj, if_true] at hb; exact ho b hb
    · simp only [hj, if_false] at hb; exact h.ok j b hb
  | toArray f =>
    simp only [Sv.step, Sv.toArray]
    cases hl : toArrayLoop s s.keys with
    | error e =>
      obtain ⟨e, s'⟩ := e
      obtain ⟨-, e1, e2, e3, e4, -⟩ := (toArrayLoop_spec s.keys s).2 e s' hl
      refine ⟨by simp only [e1]; exact h.ok, fun k hk => ?_⟩
      simp only [e2] at hk
      exact ⟨_, e4 k hk, .inl (by rw [e1])⟩
    | ok s' =>
      obtain ⟨e1, e2, e3, e4, e5⟩ := (toArrayLoop_spec s.keys s).1 s' hl
      have h' : SvOK s' := by
        refine ⟨by rw [e1]; exact h.ok, fun k hk => ?_⟩
        rw [e2] at hk
        obtain ⟨a, ha, hv⟩ := e4 k hk
        exact ⟨_, hv, .inr ⟨a, by rw [e1]; exact ha, .inl rfl⟩⟩
      cases f
      · exact h'
      · exact flatten_svok h'
  | flatten => exact flatten_svok h

/-- **C79 (attributes and items always show the same data).** After any sequence of `save()`,
`saver[k] = list`, `to_array()`, `to_array(flatten=True)` and `flatten()` calls, successful or not,
every key `k` of the saver has an attribute, and `saver.k` shows exactly the history `saver[k]`: as
the list itself, or as an array whose `i`-th slice is the `i`-th saved value. -/
theorem C79_views (ops : List Op) (ho : ∀ op ∈ ops, OpOK op) :
    let s := ops.foldl Sv.step Sv.empty
    ∀ k ∈ s.keys, ∃ v, s.view k = some v ∧ Shows (s.dl k) v := by
  intro s k hk
  have key : ∀ (ops : List Op) (s : Sv), SvOK s → (∀ op ∈ ops, OpOK op) →
      SvOK (ops.foldl Sv.step s) := by
    intro ops
    induction ops with
    | nil => intro s h _; exact h
    | cons op ops ih =>
      intro s h ho
      exact ih _ (step_svok h (ho op (by simp))) fun o hm => ho o (by simp [hm])
  have hs : SvOK s := key ops Sv.empty ⟨fun k b hb => by simp [Sv.empty] at hb,
    fun k hk => by simp [Sv.empty] at hk⟩ ho
  obtain ⟨v, hv, hv'⟩ := hs.view k hk
  refine ⟨v, hv, ?_⟩
  rcases hv' with rfl | ⟨a, ha, rfl | rfl⟩
  · rfl
  · exact .inl (npArray_stack (hs.ok k) ha)
  · obtain ⟨a', h1, h2⟩ := flatten_stack (hs.ok k) ha
    rw [h1]; exact .inr h2

/-- **C79 (what `to_array` does).** It succeeds exactly when every saved attribute kept its shape
throughout; then every attribute is the stacked array. Otherwise it raises `ValueError` and every
attribute is the plain list. Either way the lists `saver[k]`, the keys and the length are untouched. -/
theorem C79_to_array (s : Sv) (hs : ∀ k, ∀ b ∈ s.dl k, ArrOK b) :
    ((∃ s', s.toArray false = .ok s') ↔ ∀ k ∈ s.keys, Homogeneous (s.dl k)) ∧
    (∀ s', s.toArray false = .ok s' → s'.dl = s.dl ∧ s'.keys = s.keys ∧ s'.len = s.len ∧
      ∀ k ∈ s.keys, ∃ a, s'.view k = some (.arr a) ∧ ShowsStack id a (s.dl k)) ∧
    (∀ e s', s.toArray false = .error (e, s') → e = .valueError ∧ s'.dl = s.dl ∧ s'.keys = s.keys ∧
      s'.len = s.len ∧ ∀ k ∈ s.keys, s'.view k = some (.list (s.dl k))) := by
  obtain ⟨h1, h2⟩ := toArrayLoop_spec s.keys s
  have e0 : s.toArray false = toArrayLoop s s.keys := by
    simp only [Sv.toArray]; cases toArrayLoop s s.keys <;> rfl
  rw [e0]
  refine ⟨⟨fun ⟨s', h⟩ k hk => ?_, fun h => ?_⟩, fun s' h => ?_, fun e s' h => ?_⟩
  · obtain ⟨a, ha, -⟩ := (h1 s' h).2.2.2.1 k hk
    exact (npArray_some ha).1
  · cases hl : toArrayLoop s s.keys with
    | ok s' => exact ⟨s', rfl⟩
    | error e =>
      obtain ⟨e, s'⟩ := e
      obtain ⟨-, -, -, -, -, k, hk, hn⟩ := h2 e s' hl
      obtain ⟨a, ha⟩ := npArray_isSome (h k hk)
      rw [ha] at hn; cases hn
  · obtain ⟨e1, e2, e3, e4, -⟩ := h1 s' h
    refine ⟨e1, e2, e3, fun k hk => ?_⟩
    obtain ⟨a, ha, hv⟩ := e4 k hk
    exact ⟨a, hv, npArray_stack (hs k) ha⟩
  · obtain ⟨e1, e2, e3, e4, e5, -⟩ := h2 e s' h
    exact ⟨e1, e2, e3, e4, e5⟩

/-- **C79 (flattening).** `to_array(flatten=True)` succeeds in the same cases and then every
attribute is the stacked array with the column axis of the saved values dropped: a history of `N`
columns of length `n` has shape `(N, n)`, of numbers in a `1 x 1` array shape `(N,)`; matrices, 1-D
arrays and numbers are only stacked. -/
theorem C79_flatten (s : Sv) (hs : ∀ k, ∀ b ∈ s.dl k, ArrOK b) :
    ((∃ s', s.toArray true = .ok s') ↔ ∃ s', s.toArray false = .ok s') ∧
    ∀ s', s.toArray true = .ok s' → s'.dl = s.dl ∧ s'.keys = s.keys ∧ s'.len = s.len ∧
      ∀ k ∈ s.keys, ∃ a, s'.view k = some (.arr a) ∧ ShowsStack dropColumn a (s.dl k) := by
  obtain ⟨h1, -⟩ := toArrayLoop_spec s.keys s
  simp only [Sv.toArray]
  cases hl : toArrayLoop s s.keys with
  | error e => simp
  | ok s1 =>
    refine ⟨by simp, fun s' h => ?_⟩
    simp only [if_true, Except.ok.injEq] at h
    obtain ⟨e1, e2, e3, e4, -⟩ := h1 s1 hl
    subst h
    refine ⟨e1, e2, e3, fun k hk => ?_⟩
    obtain ⟨a, ha, hv⟩ := e4 k hk
    obtain ⟨a', h2, h3⟩ := flatten_stack (hs k) ha
    refine ⟨a', ?_, h3⟩
    have hk' : k ∈ s1.keys := by rw [e2]; exact hk
    simp only [Sv.flatten, hk', if_true, hv, Option.map_some, h2]

/-- **C79 (saving).** `save()` appends the recorded values to their lists, counts one more, and turns
every attribute back into a list, also after `to_array` and `flatten`. -/
theorem C79_save (s : Sv) (row : List (String × Arr)) (hrow : (row.map Prod.fst).Nodup) :
    (s.save row).len = s.len + 1 ∧
    (∀ p ∈ row, (s.save row).dl p.1 = s.dl p.1 ++ [p.2]) ∧
    (∀ k ∉ row.map Prod.fst, (s.save row).dl k = s.dl k) ∧
    ∀ k ∈ s.keys ++ row.map Prod.fst,
      k ∈ (s.save row).keys ∧ (s.save row).view k = some (.list ((s.save row).dl k)) := by
  refine ⟨?_, fun p hp => ?_, fun k hk => ?_, fun k hk => ?_⟩
  · simp only [Sv.save, Sv.refresh, push_fold_len]
  · have : (s.save row).dl p.1 = _ := push_fold_dl row s p.1
    rw [this]
    congr 1
    clear this
    induction row with
    | nil => simp at hp
    | cons q row ih =>
      simp only [List.map_cons, List.nodup_cons] at hrow
      rcases List.mem_cons.1 hp with rfl | hp'
      · have : row.filter (fun q => q.1 = p.1) = [] := by
          rw [List.filter_eq_nil_iff]
          intro q hq
          simp only [decide_eq_true_eq]
          intro e; exact hrow.1 (List.mem_map.2 ⟨q, hq, e⟩)
        simp [this]
      · have hne : q.1 ≠ p.1 := fun e => hrow.1 (List.mem_map.2 ⟨p, hp', e.symm⟩)
        simp only [List.filter_cons, hne, decide_false]
        exact ih hrow.2 hp'
  · have : (s.save row).dl k = _ := push_fold_dl row s k
    rw [this]
    have : row.filter (fun q => q.1 = k) = [] := by
      rw [List.filter_eq_nil_iff]
      intro q hq
      simp only [decide_eq_true_eq]
      intro e; exact hk (List.mem_map.2 ⟨q, hq, e⟩)
    simp [this]
  · have hk' : k ∈ (row.foldl (fun s p => s.push p.1 p.2) s).keys := by
      rw [push_fold_keys]; exact List.mem_append.1 hk
    refine ⟨hk', ?_⟩
    simp only [Sv.save, Sv.refresh, hk', if_true]

/-- Two saves of a column `x` and a number `d`, an array view, a third save in which `d` has changed
its shape: the hypotheses hold, `to_array` succeeds the first time and fails the second time. -/
example : let x1 : Arr := ⟨[2, 1], [1, 2]⟩; let x2 : Arr := ⟨[2, 1], [3, 4]⟩
    let s := (Sv.empty.save [("x", x1), ("d", ⟨[], [7]⟩)]).save [("x", x2), ("d", ⟨[], [8]⟩)]
    (∃ s', s.toArray true = .ok s' ∧ s'.view "x" = some (.arr ⟨[2, 2], [1, 2, 3, 4]⟩) ∧
      s'.view "d" = some (.arr ⟨[2], [7, 8]⟩)) ∧
    ∃ s', (s.save [("d", ⟨[1], [9]⟩)]).toArray true = .error (.valueError, s') ∧
      s'.view "x" = some (.list [x1, x2]) := by
  refine ⟨⟨_, rfl, ?_, ?_⟩, _, rfl, ?_⟩ <;> rfl

end Filterpy
