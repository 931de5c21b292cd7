import Verif.Spec.Heap

/-!
# Programs over objects that share arrays
-/

namespace Filterpy

namespace World

variable {κ σ ω ι : Type} {V : ι → Type} [DecidableEq κ] {c : ArrayClass σ ω ι V}

theorem call_wf {w : World κ σ ι V} (h : w.WF) (k : κ) (op : ω) : (w.call c k op).WF := by
  intro j i
  have hj := h j i
  have hk := h k i
  by_cases e : j = k
  · subst e
    simp only [call, Function.update_self]
    unfold newRef
    split <;> omega
  · simp only [call, Function.update_of_ne e]
    omega

theorem view_call_self (hl : c.Lawful) (w : World κ σ ι V) (k : κ) (op : ω) :
    (w.call c k op).view c k = (c.step (w.view c k) op).left := by
  simp only [view, call, Function.update_self]
  rw [← view]
  have : (fun i => writeCell (c.how (w.view c k) op (c.step (w.view c k) op).raised i)
        (w.mem.cell i (newRef (c.how (w.view c k) op (c.step (w.view c k) op).raised i) ((w.obj k).ref i)
          w.mem.next)) (c.get i (c.step (w.view c k) op).left) ((w.obj k).ref i) w.mem.next
        (newRef (c.how (w.view c k) op (c.step (w.view c k) op).raised i) ((w.obj k).ref i) w.mem.next))
      = fun i => c.get i (c.step (w.view c k) op).left := by
    funext i
    have hk := hl.keep (w.view c k) op i
    revert hk
    cases c.how (w.view c k) op (c.step (w.view c k) op).raised i <;> intro hk
    · simp only [writeCell, newRef]
      rw [hk rfl, view, hl.get_put]
    · simp [writeCell, newRef]
    · simp [writeCell, newRef]
  rw [this, hl.put_get]

/-- A cell that the call does not overwrite. -/
theorem cell_call {w : World κ σ ι V} (k : κ) (op : ω) (i : ι) (a : ℕ) (ha : a < w.mem.next)
    (hw : (∀ s raised, c.how s op raised i ≠ .inPlace) ∨ (w.obj k).ref i ≠ a) :
    (w.call c k op).mem.cell i a = w.mem.cell i a := by
  simp only [call]
  rcases hw with hw | hw
  · have := hw (w.view c k) (c.step (w.view c k) op).raised
    revert this
    cases c.how (w.view c k) op (c.step (w.view c k) op).raised i <;> intro hk
    · rfl
    · simp only [writeCell]; rw [if_neg (by omega)]
    · exact absurd rfl hk
  · cases c.how (w.view c k) op (c.step (w.view c k) op).raised i
    · rfl
    · simp only [writeCell]; rw [if_neg (by omega)]
    · simp only [writeCell]; rw [if_neg (fun h => hw h.symm)]

theorem view_call_other {w : World κ σ ι V} (h : w.WF) {j k : κ} (e : j ≠ k) (op : ω)
    (hw : ∀ i, (∀ s raised, c.how s op raised i ≠ .inPlace) ∨ (w.obj k).ref i ≠ (w.obj j).ref i) :
    (w.call c k op).view c j = w.view c j := by
  have e1 : (w.call c k op).obj j = w.obj j := by simp only [call, Function.update_of_ne e]
  unfold view
  rw [e1]
  congr 1
  funext i
  exact cell_call k op i _ (h j i) (hw i)

theorem runCalls_cons (w : World κ σ ι V) (k : κ) (op : ω) (calls : List (κ × ω)) :
    w.runCalls c ((k, op) :: calls) = (w.call c k op).runCalls c calls := rfl

theorem callsOn_cons_self (k : κ) (op : ω) (calls : List (κ × ω)) :
    callsOn k ((k, op) :: calls) = op :: callsOn k calls := by simp [callsOn]

theorem callsOn_cons_ne {j k : κ} (e : j ≠ k) (op : ω) (calls : List (κ × ω)) :
    callsOn j ((k, op) :: calls) = callsOn j calls := by simp [callsOn, Ne.symm e]

/-- Calls that only rebind. -/
theorem keeps_of_rebind (allowed : ω → Prop)
    (h : ∀ op, allowed op → ∀ s raised i, c.how s op raised i ≠ .inPlace) : Spec.KeepsArrays c allowed := by
  intro κ _ w hw calls
  induction calls generalizing w with
  | nil => intro _ i a _; rfl
  | cons b calls ih =>
    intro ha i a hlt
    obtain ⟨k, op⟩ := b
    rw [runCalls_cons, ih _ (call_wf hw k op) (fun x hx => ha x (List.mem_cons_of_mem _ hx)) i a
      (by simp only [call]; omega)]
    exact cell_call k op i a hlt (Or.inl fun s r => h op (ha (k, op) List.mem_cons_self) s r i)

theorem isolated_of_rebind (hl : c.Lawful) (allowed : ω → Prop)
    (h : ∀ op, allowed op → ∀ s raised i, c.how s op raised i ≠ .inPlace) : Spec.Isolated c allowed := by
  intro κ _ w hw calls
  induction calls generalizing w with
  | nil => intro _ k; rfl
  | cons b calls ih =>
    intro ha j
    obtain ⟨k, op⟩ := b
    rw [runCalls_cons, ih _ (call_wf hw k op) (fun x hx => ha x (List.mem_cons_of_mem _ hx)) j]
    by_cases e : j = k
    · subst e
      rw [view_call_self hl, callsOn_cons_self]
      rfl
    · rw [view_call_other hw e op fun i => Or.inl fun s r => h op (ha (k, op) List.mem_cons_self) s r i,
        callsOn_cons_ne e]

theorem call_unshared {w : World κ σ ι V} (h : w.WF) (hu : Spec.Unshared c w) (k : κ) (op : ω) :
    Spec.Unshared c (w.call c k op) := by
  intro i hi j j' e
  have h1 := hu i hi
  have key : ∀ r, newRef (c.how (w.view c k) op r i) ((w.obj k).ref i) w.mem.next = (w.obj k).ref i ∨
      newRef (c.how (w.view c k) op r i) ((w.obj k).ref i) w.mem.next = w.mem.next := by
    intro r
    cases c.how (w.view c k) op r i <;> simp [newRef]
  by_cases ej : j = k
  · subst ej
    have h2 := h1 j j' e
    have h3 := h j' i
    simp only [call, Function.update_self, Function.update_of_ne (Ne.symm e)]
    rcases key (c.step (w.view c j) op).raised with q | q <;> rw [q]
    · exact h2
    · omega
  · by_cases ej' : j' = k
    · subst ej'
      have h2 := h1 j j' e
      have h3 := h j i
      simp only [call, Function.update_self, Function.update_of_ne e]
      rcases key (c.step (w.view c j') op).raised with q | q <;> rw [q]
      · exact h2
      · omega
    · simp only [call, Function.update_of_ne ej, Function.update_of_ne ej']
      exact h1 j j' e

theorem isolated_of_unshared (hl : c.Lawful) : Spec.IsolatedUnshared c := by
  intro κ _ w hw hu calls
  induction calls generalizing w with
  | nil => intro k; rfl
  | cons b calls ih =>
    intro j
    obtain ⟨k, op⟩ := b
    rw [runCalls_cons, ih _ (call_wf hw k op) (call_unshared hw hu k op) j]
    by_cases e : j = k
    · subst e
      rw [view_call_self hl, callsOn_cons_self]
      rfl
    · rw [view_call_other hw e op fun i => ?_, callsOn_cons_ne e]
      by_cases hi : ∃ s op raised, c.how s op raised i = .inPlace
      · exact Or.inr (hu i hi k j (Ne.symm e))
      · left
        intro s r q
        exact hi ⟨s, op, r, q⟩

theorem copies_safe (c : ArrayClass σ ω ι V) : Spec.CopiesSafe c := by
  intro κ _ w hw calls i a
  induction calls generalizing w with
  | nil => intro _ _; rfl
  | cons b calls ih =>
    intro hlt hne
    obtain ⟨k, op⟩ := b
    rw [runCalls_cons, ih _ (call_wf hw k op) (by simp only [call]; omega) ?_]
    · exact cell_call k op i a hlt (Or.inr (hne k))
    · intro j
      have h1 := hne j
      by_cases ej : j = k
      · subst ej
        simp only [call, Function.update_self]
        unfold newRef
        split <;> first | omega | exact h1
      · simp only [call, Function.update_of_ne ej]
        exact h1

theorem keeps_attr {i : ι} (h : ∀ op s raised, c.how s op raised i ≠ .inPlace) : Spec.KeepsAttr c i := by
  intro κ _ w hw calls
  induction calls generalizing w with
  | nil => intro a _; rfl
  | cons b calls ih =>
    intro a hlt
    obtain ⟨k, op⟩ := b
    rw [runCalls_cons, ih _ (call_wf hw k op) a (by simp only [call]; omega)]
    exact cell_call k op i a hlt (Or.inl fun s r => h op s r)

theorem safe_of_rebind (hl : c.Lawful) (h : ∀ op s raised i, c.how s op raised i ≠ .inPlace) : Spec.Safe c :=
  ⟨keeps_of_rebind _ fun op _ => h op, isolated_of_rebind hl _ fun op _ => h op⟩

/-- Attributes that are never rebound. -/
theorem always_live (hl : c.Lawful) {allowed : ω → Prop} {i : ι}
    (h : ∀ op, allowed op → ∀ s raised, c.how s op raised i ≠ .rebind) : Spec.AlwaysLive c allowed i := by
  intro κ _ w calls
  induction calls generalizing w with
  | nil =>
    intro _ k
    rw [view, hl.get_put]
    rfl
  | cons b calls ih =>
    intro ha k
    obtain ⟨j, op⟩ := b
    rw [runCalls_cons, ← ih (w.call c j op) (fun x hx => ha x (List.mem_cons_of_mem _ hx)) k]
    have : ((w.call c j op).obj k).ref i = (w.obj k).ref i := by
      by_cases e : k = j
      · subst e
        simp only [call, Function.update_self]
        have := h op (ha (k, op) List.mem_cons_self) (w.view c k) (c.step (w.view c k) op).raised
        revert this
        cases c.how (w.view c k) op (c.step (w.view c k) op).raised i <;> intro q
        · rfl
        · exact absurd rfl q
        · rfl
      · simp only [call, Function.update_of_ne e]
    rw [this]

/-- Two equal objects that share the arrays under the attributes `sh`. -/
def pair (c : ArrayClass σ ω ι V) (s : σ) (sh : ι → Prop) [DecidablePred sh] : World Bool σ ι V where
  mem := { cell := fun i _ => c.get i s, next := 3 }
  obj b := { rest := s, ref := fun i => if sh i then 0 else if b then 1 else 2 }

theorem pair_view (hl : c.Lawful) (s : σ) (sh : ι → Prop) [DecidablePred sh] (b : Bool) :
    (pair c s sh).view c b = s := hl.put_get s

open Classical in
theorem interferes (hl : c.Lawful) {s : σ} {op : ω} {i : ι} (h : c.how s op (c.step s op).raised i = .inPlace)
    (hd : c.get i (c.step s op).left ≠ c.get i s) : Spec.Interferes c i := by
  refine ⟨pair c s (· = i), op, fun k j => ?_, fun j hj => ?_, ?_⟩
  · simp only [pair]
    split_ifs <;> omega
  · simp only [pair, if_neg hj]
    decide
  · rw [pair_view hl]
    have e1 : ((pair c s (· = i)).call c true op).obj false = (pair c s (· = i)).obj false := by
      simp only [call, Function.update_of_ne (by decide : (false : Bool) ≠ true)]
    rw [view, hl.get_put, e1]
    have e2 : ((pair c s (· = i)).call c true op).mem.cell i (((pair c s (· = i)).obj false).ref i)
        = c.get i (c.step s op).left := by
      simp only [call, pair_view hl, h]
      simp [pair, writeCell]
    rw [e2]
    exact hd

theorem spoiled (hl : c.Lawful) {s : σ} {op : ω} {i : ι} (h : c.how s op (c.step s op).raised i = .inPlace)
    (hd : c.get i (c.step s op).left ≠ c.get i s) : Spec.ResultSpoiled c i := by
  let w : World Unit σ ι V := { mem := { cell := fun i _ => c.get i s, next := 1 }, obj := fun _ => ⟨s, fun _ => 0⟩ }
  have hv : w.view c () = s := hl.put_get s
  refine ⟨w, op, fun k j => Nat.zero_lt_one, ?_⟩
  have e2 : (w.call c () op).mem.cell i ((w.obj ()).ref i) = c.get i (c.step s op).left := by
    simp only [call, hv, h]
    simp [writeCell]
  rw [e2]
  exact hd

/-- Interference and spoiling contradict the general statements. -/
theorem not_isolated {i : ι} (h : Spec.Interferes c i) : ¬ Spec.Isolated c fun _ => True := by
  obtain ⟨w, op, hw, -, hd⟩ := h
  intro hi
  have := hi Bool w hw [(true, op)] (fun _ _ => trivial) false
  apply hd
  have e : callsOn false [(true, op)] = [] := rfl
  rw [e] at this
  exact congrArg (c.get i) this

theorem not_keeps {i : ι} (h : Spec.ResultSpoiled c i) : ¬ Spec.KeepsArrays c fun _ => True := by
  obtain ⟨w, op, hw, hd⟩ := h
  intro hi
  exact hd (hi Unit w hw [((), op)] (fun _ _ => trivial) i _ (hw () i))

end World

end Filterpy
