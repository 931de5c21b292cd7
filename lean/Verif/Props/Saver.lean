import Verif.Model.Saver
import Mathlib.Tactic.Linarith

/-!
# `Saver`: C56
-/

namespace Filterpy

open SaverModel

variable {α : Type*} [Inhabited α]

namespace Spec

/-- The attribute values at each `save()` of a history, with value semantics: `save` does not
influence the filter. -/
def snapshots : World α → List (Step α) → List (String → Option α)
  | _, [] => []
  | w, .change c :: t => snapshots (w.change c) t
  | w, .save :: t => w.attr :: snapshots w t

end Spec

open Spec

/-- Attribute references are valid. -/
def WF (w : World α) : Prop := (∀ p ∈ w.dict, p.2 < w.heap.length) ∧ (w.dict.map Prod.fst).Nodup

theorem lookup_mem {d : List (String × ℕ)} {k : String} {l : ℕ} (h : d.lookup k = some l) :
    (k, l) ∈ d := by
  induction d with
  | nil => simp at h
  | cons p d ih =>
    obtain ⟨k', l'⟩ := p
    rw [List.lookup_cons] at h
    by_cases hk : k == k'
    · rw [hk] at h
      simp only [Option.some.injEq] at h
      rw [beq_iff_eq] at hk
      subst hk; subst h; exact List.mem_cons_self
    · simp only [hk] at h
      exact List.mem_cons_of_mem _ (ih h)

theorem mem_dictSet {d : List (String × ℕ)} {k : String} {l : ℕ} {p : String × ℕ}
    (h : p ∈ dictSet d k l) : p = (k, l) ∨ p ∈ d := by
  induction d with
  | nil => simpa [dictSet] using h
  | cons q d ih =>
    obtain ⟨k', l'⟩ := q
    unfold dictSet at h
    split_ifs at h
    · rcases List.mem_cons.1 h with h | h
      · exact Or.inl h
      · exact Or.inr (List.mem_cons_of_mem _ h)
    · rcases List.mem_cons.1 h with h | h
      · exact Or.inr (h ▸ List.mem_cons_self)
      · rcases ih h with h | h
        · exact Or.inl h
        · exact Or.inr (List.mem_cons_of_mem _ h)

theorem dictSet_keys {d : List (String × ℕ)} {k : String} {l : ℕ}
    (h : (d.map Prod.fst).Nodup) : ((dictSet d k l).map Prod.fst).Nodup := by
  induction d with
  | nil => simp [dictSet]
  | cons q d ih =>
    obtain ⟨k', l'⟩ := q
    rw [List.map_cons, List.nodup_cons] at h
    unfold dictSet
    split_ifs with hk
    · rw [List.map_cons, List.nodup_cons]
      exact ⟨hk ▸ h.1, h.2⟩
    · rw [List.map_cons, List.nodup_cons]
      refine ⟨?_, ih h.2⟩
      intro hm
      obtain ⟨p, hp, he⟩ := List.mem_map.1 hm
      rcases mem_dictSet hp with h1 | h1
      · rw [h1] at he; exact hk he.symm
      · exact h.1 (List.mem_map.2 ⟨p, h1, he⟩)

theorem change_wf {w : World α} (h : WF w) (c : Change α) : WF (w.change c) := by
  cases c with
  | mutate k v =>
    simp only [World.change]
    split
    · exact ⟨by simpa using h.1, h.2⟩
    · exact h
  | rebind k v =>
    refine ⟨fun p hp => ?_, dictSet_keys h.2⟩
    rcases mem_dictSet hp with h1 | h1
    · rw [h1]; simp [World.change]
    · have := h.1 p h1; simp [World.change]; omega
  | share k k' =>
    simp only [World.change]
    split
    · rename_i l hl
      refine ⟨fun p hp => ?_, dictSet_keys h.2⟩
      rcases mem_dictSet hp with h1 | h1
      · rw [h1]; exact h.1 (k', l) (lookup_mem hl)
      · exact h.1 p h1
    · exact h

/-- The saved objects are not reachable from the filter, and they exist. -/
def Safe (w : World α) (ls : List ℕ) : Prop :=
  ∀ l ∈ ls, l < w.heap.length ∧ ∀ p ∈ w.dict, p.2 ≠ l

theorem val_append {w : World α} {l : ℕ} (h : l < w.heap.length) (vs : List α)
    (d : List (String × ℕ)) : World.val ⟨w.heap ++ vs, d⟩ l = w.val l := by
  simp only [World.val, List.getD_eq_getElem?_getD]
  rw [List.getElem?_append_left h]

theorem change_safe {w : World α} (ls : List ℕ) (hs : Safe w ls) (c : Change α) :
    Safe (w.change c) ls ∧ ∀ l ∈ ls, (w.change c).val l = w.val l := by
  cases c with
  | mutate k v =>
    simp only [World.change]
    split
    · rename_i l' hl
      refine ⟨fun l h => ⟨by simpa using (hs l h).1, (hs l h).2⟩, fun l h => ?_⟩
      have := (hs l h).2 _ (lookup_mem hl)
      simp only [World.val, List.getD_eq_getElem?_getD, List.getElem?_set_ne this]
    · exact ⟨hs, fun _ _ => rfl⟩
  | rebind k v =>
    refine ⟨fun l h => ⟨?_, fun p hp => ?_⟩, fun l h => val_append (hs l h).1 _ _⟩
    · have := (hs l h).1; simp [World.change]; omega
    · rcases mem_dictSet hp with h1 | h1
      · rw [h1]; have := (hs l h).1; simp only; omega
      · exact (hs l h).2 p h1
  | share k k' =>
    simp only [World.change]
    split
    · rename_i l' hl
      refine ⟨fun l h => ⟨(hs l h).1, fun p hp => ?_⟩, fun l h => rfl⟩
      rcases mem_dictSet hp with h1 | h1
      · rw [h1]; exact (hs l h).2 (k', l') (lookup_mem hl)
      · exact (hs l h).2 p h1
    · exact ⟨hs, fun _ _ => rfl⟩

/-- `w'` extends the heap of `w` and keeps the attributes. -/
structure Ext (w w' : World α) : Prop where
  dict : w'.dict = w.dict
  heap : ∃ vs, w'.heap = w.heap ++ vs

theorem Ext.refl (w : World α) : Ext w w := ⟨rfl, [], by simp⟩

theorem Ext.trans {a b c : World α} (h1 : Ext a b) (h2 : Ext b c) : Ext a c := by
  obtain ⟨d1, v1, e1⟩ := h1
  obtain ⟨d2, v2, e2⟩ := h2
  exact ⟨d2.trans d1, v1 ++ v2, by rw [e2, e1, List.append_assoc]⟩

theorem Ext.push (w : World α) (v : α) : Ext w { w with heap := w.heap ++ [v] } := ⟨rfl, [v], rfl⟩

theorem Ext.val {w w' : World α} (h : Ext w w') {l : ℕ} (hl : l < w.heap.length) :
    w'.val l = w.val l := by
  obtain ⟨d, vs, e⟩ := h
  have : w' = ⟨w.heap ++ vs, w'.dict⟩ := by rw [← e]
  rw [this]; exact val_append hl vs _

theorem Ext.len {w w' : World α} (h : Ext w w') : w.heap.length ≤ w'.heap.length := by
  obtain ⟨d, vs, e⟩ := h
  rw [e]; simp

theorem Ext.wf {w w' : World α} (h : Ext w w') (hw : WF w) : WF w' :=
  ⟨fun p hp => lt_of_lt_of_le (hw.1 p (h.dict ▸ hp)) h.len, h.dict ▸ hw.2⟩

theorem Ext.attr {w w' : World α} (h : Ext w w') (hw : WF w) : w'.attr = w.attr := by
  funext k
  unfold World.attr
  rw [h.dict]
  cases hl : w.dict.lookup k with
  | none => rfl
  | some l => simp only [Option.map_some]; rw [h.val (hw.1 _ (lookup_mem hl))]

theorem Ext.safe {w w' : World α} (h : Ext w w') {ls : List ℕ} (hs : Safe w ls) : Safe w' ls :=
  fun l hl => ⟨lt_of_lt_of_le (hs l hl).1 h.len, by rw [h.dict]; exact (hs l hl).2⟩

theorem saveProps_ext (ps : List (String × PropKind α)) (w : World α) (dl : String → List ℕ)
    {w' : World α} {dl' : String → List ℕ} (h : saveProps w dl ps = .ok (w', dl')) :
    Ext w w' ∧ ∀ k, (∀ p ∈ ps, p.1 ≠ k) → dl' k = dl k := by
  induction ps generalizing w dl with
  | nil =>
    simp only [saveProps, Except.ok.injEq, Prod.mk.injEq] at h
    obtain ⟨rfl, rfl⟩ := h
    exact ⟨Ext.refl _, fun _ _ => rfl⟩
  | cons p ps ih =>
    obtain ⟨name, kind⟩ := p
    cases kind with
    | stored k =>
      simp only [saveProps] at h
      split at h
      · obtain ⟨h1, h2⟩ := ih _ _ h
        refine ⟨h1, fun k' hk' => ?_⟩
        rw [h2 k' fun q hq => hk' q (List.mem_cons_of_mem _ hq)]
        have := hk' _ List.mem_cons_self
        simp only [append]
        rw [if_neg (Ne.symm this)]
      · simp at h
    | computed f =>
      simp only [saveProps] at h
      obtain ⟨h1, h2⟩ := ih _ _ h
      refine ⟨(Ext.push _ _).trans h1, fun k' hk' => ?_⟩
      rw [h2 k' fun q hq => hk' q (List.mem_cons_of_mem _ hq)]
      have := hk' _ List.mem_cons_self
      simp only [append]
      rw [if_neg (Ne.symm this)]

/-- Effect of saving a list of attributes on the list of key `k`. -/
theorem saveDict_spec (c : Config α) (d : List (String × ℕ)) (w : World α)
    (hw : WF w) (dl : String → List ℕ) (hd : ∀ p ∈ d, p.2 < w.heap.length)
    (hn : (d.map Prod.fst).Nodup) (k : String) :
    Ext w (saveDict c w dl d).1 ∧
    match (d.lookup k).map w.val with
    | some v => if c.keeps k v then
        ∃ l, (saveDict c w dl d).2 k = dl k ++ [l] ∧ w.heap.length ≤ l ∧
          l < (saveDict c w dl d).1.heap.length ∧ (saveDict c w dl d).1.val l = v
        else (saveDict c w dl d).2 k = dl k
    | none => (saveDict c w dl d).2 k = dl k := by
  induction d generalizing w dl with
  | nil => simp [saveDict, Ext.refl]
  | cons p d ih =>
    obtain ⟨k', l'⟩ := p
    rw [List.map_cons, List.nodup_cons] at hn
    have hl' := hd _ List.mem_cons_self
    simp only at hl'
    have hnone : k = k' → d.lookup k = none := by
      intro e
      cases hl : d.lookup k with
      | none => rfl
      | some l => exact absurd (List.mem_map.2 ⟨_, lookup_mem hl, e⟩) hn.1
    unfold saveDict
    by_cases hkeep : c.keeps k' (w.val l')
    · simp only [hkeep, if_true]
      set w1 : World α := { w with heap := w.heap ++ [w.val l'] } with hw1
      have hE : Ext w w1 := Ext.push _ _
      obtain ⟨h1, h2⟩ := ih w1 (hE.wf hw) (append dl k' w.heap.length)
        (fun q hq => lt_of_lt_of_le (hd q (List.mem_cons_of_mem _ hq)) hE.len) hn.2
      refine ⟨hE.trans h1, ?_⟩
      by_cases hk : k = k'
      · subst hk
        rw [hnone rfl] at h2
        simp only [Option.map_none, append, if_true] at h2
        simp only [List.lookup_cons, beq_self_eq_true, Option.map_some, hkeep, if_true]
        refine ⟨w.heap.length, h2, le_rfl, ?_, ?_⟩
        · have := h1.len; simp [hw1] at this; omega
        · rw [h1.val (by simp [hw1])]
          simp [World.val, hw1]
      · have hb : (k == k') = false := by simpa using hk
        simp only [List.lookup_cons, hb]
        have e : (d.lookup k).map w1.val = (d.lookup k).map w.val := by
          cases hl : d.lookup k with
          | none => rfl
          | some l =>
            simp only [Option.map_some]
            rw [hE.val (hd _ (List.mem_cons_of_mem _ (lookup_mem hl)))]
        rw [e] at h2
        cases hv : (d.lookup k).map w.val with
        | none =>
          rw [hv] at h2
          simp only at h2 ⊢
          rw [h2, append, if_neg hk]
        | some v =>
          rw [hv] at h2
          simp only at h2 ⊢
          by_cases hkv : c.keeps k v
          · rw [if_pos hkv] at h2 ⊢
            obtain ⟨l, g1, g2, g3, g4⟩ := h2
            refine ⟨l, ?_, hE.len.trans g2, g3, g4⟩
            rw [g1, append, if_neg hk]
          · rw [if_neg hkv] at h2 ⊢
            rw [h2, append, if_neg hk]
    · simp only [hkeep]
      simp only [Bool.false_eq_true, if_false]
      obtain ⟨h1, h2⟩ := ih w hw dl (fun q hq => hd q (List.mem_cons_of_mem _ hq)) hn.2
      refine ⟨h1, ?_⟩
      by_cases hk : k = k'
      · subst hk
        rw [hnone rfl] at h2
        simp only [Option.map_none] at h2
        simp only [List.lookup_cons, beq_self_eq_true, Option.map_some, hkeep]
        simpa using h2
      · have hb : (k == k') = false := by simpa using hk
        simp only [List.lookup_cons, hb]
        exact h2

/-- Two worlds that differ only by the choice of references. -/
structure Sim (f : ℕ → ℕ) (w w' : World α) : Prop where
  wf : WF w
  wf' : WF w'
  dict : w'.dict = w.dict.map fun p => (p.1, f p.2)
  inj : ∀ p ∈ w.dict, ∀ q ∈ w.dict, f p.2 = f q.2 → p.2 = q.2
  val : ∀ p ∈ w.dict, w'.val (f p.2) = w.val p.2

theorem lookup_map (f : ℕ → ℕ) (d : List (String × ℕ)) (k : String) :
    (d.map fun p => (p.1, f p.2)).lookup k = (d.lookup k).map f := by
  induction d with
  | nil => rfl
  | cons p d ih =>
    obtain ⟨k', l'⟩ := p
    rw [List.map_cons, List.lookup_cons, List.lookup_cons]
    cases hk : k == k'
    · exact ih
    · rfl

theorem dictSet_map (f : ℕ → ℕ) (d : List (String × ℕ)) (k : String) (l : ℕ) :
    dictSet (d.map fun p => (p.1, f p.2)) k (f l) = (dictSet d k l).map fun p => (p.1, f p.2) := by
  induction d with
  | nil => rfl
  | cons p d ih =>
    obtain ⟨k', l'⟩ := p
    rw [List.map_cons]
    unfold dictSet
    split_ifs
    · rfl
    · rw [ih]; rfl

theorem Sim.attr {f : ℕ → ℕ} {w w' : World α} (h : Sim f w w') : w'.attr = w.attr := by
  funext k
  unfold World.attr
  rw [h.dict, lookup_map]
  cases hl : w.dict.lookup k with
  | none => rfl
  | some l =>
    simp only [Option.map_some]
    rw [h.val _ (lookup_mem hl)]

theorem Sim.change {f : ℕ → ℕ} {w w' : World α} (h : Sim f w w') (c : Change α) :
    ∃ g, Sim g (w.change c) (w'.change c) := by
  have W := change_wf h.wf c
  have W' := change_wf h.wf' c
  cases c with
  | mutate k v =>
    have hL : w'.dict.lookup k = (w.dict.lookup k).map f := by rw [h.dict, lookup_map]
    cases hl : w.dict.lookup k with
    | none =>
      rw [hl, Option.map_none] at hL
      simp only [World.change, hl, hL]
      exact ⟨f, h⟩
    | some l =>
      rw [hl, Option.map_some] at hL
      have hm := lookup_mem hl
      simp only [World.change, hl, hL] at W W' ⊢
      refine ⟨f, W, W', h.dict, h.inj, fun p hp => ?_⟩
      have b := h.wf.1 _ hm
      have b' := h.wf'.1 _ (lookup_mem hL)
      simp only at b b'
      by_cases e : p.2 = l
      · simp only [e, World.val, List.getD_eq_getElem?_getD]
        rw [List.getElem?_set_self b, List.getElem?_set_self b']
      · have e' : f p.2 ≠ f l := fun hh => e (h.inj p hp _ hm hh)
        have := h.val p hp
        simp only [World.val, List.getD_eq_getElem?_getD] at this ⊢
        rw [List.getElem?_set_ne (Ne.symm e), List.getElem?_set_ne (Ne.symm e'), this]
  | rebind k v =>
    set g : ℕ → ℕ := fun l => if l = w.heap.length then w'.heap.length else f l with hg
    have g1 : ∀ p ∈ w.dict, g p.2 = f p.2 := by
      intro p hp
      have := h.wf.1 p hp
      simp only [hg]; rw [if_neg (by omega)]
    have g2 : g w.heap.length = w'.heap.length := by simp [hg]
    have fl : ∀ p ∈ w.dict, f p.2 < w'.heap.length := fun p hp =>
      h.wf'.1 (p.1, f p.2) (by rw [h.dict]; exact List.mem_map.2 ⟨p, hp, rfl⟩)
    refine ⟨g, W, W', ?_, ?_, ?_⟩
    · have e : w'.dict = w.dict.map fun p => (p.1, g p.2) := by
        rw [h.dict]
        exact List.map_congr_left fun p hp => by rw [g1 p hp]
      simp only [World.change]
      rw [e, ← g2, dictSet_map]
    · intro p hp q hq
      rcases mem_dictSet hp with h1 | h1 <;> rcases mem_dictSet hq with h2 | h2
      · intro _; rw [h1, h2]
      · rw [h1, g1 q h2, g2]; have := fl q h2; intro e; simp only at e ⊢; omega
      · rw [h2, g1 p h1]; have := fl p h1; simp only [g2]; intro e; omega
      · rw [g1 p h1, g1 q h2]; exact h.inj p h1 q h2
    · intro p hp
      rcases mem_dictSet hp with h1 | h1
      · rw [h1]; simp only [g2]; simp [World.change, World.val]
      · rw [g1 p h1]
        have := h.val p h1
        have b := h.wf.1 p h1
        have b' := fl p h1
        simp only [World.change]
        rw [val_append b, val_append b', this]
  | share k k' =>
    have hL : w'.dict.lookup k' = (w.dict.lookup k').map f := by rw [h.dict, lookup_map]
    cases hl : w.dict.lookup k' with
    | none =>
      rw [hl, Option.map_none] at hL
      simp only [World.change, hl, hL]
      exact ⟨f, h⟩
    | some l =>
      rw [hl, Option.map_some] at hL
      have hm := lookup_mem hl
      simp only [World.change, hl, hL] at W W' ⊢
      have key : ∀ p ∈ dictSet w.dict k l, ∃ q ∈ w.dict, q.2 = p.2 := by
        intro p hp
        rcases mem_dictSet hp with h1 | h1
        · exact ⟨_, hm, by rw [h1]⟩
        · exact ⟨p, h1, rfl⟩
      refine ⟨f, W, W', ?_, fun p hp q hq e => ?_, fun p hp => ?_⟩
      · show dictSet w'.dict k (f l) = _
        rw [h.dict, dictSet_map]
      · obtain ⟨p1, a1, a2⟩ := key p hp
        obtain ⟨q1, b1, b2⟩ := key q hq
        rw [← a2, ← b2] at e ⊢
        exact h.inj p1 a1 q1 b1 e
      · obtain ⟨p1, a1, a2⟩ := key p hp
        rw [← a2]
        exact h.val p1 a1

theorem Sim.snapshots (t : List (Step α)) {f : ℕ → ℕ} {w w' : World α} (h : Sim f w w') :
    snapshots w' t = snapshots w t := by
  induction t generalizing f w w' with
  | nil => rfl
  | cons s t ih =>
    cases s with
    | change c =>
      obtain ⟨g, hg⟩ := h.change c
      exact ih hg
    | save =>
      simp only [Spec.snapshots]
      rw [h.attr, ih h]

theorem snapshots_ext (t : List (Step α)) {w w' : World α} (hE : Ext w w') (hw : WF w) :
    snapshots w' t = snapshots w t :=
  Sim.snapshots (f := id) t ⟨hw, hE.wf hw, by simp [hE.dict], fun _ _ _ _ e => e,
    fun p hp => hE.val (hw.1 p hp)⟩

/-- One `save` and the list of an attribute that is not the name of a property. -/
theorem save_attr (c : Config α) {w w' : World α} {s s' : Lists} (hw : WF w)
    (h : save c w s = .ok (w', s')) (k : String) (hk : ∀ p ∈ c.props, p.1 ≠ k) :
    Ext w w' ∧ s'.len = s.len + 1 ∧
    match (w.attr k).filter (c.keeps k) with
    | some v => ∃ l, s'.dl k = s.dl k ++ [l] ∧ w.heap.length ≤ l ∧ l < w'.heap.length ∧
        w'.val l = v
    | none => s'.dl k = s.dl k := by
  unfold save at h
  split at h
  · simp at h
  · rename_i w1 dl1 h1
    simp only [Except.ok.injEq, Prod.mk.injEq] at h
    obtain ⟨e1, e2⟩ := saveProps_ext _ _ _ h1
    have e3 : dl1 k = s.dl k := e2 k fun p hp => hk p (List.mem_of_mem_filter hp)
    have W := e1.wf hw
    obtain ⟨e4, e5⟩ := saveDict_spec c w1.dict w1 W dl1 W.1 W.2 k
    obtain ⟨rfl, rfl⟩ := h
    refine ⟨e1.trans e4, rfl, ?_⟩
    have ea : (w1.dict.lookup k).map w1.val = w.attr k := by
      rw [← e1.attr hw]; rfl
    rw [ea] at e5
    cases hv : w.attr k with
    | none => rw [hv] at e5; simpa [e3] using e5
    | some v =>
      rw [hv] at e5
      simp only at e5
      by_cases hkv : c.keeps k v
      · rw [if_pos hkv] at e5
        obtain ⟨l, g1, g2, g3, g4⟩ := e5
        simp only [Option.filter, hkv, if_true]
        exact ⟨l, by rw [← e3]; exact g1, e1.len.trans g2, g3, g4⟩
      · rw [if_neg hkv] at e5
        simp only [Option.filter, hkv]
        simpa [e3] using e5

/-- Number of `save()` calls in a history. -/
def Spec.saves : List (Step α) → ℕ
  | [] => 0
  | .change _ :: t => saves t
  | .save :: t => saves t + 1

theorem run_attr (c : Config α) (t : List (Step α)) {w w' : World α} {s s' : Lists} (hw : WF w)
    (k : String) (hk : ∀ p ∈ c.props, p.1 ≠ k) (hs : Safe w (s.dl k))
    (h : run c w s t = .ok (w', s')) :
    s'.len = s.len + saves t ∧
    shown w' s' k = shown w s k ++ (snapshots w t).filterMap fun a => (a k).filter (c.keeps k) := by
  induction t generalizing w s with
  | nil =>
    simp only [run, Except.ok.injEq, Prod.mk.injEq] at h
    obtain ⟨rfl, rfl⟩ := h
    simp [saves, snapshots]
  | cons st t ih =>
    cases st with
    | change ch =>
      obtain ⟨h1, h2⟩ := change_safe _ hs ch
      obtain ⟨h3, h4⟩ := ih (change_wf hw ch) h1 h
      refine ⟨h3, ?_⟩
      rw [h4]
      simp only [snapshots, shown]
      rw [List.map_congr_left h2]
    | save =>
      simp only [run] at h
      split at h
      · simp at h
      · rename_i w1 s1 h1
        obtain ⟨e1, e2, e3⟩ := save_attr c hw h1 k hk
        have old : ∀ l ∈ s.dl k, w1.val l = w.val l := fun l hl => e1.val (hs l hl).1
        cases hv : (w.attr k).filter (c.keeps k) with
        | none =>
          rw [hv] at e3
          simp only at e3
          obtain ⟨h3, h4⟩ := ih (e1.wf hw) (by rw [e3]; exact e1.safe hs) h
          refine ⟨by rw [h3, e2, saves]; omega, ?_⟩
          rw [h4, snapshots, List.filterMap_cons, hv, snapshots_ext t e1 hw]
          simp only [shown, e3]
          rw [List.map_congr_left old]
        | some v =>
          rw [hv] at e3
          obtain ⟨l, g1, g2, g3, g4⟩ := e3
          have hs1 : Safe w1 (s1.dl k) := by
            rw [g1]
            intro l' hl'
            rcases List.mem_append.1 hl' with h5 | h5
            · exact e1.safe hs l' h5
            · rw [List.mem_singleton] at h5
              subst h5
              refine ⟨g3, fun p hp => ?_⟩
              have := hw.1 p (e1.dict ▸ hp)
              omega
          obtain ⟨h3, h4⟩ := ih (e1.wf hw) hs1 h
          refine ⟨by rw [h3, e2, saves]; omega, ?_⟩
          rw [h4, snapshots, List.filterMap_cons, hv, snapshots_ext t e1 hw]
          simp only [shown, g1, List.map_append, List.map_cons, List.map_nil, g4]
          rw [List.map_congr_left old]
          simp

/-- **C56, attributes.**  For every history of in-place changes, rebindings, shared references and
`save()` calls that completes, and for every instance attribute `k` (not the name of a property of
the class): `len(saver)` is the number of saves, and what `saver[k]` shows at the end is exactly the
list of the values the attribute had at the saves at which it was present and not excluded -
whatever was done to the filter afterwards. -/
theorem C56_attributes_partial (c : Config α) (t : List (Step α)) {w w' : World α} {s' : Lists}
    (hw : WF w) (k : String) (hk : ∀ p ∈ c.props, p.1 ≠ k)
    (h : run c w Lists.empty t = .ok (w', s')) :
    s'.len = saves t ∧
    shown w' s' k = (snapshots w t).filterMap fun a => (a k).filter (c.keeps k) := by
  have := run_attr c t hw k hk (s := Lists.empty) (by intro l hl; simp [Lists.empty] at hl) h
  simpa [Lists.empty, shown] using this

theorem snapshots_length (w : World α) (t : List (Step α)) : (snapshots w t).length = saves t := by
  induction t generalizing w with
  | nil => rfl
  | cons s t ih => cases s <;> simp [snapshots, saves, ih]

/-- **C56, lengths and exclusions.**  An attribute present and kept at every save has a list of
length `len(saver)`; `ignore` and `skip_private` empty exactly the lists of the attributes they
name; `skip_callable` removes exactly the callable values. -/
theorem C56_lengths_and_exclusions (c : Config α) (t : List (Step α)) {w w' : World α} {s' : Lists}
    (hw : WF w) (k : String) (hk : ∀ p ∈ c.props, p.1 ≠ k)
    (h : run c w Lists.empty t = .ok (w', s')) :
    ((∀ a ∈ snapshots w t, ∃ v, a k = some v ∧ ¬ (c.skipCallable = true ∧ c.callable v = true)) →
      k ∉ c.ignore → ¬ (c.skipPrivate = true ∧ isPrivate k = true) →
        (shown w' s' k).length = s'.len ∧
        (shown w' s' k).map some = (snapshots w t).map fun a => a k) ∧
    (k ∈ c.ignore ∨ (c.skipPrivate = true ∧ isPrivate k = true) → shown w' s' k = []) ∧
    (c.skipCallable = true → ∀ v ∈ shown w' s' k, c.callable v = false) := by
  obtain ⟨h1, h2⟩ := C56_attributes_partial c t hw k hk h
  refine ⟨fun ha hi hp => ?_, fun he => ?_, fun hc v hv => ?_⟩
  · have key : (shown w' s' k).map some = (snapshots w t).map fun a => a k := by
      rw [h2]
      clear h1 h2 h
      generalize snapshots w t = L at ha
      induction L with
      | nil => rfl
      | cons a as ih =>
        obtain ⟨v, hv, hcv⟩ := ha a List.mem_cons_self
        have hkv : c.keeps k v = true := by
          simp only [Config.keeps, Bool.and_eq_true, Bool.not_eq_true', Bool.and_eq_false_iff]
          refine ⟨⟨?_, ?_⟩, by simpa using hi⟩
          · by_contra hcon
            simp only [not_or, Bool.not_eq_false] at hcon
            exact hp hcon
          · by_contra hcon
            simp only [not_or, Bool.not_eq_false] at hcon
            exact hcv hcon
        have e : (a k).filter (c.keeps k) = some v := by rw [hv]; simp [Option.filter, hkv]
        rw [List.filterMap_cons, e]
        simp only [List.map_cons, hv]
        rw [ih fun b hb => ha b (List.mem_cons_of_mem _ hb)]
    refine ⟨?_, key⟩
    have := congrArg List.length key
    simpa [snapshots_length, h1] using this
  · rw [h2, List.filterMap_eq_nil_iff]
    intro a _
    cases a k with
    | none => rfl
    | some v =>
      have : c.keeps k v = false := by
        rcases he with he | ⟨he, he'⟩
        · simp [Config.keeps, he]
        · simp [Config.keeps, he, he']
      simp [Option.filter, this]
  · rw [h2, List.mem_filterMap] at hv
    obtain ⟨a, _, hv⟩ := hv
    rw [Option.filter_eq_some_iff] at hv
    have := hv.2
    simp only [Config.keeps, hc, Bool.true_and, Bool.and_eq_true, Bool.not_eq_true'] at this
    exact this.1.2

/-- Effect of the property loop on the list of a computed property. -/
theorem saveProps_computed (ps : List (String × PropKind α)) (w : World α)
    (dl : String → List ℕ) {w' : World α} {dl' : String → List ℕ} (hw : WF w)
    (hn : (ps.map Prod.fst).Nodup) (n : String) (f : (String → Option α) → α)
    (hm : (n, PropKind.computed f) ∈ ps) (h : saveProps w dl ps = .ok (w', dl')) :
    ∃ l, dl' n = dl n ++ [l] ∧ w.heap.length ≤ l ∧ l < w'.heap.length ∧ w'.val l = f w.attr := by
  induction ps generalizing w dl with
  | nil => simp at hm
  | cons p ps ih =>
    obtain ⟨name, kind⟩ := p
    rw [List.map_cons, List.nodup_cons] at hn
    rcases List.mem_cons.1 hm with e | e
    · simp only [Prod.mk.injEq] at e
      obtain ⟨rfl, rfl⟩ := e
      simp only [saveProps] at h
      obtain ⟨h1, h2⟩ := saveProps_ext _ _ _ h
      refine ⟨w.heap.length, ?_, le_rfl, ?_, ?_⟩
      · rw [h2 n fun q hq e => hn.1 (List.mem_map.2 ⟨q, hq, e⟩)]
        simp [append]
      · have := h1.len; simp at this; omega
      · rw [h1.val (by simp)]
        simp [World.val]
    · have hne : n ≠ name := fun e' => hn.1 (List.mem_map.2 ⟨_, e, e'⟩)
      cases kind with
      | stored k =>
        simp only [saveProps] at h
        split at h
        · obtain ⟨l, g1, g2⟩ := ih _ _ hw hn.2 e h
          refine ⟨l, ?_, g2⟩
          rw [g1, append, if_neg hne]
        · simp at h
      | computed g =>
        simp only [saveProps] at h
        have hE := Ext.push w (g w.attr)
        obtain ⟨l, g1, g2, g3, g4⟩ := ih _ _ (hE.wf hw) hn.2 e h
        refine ⟨l, ?_, hE.len.trans g2, g3, ?_⟩
        · rw [g1, append, if_neg hne]
        · rw [g4, hE.attr hw]

/-- One `save` and the list of a computed property. -/
theorem save_computed (c : Config α) {w w' : World α} {s s' : Lists} (hw : WF w)
    (h : save c w s = .ok (w', s')) (n : String) (f : (String → Option α) → α)
    (hn : (c.props.map Prod.fst).Nodup) (hi : n ∉ c.ignore)
    (hm : (n, PropKind.computed f) ∈ c.props) (ha : w.attr n = none) :
    Ext w w' ∧ ∃ l, s'.dl n = s.dl n ++ [l] ∧ w.heap.length ≤ l ∧ l < w'.heap.length ∧
      w'.val l = f w.attr := by
  unfold save at h
  split at h
  · simp at h
  · rename_i w1 dl1 h1
    simp only [Except.ok.injEq, Prod.mk.injEq] at h
    obtain ⟨e1, -⟩ := saveProps_ext _ _ _ h1
    have hn' : (c.properties.map Prod.fst).Nodup :=
      hn.sublist (List.Sublist.map _ List.filter_sublist)
    obtain ⟨l, g1, g2, g3, g4⟩ := saveProps_computed _ _ _ hw hn' n f
      (List.mem_filter.2 ⟨hm, by simpa using hi⟩) h1
    have W := e1.wf hw
    obtain ⟨e4, e5⟩ := saveDict_spec c w1.dict w1 W dl1 W.1 W.2 n
    have ea : (w1.dict.lookup n).map w1.val = none := by
      rw [← ha, ← e1.attr hw]; rfl
    rw [ea] at e5
    obtain ⟨rfl, rfl⟩ := h
    exact ⟨e1.trans e4, l, by simp only at e5; simp only [e5, g1], g2,
      lt_of_lt_of_le g3 e4.len, by rw [e4.val g3, g4]⟩

theorem run_computed (c : Config α) (t : List (Step α)) {w w' : World α} {s s' : Lists}
    (hw : WF w) (n : String) (f : (String → Option α) → α)
    (hn : (c.props.map Prod.fst).Nodup) (hi : n ∉ c.ignore)
    (hm : (n, PropKind.computed f) ∈ c.props) (ha : ∀ a ∈ snapshots w t, a n = none)
    (hs : Safe w (s.dl n)) (h : run c w s t = .ok (w', s')) :
    shown w' s' n = shown w s n ++ (snapshots w t).map f := by
  induction t generalizing w s with
  | nil =>
    simp only [run, Except.ok.injEq, Prod.mk.injEq] at h
    obtain ⟨rfl, rfl⟩ := h
    simp [snapshots]
  | cons st t ih =>
    cases st with
    | change ch =>
      obtain ⟨h1, h2⟩ := change_safe _ hs ch
      rw [ih (change_wf hw ch) ha h1 h]
      simp only [snapshots, shown]
      rw [List.map_congr_left h2]
    | save =>
      simp only [run] at h
      split at h
      · simp at h
      · rename_i w1 s1 h1
        rw [snapshots] at ha
        obtain ⟨e1, l, g1, g2, g3, g4⟩ := save_computed c hw h1 n f hn hi hm
          (ha _ List.mem_cons_self)
        have old : ∀ l ∈ s.dl n, w1.val l = w.val l := fun l hl => e1.val (hs l hl).1
        have hs1 : Safe w1 (s1.dl n) := by
          rw [g1]
          intro l' hl'
          rcases List.mem_append.1 hl' with h5 | h5
          · exact e1.safe hs l' h5
          · rw [List.mem_singleton] at h5
            subst h5
            refine ⟨g3, fun p hp => ?_⟩
            have := hw.1 p (e1.dict ▸ hp)
            omega
        rw [ih (e1.wf hw) (fun a h => ha a (List.mem_cons_of_mem _ (by
          rwa [snapshots_ext t e1 hw] at h))) hs1 h, snapshots, List.map_cons,
          snapshots_ext t e1 hw]
        simp only [shown, g1, List.map_append, List.map_cons, List.map_nil, g4]
        rw [List.map_congr_left old]
        simp

/-- **C56, computed properties.**  A property that computes a new object at each access is recorded
faithfully: `saver[n]` shows its value at each save, in order. -/
theorem C56_computed_properties (c : Config α) (t : List (Step α)) {w w' : World α} {s' : Lists}
    (hw : WF w) (n : String) (f : (String → Option α) → α)
    (hn : (c.props.map Prod.fst).Nodup) (hi : n ∉ c.ignore)
    (hm : (n, PropKind.computed f) ∈ c.props) (ha : ∀ a ∈ snapshots w t, a n = none)
    (h : run c w Lists.empty t = .ok (w', s')) :
    shown w' s' n = (snapshots w t).map f := by
  have := run_computed c t hw n f hn hi hm ha (s := Lists.empty)
    (by intro l hl; simp [Lists.empty] at hl) h
  simpa [Lists.empty, shown] using this

theorem saveProps_other (k : String) : ∀ (ps : List (String × PropKind α)) (w : World α)
    (dl : String → List ℕ) {w' dl'}, (∀ p ∈ ps, p.1 ≠ k) → saveProps w dl ps = .ok (w', dl') →
    dl' k = dl k
  | [], w, dl, w', dl', _, h => by
    simp only [saveProps, Except.ok.injEq, Prod.mk.injEq] at h; rw [h.2]
  | (nm, .stored j) :: ps, w, dl, w', dl', hp, h => by
    simp only [saveProps] at h
    cases hl : w.dict.lookup j with
    | none => rw [hl] at h; cases h
    | some l =>
      rw [hl] at h
      rw [saveProps_other k ps w _ (fun p hp' => hp p (by simp [hp'])) h]
      have : k ≠ nm := fun e => hp (nm, .stored j) (by simp) e.symm
      simp [append, this]
  | (nm, .computed f) :: ps, w, dl, w', dl', hp, h => by
    simp only [saveProps] at h
    rw [saveProps_other k ps _ _ (fun p hp' => hp p (by simp [hp'])) h]
    have : k ≠ nm := fun e => hp (nm, .computed f) (by simp) e.symm
    simp [append, this]

theorem saveDict_ignored (c : Config α) {k : String} (hk : k ∈ c.ignore) :
    ∀ (d : List (String × ℕ)) (w : World α) (dl : String → List ℕ),
    (saveDict c w dl d).2 k = dl k
  | [], w, dl => rfl
  | (j, l) :: d, w, dl => by
    simp only [saveDict]
    split
    · rename_i hkeep
      rw [saveDict_ignored c hk d]
      have : k ≠ j := by
        rintro rfl
        simp [Config.keeps, hk] at hkeep
      simp [append, this]
    · exact saveDict_ignored c hk d w dl

/-- **C56 (ignored names).** Whatever is named in `ignore` - an attribute or a property, and however
often the filter is changed and saved - never gets a list in the saver. -/
theorem C56_ignored (c : Config α) (t : List (Step α)) {w w' : World α} {s' : Lists}
    (k : String) (hk : k ∈ c.ignore) (h : run c w Lists.empty t = .ok (w', s')) :
    shown w' s' k = [] := by
  have key : ∀ (t : List (Step α)) (w : World α) (s : Lists), s.dl k = [] →
      run c w s t = .ok (w', s') → s'.dl k = [] := by
    intro t
    induction t with
    | nil =>
      intro w s hs h
      simp only [run, Except.ok.injEq, Prod.mk.injEq] at h
      rw [← h.2]; exact hs
    | cons st t ih =>
      intro w s hs h
      cases st with
      | change ch => exact ih _ _ hs h
      | save =>
        simp only [run] at h
        cases hsv : save c w s with
        | error e => rw [hsv] at h; cases h
        | ok r =>
          rw [hsv] at h
          refine ih _ _ ?_ h
          simp only [save] at hsv
          cases hp : saveProps w s.dl c.properties with
          | error e => rw [hp] at hsv; cases hsv
          | ok q =>
            rw [hp] at hsv
            simp only [Except.ok.injEq] at hsv
            rw [← hsv]
            simp only
            rw [saveDict_ignored c hk, saveProps_other k _ _ _ ?_ hp, hs]
            intro p hp' e
            simp only [Config.properties, List.mem_filter] at hp'
            rw [e] at hp'
            simp [hk] at hp'
  simp [shown, key t w _ rfl h]

/-- The filter of the witness: an attribute `_F` handed out by the property `F`, as
`InformationFilter` does, and a plain attribute `x`. -/
def saverWitness : Config ℤ :=
  ⟨[("F", .stored "_F"), ("twice", .computed fun a => 2 * (a "x").getD 0)], true, false, ["y"],
    fun _ => false⟩

def saverWorld : World ℤ := ⟨[0, 5, 9, 7], [("_F", 0), ("x", 1), ("y", 2), ("_priv", 3)]⟩

def saverHistory : List (Step ℤ) :=
  [.save, .change (.mutate "_F" 1), .change (.mutate "x" 6), .save, .change (.rebind "x" 8),
    .change (.share "z" "x"), .change (.mutate "z" 4), .save, .change (.mutate "x" 100)]

/-- **C56 is false of properties.**  `Saver.save` appends the object a property returns without
copying it: for a property that hands out a stored array, changing the array in place rewrites the
history. Here `F` had the values `0, 1, 1` at the three saves; the saver shows `1, 1, 1`. -/
theorem C56_property_alias_refuted :
    ∃ w' s', run saverWitness saverWorld Lists.empty saverHistory = .ok (w', s') ∧
      (snapshots saverWorld saverHistory).map (fun a => a "_F") = [some 0, some 1, some 1] ∧
      shown w' s' "F" = [1, 1, 1] := by
  refine ⟨_, _, rfl, ?_, ?_⟩
  · rfl
  · rfl

/-- The same history meets the hypotheses of the positive theorems, with the expected lists. -/
example : ∃ w' s', run saverWitness saverWorld Lists.empty saverHistory = .ok (w', s') ∧
    WF saverWorld ∧ s'.len = 3 ∧ shown w' s' "x" = [5, 6, 4] ∧ shown w' s' "y" = [] ∧
    shown w' s' "_priv" = [] ∧ shown w' s' "twice" = [10, 12, 8] ∧
    (∀ a ∈ snapshots saverWorld saverHistory, a "twice" = none) := by
  refine ⟨_, _, rfl, ?_, ?_, ?_, ?_, ?_, ?_, ?_⟩
  · constructor <;> decide
  · rfl
  · rfl
  · rfl
  · rfl
  · rfl
  · intro a ha
    simp only [snapshots, saverHistory, List.mem_cons, List.not_mem_nil, or_false] at ha
    rcases ha with rfl | rfl | rfl <;> rfl

/-- A property named in `ignore` is not recorded, the other one is. -/
example : ∃ w' s', run { saverWitness with ignore := ["F"] } saverWorld Lists.empty saverHistory =
    .ok (w', s') ∧ shown w' s' "F" = [] ∧ shown w' s' "twice" = [10, 12, 8] :=
  ⟨_, _, rfl, rfl, rfl⟩

end Filterpy
