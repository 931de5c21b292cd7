import Verif.Model.SaverReads
import Verif.Props.SaverArray

/-!
# C148: reading a `Saver`
-/

namespace Filterpy.SaverArray

namespace Spec

/-- The calls among what the user does. -/
def Use.calls : List Use → List Op
  | [] => []
  | .call op :: us => op :: calls us
  | _ :: us => calls us

end Spec

open Spec

theorem push_fold_view (row : List (String × Arr)) : ∀ (s : Sv),
    (row.foldl (fun s p => s.push p.1 p.2) s).view = s.view := by
  induction row with
  | nil => intro s; rfl
  | cons p row ih => intro s; rw [List.foldl_cons, ih]; rfl

/-- `s` is `t` with some empty histories under further keys. -/
structure Phantoms (s t : Sv) : Prop where
  dl : s.dl = t.dl
  len : s.len = t.len
  keys : ∀ k ∈ t.keys, k ∈ s.keys
  view : ∀ k ∈ t.keys, s.view k = t.view k
  empty : ∀ k ∉ t.keys, t.dl k = []

theorem refresh_phantoms {s t : Sv} (hd : s.dl = t.dl) (hl : s.len = t.len) (hk : ∀ k ∈ t.keys, k ∈ s.keys)
    (he : ∀ k ∉ t.keys, t.dl k = []) : Phantoms s.refresh t.refresh where
  dl := hd
  len := hl
  keys := hk
  view k hkt := by
    have hkt : k ∈ t.keys := hkt
    simp only [Sv.refresh, if_pos hkt, if_pos (hk k hkt), hd]
  empty := he

theorem toArray_phantoms {s t : Sv} (h : Phantoms s t) : (∃ s' t', toArrayLoop s s.keys = .ok s' ∧
      toArrayLoop t t.keys = .ok t' ∧ Phantoms s' t') ∨
    ∃ s' t', toArrayLoop s s.keys = .error (.valueError, s') ∧ toArrayLoop t t.keys = .error (.valueError, t') ∧
      Phantoms s' t' := by
  obtain ⟨a1, a2⟩ := toArrayLoop_spec s.keys s
  obtain ⟨b1, b2⟩ := toArrayLoop_spec t.keys t
  cases hs : toArrayLoop s s.keys with
  | ok s' =>
    obtain ⟨c1, c2, c3, c4, -⟩ := a1 s' hs
    cases ht : toArrayLoop t t.keys with
    | ok t' =>
      obtain ⟨d1, d2, d3, d4, -⟩ := b1 t' ht
      refine .inl ⟨s', t', rfl, rfl, c1.trans (h.dl.trans d1.symm), c3.trans (h.len.trans d3.symm), ?_, ?_, ?_⟩
      · rw [c2, d2]; exact h.keys
      · intro k hk
        rw [d2] at hk
        obtain ⟨a, e1, e2⟩ := c4 k (h.keys k hk)
        obtain ⟨b, e3, e4⟩ := d4 k hk
        rw [h.dl, e3] at e1
        rw [e2, e4, Option.some.inj e1]
      · rw [d1, d2]; exact h.empty
    | error e =>
      obtain ⟨-, -, -, -, -, k, hk, hn⟩ := b2 e.1 e.2 ht
      obtain ⟨a, e1, -⟩ := c4 k (h.keys k hk)
      rw [h.dl, hn] at e1
      cases e1
  | error e =>
    obtain ⟨c0, c1, c2, c3, c4, k, hk, hn⟩ := a2 e.1 e.2 hs
    cases ht : toArrayLoop t t.keys with
    | ok t' =>
      obtain ⟨d1, d2, d3, d4, -⟩ := b1 t' ht
      rw [h.dl] at hn
      by_cases hkt : k ∈ t.keys
      · obtain ⟨b, e3, -⟩ := d4 k hkt
        rw [hn] at e3; cases e3
      · rw [h.empty k hkt] at hn; cases hn
    | error e' =>
      obtain ⟨d0, d1, d2, d3, d4, -⟩ := b2 e'.1 e'.2 ht
      refine .inr ⟨e.2, e'.2, by rw [← c0], by rw [← d0], c1.trans (h.dl.trans d1.symm), c3.trans (h.len.trans d3.symm), ?_, ?_, ?_⟩
      · rw [c2, d2]; exact h.keys
      · intro k hk
        rw [d2] at hk
        rw [c4 k (h.keys k hk), d4 k hk, h.dl]
      · rw [d1, d2]; exact h.empty

theorem flatten_phantoms {s t : Sv} (h : Phantoms s t) : Phantoms s.flatten t.flatten where
  dl := h.dl
  len := h.len
  keys := h.keys
  view k hk := by
    have hk : k ∈ t.keys := hk
    simp only [Sv.flatten, if_pos hk, if_pos (h.keys k hk), h.view k hk]
  empty := h.empty

theorem step_phantoms {s t : Sv} (h : Phantoms s t) (op : Op) : Phantoms (s.step op) (t.step op) := by
  cases op with
  | save row =>
    have hd : (row.foldl (fun s p => s.push p.1 p.2) s).dl = (row.foldl (fun s p => s.push p.1 p.2) t).dl := by
      funext k; rw [push_fold_dl, push_fold_dl, h.dl]
    have hl : (row.foldl (fun s p => s.push p.1 p.2) s).len = (row.foldl (fun s p => s.push p.1 p.2) t).len := by
      rw [push_fold_len, push_fold_len, h.len]
    have hr := refresh_phantoms hd hl
      (fun k hk => by rw [push_fold_keys] at hk ⊢; exact hk.imp_left (h.keys k))
      (fun k hk => by
        rw [push_fold_keys, not_or] at hk
        rw [push_fold_dl, h.empty k hk.1, List.nil_append, List.map_eq_nil_iff, List.filter_eq_nil_iff]
        intro p hp hpk
        exact hk.2 (List.mem_map.2 ⟨p, hp, of_decide_eq_true hpk⟩))
    exact ⟨hr.dl, congrArg (· + 1) hr.len, hr.keys, hr.view, hr.empty⟩
  | setItem k v =>
    refine refresh_phantoms ?_ h.len ?_ ?_
    · simp only [h.dl]
    · intro j hj
      have hj : j ∈ (if k ∈ t.keys then t.keys else t.keys ++ [k]) := hj
      show j ∈ (if k ∈ s.keys then s.keys else s.keys ++ [k])
      have hj : j ∈ t.keys ∨ j = k := by
        split_ifs at hj
        · exact .inl hj
        · exact (List.mem_append.1 hj).imp_right List.mem_singleton.1
      have hj : j ∈ s.keys ∨ j = k := hj.imp_left (h.keys j)
      split_ifs with h2
      · exact hj.elim id fun e => e ▸ h2
      · exact List.mem_append.2 (hj.imp_right List.mem_singleton.2)
    · intro j hj
      have hj : j ∉ (if k ∈ t.keys then t.keys else t.keys ++ [k]) := hj
      have hjk : j ≠ k ∧ j ∉ t.keys := by
        split_ifs at hj with h1
        · exact ⟨fun e => hj (e ▸ h1), hj⟩
        · rw [List.mem_append, not_or, List.mem_singleton] at hj
          exact ⟨hj.2, hj.1⟩
      simp only [if_neg hjk.1]
      exact h.empty j hjk.2
  | toArray f =>
    simp only [Sv.step, Sv.toArray]
    rcases toArray_phantoms h with ⟨s', t', h1, h2, h3⟩ | ⟨s', t', h1, h2, h3⟩
    · rw [h1, h2]
      cases f
      · exact h3
      · exact flatten_phantoms h3
    · rw [h1, h2]; exact h3
  | flatten => exact flatten_phantoms h

theorem item_phantoms {s t : Sv} (h : Phantoms s t) (k : String) : Phantoms (s.getItem k).2 t :=
  { h with
    keys := fun j hj => by
      simp only [Sv.getItem]
      split_ifs
      · exact h.keys j hj
      · exact List.mem_append_left _ (h.keys j hj) }

theorem use_phantoms (us : List Use) : ∀ {s t : Sv}, Phantoms s t →
    Phantoms (us.foldl Sv.use s) ((Use.calls us).foldl Sv.step t) := by
  induction us with
  | nil => exact fun h => h
  | cons u us ih =>
    intro s t h
    cases u with
    | call op => exact ih (step_phantoms h op)
    | item k => exact ih (item_phantoms h k)
    | look => exact ih h

theorem empty_phantoms : Phantoms Sv.empty Sv.empty :=
  ⟨rfl, rfl, fun _ h => h, fun _ _ => rfl, fun _ _ => rfl⟩

/-- **C148.** Whatever is read from a Saver, at any points of its history, the histories `saver[k]`, the number of saves
and, for every recorded key, the attribute `saver.k` are what they would be had nothing been read, and `to_array` raises exactly when
it would have; reading a recorded key changes nothing at all.  Missing: reading a key that is not recorded (`C148_unknown_refuted`). -/
theorem C148_reads_partial (us : List Use) :
    let s := us.foldl Sv.use Sv.empty
    let t := (Use.calls us).foldl Sv.step Sv.empty
    (∀ k, (s.getItem k).1 = (t.getItem k).1) ∧ s.len = t.len ∧
      (∀ k ∈ t.keys, k ∈ s.keys ∧ s.getAttr k = t.getAttr k) ∧ (∀ k ∈ t.keys, (s.getItem k).2 = s) ∧
      ∀ f, (∃ s', s.toArray f = .ok s') ↔ ∃ t', t.toArray f = .ok t' := by
  intro s t
  have h : Phantoms s t := use_phantoms us empty_phantoms
  refine ⟨fun k => congrFun h.dl k, h.len, fun k hk => ⟨h.keys k hk, ?_⟩, fun k hk => ?_, fun f => ?_⟩
  · simp only [Sv.getAttr, h.view k hk]
  · simp only [Sv.getItem, if_pos (h.keys k hk)]
  · simp only [Sv.toArray]
    rcases toArray_phantoms h with ⟨s', t', h1, h2, -⟩ | ⟨s', t', h1, h2, -⟩
    · rw [h1, h2]; exact ⟨fun _ => ⟨_, rfl⟩, fun _ => ⟨_, rfl⟩⟩
    · rw [h1, h2]; constructor <;> rintro ⟨_, e⟩ <;> cases e

/-- If only recorded keys are looked up, the saver is exactly as if nothing had been read. -/
theorem C148_known (us : List Use)
    (hk : ∀ (k : String) (us1 us2 : List Use), us = us1 ++ .item k :: us2 → k ∈ (us1.foldl Sv.use Sv.empty).keys) :
    us.foldl Sv.use Sv.empty = (Use.calls us).foldl Sv.step Sv.empty := by
  suffices H : ∀ (us0 us : List Use) (s : Sv), us0.foldl Sv.use Sv.empty = s →
      (∀ (k : String) (us1 us2 : List Use), us0 ++ us = us1 ++ .item k :: us2 → k ∈ (us1.foldl Sv.use Sv.empty).keys) →
      us.foldl Sv.use s = (Use.calls us).foldl Sv.step s from
    H [] us Sv.empty rfl hk
  intro us0 us
  induction us generalizing us0 with
  | nil => intro s _ _; rfl
  | cons u us ih =>
    intro s hs hk
    have hk' : ∀ (k : String) (us1 us2 : List Use), (us0 ++ [u]) ++ us = us1 ++ .item k :: us2 →
        k ∈ (us1.foldl Sv.use Sv.empty).keys := fun k us1 us2 e => hk k us1 us2 (by rw [← e, List.append_assoc]; rfl)
    have hs' : (us0 ++ [u]).foldl Sv.use Sv.empty = s.use u := by rw [List.foldl_append, hs]; rfl
    have := ih (us0 ++ [u]) (s.use u) hs' hk'
    cases u with
    | call op => exact this
    | item k =>
      have hm := hk k us0 us rfl
      rw [hs] at hm
      have e : s.use (.item k) = s := by simp only [Sv.use, Sv.getItem, if_pos hm]
      rw [e] at this
      exact (congrArg (us.foldl Sv.use) e).trans this
    | look => exact this

/-- **C148 (refuted).** Looking up a key that was never saved does not raise: it returns an empty list and adds the key,
which `saver.keys` and `repr(saver)` then show, although `saver.key` does not exist until the next `save()`. -/
theorem C148_unknown_refuted (s : Sv) (k : String) (hk : k ∉ s.keys) (hd : s.dl k = []) (hv : s.view k = none)
    (row : List (String × Arr)) (hrow : k ∉ row.map Prod.fst) :
    (s.getItem k).1 = [] ∧ k ∈ (s.getItem k).2.keys ∧ (s.getItem k).2.getAttr k = .error .attributeError ∧
      ((s.getItem k).2.save row).getAttr k = .ok (.list []) ∧ (s.save row).getAttr k = .error .attributeError := by
  have hmem : k ∈ (s.getItem k).2.keys := by
    simp only [Sv.getItem, if_neg hk]
    exact List.mem_append_right _ (List.mem_singleton.2 rfl)
  have hf : (row.filter fun p => p.1 = k) = [] := List.filter_eq_nil_iff.2 fun p hp hpk =>
    hrow (List.mem_map.2 ⟨p, hp, of_decide_eq_true hpk⟩)
  refine ⟨hd, hmem, ?_, ?_, ?_⟩
  · simp only [Sv.getAttr, Sv.getItem, hv]
  · have h1 : k ∈ (row.foldl (fun s p => s.push p.1 p.2) (s.getItem k).2).keys := (push_fold_keys row _ k).2 (.inl hmem)
    simp only [Sv.getAttr, Sv.save, Sv.refresh, if_pos h1, push_fold_dl, hf, List.map_nil, List.append_nil]
    simp only [Sv.getItem, hd]
  · have h1 : k ∉ (row.foldl (fun s p => s.push p.1 p.2) s).keys := fun h =>
      ((push_fold_keys row _ k).1 h).elim hk hrow
    simp only [Sv.getAttr, Sv.save, Sv.refresh, if_neg h1, push_fold_view, hv]

/-- A saver with one saved number meets the hypotheses. -/
example : let s := Sv.empty.save [("x", ⟨[], [1]⟩)]
    "y" ∉ s.keys ∧ s.dl "y" = [] ∧ s.view "y" = none ∧ s.getAttr "x" = .ok (.list [⟨[], [1]⟩]) ∧
      [Use.call (.save [("x", ⟨[], [1]⟩)]), .item "x"].foldl Sv.use Sv.empty = s := by
  refine ⟨by decide, rfl, ?_, ?_, ?_⟩ <;> simp [Sv.save, Sv.push, Sv.refresh, Sv.empty, Sv.getAttr, Sv.use, Sv.step, Sv.getItem]

end Filterpy.SaverArray
