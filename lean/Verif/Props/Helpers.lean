import Verif.Model.Helpers
import Verif.Lemmas.Mat
import Verif.Props.Saver

/-!
# Helpers: C57, C58, C62
-/

namespace Filterpy

open Matrix Helpers SaverModel

namespace Spec

/-- The entries of an array in reading order. -/
def entries : Arr → List ℝ
  | .d0 v => [v]
  | .d1 n v => (List.range n).map v
  | .d2 r c v => (List.range r).flatMap fun i => (List.range c).map (v i)
  | .hi _ => []

/-- The shape of an array. -/
def arrShape : Arr → List ℕ
  | .d0 _ => []
  | .d1 n _ => [n]
  | .d2 r c _ => [r, c]
  | .hi s => s

/-- A scalar (for one measured value), a vector, a row or a column of `d` values. -/
def IsMeasurement (d : ℕ) (z : Arr) : Prop :=
  match z with
  | .d0 _ => d = 1
  | .d1 n _ => n = d
  | .d2 r c _ => (r = 1 ∧ c = d) ∨ (r = d ∧ c = 1)
  | .hi _ => False

end Spec

open Spec

theorem reshape2_ok {r c : ℕ} (v : ℕ → ℕ → ℝ) {d nd : ℕ}
    (h : (r = 1 ∧ c = d) ∨ (r = d ∧ c = 1)) (hd : nd ≠ 0 ∨ d = 1) :
    ∃ a, reshape2 r c v d nd = .ok a ∧ entries a = entries (.d2 r c v) ∧
      arrShape a = if nd = 1 then [d] else if nd = 0 then [] else [d, 1] := by
  have row : c = d → r = 1 → ∃ a, reshape2 r c v d nd = .ok a ∧ entries a = entries (.d2 r c v) ∧
      arrShape a = if nd = 1 then [d] else if nd = 0 then [] else [d, 1] := by
    rintro rfl rfl
    unfold reshape2
    simp only [if_true, and_self]
    by_cases h1 : nd = 1
    · simp [h1, entries, arrShape]
    · by_cases h0 : nd = 0
      · have : c = 1 := by omega
        subst this
        simp [h0, entries, arrShape]
      · simp [h1, h0, entries, arrShape, List.flatMap_singleton']
        simp [List.flatMap_def]
        induction List.range c with
        | nil => rfl
        | cons a l ih => simpa using ih
  rcases h with ⟨h1, h2⟩ | ⟨h1, h2⟩
  · exact row h2 h1
  · by_cases hc : c = d
    · exact row hc (by omega)
    · subst h1; subst h2
      unfold reshape2
      simp only [if_neg hc, and_self, if_true]
      by_cases h1 : nd = 1
      · simp [h1, entries, arrShape, List.flatMap_def]
        induction List.range r with
        | nil => rfl
        | cons a l ih => simpa using ih
      · by_cases h0 : nd = 0
        · exact absurd (hd.resolve_left (by simpa using h0)).symm hc
        · simp [h1, h0, entries, arrShape]

theorem reshape2_error {r c : ℕ} (v : ℕ → ℕ → ℝ) {d nd : ℕ}
    (h : ¬ ((r = 1 ∧ c = d) ∨ (r = d ∧ c = 1))) : reshape2 r c v d nd = .error .valueError := by
  unfold reshape2
  by_cases hc : c = d
  · have : r ≠ 1 := fun h1 => h (Or.inl ⟨h1, hc⟩)
    simp [hc, this]
  · have : ¬ (r = d ∧ c = 1) := fun h1 => h (Or.inr h1)
    simp only [if_neg hc, if_neg this]

/-- **C57, except for 0-d results.**  `reshape_z` returns the measured values in order, in the shape
asked for, exactly when `z` is a scalar, vector, row or column of `dim_z` values; otherwise it raises
`ValueError`.  Missing: with `ndim = 0` only one value can be returned (`C57_ndim_zero_refuted`). -/
theorem C57_reshape_z_partial (z : Arr) (d nd : ℕ) :
    (IsMeasurement d z → (nd ≠ 0 ∨ d = 1) → ∃ a, reshapeZ z d nd = .ok a ∧
      entries a = entries z ∧ arrShape a = if nd = 1 then [d] else if nd = 0 then [] else [d, 1]) ∧
    (¬ IsMeasurement d z → reshapeZ z d nd = .error .valueError) := by
  cases z with
  | d0 v =>
    refine ⟨fun h hd => ?_, fun h => ?_⟩
    · have := reshape2_ok (fun _ _ => v) (r := 1) (c := 1) (Or.inl ⟨rfl, Eq.symm h⟩) hd
      simpa [entries, reshapeZ] using this
    · exact reshape2_error _ (by intro h1; apply h; show d = 1; omega)
  | d1 n v =>
    refine ⟨fun h hd => ?_, fun h => ?_⟩
    · have := reshape2_ok (fun _ j => v j) (r := 1) (c := n) (Or.inl ⟨rfl, h⟩) hd
      simpa [entries, reshapeZ] using this
    · exact reshape2_error _ (by intro h1; apply h; show n = d; omega)
  | d2 r c v => exact ⟨fun h hd => reshape2_ok v h hd, fun h => reshape2_error v h⟩
  | hi s => exact ⟨fun h => h.elim, fun _ => rfl⟩

/-- **C57 is false for `ndim = 0`.**  A filter whose `x` is 0-dimensional and `dim_z = 2`: the second
measured value is dropped without an error. -/
theorem C57_ndim_zero_refuted : ∃ z a, IsMeasurement 2 z ∧ reshapeZ z 2 0 = .ok a ∧
    entries z = [3, 5] ∧ entries a = [3] := by
  refine ⟨.d1 2 fun i => if i = 0 then 3 else 5, .d0 3, rfl, ?_, ?_, rfl⟩
  · simp [reshapeZ, reshape2]
  · simp [entries, List.range_succ]

example : ∃ a, reshapeZ (.d2 1 3 fun _ j => j) 3 2 = .ok a ∧ entries a = [0, 1, 2] ∧
    arrShape a = [3, 1] := by
  obtain ⟨a, h1, h2, h3⟩ := (C57_reshape_z_partial (.d2 1 3 fun _ j => j) 3 2).1
    (Or.inl ⟨rfl, rfl⟩) (by simp)
  exact ⟨a, h1, by rw [h2]; simp [entries, List.range_succ], by simpa using h3⟩

/-- A `Mat` as an array. -/
noncomputable def toArr {r c : ℕ} (A : Mat r c) : Arr :=
  .d2 r c fun i j => if h : i < r ∧ j < c then A ⟨i, h.1⟩ ⟨j, h.2⟩ else 0

/-- The `r × c` matrix in an array. -/
def ofArr (r c : ℕ) : Arr → Mat r c
  | .d2 _ _ v => fun i j => v i j
  | _ => 0

theorem ofArr_d2 {r c r' c' : ℕ} (v : ℕ → ℕ → ℝ) (i : Fin r) (j : Fin c) :
    ofArr r c (.d2 r' c' v) i j = v i j := rfl

/-- **C58, `inv_diagonal`.**  For a diagonal matrix without zeros on the diagonal the result is the
two-sided inverse (of the same shape); a non-square or non-2-D argument raises `ValueError`. -/
theorem C58_inv_diagonal {n : ℕ} (S : Mat n n) (hS : ∀ i j, i ≠ j → S i j = 0)
    (h0 : ∀ i, S i i ≠ 0) :
    ∃ a, invDiagonal (toArr S) = .ok a ∧ arrShape a = [n, n] ∧
      ofArr n n a * S = 1 ∧ S * ofArr n n a = 1 := by
  have hne : ¬ ∃ i < n, (if h : i < n ∧ i < n then S ⟨i, h.1⟩ ⟨i, h.2⟩ else 0) = 0 := by
    rintro ⟨i, hi, h⟩
    rw [dif_pos ⟨hi, hi⟩] at h
    exact h0 _ h
  have eS : S = diagonal fun i => S i i := by
    ext i j
    by_cases hij : i = j
    · subst hij; simp
    · rw [diagonal_apply_ne _ hij, hS i j hij]
  refine ⟨.d2 n n fun i j => if i = j then
      1 / (if h : i < n ∧ i < n then S ⟨i, h.1⟩ ⟨i, h.2⟩ else 0) else 0, ?_, rfl, ?_⟩
  · simp only [invDiagonal, toArr]
    rw [if_neg (by simp), if_neg hne]
  · have eD : ofArr n n (.d2 n n fun i j => if i = j then
        1 / (if h : i < n ∧ i < n then S ⟨i, h.1⟩ ⟨i, h.2⟩ else 0) else 0)
        = diagonal fun i => 1 / S i i := by
      ext i j
      by_cases hij : i = j
      · subst hij
        rw [ofArr_d2, if_pos rfl, dif_pos ⟨i.2, i.2⟩, diagonal_apply_eq]
      · rw [diagonal_apply_ne _ hij]
        rw [ofArr_d2, if_neg fun h => hij (Fin.ext h)]
    rw [eD]
    have k1 : diagonal (fun i => 1 / S i i) * diagonal (fun i => S i i) = (1 : Mat n n) := by
      rw [diagonal_mul_diagonal, ← diagonal_one]
      congr 1; funext i
      rw [one_div, inv_mul_cancel₀ (h0 i)]
    have k2 : diagonal (fun i => S i i) * diagonal (fun i => 1 / S i i) = (1 : Mat n n) := by
      rw [diagonal_mul_diagonal, ← diagonal_one]
      congr 1; funext i
      rw [one_div, mul_inv_cancel₀ (h0 i)]
    rw [← eS] at k1 k2
    exact ⟨k1, k2⟩

theorem C58_inv_diagonal_error (S : Arr) :
    invDiagonal S = .error .valueError ↔ ¬ ∃ n, arrShape S = [n, n] ∧ ∃ v, S = .d2 n n v := by
  cases S with
  | d2 r c v =>
    simp only [invDiagonal]
    by_cases h : r = c
    · subst h
      constructor
      · intro h1
        split_ifs at h1 <;> simp_all
      · intro h1
        exact absurd ⟨r, rfl, v, rfl⟩ h1
    · rw [if_pos h]
      refine ⟨fun _ => ?_, fun _ => rfl⟩
      rintro ⟨n, h1, -⟩
      simp [arrShape] at h1
      omega
  | _ => simp [invDiagonal]

example : ∃ a, invDiagonal (toArr !![2, 0; 0, -4]) = .ok a ∧
    ofArr 2 2 a * !![2, 0; 0, -4] = 1 := by
  obtain ⟨a, h1, -, h2, -⟩ := C58_inv_diagonal !![2, 0; 0, -4]
    (by intro i j h; fin_cases i <;> fin_cases j <;> simp_all)
    (by intro i; fin_cases i <;> norm_num)
  exact ⟨a, h1, h2⟩

/-- **C58, `outer_product_sum`.**  The result is the sum over the rows of their outer products,
i.e. `Aᵀ B`; with one argument it is symmetric positive semidefinite. -/
theorem C58_outer_product_sum {N n : ℕ} (A B : Mat N n) :
    outerProductSum A (some B) = ∑ i, vecMulVec (A i) (B i) ∧
    outerProductSum A (some B) = Aᵀ * B ∧
    outerProductSum A none = ∑ i, vecMulVec (A i) (A i) ∧
    (outerProductSum A none)ᵀ = outerProductSum A none ∧
    (outerProductSum A none).PosSemidef := by
  have e : outerProductSum A none = Aᵀ * A := by
    ext i j; simp [outerProductSum, einsumOuter, mul_apply]
  have hp : (Aᵀ * A).PosSemidef := by
    have := PSD.congr' (PosSemidef.one (n := Fin N) (R := ℝ)) A
    simpa using this
  refine ⟨?_, ?_, ?_, ?_, e ▸ hp⟩
  · ext i j; simp [outerProductSum, einsumOuter, Matrix.sum_apply, vecMulVec_apply]
  · ext i j; simp [outerProductSum, einsumOuter, mul_apply]
  · ext i j; simp [outerProductSum, einsumOuter, Matrix.sum_apply, vecMulVec_apply]
  · rw [e]; simp

section compare

variable {α : Type*} (close : α → α → Except Err Bool) (v1 v2 : String → Option (AVal α))

/-- `attrs` enumerates the common names. -/
def Spec.IsCommon {β : Type*} (v1 v2 : String → Option β) (attrs : List String) : Prop :=
  attrs.Nodup ∧ ∀ k, k ∈ attrs ↔ (v1 k).isSome ∧ (v2 k).isSome

/-- The two objects agree on attribute `k`: both values numeric and close. -/
def Spec.AgreeOn (k : String) : Prop :=
  ∃ a b, v1 k = some (.num a) ∧ v2 k = some (.num b) ∧ close a b = .ok true

/-- Both values of `k` can be compared. -/
def Spec.Comparable (k : String) : Prop :=
  ∃ a b c, v1 k = some (.num a) ∧ v2 k = some (.num b) ∧ close a b = .ok c

theorem compareLoop_ok (attrs : List String)
    (h : ∀ k ∈ attrs, isPrivate k = false → Comparable close v1 v2 k) :
    ∃ ds, compareLoop close v1 v2 attrs = .ok ds ∧
      ∀ k, k ∈ ds ↔ k ∈ attrs ∧ isPrivate k = false ∧ ¬ AgreeOn close v1 v2 k := by
  induction attrs with
  | nil => exact ⟨[], rfl, by simp⟩
  | cons a as ih =>
    obtain ⟨ds, h1, h2⟩ := ih fun k hk => h k (List.mem_cons_of_mem _ hk)
    unfold compareLoop
    by_cases hp : isPrivate a = true
    · rw [if_pos hp]
      refine ⟨ds, h1, fun k => ?_⟩
      rw [h2, List.mem_cons]
      constructor
      · rintro ⟨g1, g2⟩; exact ⟨Or.inr g1, g2⟩
      · rintro ⟨g1 | g1, g2, g3⟩
        · rw [g1, hp] at g2; exact absurd g2 (by simp)
        · exact ⟨g1, g2, g3⟩
    · rw [if_neg hp]
      have hp' : isPrivate a = false := by simpa using hp
      obtain ⟨x, y, c, e1, e2, e3⟩ := h a List.mem_cons_self hp'
      simp only [e1, e2, allclose, e3, h1]
      refine ⟨_, rfl, fun k => ?_⟩
      cases c with
      | true =>
        have ha : AgreeOn close v1 v2 a := ⟨x, y, e1, e2, e3⟩
        simp only [if_true]
        rw [h2, List.mem_cons]
        constructor
        · rintro ⟨g1, g2⟩; exact ⟨Or.inr g1, g2⟩
        · rintro ⟨g1 | g1, g2, g3⟩
          · subst g1; exact absurd ha g3
          · exact ⟨g1, g2, g3⟩
      | false =>
        have ha : ¬ AgreeOn close v1 v2 a := by
          rintro ⟨x', y', f1, f2, f3⟩
          rw [e1] at f1; rw [e2] at f2
          simp only [Option.some.injEq, AVal.num.injEq] at f1 f2
          rw [← f1, ← f2, e3] at f3
          simp at f3
        simp only [Bool.false_eq_true, if_false]
        rw [List.mem_cons, h2, List.mem_cons]
        constructor
        · rintro (rfl | ⟨g1, g2⟩)
          · exact ⟨Or.inl rfl, hp', ha⟩
          · exact ⟨Or.inr g1, g2⟩
        · rintro ⟨g1 | g1, g2, g3⟩
          · exact Or.inl g1
          · exact Or.inr ⟨g1, g2, g3⟩

/-- **C62, `compare_kf`, agreement.**  When all common public attributes can be compared, the call
returns `None` exactly when the two filters agree on all of them.  Missing: when they differ the
call raises instead of returning the list of names (`C62_compare_kf_refuted`). -/
theorem C62_compare_kf_partial (attrs : List String) (hc : IsCommon v1 v2 attrs)
    (h : ∀ k, (v1 k).isSome → (v2 k).isSome → isPrivate k = false → Comparable close v1 v2 k) :
    compareKf close v1 v2 attrs = .ok none ↔
      ∀ k, (v1 k).isSome → (v2 k).isSome → isPrivate k = false → AgreeOn close v1 v2 k := by
  obtain ⟨ds, h1, h2⟩ := compareLoop_ok close v1 v2 attrs fun k hk =>
    h k ((hc.2 k).1 hk).1 ((hc.2 k).1 hk).2
  unfold compareKf
  rw [h1]
  simp only
  constructor
  · intro h3 k k1 k2 k3
    by_contra hcon
    have : k ∈ ds := (h2 k).2 ⟨(hc.2 k).2 ⟨k1, k2⟩, k3, hcon⟩
    rw [if_pos (List.length_pos_of_mem this)] at h3
    simp at h3
  · intro h3
    have : ds = [] := by
      rw [List.eq_nil_iff_forall_not_mem]
      intro k hk
      obtain ⟨g1, g2, g3⟩ := (h2 k).1 hk
      exact g3 (h3 k ((hc.2 k).1 g1).1 ((hc.2 k).1 g1).2 g2)
    rw [this]; rfl

/-- **C62 is false when the filters differ.**  For any two comparable filters that differ on some
common public attribute, `compare_kf` raises `NameError` (it returns the undefined name
`different`). -/
theorem C62_compare_kf_refuted (attrs : List String) (hc : IsCommon v1 v2 attrs)
    (h : ∀ k, (v1 k).isSome → (v2 k).isSome → isPrivate k = false → Comparable close v1 v2 k)
    (k : String) (k1 : (v1 k).isSome) (k2 : (v2 k).isSome) (k3 : isPrivate k = false)
    (hd : ¬ AgreeOn close v1 v2 k) : compareKf close v1 v2 attrs = .error .nameError := by
  obtain ⟨ds, h1, h2⟩ := compareLoop_ok close v1 v2 attrs fun k hk =>
    h k ((hc.2 k).1 hk).1 ((hc.2 k).1 hk).2
  unfold compareKf
  rw [h1]
  simp only
  rw [if_pos (List.length_pos_of_mem ((h2 k).2 ⟨(hc.2 k).2 ⟨k1, k2⟩, k3, hd⟩))]

theorem compareLoop_func (attrs : List String) (k : String) (hk : k ∈ attrs)
    (hp : isPrivate k = false) (hs : ∀ k ∈ attrs, (v1 k).isSome ∧ (v2 k).isSome) {f : String}
    (hf : v1 k = some (.func f)) (hn : ∀ a b e, close a b = .error e → e = .typeError) :
    compareLoop close v1 v2 attrs = .error .typeError := by
  induction attrs with
  | nil => simp at hk
  | cons a as ih =>
    have hs' : ∀ k ∈ as, (v1 k).isSome ∧ (v2 k).isSome :=
      fun k hk => hs k (List.mem_cons_of_mem _ hk)
    obtain ⟨s1, s2⟩ := hs a List.mem_cons_self
    obtain ⟨x, hx⟩ := Option.isSome_iff_exists.1 s1
    obtain ⟨y, hy⟩ := Option.isSome_iff_exists.1 s2
    unfold compareLoop
    rcases List.mem_cons.1 hk with e | e
    · subst e
      rw [if_neg (by simp [hp]), hf, hy]
      rfl
    · by_cases hpa : isPrivate a = true
      · rw [if_pos hpa]; exact ih e hs'
      · rw [if_neg hpa, hx, hy]
        simp only
        rw [ih e hs']
        cases hal : allclose close x y with
        | ok b => rfl
        | error e' =>
          simp only
          congr 1
          cases x <;> cases y <;> simp only [allclose, Except.error.injEq] at hal
          · exact hn _ _ _ hal
          all_goals exact hal.symm

/-- **C62 is false for filters that hold a function.**  Every `KalmanFilter` has the public attribute
`inv` (a function, kalman_filter.py 434): comparing two of them raises `TypeError` whatever their
state, equal or not.  (Stated for arrays that can always be compared with each other.) -/
theorem C62_compare_kf_function_refuted (attrs : List String) (hc : IsCommon v1 v2 attrs)
    (hn : ∀ a b e, close a b = .error e → e = .typeError) {f : String}
    (h1 : v1 "inv" = some (.func f)) (h2 : (v2 "inv").isSome) :
    compareKf close v1 v2 attrs = .error .typeError := by
  unfold compareKf
  rw [compareLoop_func close v1 v2 attrs "inv" ((hc.2 _).2 ⟨by rw [h1]; rfl, h2⟩) rfl
    (fun k hk => (hc.2 k).1 hk) h1 hn]

end compare

/-- Non-vacuity: two filters with the common attributes `x`, `_p`; they agree (`None`) or differ
(`NameError`). -/
example :
    let close : ℤ → ℤ → Except Err Bool := fun a b => .ok (a == b)
    let v (a : ℤ) : String → Option (AVal ℤ) := fun k =>
      if k = "x" then some (.num a) else if k = "_p" then some (.num (2 * a)) else none
    IsCommon (v 1) (v 2) ["_p", "x"] ∧ compareKf close (v 1) (v 1) ["_p", "x"] = .ok none ∧
      compareKf close (v 1) (v 2) ["_p", "x"] = .error .nameError := by
  refine ⟨⟨by decide, fun k => ?_⟩, rfl, rfl⟩
  by_cases h1 : k = "x"
  · simp [h1]
  · by_cases h2 : k = "_p" <;> simp [h1, h2]

section copy

variable {α : Type*}

theorem lookup_dictSet (d : List (String × ℕ)) (k : String) (l : ℕ) (k' : String) :
    (dictSet d k l).lookup k' = if k' = k then some l else d.lookup k' := by
  induction d with
  | nil =>
    by_cases h : k' = k
    · simp [dictSet, h]
    · have hb : (k' == k) = false := by simpa using h
      simp [dictSet, List.lookup_cons, h, hb]
  | cons p d ih =>
    obtain ⟨k2, l2⟩ := p
    unfold dictSet
    by_cases h2 : k2 = k
    · rw [if_pos h2]
      by_cases h : k' = k
      · simp [h]
      · have hb : (k' == k) = false := by simpa using h
        simp [List.lookup_cons, h, hb, h2]
    · rw [if_neg h2]
      by_cases h : k' = k2
      · have : k' ≠ k := by rw [h]; exact h2
        simp [List.lookup_cons, h, h2]
      · have hb : (k' == k2) = false := by simpa using h
        simp only [List.lookup_cons, hb]
        exact ih

/-- The value of an attribute of the destination / the source. -/
def Spec.dstVal (w : Two α) (k : String) : Option (AVal α) := (w.dst.lookup k).bind w.val
def Spec.srcVal (w : Two α) (k : String) : Option (AVal α) := (w.src.lookup k).bind w.val

/-- Every reference held by the two objects is valid. -/
def Spec.Two.WF (w : Two α) : Prop :=
  (∀ p ∈ w.dst, p.2 < w.heap.length) ∧ ∀ p ∈ w.src, p.2 < w.heap.length

/-- Function-valued attributes are the ones `copy_states` skips. -/
def Spec.IsFunc (v : Option (AVal α)) : Prop := ∃ f, v = some (.func f)

theorem copyOne_eq (w : Two α) (key : String) :
    (copyOne w key = w ∧ (srcVal w key = none ∨ IsFunc (srcVal w key))) ∨
    ∃ v, srcVal w key = some v ∧ ¬ IsFunc (srcVal w key) ∧
      copyOne w key =
        { w with heap := w.heap ++ [v], dst := dictSet w.dst key w.heap.length } := by
  unfold copyOne
  cases h : (w.src.lookup key).bind w.val with
  | none => exact Or.inl ⟨rfl, Or.inl h⟩
  | some v =>
    cases v with
    | func f => exact Or.inl ⟨rfl, Or.inr ⟨f, h⟩⟩
    | num a =>
      refine Or.inr ⟨_, h, ?_, rfl⟩
      rintro ⟨f, hf⟩
      rw [srcVal, h] at hf
      simp at hf
    | other a =>
      refine Or.inr ⟨_, h, ?_, rfl⟩
      rintro ⟨f, hf⟩
      rw [srcVal, h] at hf
      simp at hf

theorem copyStates_inv (attrs : List String) (w : Two α) (hw : Two.WF w) :
    let w' := copyStates w attrs
    Two.WF w' ∧ w'.src = w.src ∧ w.heap.length ≤ w'.heap.length ∧
    (∀ k, srcVal w' k = srcVal w k) ∧
    (∀ k, k ∈ attrs → (srcVal w k).isSome → ¬ IsFunc (srcVal w k) →
      dstVal w' k = srcVal w k ∧ ∃ l, w'.dst.lookup k = some l ∧ w.heap.length ≤ l) ∧
    (∀ k, k ∉ attrs ∨ srcVal w k = none ∨ IsFunc (srcVal w k) →
      w'.dst.lookup k = w.dst.lookup k ∧ dstVal w' k = dstVal w k) := by
  induction attrs generalizing w with
  | nil =>
    refine ⟨hw, rfl, le_rfl, fun _ => rfl, fun k hk => by simp at hk, fun k _ => ⟨rfl, rfl⟩⟩
  | cons a as ih =>
    intro w'
    have e : w' = copyStates (copyOne w a) as := rfl
    rcases copyOne_eq w a with ⟨e1, e2⟩ | ⟨v, e1, e2, e3⟩
    · rw [e1] at e
      obtain ⟨h1, h2, h3, h4, h5, h6⟩ := ih w hw
      rw [e]
      refine ⟨h1, h2, h3, h4, fun k hk hs hf => ?_, fun k hk => h6 k ?_⟩
      · rcases List.mem_cons.1 hk with r | r
        · subst r
          rcases e2 with e2 | e2
          · rw [e2] at hs; simp at hs
          · exact absurd e2 hf
        · exact h5 k r hs hf
      · rcases hk with hk | hk
        · exact Or.inl fun h => hk (List.mem_cons_of_mem _ h)
        · exact Or.inr hk
    · set w1 := copyOne w a with hw1
      have hlen : w1.heap.length = w.heap.length + 1 := by rw [e3]; simp
      have hsrc : w1.src = w.src := by rw [e3]
      have hval : ∀ l, l < w.heap.length → w1.val l = w.val l := by
        intro l hl
        rw [e3]
        simp only [Two.val]
        rw [List.getElem?_append_left hl]
      have hW : Two.WF w1 := by
        refine ⟨fun p hp => ?_, fun p hp => ?_⟩
        · rw [e3] at hp
          rw [hlen]
          rcases mem_dictSet hp with r | r
          · rw [r]; simp
          · have := hw.1 p r; omega
        · rw [hsrc] at hp
          have := hw.2 p hp
          omega
      have hs1 : ∀ k, srcVal w1 k = srcVal w k := by
        intro k
        unfold srcVal
        rw [hsrc]
        cases hl : w.src.lookup k with
        | none => rfl
        | some l => exact hval l (hw.2 _ (lookup_mem hl))
      have hd1 : ∀ k, k ≠ a → w1.dst.lookup k = w.dst.lookup k ∧ dstVal w1 k = dstVal w k := by
        intro k hk
        have : w1.dst.lookup k = w.dst.lookup k := by
          rw [e3]; simp only; rw [lookup_dictSet, if_neg hk]
        refine ⟨this, ?_⟩
        unfold dstVal
        rw [this]
        cases hl : w.dst.lookup k with
        | none => rfl
        | some l => exact hval l (hw.1 _ (lookup_mem hl))
      have hda : w1.dst.lookup a = some w.heap.length ∧ dstVal w1 a = srcVal w a := by
        have : w1.dst.lookup a = some w.heap.length := by
          rw [e3]; simp only; rw [lookup_dictSet, if_pos rfl]
        refine ⟨this, ?_⟩
        unfold dstVal
        rw [this, e1, e3]
        simp [Two.val]
      obtain ⟨h1, h2, h3, h4, h5, h6⟩ := ih w1 hW
      rw [e]
      refine ⟨h1, h2.trans hsrc, by omega, fun k => (h4 k).trans (hs1 k), fun k hk hs hf => ?_,
        fun k hk => ?_⟩
      · by_cases hka : k ∈ as
        · obtain ⟨g1, l, g2, g3⟩ := h5 k hka (by rwa [hs1]) (by rwa [hs1])
          exact ⟨g1.trans (hs1 k), l, g2, by omega⟩
        · have : k = a := (List.mem_cons.1 hk).resolve_right hka
          subst this
          obtain ⟨g1, g2⟩ := h6 k (Or.inl hka)
          exact ⟨g2.trans hda.2, _, g1.trans hda.1, le_rfl⟩
      · have hka : k ≠ a := by
          rintro rfl
          rcases hk with hk | hk | hk
          · exact hk List.mem_cons_self
          · rw [hk] at e1; simp at e1
          · exact e2 hk
        obtain ⟨g1, g2⟩ := h6 k (by
          rw [hs1]
          rcases hk with hk | hk
          · exact Or.inl fun h => hk (List.mem_cons_of_mem _ h)
          · exact Or.inr hk)
        exact ⟨g1.trans (hd1 k hka).1, g2.trans (hd1 k hka).2⟩

/-- **C62, `copy_states`.**  After the call the destination agrees with the source on every common
attribute that is not a function, the copy is a new object (not one the source holds), attributes
not in common and function-valued ones keep their value and identity, and the source is unchanged.
Missing: common function attributes are not copied (`C62_copy_states_refuted`). -/
theorem C62_copy_states_partial (w : Two α) (hw : Two.WF w) (attrs : List String)
    (hc : IsCommon (dstVal w) (srcVal w) attrs) :
    (∀ k, k ∈ attrs → ¬ IsFunc (srcVal w k) →
      dstVal (copyStates w attrs) k = srcVal w k ∧
      ∃ l, (copyStates w attrs).dst.lookup k = some l ∧ ∀ p ∈ (copyStates w attrs).src, p.2 ≠ l) ∧
    (∀ k, k ∉ attrs ∨ IsFunc (srcVal w k) →
      dstVal (copyStates w attrs) k = dstVal w k ∧
      (copyStates w attrs).dst.lookup k = w.dst.lookup k) ∧
    (copyStates w attrs).src = w.src ∧
    ∀ k, srcVal (copyStates w attrs) k = srcVal w k := by
  obtain ⟨h1, h2, h3, h4, h5, h6⟩ := copyStates_inv attrs w hw
  refine ⟨fun k hk hf => ?_, fun k hk => ?_, h2, h4⟩
  · obtain ⟨g1, l, g2, g3⟩ := h5 k hk ((hc.2 k).1 hk).2 hf
    refine ⟨g1, l, g2, fun p hp => ?_⟩
    rw [h2] at hp
    have := hw.2 p hp
    omega
  · obtain ⟨g1, g2⟩ := h6 k (hk.imp id Or.inr)
    exact ⟨g2, g1⟩

/-- Destination with its own `inv`, source with another one; `x` and `_p` in common, `d` and `s`
only in one of them. -/
def copyWitness : Two ℤ :=
  ⟨[.num 1, .func "inv", .num 3, .num 4, .num 10, .func "inv_diagonal", .num 30, .num 40],
    [("x", 0), ("inv", 1), ("_p", 2), ("d", 3)], [("inv", 5), ("_p", 6), ("x", 4), ("s", 7)]⟩

/-- **C62 is false of function attributes**: after `copy_states` the destination still inverts with
its own function. -/
theorem C62_copy_states_refuted :
    dstVal (copyStates copyWitness ["_p", "x", "inv"]) "inv" = some (.func "inv") ∧
    srcVal copyWitness "inv" = some (.func "inv_diagonal") := ⟨rfl, rfl⟩

example : Two.WF copyWitness ∧
    IsCommon (dstVal copyWitness) (srcVal copyWitness) ["_p", "x", "inv"] ∧
    dstVal (copyStates copyWitness ["_p", "x", "inv"]) "x" = some (.num 10) ∧
    dstVal (copyStates copyWitness ["_p", "x", "inv"]) "d" = some (.num 4) := by
  refine ⟨⟨by decide, by decide⟩, ⟨by decide, fun k => ?_⟩, rfl, rfl⟩
  by_cases h1 : k = "x"
  · subst h1; decide
  by_cases h2 : k = "inv"
  · subst h2; decide
  by_cases h3 : k = "_p"
  · subst h3; decide
  have hb1 : (k == "x") = false := by simpa using h1
  have hb2 : (k == "inv") = false := by simpa using h2
  have hb3 : (k == "_p") = false := by simpa using h3
  simp only [List.mem_cons, h1, h2, h3, List.not_mem_nil, or_false, false_iff, not_and]
  intro h
  by_cases hd : k = "d"
  · subst hd; decide
  · have hb4 : (k == "d") = false := by simpa using hd
    simp [dstVal, copyWitness, List.lookup_cons, hb1, hb2, hb3, hb4] at h

end copy

end Filterpy
