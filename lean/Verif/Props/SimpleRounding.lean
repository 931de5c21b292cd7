import Verif.Spec.RoundedUpdates
import Verif.Props.GHStability

/-!
# Rounding errors in the g-h, g-h-k, fading-memory and least-squares filters (C146)
-/

namespace Filterpy

open Matrix Filter Topology

variable {n : ℕ}

/-- Disturbances of every component, each of size at most `τ`. -/
theorem bounded_of_pow_all {A : Mat n n} (hA : Tendsto (fun k => A ^ k) atTop (𝓝 0)) :
    ∃ C : ℝ, 0 ≤ C ∧ ∀ (D d : ℕ → Vec n) (τ : ℝ), (∀ k i, |d k i| ≤ τ) → D 0 = 0 →
      (∀ k, D (k + 1) = A *ᵥ D k + d k) → ∀ k i, |D k i| ≤ C * τ := by
  choose C hC0 hC using fun j : Fin n => bounded_of_pow hA (Pi.single j (1 : ℝ))
  refine ⟨∑ j, C j, Finset.sum_nonneg fun j _ => hC0 j, fun D d τ hd h0 hD k i => ?_⟩
  let E : Fin n → ℕ → Vec n := fun j k => Nat.rec 0 (fun k e => A *ᵥ e + d k j • Pi.single j (1 : ℝ)) k
  have hE : ∀ j k, E j (k + 1) = A *ᵥ E j k + d k j • Pi.single j (1 : ℝ) := fun j k => rfl
  have hsum : ∀ k, D k = ∑ j, E j k := by
    intro k
    induction k with
    | zero => rw [h0]; symm; exact Finset.sum_eq_zero fun j _ => rfl
    | succ k ih =>
      rw [hD, ih, mulVec_sum]
      simp only [hE, Finset.sum_add_distrib]
      congr 1
      ext i
      simp [Finset.sum_apply, Pi.single_apply]
  rw [hsum, Finset.sum_apply, Finset.sum_mul]
  refine (Finset.abs_sum_le_sum_abs _ _).trans (Finset.sum_le_sum fun j _ => ?_)
  have h1 := hC j (E j) (fun k => d k j) τ (fun k => hd k j) (hE j) k
  have h2 := norm_le_pi_norm (E j k) i
  have h3 : ‖E j 0‖ = 0 := norm_zero
  rw [h3, zero_add] at h1
  exact h2.trans h1

/-- Conversely: where bounded disturbances have bounded effects the powers vanish. -/
theorem pow_of_bounded {A : Mat n n} {C : ℝ} (h : ∀ (D d : ℕ → Vec n), (∀ k i, |d k i| ≤ 1) → D 0 = 0 →
      (∀ k, D (k + 1) = A *ᵥ D k + d k) → ∀ k i, |D k i| ≤ C) : Tendsto (fun k => A ^ k) atTop (𝓝 0) := by
  refine tendsto_pi_nhds.2 fun i => tendsto_pi_nhds.2 fun j => ?_
  have hb : ∀ K, ∑ m ∈ Finset.range K, |(A ^ m) i j| ≤ C := by
    intro K
    let d : ℕ → Vec n := fun k => Pi.single j ((SignType.sign ((A ^ (K - 1 - k)) i j) : SignType) : ℝ)
    let D : ℕ → Vec n := fun k => Nat.rec 0 (fun k e => A *ᵥ e + d k) k
    have hD : ∀ k, D (k + 1) = A *ᵥ D k + d k := fun k => rfl
    have hsum : ∀ k, D k = ∑ m ∈ Finset.range k, A ^ (k - 1 - m) *ᵥ d m := by
      intro k
      induction k with
      | zero => rfl
      | succ k ih =>
        rw [hD, ih, mulVec_sum, Finset.sum_range_succ]
        congr 1
        · refine Finset.sum_congr rfl fun m hm => ?_
          have hm' := Finset.mem_range.1 hm
          rw [mulVec_mulVec, ← pow_succ', show k - 1 - m + 1 = k + 1 - 1 - m by omega]
        · simp
    have hd : ∀ k i, |d k i| ≤ 1 := by
      intro k i'
      simp only [d, Pi.single_apply]
      generalize SignType.sign ((A ^ (K - 1 - k)) i j) = q
      cases q <;> split_ifs <;> simp
    have := h D d hd rfl hD K i
    rw [hsum, Finset.sum_apply] at this
    have e : ∀ m ∈ Finset.range K, (A ^ (K - 1 - m) *ᵥ d m) i = |(A ^ (K - 1 - m)) i j| := by
      intro m _
      simp only [d, mulVec_single, MulOpposite.smul_eq_mul_unop, Pi.smul_apply, col_apply, MulOpposite.unop_op]
      rw [mul_comm]
      exact sign_mul_self ((A ^ (K - 1 - m)) i j)
    rw [Finset.sum_congr rfl e, Finset.sum_range_reflect (fun m => |(A ^ m) i j|) K] at this
    exact (le_abs_self _).trans this
  have hs : Summable fun m => |(A ^ m) i j| := summable_of_sum_range_le (fun _ => abs_nonneg _) hb
  exact tendsto_zero_iff_abs_tendsto_zero _ |>.2 hs.tendsto_atTop_zero

/-! ## Rounded runs of a filter that is affine in its state -/

section generic

variable {σ : Type*} {upd : σ → ℝ → Exec σ} {A : Mat n n} {b : Vec n} {v : σ → Vec n} {I : σ → Prop}

theorem rounded_ok (hupd : ∀ t z, I t → ∃ t', upd t z = .ok t' ∧ I t' ∧ v t' = A *ᵥ v t + z • b)
    {rnd : ℕ → σ → σ} (hrnd : ∀ k t, I t → I (rnd k t)) (z : ℕ → ℝ) {s : σ} (hs : I s) :
    ∃ r : ℕ → σ, r 0 = s ∧ (∀ k, Spec.roundedUpdates upd rnd z s k = .ok (r k)) ∧
      ∀ k, I (r k) ∧ ∃ t, I t ∧ v t = A *ᵥ v (r k) + z k • b ∧ r (k + 1) = rnd k t := by
  have : ∀ k, ∃ r, Spec.roundedUpdates upd rnd z s k = .ok r ∧ I r := by
    intro k
    induction k with
    | zero => exact ⟨s, rfl, hs⟩
    | succ k ih =>
      obtain ⟨r, h1, h2⟩ := ih
      obtain ⟨t, h3, h4, -⟩ := hupd r (z k) h2
      exact ⟨_, by simp only [Spec.roundedUpdates, h1, h3], hrnd k _ h4⟩
  choose r h1 h2 using this
  refine ⟨r, ?_, h1, fun k => ⟨h2 k, ?_⟩⟩
  · have := h1 0
    simp only [Spec.roundedUpdates, Except.ok.injEq] at this
    exact this.symm
  · obtain ⟨t, h3, h4, h5⟩ := hupd (r k) (z k) (h2 k)
    refine ⟨t, h4, h5, ?_⟩
    have := h1 (k + 1)
    simp only [Spec.roundedUpdates, h1 k, h3, Except.ok.injEq] at this
    exact this.symm

theorem roundedUpdates_id (z : ℕ → ℝ) (s : σ) (k : ℕ) :
    Spec.roundedUpdates upd (fun _ t => t) z s k = runList upd s ((List.range k).map z) := by
  induction k with
  | zero => rfl
  | succ k ih =>
    rw [List.range_succ, List.map_append, runList_append, Spec.roundedUpdates, ih]
    cases runList upd s ((List.range k).map z) with
    | error e => rfl
    | ok t =>
      simp only [List.map_cons, List.map_nil, runList]
      cases upd t (z k) <;> rfl

/-- Bounded rounding errors exactly when the powers of the transition matrix vanish. -/
theorem rounded_bounded_iff (hupd : ∀ t z, I t → ∃ t', upd t z = .ok t' ∧ I t' ∧ v t' = A *ᵥ v t + z • b)
    (Rounds : ℝ → σ → σ → Prop) (hI : ∀ τ t t', I t → Rounds τ t t' → I t')
    (hv : ∀ τ t t', I t → Rounds τ t t' → ∀ i, |v t' i - v t i| ≤ τ)
    (shift : Vec n → σ → σ) (hshift : ∀ d t τ, 0 ≤ τ → (∀ i, |d i| ≤ τ) → Rounds τ t (shift d t))
    (hsv : ∀ d t, I t → v (shift d t) = v t + d) (hne : ∃ s, I s) :
    (∃ C : ℝ, ∀ (τ : ℝ) (rnd : ℕ → σ → σ), (∀ k t, Rounds τ t (rnd k t)) → ∀ (s : σ), I s → ∀ (z : ℕ → ℝ) (k : ℕ),
      ∃ r t, Spec.roundedUpdates upd rnd z s k = .ok r ∧ runList upd s ((List.range k).map z) = .ok t ∧
        ∀ i, |v r i - v t i| ≤ C * τ) ↔ Tendsto (fun k => A ^ k) atTop (𝓝 0) := by
  constructor
  · rintro ⟨C, hC⟩
    obtain ⟨s, hs⟩ := hne
    refine pow_of_bounded (C := C) fun D d hd h0 hD k i => ?_
    have hr : ∀ k t, Rounds 1 t (shift (d k) t) := fun k t => hshift _ _ _ zero_le_one (hd k)
    obtain ⟨r, r0, r1, r2⟩ := rounded_ok hupd (rnd := fun k t => shift (d k) t)
      (fun k t ht => hI _ _ _ ht (hr k t)) (fun _ => 0) hs
    obtain ⟨e, e0, e1, e2⟩ := rounded_ok hupd (rnd := fun _ t => t) (fun k t ht => ht) (fun _ => 0) hs
    have key : ∀ k, v (r k) - v (e k) = D k := by
      intro k
      induction k with
      | zero => rw [r0, e0, sub_self, h0]
      | succ k ih =>
        obtain ⟨-, t, g1, g2, g3⟩ := r2 k
        obtain ⟨-, t', g1', g2', g3'⟩ := e2 k
        rw [g3, hsv _ _ g1, g2, g3', g2', hD, ← ih, mulVec_sub]
        abel
    obtain ⟨r', t', a1, a2, a3⟩ := hC 1 (fun k t => shift (d k) t) hr s hs (fun _ => 0) k
    rw [r1] at a1
    rw [← roundedUpdates_id, e1] at a2
    simp only [Except.ok.injEq] at a1 a2
    subst a1 a2
    have := a3 i
    rw [← key k, Pi.sub_apply]
    simpa using this
  · intro hA
    obtain ⟨C, hC0, hC⟩ := bounded_of_pow_all hA
    refine ⟨C, fun τ rnd hrnd s hs z k => ?_⟩
    obtain ⟨r, r0, r1, r2⟩ := rounded_ok hupd (fun k t ht => hI _ _ _ ht (hrnd k t)) z hs
    obtain ⟨e, e0, e1, e2⟩ := rounded_ok hupd (rnd := fun _ t => t) (fun k t ht => ht) z hs
    refine ⟨r k, e k, r1 k, (roundedUpdates_id z s k).symm.trans (e1 k), fun i => ?_⟩
    choose t g1 g2 g3 using fun k => (r2 k).2
    choose t' g1' g2' g3' using fun k => (e2 k).2
    exact hC (fun k => v (r k) - v (e k)) (fun k => v (r (k + 1)) - v (t k)) τ
      (fun k i => by
        rw [g3]
        exact hv τ (t k) _ (g1 k) (hrnd k _) i)
      (by simp [r0, e0])
      (fun k => by
        rw [g2, g3' k, g2', mulVec_sub]
        abel) k i

end generic

/-! ## The g-h and g-h-k filters -/

/-- **C146 (g-h).** If every update of a g-h filter stores its position and rate with an error of at most `τ`, and every
later update computes with these, the filter never strays by more than a constant, given by the gains and the time
step, times `τ` from the exact one, for any measurements and however long it runs, exactly when `0 < g`, `0 < h` and
`2 g + h < 4`. -/
theorem C146_gh (g h dt : ℝ) (hdt : dt ≠ 0) :
    (∃ C : ℝ, ∀ (τ : ℝ) (rnd : ℕ → GH ℝ → GH ℝ), (∀ k t, Spec.GhRounds τ t (rnd k t)) →
      ∀ s : GH ℝ, s.dt = dt ∧ s.g = g ∧ s.h = h → ∀ (z : ℕ → ℝ) (k : ℕ),
      ∃ r t, Spec.roundedUpdates (fun s z => s.update z) rnd z s k = .ok r ∧
        runList (fun s z => s.update z) s ((List.range k).map z) = .ok t ∧
        |r.x - t.x| ≤ C * τ ∧ |r.dx - t.dx| ≤ C * τ) ↔ 0 < g ∧ 0 < h ∧ 2 * g + h < 4 := by
  set f := GH.init (0 : ℝ) 0 dt g h with hf
  have key := rounded_bounded_iff (upd := fun (s : GH ℝ) z => s.update z) (A := f.A) (b := f.b)
    (v := fun t => ![t.x, t.dx]) (I := fun t => t.dt = dt ∧ t.g = g ∧ t.h = h)
    (by
      rintro t z ⟨h1, h2, h3⟩
      refine ⟨_, GH.update_ok t (by rw [h1]; exact hdt) z none none, ⟨h1, h2, h3⟩, ?_⟩
      ext i
      fin_cases i <;> simp [GH.A, GH.b, hf, GH.init, h1, h2, h3, Matrix.mulVec, dotProduct, Fin.sum_univ_two] <;>
        field_simp <;> ring)
    Spec.GhRounds
    (by rintro τ t t' ht ⟨x, dx, rfl, -⟩; exact ht)
    (by
      rintro τ t t' ht ⟨x, dx, rfl, h1, h2⟩ i
      fin_cases i
      · exact h1
      · exact h2)
    (fun d t => { t with x := t.x + d 0, dx := t.dx + d 1 })
    (fun d t τ hτ hd => ⟨_, _, rfl, by simpa using hd 0, by simpa using hd 1⟩)
    (by
      intro d t ht
      ext i
      fin_cases i <;> rfl)
    ⟨f, rfl, rfl, rfl⟩
  have hst : Tendsto (fun k => f.A ^ k) atTop (𝓝 0) ↔ 0 < g ∧ 0 < h ∧ 2 * g + h < 4 :=
    Iff.trans ⟨GH.stable_of_pow hdt, fun h => h.pow hdt⟩ (gh_stable_iff f hdt)
  rw [← hst, ← key]
  simp only [Fin.forall_fin_two, cons_val_zero, cons_val_one]

/-- **C146 (g-h-k).** The same for a g-h-k filter: exactly for the gains of C116. -/
theorem C146_ghk (g h k dt : ℝ) (hdt : dt ≠ 0) :
    (∃ C : ℝ, ∀ (τ : ℝ) (rnd : ℕ → GHK ℝ → GHK ℝ), (∀ i t, Spec.GhkRounds τ t (rnd i t)) →
      ∀ s : GHK ℝ, s.dt = dt ∧ s.g = g ∧ s.h = h ∧ s.k = k → ∀ (z : ℕ → ℝ) (i : ℕ),
      ∃ r t, Spec.roundedUpdates (fun s z => s.update z) rnd z s i = .ok r ∧
        runList (fun s z => s.update z) s ((List.range i).map z) = .ok t ∧
        |r.x - t.x| ≤ C * τ ∧ |r.dx - t.dx| ≤ C * τ ∧ |r.ddx - t.ddx| ≤ C * τ) ↔
    0 < g ∧ 0 < h ∧ 0 < k ∧ 2 * g + h < 4 ∧ 2 * k < g * (h + k) := by
  set f := GHK.init (0 : ℝ) 0 0 dt g h k with hf
  have key := rounded_bounded_iff (upd := fun (s : GHK ℝ) z => s.update z) (A := f.A) (b := f.b)
    (v := GHK.vec) (I := fun t => t.dt = dt ∧ t.g = g ∧ t.h = h ∧ t.k = k)
    (by
      rintro t z ⟨h1, h2, h3, h4⟩
      refine ⟨_, GHK.update_ok t (by rw [h1]; exact hdt) z none none none, ⟨h1, h2, h3, h4⟩, ?_⟩
      ext i
      fin_cases i <;> simp [GHK.A, GHK.b, GHK.vec, hf, GHK.init, h1, h2, h3, h4, Matrix.mulVec, dotProduct,
        Fin.sum_univ_three] <;> field_simp <;> ring)
    Spec.GhkRounds
    (by rintro τ t t' ht ⟨x, dx, ddx, rfl, -⟩; exact ht)
    (by
      rintro τ t t' ht ⟨x, dx, ddx, rfl, h1, h2, h3⟩ i
      fin_cases i
      · exact h1
      · exact h2
      · exact h3)
    (fun d t => { t with x := t.x + d 0, dx := t.dx + d 1, ddx := t.ddx + d 2 })
    (fun d t τ hτ hd => ⟨_, _, _, rfl, by simpa using hd 0, by simpa using hd 1, by simpa using hd 2⟩)
    (by
      intro d t ht
      ext i
      fin_cases i <;> rfl)
    ⟨f, rfl, rfl, rfl, rfl⟩
  have hst : Tendsto (fun k => f.A ^ k) atTop (𝓝 0) ↔
      0 < g ∧ 0 < h ∧ 0 < k ∧ 2 * g + h < 4 ∧ 2 * k < g * (h + k) :=
    Iff.trans ⟨GHK.stable_of_pow hdt, fun h => h.pow hdt⟩ (ghk_stable_iff f hdt)
  rw [← hst, ← key]
  simp only [GHK.vec, Fin.forall_fin_succ, cons_val_zero, cons_val_one, cons_val_succ, Fin.forall_fin_zero, and_true]

/-! ## The fading-memory filter -/

theorem within_iff {C : ℝ} {a b : List ℝ} {o : ℕ} (ha : a.length = o) (hb : b.length = o) :
    Spec.ListWithin C a b ↔ ∀ i : Fin o, |a.getD i 0 - b.getD i 0| ≤ C := by
  rw [Spec.ListWithin, List.forall₂_iff_get]
  constructor
  · rintro ⟨-, h⟩ i
    have := h i (by omega) (by omega)
    simpa [List.getD_eq_getElem?_getD, ha, hb] using this
  · intro h
    refine ⟨by omega, fun i h1 h2 => ?_⟩
    have := h ⟨i, by omega⟩
    simpa [List.getD_eq_getElem?_getD, h1, h2] using this

/-- The objects of one order, time step and `β`. -/
def FadingMemory.Shaped (o : ℕ) (dt β : ℝ) (t : FadingMemory) : Prop :=
  t.dt = dt ∧ t.beta = β ∧ t.order = o ∧ t.x.length = o + 1

theorem fading_bounded_iff {o : ℕ} {dt β : ℝ} {A : Mat (o + 1) (o + 1)} {b : Vec (o + 1)}
    (hupd : ∀ t z, FadingMemory.Shaped o dt β t → ∃ x, t.update z = .ok { t with x := x } ∧ x.length = o + 1 ∧
      (fun i : Fin (o + 1) => x.getD i 0) = A *ᵥ (fun i => t.x.getD i 0) + z • b) :
    (∃ C : ℝ, ∀ (τ : ℝ) (rnd : ℕ → FadingMemory → FadingMemory), (∀ k t, Spec.FadingRounds τ t (rnd k t)) →
      ∀ s : FadingMemory, FadingMemory.Shaped o dt β s → ∀ (z : ℕ → ℝ) (k : ℕ),
      ∃ r t, Spec.roundedUpdates FadingMemory.update rnd z s k = .ok r ∧
        runList FadingMemory.update s ((List.range k).map z) = .ok t ∧ Spec.ListWithin (C * τ) r.x t.x) ↔
    Tendsto (fun k => A ^ k) atTop (𝓝 0) := by
  have hupd' : ∀ t z, FadingMemory.Shaped o dt β t → ∃ t', t.update z = .ok t' ∧ FadingMemory.Shaped o dt β t' ∧
      (fun i : Fin (o + 1) => t'.x.getD i 0) = A *ᵥ (fun i => t.x.getD i 0) + z • b := fun t z ht => by
    obtain ⟨x, h1, h2, h3⟩ := hupd t z ht
    exact ⟨_, h1, ⟨ht.1, ht.2.1, ht.2.2.1, h2⟩, h3⟩
  have hI : ∀ τ t t', FadingMemory.Shaped o dt β t → Spec.FadingRounds τ t t' → FadingMemory.Shaped o dt β t' := by
    rintro τ t t' ⟨h1, h2, h3, h4⟩ ⟨x, rfl, hx⟩
    exact ⟨h1, h2, h3, hx.length_eq.trans h4⟩
  have key := rounded_bounded_iff (upd := FadingMemory.update) (A := A) (b := b)
    (v := fun t (i : Fin (o + 1)) => t.x.getD i 0) (I := FadingMemory.Shaped o dt β) hupd'
    Spec.FadingRounds hI
    (by
      rintro τ t t' ht hr
      have ht' := hI _ _ _ ht hr
      obtain ⟨x, rfl, hx⟩ := hr
      exact (within_iff ht'.2.2.2 ht.2.2.2).1 hx)
    (fun d t => { t with x := t.x.mapIdx fun i a => a + if h : i < o + 1 then d ⟨i, h⟩ else 0 })
    (fun d t τ hτ hd => ⟨_, rfl, by
      rw [Spec.ListWithin, List.forall₂_iff_get]
      refine ⟨by simp, fun i h1 h2 => ?_⟩
      simp only [List.get_eq_getElem, List.getElem_mapIdx, add_sub_cancel_left]
      split_ifs with h
      · exact hd _
      · simpa using hτ⟩)
    (by
      intro d t ht
      ext i
      have hi : (i : ℕ) < t.x.length := by rw [ht.2.2.2]; exact i.2
      have := i.2
      simp [List.getD_eq_getElem?_getD, hi, i.2]
      intro h
      omega)
    ⟨⟨List.replicate (o + 1) 0, dt, o, β, [], []⟩, rfl, rfl, rfl, by simp⟩
  rw [← key]
  refine exists_congr fun C => forall_congr' fun τ => forall_congr' fun rnd => forall_congr' fun hr =>
    forall_congr' fun s => forall_congr' fun hs => forall_congr' fun z => forall_congr' fun k => ?_
  obtain ⟨r, -, r1, r2⟩ := rounded_ok hupd' (fun k t ht => hI _ _ _ ht (hr k t)) z hs
  obtain ⟨e, -, e1, e2⟩ := rounded_ok hupd' (rnd := fun _ t => t) (fun k t ht => ht) z hs
  have e1' : runList FadingMemory.update s ((List.range k).map z) = .ok (e k) :=
    (roundedUpdates_id z s k).symm.trans (e1 k)
  rw [r1, e1']
  have := within_iff (C := C * τ) (r2 k).1.2.2.2 (e2 k).1.2.2.2
  constructor
  · rintro ⟨a, c, h1, h2, h3⟩
    simp only [Except.ok.injEq] at h1 h2
    subst h1 h2
    exact ⟨_, _, rfl, rfl, this.1 h3⟩
  · rintro ⟨a, c, h1, h2, h3⟩
    simp only [Except.ok.injEq] at h1 h2
    subst h1 h2
    exact ⟨_, _, rfl, rfl, this.2 h3⟩

/-- **C146 (fading memory).** A FadingMemoryFilter of order 0, 1 or 2 keeps the effect of rounding errors bounded, for
any measurements and however long it runs, exactly when `|β| < 1`. -/
theorem C146_fading (o : ℕ) (ho : o ≤ 2) (dt β : ℝ) (hdt : dt ≠ 0) :
    (∃ C : ℝ, ∀ (τ : ℝ) (rnd : ℕ → FadingMemory → FadingMemory), (∀ k t, Spec.FadingRounds τ t (rnd k t)) →
      ∀ s : FadingMemory, (s.dt = dt ∧ s.beta = β ∧ s.order = o ∧ s.x.length = o + 1) → ∀ (z : ℕ → ℝ) (k : ℕ),
      ∃ r t, Spec.roundedUpdates FadingMemory.update rnd z s k = .ok r ∧
        runList FadingMemory.update s ((List.range k).map z) = .ok t ∧ Spec.ListWithin (C * τ) r.x t.x) ↔ |β| < 1 := by
  obtain rfl | rfl | rfl : o = 0 ∨ o = 1 ∨ o = 2 := by omega
  · refine (fading_bounded_iff (A := !![β]) (b := ![1 - β]) ?_).trans ?_
    · rintro t z ⟨h1, h2, h3, h4⟩
      obtain ⟨a, ha⟩ := List.length_eq_one_iff.1 h4
      refine ⟨[a + (1 - β) * (z - a)], by simp [FadingMemory.update, h3, ha, h2], rfl, ?_⟩
      ext i
      fin_cases i
      simp [ha]
      ring
    · have e : ∀ k, !![β] ^ k = !![β ^ k] := by
        intro k
        induction k with
        | zero => ext i j; fin_cases i; fin_cases j; simp
        | succ k ih => rw [pow_succ, ih]; ext i j; fin_cases i; fin_cases j; simp [pow_succ]
      simp only [e]
      rw [← tendsto_pow_atTop_nhds_zero_iff]
      refine ⟨fun h => tendsto_pi_nhds.1 (tendsto_pi_nhds.1 h 0) 0, fun h => ?_⟩
      refine tendsto_pi_nhds.2 fun i => tendsto_pi_nhds.2 fun j => ?_
      fin_cases i
      fin_cases j
      exact h
  · set f := GH.init (0 : ℝ) 0 dt (1 - β ^ 2) ((1 - β) ^ 2) with hf
    refine (fading_bounded_iff (A := f.A) (b := f.b) ?_).trans (Iff.trans
      (⟨GH.stable_of_pow hdt, fun h => h.pow hdt⟩ : _ ↔ f.Stable) ((gh_stable_iff f hdt).trans ?_))
    · rintro t z ⟨h1, h2, h3, h4⟩
      obtain ⟨a, c, ha⟩ := List.length_eq_two.1 h4
      refine ⟨[a + c * dt + (1 - β ^ 2) * (z - (a + c * dt)), c + (1 - β) ^ 2 / dt * (z - (a + c * dt))],
        by simp [FadingMemory.update, h3, ha, h2, h1, hdt], rfl, ?_⟩
      have ex : (fun i : Fin (1 + 1) => t.x.getD i 0) = ![a, c] := by
        ext i; fin_cases i <;> simp [ha]
      rw [ex]
      ext i
      fin_cases i <;> simp [hf, GH.A, GH.b, GH.init] <;> field_simp <;> ring
    · simp only [hf, GH.init]
      rw [abs_lt]
      constructor
      · rintro ⟨h1, h2, h3⟩
        constructor <;> nlinarith
      · rintro ⟨h1, h2⟩
        have h3 : 0 < 1 - β := by linarith
        have h4 : 0 < 1 + β := by linarith
        refine ⟨by nlinarith, by positivity, by nlinarith⟩
  · set f := GHK.init (0 : ℝ) 0 0 dt (1 - β ^ 3) (1.5 * (1 + β) * (1 - β) ^ 2) (0.5 * (1 - β) ^ 3) with hf
    refine (fading_bounded_iff (A := f.A) (b := f.b) ?_).trans (Iff.trans
      (⟨GHK.stable_of_pow hdt, fun h => h.pow hdt⟩ : _ ↔ f.Stable) ((ghk_stable_iff f hdt).trans ?_))
    · rintro t z ⟨h1, h2, h3, h4⟩
      obtain ⟨a, c, d, ha⟩ := List.length_eq_three.1 h4
      refine ⟨[a + c * dt + 0.5 * d * dt ^ 2 + (1 - β ^ 3) * (z - (a + c * dt + 0.5 * d * dt ^ 2)),
        c + d * dt + (1.5 * (1 + β) * (1 - β) ^ 2 / dt) * (z - (a + c * dt + 0.5 * d * dt ^ 2)),
        d + (2 * (0.5 * (1 - β) ^ 3) / dt ^ 2) * (z - (a + c * dt + 0.5 * d * dt ^ 2))],
        by simp [FadingMemory.update, h3, ha, h2, h1, hdt], rfl, ?_⟩
      have ex : (fun i : Fin (2 + 1) => t.x.getD i 0) = ![a, c, d] := by
        ext i; fin_cases i <;> simp [ha]
      rw [ex]
      ext i
      fin_cases i <;> simp [hf, GHK.A, GHK.b, GHK.init] <;> field_simp <;> ring
    · simp only [hf, GHK.init]
      rw [abs_lt]
      have e1 : 4 - (2 * (1 - β ^ 3) + 1.5 * (1 + β) * (1 - β) ^ 2) = (1 + β) ^ 3 / 2 := by ring
      have e2 : (1 - β ^ 3) * (1.5 * (1 + β) * (1 - β) ^ 2 + 0.5 * (1 - β) ^ 3) - 2 * (0.5 * (1 - β) ^ 3)
          = (1 - β) ^ 3 * (1 + β) ^ 3 := by ring
      constructor
      · rintro ⟨h1, h2, h3, h4, h5⟩
        have h6 : 0 < (1 + β) ^ 3 := by linarith
        have h7 : 0 < (1 - β) ^ 3 := by linarith
        have h8 := (Odd.pow_pos_iff (by decide : Odd 3)).1 h6
        have h9 := (Odd.pow_pos_iff (by decide : Odd 3)).1 h7
        constructor <;> linarith
      · rintro ⟨h1, h2⟩
        have h3 : 0 < 1 - β := by linarith
        have h4 : 0 < 1 + β := by linarith
        have h5 : 0 < (1 + β) ^ 3 := by positivity
        have h6 : 0 < (1 - β) ^ 3 * (1 + β) ^ 3 := by positivity
        refine ⟨?_, by positivity, by positivity, by linarith, by linarith⟩
        nlinarith [sq_nonneg (β + 1 / 2)]

/-! ## The least-squares filter -/

/-- Rounding errors that keep the stored position growing by `c` at every step. -/
noncomputable def LSQ.drift (c dt : ℝ) (o j : ℕ) : List ℝ :=
  let n : ℝ := j + 1
  match o with
  | 0 => [c + c * j * (1 / n)]
  | 1 => [c + c * j * (2 * (2 * n - 1) / (n * (n + 1))), c * j * (6 / (n * (n + 1) * dt))]
  | _ => [c + c * j * (3 * (3 * n ^ 2 - 3 * n + 2) / (n * (n + 1) * (n + 2))),
      c * j * (18 * (2 * n - 1) / (n * (n + 1) * (n + 2) * dt)), c * j * (60 / (n * (n + 1) * (n + 2) * dt ^ 2))]

/-- The rounding that adds these errors. -/
noncomputable def LSQ.drifting (c dt : ℝ) (o j : ℕ) (t : LSQ) : LSQ :=
  { t with x := t.x.mapIdx fun i a => a + (LSQ.drift c dt o j).getD i 0 }

theorem LSQ.drifting_run (c dt : ℝ) (hdt : dt ≠ 0) (o : ℕ) (ho : o ≤ 2) (s : LSQ) (hs : LSQ.init dt o = .ok s) (k : ℕ) :
    ∃ r, Spec.roundedUpdates LSQ.update (LSQ.drifting c dt o) (fun _ => 0) s k = .ok r ∧ r.order = o ∧ r.dt = dt ∧
      r.n = k ∧ r.x = (c * k) :: List.replicate o 0 := by
  induction k with
  | zero =>
    have : s = LSQ.reset { dt := dt, sigma := 0, order := o, n := 0, x := [], K := [], y := 0 } := by
      simp only [LSQ.init] at hs
      rw [if_neg (by omega)] at hs
      simpa using hs.symm
    subst this
    exact ⟨_, rfl, rfl, rfl, rfl, by simp [LSQ.reset, List.replicate_succ]⟩
  | succ k ih =>
    obtain ⟨r, h1, h2, h3, h4, h5⟩ := ih
    have hk : (k : ℝ) + 1 ≠ 0 := by positivity
    simp only [Spec.roundedUpdates, h1]
    obtain rfl | rfl | rfl : o = 0 ∨ o = 1 ∨ o = 2 := by omega
    · simp only [LSQ.update, h2, h5, List.replicate_zero, h4]
      refine ⟨_, rfl, by first | rfl | exact h2, by first | rfl | exact h3, rfl, ?_⟩
      simp [LSQ.drifting, LSQ.drift]
      ring
    · simp only [LSQ.update, h2, h5, h4, h3, if_neg hdt, List.replicate_succ, List.replicate_zero]
      refine ⟨_, rfl, by first | rfl | exact h2, by first | rfl | exact h3, rfl, ?_⟩
      simp [LSQ.drifting, LSQ.drift]
      constructor <;> ring
    · simp only [LSQ.update, h2, h5, h4, h3, if_neg hdt, List.replicate_succ, List.replicate_zero]
      refine ⟨_, rfl, by first | rfl | exact h2, by first | rfl | exact h3, rfl, ?_⟩
      simp [LSQ.drifting, LSQ.drift]
      refine ⟨?_, ?_, ?_⟩ <;> ring

theorem LSQ.drift_le {c dt τ : ℝ} (hdt : dt ≠ 0) (hc : 0 ≤ c) (h1 : 10 * c ≤ τ) (h2 : 36 * c / |dt| ≤ τ)
    (h3 : 60 * c / dt ^ 2 ≤ τ) (o j : ℕ) : ∀ a ∈ LSQ.drift c dt o j, |a| ≤ τ := by
  have hj : (0 : ℝ) ≤ j := by positivity
  have hd : 0 < |dt| := abs_pos.2 hdt
  have hd2 : 0 < dt ^ 2 := by positivity
  intro a ha
  have pos : ∀ {N D B : ℝ}, 0 ≤ N → 0 < D → j * N ≤ B * D → 0 ≤ B → B + 1 ≤ 10 → |c + c * j * (N / D)| ≤ τ := by
    intro N D B hN hD hB hB0 hB1
    have e : c + c * j * (N / D) = c * (1 + j * N / D) := by ring
    have h4 : j * N / D ≤ B := by rwa [div_le_iff₀ hD]
    have h5 : 0 ≤ j * N / D := by positivity
    rw [e, abs_of_nonneg (by positivity)]
    nlinarith
  have one : ∀ {N D : ℝ}, 0 ≤ N → 0 < D → j * N ≤ 36 * D → |c * j * (N / (D * dt))| ≤ τ := by
    intro N D hN hD hB
    have h4 : j * N / D ≤ 36 := by rwa [div_le_iff₀ hD]
    have e : c * j * (N / (D * dt)) = c * (j * N / D) / dt := by field_simp
    have h5 : 0 ≤ j * N / D := by positivity
    rw [e, abs_div, abs_of_nonneg (by positivity)]
    refine le_trans ?_ h2
    rw [mul_comm 36 c]
    gcongr
  simp only [LSQ.drift] at ha
  split at ha
  · simp only [List.mem_singleton] at ha
    subst ha
    exact pos (B := 1) zero_le_one (by positivity) (by linarith) zero_le_one (by norm_num)
  · simp only [List.mem_cons, List.not_mem_nil, or_false] at ha
    rcases ha with rfl | rfl
    · exact pos (B := 4) (by linarith) (by positivity) (by nlinarith) (by norm_num) (by norm_num)
    · exact one (by norm_num) (by positivity) (by nlinarith)
  · simp only [List.mem_cons, List.not_mem_nil, or_false] at ha
    rcases ha with rfl | rfl | rfl
    · refine pos (B := 9) (by nlinarith) (by positivity) ?_ (by norm_num) (by norm_num)
      nlinarith [mul_nonneg hj hj, mul_nonneg (mul_nonneg hj hj) hj]
    · refine one (by linarith) (by positivity) ?_
      nlinarith [mul_nonneg hj hj, mul_nonneg (mul_nonneg hj hj) hj]
    · have h4 : j / (((j : ℝ) + 1) * (j + 1 + 1) * (j + 1 + 2)) ≤ 1 := by
        rw [div_le_one (by positivity)]
        nlinarith [mul_nonneg hj hj, mul_nonneg (mul_nonneg hj hj) hj]
      have e : c * j * (60 / (((j : ℝ) + 1) * (j + 1 + 1) * (j + 1 + 2) * dt ^ 2))
          = 60 * c / dt ^ 2 * (j / (((j : ℝ) + 1) * (j + 1 + 1) * (j + 1 + 2))) := by field_simp
      rw [e, abs_of_nonneg (by positivity)]
      exact (mul_le_of_le_one_right (by positivity) h4).trans h3

/-- **C146 (least squares: refuted).** In a LeastSquaresFilter rounding errors pile up: for every order and time step,
however small the rounding error `τ` allowed in each entry, there is a way of rounding with which, fed with zeros, the
filter reports a position as far from the exact one, which is zero, as one likes, if it runs long enough. -/
theorem C146_leastsq_refuted (o : ℕ) (ho : o ≤ 2) (dt τ C : ℝ) (hdt : dt ≠ 0) (hτ : 0 < τ) :
    ∃ (s : LSQ) (rnd : ℕ → LSQ → LSQ) (k : ℕ) (r t : LSQ), LSQ.init dt o = .ok s ∧
      (∀ j t, Spec.LsqRounds τ t (rnd j t)) ∧
      Spec.roundedUpdates LSQ.update rnd (fun _ => 0) s k = .ok r ∧
      runList LSQ.update s ((List.range k).map fun _ => 0) = .ok t ∧
      t.x = List.replicate (o + 1) 0 ∧ C < r.x.getD 0 0 := by
  obtain ⟨s, hs⟩ : ∃ s, LSQ.init dt o = .ok s := ⟨_, by simp only [LSQ.init]; rw [if_neg (by omega)]⟩
  have hd : 0 < |dt| := abs_pos.2 hdt
  have hd2 : 0 < dt ^ 2 := by positivity
  set M : ℝ := 10 + 36 / |dt| + 60 / dt ^ 2 with hM
  have hM0 : 0 < M := by positivity
  set c := τ / M with hc
  have hc0 : 0 < c := by positivity
  have hcM : c * M = τ := by rw [hc]; field_simp
  have q1 : 0 ≤ c * (36 / |dt|) := by positivity
  have q2 : 0 ≤ c * (60 / dt ^ 2) := by positivity
  have hsum : c * 10 + c * (36 / |dt|) + c * (60 / dt ^ 2) = τ := by rw [← hcM, hM]; ring
  have hle := LSQ.drift_le hdt hc0.le (τ := τ) (by linarith)
    (by rw [show 36 * c / |dt| = c * (36 / |dt|) by ring]; linarith)
    (by rw [show 60 * c / dt ^ 2 = c * (60 / dt ^ 2) by ring]; linarith) o
  obtain ⟨k, hk⟩ := exists_nat_gt (C / c)
  obtain ⟨r, r1, -, -, -, r2⟩ := LSQ.drifting_run c dt hdt o ho s hs k
  obtain ⟨t, t1, -, -, -, t2⟩ := LSQ.drifting_run 0 dt hdt o ho s hs k
  have hid : LSQ.drifting 0 dt o = fun _ t => t := by
    funext j t
    have : ∀ i, (LSQ.drift 0 dt o j).getD i 0 = 0 := by
      intro i
      have : ∀ a ∈ LSQ.drift 0 dt o j, a = 0 := fun a ha => by
        have := LSQ.drift_le hdt le_rfl (τ := 0) (by simp) (by simp) (by simp) o j a ha
        simpa using this
      rw [List.getD_eq_getElem?_getD]
      cases h : (LSQ.drift 0 dt o j)[i]? with
      | none => rfl
      | some a => exact this a (List.mem_of_getElem? h)
    simp only [LSQ.drifting, this, add_zero]
    have e : (t.x.mapIdx fun _ a => a) = t.x := List.ext_getElem? fun i => by simp
    rw [e]
  refine ⟨s, LSQ.drifting c dt o, k, r, t, hs, fun j t => ⟨_, rfl, ?_⟩, r1, ?_, ?_, ?_⟩
  · rw [Spec.ListWithin, List.forall₂_iff_get]
    refine ⟨by simp, fun i h1 h2 => ?_⟩
    simp only [List.get_eq_getElem, List.getElem_mapIdx, add_sub_cancel_left]
    rw [List.getD_eq_getElem?_getD]
    cases h : (LSQ.drift c dt o j)[i]? with
    | none => simpa using hτ.le
    | some a => exact hle j a (List.mem_of_getElem? h)
  · rw [hid, roundedUpdates_id] at t1
    exact t1
  · rw [t2]; simp [List.replicate_succ]
  · rw [r2]
    simp only [List.getD_cons_zero]
    rw [div_lt_iff₀ hc0] at hk
    linarith

/-- Gains of a working g-h filter, with rounding to multiples of a small number. -/
example : ∃ C : ℝ, ∀ (q : ℝ), 0 < q → ∀ (s : GH ℝ), s.dt = 1 ∧ s.g = 1 / 2 ∧ s.h = 1 / 5 → ∀ (z : ℕ → ℝ) (k : ℕ),
    ∃ r t, Spec.roundedUpdates (fun s z => s.update z)
        (fun _ t => { t with x := q * ⌊t.x / q⌋, dx := q * ⌊t.dx / q⌋ }) z s k = .ok r ∧
      runList (fun s z => s.update z) s ((List.range k).map z) = .ok t ∧ |r.x - t.x| ≤ C * q := by
  obtain ⟨C, hC⟩ := (C146_gh (1 / 2) (1 / 5) 1 one_ne_zero).2 (by norm_num)
  have hfl : ∀ q : ℝ, 0 < q → ∀ a : ℝ, |q * ⌊a / q⌋ - a| ≤ q := by
    intro q hq a
    have h1 := Int.floor_le (a / q)
    have h2 := Int.lt_floor_add_one (a / q)
    rw [le_div_iff₀ hq] at h1
    rw [div_lt_iff₀ hq] at h2
    rw [abs_le]
    constructor <;> nlinarith
  refine ⟨C, fun q hq s hs z k => ?_⟩
  obtain ⟨r, t, h1, h2, h3, -⟩ := hC q _ (fun k t => ⟨_, _, rfl, hfl q hq _, hfl q hq _⟩) s hs z k
  exact ⟨r, t, h1, h2, h3⟩

end Filterpy
