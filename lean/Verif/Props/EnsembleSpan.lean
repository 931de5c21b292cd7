import Verif.Props.EnKF
import Verif.Lemmas.Sim
import Mathlib.LinearAlgebra.Matrix.ToLin
import Mathlib.LinearAlgebra.FiniteDimensional.Lemmas

/-!
# C132: what a small ensemble cannot learn
-/

namespace Filterpy

namespace Spec

open Matrix

/-- All members of the ensemble have the same value of the quantity `a·x`. -/
def Unanimous {N n : ℕ} (a : Vec n) (A : Mat N n) : Prop := ∀ i j, a ⬝ᵥ A i = a ⬝ᵥ A j

end Spec

open Matrix Spec

variable {n m N : ℕ}

/-- The deviations of the members from their mean. -/
noncomputable def deviations (A : Mat N n) : Mat N n := rows fun i => A i - SampleMean A

private theorem sum_deviations (hN : 0 < N) (A : Mat N n) (j : Fin n) : ∑ i, deviations A i j = 0 := by
  have : (N : ℝ) ≠ 0 := by positivity
  simp only [deviations, rows, Pi.sub_apply, SampleMean, Finset.sum_sub_distrib, Finset.sum_const, Finset.card_univ,
    Fintype.card_fin, nsmul_eq_mul]
  field_simp
  ring

private theorem unanimous_mean {a : Vec n} {A : Mat N n} (hN : 0 < N) (h : Unanimous a A) (i : Fin N) :
    a ⬝ᵥ SampleMean A = a ⬝ᵥ A i := by
  have hN' : (N : ℝ) ≠ 0 := by positivity
  have : a ⬝ᵥ SampleMean A = (1 / (N : ℝ)) * ∑ k, a ⬝ᵥ A k := by
    simp only [dotProduct, SampleMean, Finset.mul_sum]
    rw [Finset.sum_comm]
    exact Finset.sum_congr rfl fun j _ => Finset.sum_congr rfl fun k _ => by ring
  rw [this, Finset.sum_congr rfl fun k _ => h k i]
  simp only [Finset.sum_const, Finset.card_univ, Fintype.card_fin, nsmul_eq_mul]
  field_simp

private theorem unanimous_iff {a : Vec n} {A : Mat N n} (hN : 0 < N) : Unanimous a A ↔ deviations A *ᵥ a = 0 := by
  constructor
  · intro h
    funext i
    have := unanimous_mean hN h i
    change (A i - SampleMean A) ⬝ᵥ a = 0
    rw [sub_dotProduct, dotProduct_comm _ a, dotProduct_comm _ a, this, sub_self]
  · intro h i j
    have h1 : deviations A i ⬝ᵥ a = 0 := congrFun h i
    have h2 : deviations A j ⬝ᵥ a = 0 := congrFun h j
    simp only [deviations, rows, sub_dotProduct] at h1 h2
    rw [dotProduct_comm a, dotProduct_comm a]
    linarith

/-- What a successful update does, in terms of the deviations. -/
private theorem update_span (hN : 2 ≤ N) {s s' : EnKF n m N} {z : Vec m} {R : MatArg m} {e : Mat N m}
    (h : s.update (some z) R e = .ok s') :
    ∃ W : Mat N m, s'.K = (deviations s.sigmas)ᵀ * W ∧ s'.P = s.P - s'.K * s'.S * s'.Kᵀ := by
  simp only [EnKF.update] at h
  rw [if_neg (by omega)] at h
  set dh := rows fun i => (rows fun i => s.hx (s.sigmas i)) i - meanRows (rows fun i => s.hx (s.sigmas i)) with hdh
  have h0 (j : Fin m) : ∑ i, dh i j = 0 := by
    have := sum_deviations (by omega : 0 < N) (rows fun i => s.hx (s.sigmas i)) j
    rw [← this, hdh, meanRows_eq]
    rfl
  have hx : outerSum (rows fun i => s.sigmas i - s.x) dh = (deviations s.sigmas)ᵀ * dh := by
    rw [(C58_outer_product_sum_rect _ _).1]
    ext a b
    simp only [Matrix.mul_apply, transpose_apply, deviations, rows, Pi.sub_apply, sub_mul, Finset.sum_sub_distrib,
      ← Finset.mul_sum, h0, mul_zero]
  cases hi : s.inv (((1 : ℝ) / ((N : ℝ) - 1)) • outerSum dh dh + R.resolve s.R) with
  | none => rw [hi] at h; simp at h
  | some SI =>
    rw [hi] at h
    simp only [Except.ok.injEq] at h
    subst h
    refine ⟨((1 : ℝ) / ((N : ℝ) - 1)) • dh * SI, ?_, rfl⟩
    simp only [hx, Matrix.smul_mul, Matrix.mul_smul, Matrix.mul_assoc]

/-- **C132 (span).**  A measurement moves every member, and the estimate, by a combination of the deviations of the
members from their mean, whatever the measurement function, the noise and the draws. -/
theorem C132_span (hN : 2 ≤ N) {s s' : EnKF n m N} {z : Vec m} {R : MatArg m} {e : Mat N m}
    (h : s.update (some z) R e = .ok s') :
    (∀ i, ∃ w : Vec N, s'.sigmas i = s.sigmas i + ∑ j, w j • (s.sigmas j - SampleMean s.sigmas)) ∧
      ∃ w : Vec N, s'.x = SampleMean s.sigmas + ∑ j, w j • (s.sigmas j - SampleMean s.sigmas) := by
  obtain ⟨W, hK, -⟩ := update_span hN h
  obtain ⟨hx, -, -, -, -, -, hs⟩ := C26_update_mean s s' z R e h
  have key (i : Fin N) : s'.sigmas i = s.sigmas i +
      ∑ j, (W *ᵥ (z + e i - s.hx (s.sigmas i))) j • (s.sigmas j - SampleMean s.sigmas) := by
    rw [hs i, hK, ← mulVec_mulVec]
    congr 1
    funext a
    simp only [mulVec, dotProduct, transpose_apply, deviations, rows, Finset.sum_apply, Pi.smul_apply, smul_eq_mul]
    exact Finset.sum_congr rfl fun j _ => mul_comm _ _
  refine ⟨fun i => ⟨_, key i⟩, fun j => (1 / (N : ℝ)) * ∑ i, (W *ᵥ (z + e i - s.hx (s.sigmas i))) j, ?_⟩
  rw [hx]
  funext a
  simp only [SampleMean, key, Pi.add_apply, Finset.sum_apply, Pi.smul_apply, smul_eq_mul, Finset.sum_add_distrib,
    mul_add]
  congr 1
  rw [Finset.sum_comm, Finset.mul_sum]
  refine Finset.sum_congr rfl fun j _ => ?_
  rw [← Finset.sum_mul]
  ring

private theorem gain_blind (hN : 2 ≤ N) {s s' : EnKF n m N} {z : Vec m} {R : MatArg m} {e : Mat N m}
    (h : s.update (some z) R e = .ok s') {a : Vec n} (ha : Unanimous a s.sigmas) : s'.Kᵀ *ᵥ a = 0 := by
  obtain ⟨W, hK, -⟩ := update_span hN h
  rw [hK, transpose_mul, transpose_transpose, ← mulVec_mulVec, (unanimous_iff (by omega)).1 ha, mulVec_zero]

/-- **C132 (one measurement).**  If all members agree on a quantity `a·x`, a measurement changes neither their common
value, nor the value of the estimate, nor the covariance reported in that direction. -/
theorem C132_update (hN : 2 ≤ N) {s s' : EnKF n m N} {z : Option (Vec m)} {R : MatArg m} {e : Mat N m}
    (h : s.update z R e = .ok s') {a : Vec n} (ha : Unanimous a s.sigmas) (hx : s.x = SampleMean s.sigmas) :
    (∀ i, a ⬝ᵥ s'.sigmas i = a ⬝ᵥ s.sigmas i) ∧ Unanimous a s'.sigmas ∧ s'.x = SampleMean s'.sigmas ∧
      a ⬝ᵥ s'.x = a ⬝ᵥ s.x ∧ s'.P *ᵥ a = s.P *ᵥ a := by
  cases z with
  | none =>
    simp only [EnKF.update, Except.ok.injEq] at h
    subst h
    exact ⟨fun _ => rfl, ha, hx, rfl, rfl⟩
  | some z =>
    have hK := gain_blind hN h ha
    obtain ⟨W, -, hP⟩ := update_span hN h
    obtain ⟨hx', -, -, -, -, -, hs⟩ := C26_update_mean s s' z R e h
    have h1 (i : Fin N) : a ⬝ᵥ s'.sigmas i = a ⬝ᵥ s.sigmas i := by
      rw [hs i, dotProduct_add, dotProduct_mulVec, ← mulVec_transpose, hK, zero_dotProduct, add_zero]
    have h2 : Unanimous a s'.sigmas := fun i j => by rw [h1, h1]; exact ha i j
    refine ⟨h1, h2, hx', ?_, ?_⟩
    · have i0 : Fin N := ⟨0, by omega⟩
      rw [hx', hx, unanimous_mean (by omega) h2 i0, unanimous_mean (by omega) ha i0, h1]
    · rw [hP, sub_mulVec, ← mulVec_mulVec, hK, mulVec_zero, sub_zero]

/-- Calls of `update`, with a measurement or `None`. -/
def EnkfOp.IsUpdate : EnkfOp n m N → Prop
  | .predict _ => False
  | .update _ _ _ => True

/-- **C132 (any number of measurements).** -/
theorem C132_updates (hN : 2 ≤ N) {s s' : EnKF n m N} {ops : List (EnkfOp n m N)} (hops : ∀ op ∈ ops, op.IsUpdate)
    (h : runList EnkfOp.run s ops = .ok s') {a : Vec n} (ha : Unanimous a s.sigmas) (hx : s.x = SampleMean s.sigmas) :
    (∀ i, a ⬝ᵥ s'.sigmas i = a ⬝ᵥ s.sigmas i) ∧ a ⬝ᵥ s'.x = a ⬝ᵥ s.x ∧ s'.P *ᵥ a = s.P *ᵥ a := by
  induction ops generalizing s with
  | nil =>
    simp only [runList, Except.ok.injEq] at h
    subst h
    exact ⟨fun _ => rfl, rfl, rfl⟩
  | cons op ops ih =>
    cases op with
    | predict e => exact (hops _ List.mem_cons_self).elim
    | update z R e =>
      simp only [runList, EnkfOp.run] at h
      cases hu : s.update z R e with
      | error q => rw [hu] at h; simp at h
      | ok t =>
        rw [hu] at h
        obtain ⟨h1, h2, h3, h4, h5⟩ := C132_update hN hu ha hx
        obtain ⟨k1, k2, k3⟩ := ih (fun op hop => hops op (List.mem_cons_of_mem _ hop)) h h2 h3
        exact ⟨fun i => (k1 i).trans (h1 i), k2.trans h4, k3.trans h5⟩

/-- **C132 (certainty).**  After `predict()` the reported variance of a quantity is zero exactly if all members agree
on it. -/
theorem C132_certain (hN : 2 ≤ N) {s s' : EnKF n m N} {e : Mat N n} (h : s.predict e = .ok s') (a : Vec n) :
    (Unanimous a s'.sigmas ↔ a ⬝ᵥ s'.P *ᵥ a = 0) ∧ (Unanimous a s'.sigmas ↔ s'.P *ᵥ a = 0) := by
  obtain ⟨t, ht, -, -, hP, -⟩ := C26_predict hN s e
  rw [h] at ht
  obtain rfl : s' = t := Except.ok.inj ht
  have hc : (0 : ℝ) < 1 / ((N : ℝ) - 1) := by
    have : (2 : ℝ) ≤ N := by exact_mod_cast hN
    apply one_div_pos.2; linarith
  have hD : s'.P = ((1 : ℝ) / ((N : ℝ) - 1)) • ((deviations s'.sigmas)ᵀ * deviations s'.sigmas) := by
    rw [hP, ← sampleCov_eq, (C58_outer_product_sum_rect _ _).1, meanRows_eq]
    rfl
  have q : a ⬝ᵥ s'.P *ᵥ a = 1 / ((N : ℝ) - 1) * ((deviations s'.sigmas *ᵥ a) ⬝ᵥ (deviations s'.sigmas *ᵥ a)) := by
    rw [hD, smul_mulVec, dotProduct_smul, ← mulVec_mulVec, dotProduct_mulVec a, ← mulVec_transpose, transpose_transpose,
      smul_eq_mul]
  rw [unanimous_iff (by omega)]
  have h1 : deviations s'.sigmas *ᵥ a = 0 → s'.P *ᵥ a = 0 := fun h => by
    rw [hD, smul_mulVec, ← mulVec_mulVec, h, mulVec_zero, smul_zero]
  have h2 : a ⬝ᵥ s'.P *ᵥ a = 0 → deviations s'.sigmas *ᵥ a = 0 := fun h => by
    rw [q] at h
    exact dotProduct_self_eq_zero.1 ((mul_eq_zero.1 h).resolve_left hc.ne')
  exact ⟨⟨fun h => by rw [h1 h, dotProduct_zero], h2⟩, ⟨h1, fun h => h2 (by rw [h, dotProduct_zero])⟩⟩

/-- **C132 (too few members).**  With no more members than state variables there is, after every `predict()`, a quantity
`a·x` for which the filter reports variance zero, whatever `Q` is, and of which no measurement whatsoever changes the
estimate or the reported variance before the next `predict()`. -/
theorem C132_few (hN : 2 ≤ N) (hn : N ≤ n) {s s' : EnKF n m N} {e : Mat N n} (h : s.predict e = .ok s') :
    ∃ a : Vec n, a ≠ 0 ∧ s'.P *ᵥ a = 0 ∧ ∀ (ops : List (EnkfOp n m N)) (t : EnKF n m N), (∀ op ∈ ops, op.IsUpdate) →
      runList EnkfOp.run s' ops = .ok t → a ⬝ᵥ t.x = a ⬝ᵥ s'.x ∧ t.P *ᵥ a = 0 := by
  obtain ⟨k, rfl⟩ : ∃ k, N = k + 1 := ⟨N - 1, by omega⟩
  let D : Mat k n := fun i => s'.sigmas i.succ - s'.sigmas 0
  have hker : LinearMap.ker D.mulVecLin ≠ ⊥ := LinearMap.ker_ne_bot_of_finrank_lt (by simp; omega)
  obtain ⟨a, ha, ha0⟩ := Submodule.exists_mem_ne_zero_of_ne_bot hker
  have ha : D *ᵥ a = 0 := ha
  have hu : Unanimous a s'.sigmas := by
    have h0 (i : Fin (k + 1)) : a ⬝ᵥ s'.sigmas i = a ⬝ᵥ s'.sigmas 0 := by
      refine Fin.cases rfl (fun i => ?_) i
      have : D i ⬝ᵥ a = 0 := congrFun ha i
      simp only [D, sub_dotProduct] at this
      rw [dotProduct_comm a, dotProduct_comm a]
      linarith
    exact fun i j => (h0 i).trans (h0 j).symm
  have hP := (C132_certain hN h a).2.1 hu
  have hx : s'.x = SampleMean s'.sigmas := by
    obtain ⟨t, ht, -, hx, -⟩ := C26_predict hN s e
    rw [h] at ht
    obtain rfl : s' = t := Except.ok.inj ht
    exact hx
  refine ⟨a, ha0, hP, fun ops t hops ht => ?_⟩
  obtain ⟨-, h2, h3⟩ := C132_updates hN hops ht hu hx
  exact ⟨h2, h3.trans hP⟩

/-! ### The order of the members -/

/-- The same filter with its members in another order. -/
def EnKF.reorder (π : Equiv.Perm (Fin N)) (s : EnKF n m N) : EnKF n m N := { s with sigmas := rows fun i => s.sigmas (π i) }

/-- The same call with its draws in another order. -/
def EnkfOp.reorder (π : Equiv.Perm (Fin N)) : EnkfOp n m N → EnkfOp n m N
  | .predict e => .predict (rows fun i => e (π i))
  | .update z R e => .update z R (rows fun i => e (π i))

private theorem meanRows_perm (π : Equiv.Perm (Fin N)) (f : Fin N → Vec n) :
    meanRows (rows fun i => f (π i)) = meanRows (rows f) := by
  funext j
  simp only [meanRows, rows]
  rw [Equiv.sum_comp π fun i => f i j]

private theorem outerSum_perm (π : Equiv.Perm (Fin N)) (f : Fin N → Vec n) (g : Fin N → Vec m) :
    outerSum (rows fun i => f (π i)) (rows fun i => g (π i)) = outerSum (rows f) (rows g) := by
  funext j k
  simp only [outerSum, Helpers.einsumOuter, rows]
  exact Equiv.sum_comp π fun i => f i j * g i k

private theorem rows_row (f : Fin N → Vec n) (i : Fin N) : rows f i = f i := rfl

private theorem reorder_step (π : Equiv.Perm (Fin N)) (s : EnKF n m N) (op : EnkfOp n m N) :
    Agree (fun s t => t = s.reorder π) (op.run s) ((op.reorder π).run (s.reorder π)) := by
  cases op with
  | predict e =>
    simp only [EnkfOp.run, EnkfOp.reorder, EnKF.reorder, EnKF.predict, rows_row]
    rw [meanRows_perm π fun i => s.fx (s.sigmas i) s.dt + e i]
    set x := meanRows (rows fun i => s.fx (s.sigmas i) s.dt + e i)
    rw [outerSum_perm π (fun i => s.fx (s.sigmas i) s.dt + e i - x) fun i => s.fx (s.sigmas i) s.dt + e i - x]
    split_ifs
    · exact ⟨rfl, rfl⟩
    · rfl
  | update z R e =>
    cases z with
    | none => rfl
    | some z =>
      simp only [EnkfOp.run, EnkfOp.reorder, EnKF.reorder, EnKF.update, rows_row]
      rw [meanRows_perm π fun i => s.hx (s.sigmas i)]
      set y := meanRows (rows fun i => s.hx (s.sigmas i))
      rw [outerSum_perm π (fun i => s.hx (s.sigmas i) - y) fun i => s.hx (s.sigmas i) - y,
        outerSum_perm π (fun i => s.sigmas i - s.x) fun i => s.hx (s.sigmas i) - y]
      by_cases h1 : N = 1
      · rw [if_pos h1, if_pos h1]; exact ⟨rfl, rfl⟩
      rw [if_neg h1, if_neg h1]
      cases s.inv _ with
      | none => exact ⟨rfl, rfl⟩
      | some SI =>
        simp only
        rw [meanRows_perm π fun i => s.sigmas i + _ *ᵥ (z + e i - s.hx (s.sigmas i))]
        rfl

/-- **C132 (order).**  The order of the members does not matter: with the members and the draws in another order every
history of calls gives the same estimates, covariances and gains, or the same exception, and the members in that order. -/
theorem C132_order (π : Equiv.Perm (Fin N)) (s : EnKF n m N) (ops : List (EnkfOp n m N)) :
    Agree (fun s t => t = s.reorder π) (runList EnkfOp.run s ops)
      (runList EnkfOp.run (s.reorder π) (ops.map (EnkfOp.reorder π))) := by
  induction ops generalizing s with
  | nil => rfl
  | cons op ops ih =>
    have h := reorder_step π s op
    simp only [runList, List.map_cons]
    cases h1 : op.run s <;> cases h2 : (op.reorder π).run (s.reorder π) <;> rw [h1, h2] at h <;> simp only [Agree] at h
    · exact h
    · subst h; exact ih _

/-- Two members for two state variables: both the position and the velocity are driven by noise, and every noise draw
leaves a quantity that the filter takes for certain. -/
example (e : Mat 2 2) (s : EnKF 2 1 2) : ∃ s', s.predict e = .ok s' ∧ ∃ a : Vec 2, a ≠ 0 ∧ s'.P *ᵥ a = 0 := by
  obtain ⟨s', h, -⟩ := C26_predict le_rfl s e
  obtain ⟨a, h1, h2, -⟩ := C132_few le_rfl le_rfl h
  exact ⟨s', h, a, h1, h2⟩

/-- A measurement is taken: the hypotheses of `C132_update` are met by a filter that learns about the position but
whose members agree on the velocity. -/
example (e : Mat 2 1) : ∃ s s' : EnKF 2 1 2, s.update (some 1) .none e = .ok s' ∧ Unanimous ![0, 1] s.sigmas ∧
    ¬ Unanimous ![1, 0] s.sigmas ∧ s.x = SampleMean s.sigmas ∧ s'.K ≠ 0 := by
  let s : EnKF 2 1 2 := EnKF.fresh 0 1 1 (fun v => ![v 0]) (fun v _ => v) !![1, 0; -1, 0]
  have hm : meanRows (rows fun i => s.hx (s.sigmas i)) = 0 := by
    funext j
    simp [s, EnKF.fresh, meanRows, rows, Fin.sum_univ_two]
  have hz : ((1 : ℝ) / (((2 : ℕ) : ℝ) - 1)) • outerSum (rows fun i => s.hx (s.sigmas i) - meanRows (rows fun i => s.hx (s.sigmas i)))
      (rows fun i => s.hx (s.sigmas i) - meanRows (rows fun i => s.hx (s.sigmas i))) + s.R = !![3] := by
    rw [hm]
    ext i j
    fin_cases i; fin_cases j
    simp [s, EnKF.fresh, outerSum, Helpers.einsumOuter, rows, Fin.sum_univ_two]
    norm_num
  have hi : npInv (!![3] : Mat 1 1) = some !![1/3] := by
    rw [npInv_of_det_ne (by simp)]
    congr 1
    refine inv_eq_right_inv ?_
    ext i j
    fin_cases i; fin_cases j
    simp
  have hs : s.inv = npInv := rfl
  have h : ∃ s', s.update (some 1) .none e = .ok s' ∧ s'.K = (((1 : ℝ) / (((2 : ℕ) : ℝ) - 1)) •
      outerSum (rows fun i => s.sigmas i - s.x) (rows fun i => s.hx (s.sigmas i) - meanRows (rows fun i => s.hx (s.sigmas i)))) *
        (!![1/3] : Mat 1 1) := by
    simp only [EnKF.update, MatArg.resolve, rows_row, hz, hs, hi, if_neg (show ¬ 2 = 1 by norm_num)]
    exact ⟨_, rfl, rfl⟩
  obtain ⟨s', h, hK⟩ := h
  refine ⟨s, s', h, fun i j => ?_, fun h => ?_, ?_, fun h => ?_⟩
  · simp only [dotProduct, Fin.sum_univ_two]
    fin_cases i <;> fin_cases j <;> simp [s, EnKF.fresh]
  · have := h 0 1
    simp only [dotProduct, Fin.sum_univ_two] at this
    simp [s, EnKF.fresh] at this
    norm_num at this
  · funext j
    fin_cases j <;> simp [s, EnKF.fresh, SampleMean, Fin.sum_univ_two]
  · rw [hm, h] at hK
    have := congrFun (congrFun hK 0) 0
    simp [s, EnKF.fresh, outerSum, Helpers.einsumOuter, rows, Fin.sum_univ_two, Matrix.mul_apply] at this
    norm_num at this

end Filterpy
