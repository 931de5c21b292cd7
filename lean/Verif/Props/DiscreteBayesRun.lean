import Verif.Props.DiscreteBayes
import Mathlib.Algebra.BigOperators.Fin
import Mathlib.Logic.Equiv.Fin.Basic

/-!
# A whole run of the discrete Bayes filter is the posterior of a hidden Markov model: C106
-/

namespace Filterpy

open DiscreteBayes MeasureTheory ProbabilityTheory

variable {n m : ℕ}

/-- What happens in one time step: a move by `offset` blurred by `kernel`, then a measurement with `lik`.
`wrap` is `mode == 'wrap'`. -/
structure BayesStep (n : ℕ) where
  len : ℕ
  offset : ℤ
  kernel : Fin len → ℝ
  wrap : Bool
  lik : Fin n → ℝ

/-- The loop of the documentation (discrete_bayes.py 85-88): `prior = predict(posterior, velocity, kernel)`,
`posterior = update(likelihood, prior)`, for the first `T` time steps. -/
noncomputable def bayesRun [NeZero n] (p : Fin n → ℝ) (c : ℕ → BayesStep n) : ℕ → Except Err (Fin n → ℝ)
  | 0 => .ok p
  | T + 1 => bayesRun p c T >>= fun q =>
      update (c T).lik (predict q (c T).offset (c T).kernel (c T).wrap 0)

/-- The probability that an object in cell `i` is in cell `j` after the step: it moves by `offset`, then by
`k - len // 2` with probability `kernel[k]`; on a ring cells are counted modulo `n`, otherwise an object that
leaves the grid, after the offset or after the blur, is lost. -/
def Spec.moveProb (c : BayesStep n) (i j : Fin n) : ℝ :=
  ∑ k : Fin c.len,
    if c.wrap then (if (i : ℤ) + c.offset + ((k : ℤ) - (c.len / 2 : ℕ)) ≡ j [ZMOD n] then c.kernel k else 0)
    else if (i : ℤ) + c.offset + ((k : ℤ) - (c.len / 2 : ℕ)) = j ∧ 0 ≤ (i : ℤ) + c.offset ∧ (i : ℤ) + c.offset < n
      then c.kernel k else 0

/-- Weight of a complete history of positions `x 0, …, x T`: prior times moves times likelihoods. -/
def Spec.pathWeight (p : Fin n → ℝ) (c : ℕ → BayesStep n) (T : ℕ) (x : Fin (T + 1) → Fin n) : ℝ :=
  p (x 0) * ∏ t : Fin T, (moveProb (c t) (x t.castSucc) (x t.succ) * (c t).lik (x t.succ))

/-- Total weight of the histories that end in cell `i`. -/
def Spec.endWeight (p : Fin n → ℝ) (c : ℕ → BayesStep n) (T : ℕ) (i : Fin n) : ℝ :=
  ∑ x : Fin (T + 1) → Fin n, if x (Fin.last T) = i then pathWeight p c T x else 0

open Spec

theorem belief_predict_move [NeZero n] (p : Fin n → ℝ) (c : BayesStep n) (j : Fin n) :
    predict p c.offset c.kernel c.wrap 0 j = ∑ i, p i * moveProb c i j := by
  unfold moveProb
  cases h : c.wrap with
  | true =>
    rw [C49_wrap]
    refine Finset.sum_congr rfl fun i _ => ?_
    rw [Finset.mul_sum]
    refine Finset.sum_congr rfl fun k _ => ?_
    simp
  | false =>
    rw [C49_constant]
    simp only [ite_self, add_zero, Finset.mul_sum]
    rw [Finset.sum_comm]
    refine Finset.sum_congr rfl fun i _ => Finset.sum_congr rfl fun k _ => ?_
    simp only [Bool.false_eq_true, if_false]
    split_ifs <;> ring

theorem pathWeight_snoc (p : Fin n → ℝ) (c : ℕ → BayesStep n) (T : ℕ) (x : Fin (T + 1) → Fin n) (j : Fin n) :
    pathWeight p c (T + 1) (Fin.snoc (α := fun _ => Fin n) x j) =
      pathWeight p c T x * (moveProb (c T) (x (Fin.last T)) j * (c T).lik j) := by
  unfold pathWeight
  rw [Fin.prod_univ_castSucc]
  have h0 : (Fin.snoc (α := fun _ => Fin n) x j : Fin (T + 2) → Fin n) 0 = x 0 := by
    rw [← Fin.castSucc_zero, Fin.snoc_castSucc]
  have hl : (Fin.snoc (α := fun _ => Fin n) x j : Fin (T + 2) → Fin n) (Fin.last T).castSucc = x (Fin.last T) := by
    rw [Fin.snoc_castSucc]
  have hj : (Fin.snoc (α := fun _ => Fin n) x j : Fin (T + 2) → Fin n) (Fin.last T).succ = j := by
    rw [Fin.succ_last, Fin.snoc_last]
  rw [h0, hl, hj]
  have ht : ∀ t : Fin T, (Fin.snoc (α := fun _ => Fin n) x j : Fin (T + 2) → Fin n) t.castSucc.castSucc = x t.castSucc :=
    fun t => by rw [Fin.snoc_castSucc]
  have hs : ∀ t : Fin T, (Fin.snoc (α := fun _ => Fin n) x j : Fin (T + 2) → Fin n) t.castSucc.succ = x t.succ :=
    fun t => by rw [Fin.succ_castSucc, Fin.snoc_castSucc]
  simp only [ht, hs, Fin.val_castSucc, Fin.val_last]
  ring

theorem endWeight_zero (p : Fin n → ℝ) (c : ℕ → BayesStep n) (i : Fin n) : endWeight p c 0 i = p i := by
  unfold endWeight pathWeight
  rw [← (Equiv.funUnique (Fin 1) (Fin n)).symm.sum_comp]
  simp [Equiv.funUnique]

theorem endWeight_succ (p : Fin n → ℝ) (c : ℕ → BayesStep n) (T : ℕ) (j : Fin n) :
    endWeight p c (T + 1) j = (∑ i, endWeight p c T i * moveProb (c T) i j) * (c T).lik j := by
  unfold endWeight
  rw [← (Fin.snocEquiv fun _ : Fin (T + 2) => Fin n).sum_comp, Fintype.sum_prod_type]
  simp only [Fin.snocEquiv, Equiv.coe_fn_mk, Fin.snoc_last, pathWeight_snoc]
  rw [Finset.sum_eq_single j (fun b _ hb => by simp [hb]) (by simp)]
  simp only [if_true, Finset.sum_mul]
  rw [Finset.sum_comm]
  refine Finset.sum_congr rfl fun x _ => ?_
  rw [Finset.sum_eq_single (x (Fin.last T)) (fun b _ hb => by simp [hb.symm]) (by simp)]
  simp only [if_true]
  ring

theorem sum_endWeight (p : Fin n → ℝ) (c : ℕ → BayesStep n) (T : ℕ) :
    ∑ i, endWeight p c T i = ∑ x, pathWeight p c T x := by
  unfold endWeight
  rw [Finset.sum_comm]
  simp

theorem moveProb_nonneg (c : BayesStep n) (hk : ∀ k, 0 ≤ c.kernel k) (i j : Fin n) : 0 ≤ moveProb c i j := by
  unfold moveProb
  refine Finset.sum_nonneg fun k _ => ?_
  split_ifs <;> first | exact hk k | exact le_rfl

theorem endWeight_nonneg (p : Fin n → ℝ) (c : ℕ → BayesStep n) (hp : ∀ i, 0 ≤ p i) (hk : ∀ t k, 0 ≤ (c t).kernel k)
    (hl : ∀ t i, 0 ≤ (c t).lik i) (T : ℕ) (i : Fin n) : 0 ≤ endWeight p c T i := by
  unfold endWeight pathWeight
  refine Finset.sum_nonneg fun x _ => ?_
  split_ifs
  · exact mul_nonneg (hp _) (Finset.prod_nonneg fun t _ => mul_nonneg (moveProb_nonneg _ (hk _) _ _) (hl _ _))
  · exact le_rfl

/-- **C106.** A whole run of the discrete Bayes filter sums over all histories of positions.  After any number of
steps the belief in cell `i` is the total weight of the histories that end there, divided by the weight of all
histories; and the run breaks down (division by zero) exactly when no history at all is compatible with what was
measured. -/
theorem C106_histories [NeZero n] (p : Fin n → ℝ) (c : ℕ → BayesStep n) (hp : ∀ i, 0 ≤ p i) (h1 : ∑ i, p i = 1)
    (hk : ∀ t k, 0 ≤ (c t).kernel k) (hl : ∀ t i, 0 ≤ (c t).lik i) (T : ℕ) :
    bayesRun p c T = if ∑ x, pathWeight p c T x = 0 then .error .nonFinite
      else .ok fun i => endWeight p c T i / ∑ x, pathWeight p c T x := by
  have hn := endWeight_nonneg p c hp hk hl
  simp only [← sum_endWeight]
  induction T with
  | zero => simp [bayesRun, endWeight_zero, h1]
  | succ T ih =>
    rw [bayesRun, ih]
    by_cases h0 : ∑ i, endWeight p c T i = 0
    · have hz : ∀ i, endWeight p c T i = 0 := fun i =>
        (Finset.sum_eq_zero_iff_of_nonneg fun i _ => hn T i).1 h0 i (Finset.mem_univ i)
      rw [if_pos h0, if_pos (by simp [endWeight_succ, hz])]
      rfl
    · rw [if_neg h0]
      show update (c T).lik (predict _ _ _ _ 0) = _
      unfold update
      have e : ∀ j, predict (fun i => endWeight p c T i / ∑ i, endWeight p c T i) (c T).offset (c T).kernel
          (c T).wrap 0 j * (c T).lik j = (∑ i, endWeight p c T i)⁻¹ * endWeight p c (T + 1) j := by
        intro j
        rw [belief_predict_move, endWeight_succ, ← mul_assoc, Finset.mul_sum]
        congr 1
        refine Finset.sum_congr rfl fun i _ => ?_
        ring
      simp only [e]
      rw [C48_normalize_scale _ _ (inv_ne_zero h0)]
      rfl

/-- The event that the first `T` measurements were the ones received. -/
def Spec.past {Ω : Type*} (Z : ℕ → Set Ω) (T : ℕ) : Set Ω := ⋂ t < T, Z t

/-- An object moving on the grid and a sensor watching it: where it starts, how it moves whatever was measured
before, and how likely the measurements are given where it is, up to a factor `a t` the user need not know. -/
structure Spec.HiddenMarkov {Ω : Type*} [MeasurableSpace Ω] (μ : Measure Ω) (X : ℕ → Ω → Fin n) (Z : ℕ → Set Ω)
    (p : Fin n → ℝ) (c : ℕ → BayesStep n) (a : ℕ → ℝ) : Prop where
  position : ∀ t, Measurable (X t)
  event : ∀ t, MeasurableSet (Z t)
  start : ∀ i, p i = μ.real (X 0 ⁻¹' {i})
  move : ∀ t i j, μ.real (X t ⁻¹' {i} ∩ X (t + 1) ⁻¹' {j} ∩ past Z t) = μ.real (X t ⁻¹' {i} ∩ past Z t) * moveProb (c t) i j
  scale : ∀ t, a t ≠ 0
  sensor : ∀ t j, a t * μ.real (X (t + 1) ⁻¹' {j} ∩ past Z t ∩ Z t) = (c t).lik j * μ.real (X (t + 1) ⁻¹' {j} ∩ past Z t)

theorem past_succ {Ω : Type*} (Z : ℕ → Set Ω) (T : ℕ) : past Z (T + 1) = past Z T ∩ Z T := by
  ext ω
  simp only [past, Set.mem_iInter, Set.mem_inter_iff, Nat.lt_succ_iff_lt_or_eq]
  exact ⟨fun h => ⟨fun t ht => h t (.inl ht), h T (.inr rfl)⟩, fun h t ht => ht.elim (h.1 t) fun e => e ▸ h.2⟩

theorem past_measurable {Ω : Type*} [MeasurableSpace Ω] {Z : ℕ → Set Ω} (hZ : ∀ t, MeasurableSet (Z t)) (T : ℕ) :
    MeasurableSet (past Z T) := MeasurableSet.iInter fun t => MeasurableSet.iInter fun _ => hZ t

theorem sum_fibres {Ω : Type*} [MeasurableSpace Ω] (μ : Measure Ω) [IsFiniteMeasure μ] {X : Ω → Fin n}
    (hX : Measurable X) {S : Set Ω} (hS : MeasurableSet S) : ∑ i, μ.real (X ⁻¹' {i} ∩ S) = μ.real S := by
  rw [← measureReal_biUnion_finset]
  · congr 1
    ext ω
    simp
  · intro i _ j _ hij
    rw [Function.onFun, Set.disjoint_left]
    rintro ω ⟨h1, -⟩ ⟨h2, -⟩
    exact hij (h1.symm.trans h2)
  · intro i _; exact (hX (measurableSet_singleton i)).inter hS

/-- **C106.** For an object that really moves as `offset` and `kernel` say and a sensor whose likelihoods are right
up to a factor, the belief after any number of steps is the conditional probability of each cell given all
measurements so far, and the run does not break down unless the measurements had probability zero. -/
theorem C106_posterior [NeZero n] {Ω : Type*} [MeasurableSpace Ω] (μ : Measure Ω) [IsProbabilityMeasure μ]
    (X : ℕ → Ω → Fin n) (Z : ℕ → Set Ω) (p : Fin n → ℝ) (c : ℕ → BayesStep n) (a : ℕ → ℝ)
    (h : HiddenMarkov μ X Z p c a) (T : ℕ) (hpos : μ (past Z T) ≠ 0) :
    bayesRun p c T = .ok fun i => (cond μ (past Z T)).real (X T ⁻¹' {i}) := by
  induction T with
  | zero =>
    have : past Z 0 = Set.univ := by simp [past]
    simp only [this, cond_univ, bayesRun]
    congr 1
    funext i
    exact h.start i
  | succ T ih =>
    have hm := past_measurable h.event
    have hle : past Z (T + 1) ⊆ past Z T := by rw [past_succ]; exact Set.inter_subset_left
    have hposT : μ (past Z T) ≠ 0 := fun h0 => hpos (measure_mono_null hle h0)
    rw [bayesRun, ih hposT]
    show update (c T).lik (predict _ _ _ _ 0) = _
    have hT0 : μ.real (past Z T) ≠ 0 := by
      rw [Measure.real, ENNReal.toReal_ne_zero]; exact ⟨hposT, measure_ne_top _ _⟩
    have hT1 : μ.real (past Z (T + 1)) ≠ 0 := by
      rw [Measure.real, ENNReal.toReal_ne_zero]; exact ⟨hpos, measure_ne_top _ _⟩
    have e : ∀ j, predict (fun i => (cond μ (past Z T)).real (X T ⁻¹' {i})) (c T).offset (c T).kernel (c T).wrap 0 j *
        (c T).lik j = (μ.real (past Z T))⁻¹ * a T * μ.real (X (T + 1) ⁻¹' {j} ∩ past Z (T + 1)) := by
      intro j
      have e1 : predict (fun i => (cond μ (past Z T)).real (X T ⁻¹' {i})) (c T).offset (c T).kernel (c T).wrap 0 j =
          (μ.real (past Z T))⁻¹ * μ.real (X (T + 1) ⁻¹' {j} ∩ past Z T) := by
        rw [belief_predict_move, ← sum_fibres μ (h.position T) ((h.position (T + 1) (measurableSet_singleton j)).inter (hm T)),
          Finset.mul_sum]
        refine Finset.sum_congr rfl fun i _ => ?_
        rw [cond_real μ (hm T), mul_assoc, Set.inter_comm (past Z T), ← h.move, ← Set.inter_assoc]
      rw [e1, past_succ, ← Set.inter_assoc]
      have := h.sensor T j
      rw [mul_assoc, mul_comm _ ((c T).lik j), ← this, mul_assoc]
    unfold update
    simp only [e]
    rw [C48_normalize_scale _ _ (mul_ne_zero (inv_ne_zero hT0) (h.scale T))]
    unfold DiscreteBayes.normalize
    rw [sum_fibres μ (h.position (T + 1)) (hm (T + 1)), if_neg hT1]
    congr 1
    funext i
    rw [cond_real μ (hm (T + 1)), Set.inter_comm, div_eq_inv_mul]

/-- The hypotheses of `C106_posterior` are met by an object that starts anywhere on a ring, with any distribution,
and moves one cell per step past a sensor that tells whether there is a door. -/
example [NeZero n] (μ : Measure (Fin n)) [IsProbabilityMeasure μ] (door : Fin n → Bool) :
    HiddenMarkov μ (fun t ω => wrapIdx n (ω + t)) (fun t => {ω | door (wrapIdx n (ω + (t + 1 : ℕ)))})
      (fun i => μ.real {i}) (fun _ => ⟨1, 1, fun _ => 1, true, fun i => if door i then 1 else 0⟩) (fun _ => 1) where
  position _ := measurable_of_finite _
  event _ := MeasurableSet.of_discrete
  start i := by
    congr 1
    ext ω
    simp only [Set.mem_singleton_iff, Set.mem_preimage]
    constructor
    · rintro rfl; ext; simp [wrapIdx, Int.emod_eq_of_lt]
    · rintro h; rw [← h]; ext; simp [wrapIdx, Int.emod_eq_of_lt]
  move t i j := by
    have hm : moveProb (⟨1, 1, fun _ => 1, true, fun i => if door i then 1 else 0⟩ : BayesStep n) i j =
        if (i : ℤ) + 1 ≡ j [ZMOD n] then 1 else 0 := by simp [moveProb]
    rw [hm]
    have key : ∀ ω : Fin n, wrapIdx n (ω + t) = i → (wrapIdx n (ω + (t + 1 : ℕ)) = j ↔ (i : ℤ) + 1 ≡ j [ZMOD n]) := by
      intro ω h1
      rw [wrapIdx_eq_iff] at h1 ⊢
      have h2 := h1.add_right 1
      push_cast
      rw [← add_assoc]
      exact ⟨fun h => h2.trans h.symm, fun h => h.symm.trans h2⟩
    split_ifs with h
    · rw [mul_one]
      congr 1
      ext ω
      simp only [Set.mem_inter_iff, Set.mem_preimage, Set.mem_singleton_iff, and_congr_left_iff, and_iff_left_iff_imp]
      exact fun _ h1 => (key ω h1).2 h
    · rw [mul_zero]
      convert measureReal_empty (μ := μ)
      ext ω
      simp only [Set.mem_inter_iff, Set.mem_preimage, Set.mem_singleton_iff, Set.mem_empty_iff_false, iff_false]
      exact fun h1 => h ((key ω h1.1.1).1 h1.1.2)
  scale _ := one_ne_zero
  sensor t j := by
    by_cases hd : door j
    · simp only [hd, if_true]
      congr 2
      ext ω
      simp only [Set.mem_inter_iff, Set.mem_preimage, Set.mem_singleton_iff, Set.mem_ofPred_eq, and_iff_left_iff_imp]
      rintro ⟨h, -⟩
      rw [h]; exact hd
    · simp only [hd, one_mul, zero_mul, Bool.false_eq_true, if_false]
      convert measureReal_empty (μ := μ)
      ext ω
      simp only [Set.mem_inter_iff, Set.mem_preimage, Set.mem_singleton_iff, Set.mem_ofPred_eq, Set.mem_empty_iff_false,
        iff_false]
      rintro ⟨⟨h, -⟩, h'⟩
      rw [h] at h'; exact hd h'

/-- The hypotheses of `C106_histories` are met: three cells, a blurred move to the right, a sensor that prefers
cell 1. -/
example (T : ℕ) : bayesRun (fun _ : Fin 3 => (1 : ℝ) / 3) (fun _ => ⟨3, 1, ![1 / 10, 8 / 10, 1 / 10], true, ![1, 3, 1]⟩) T ≠
    .error .nonFinite := by
  rw [C106_histories _ _ (by norm_num) (by norm_num [Fin.sum_univ_three])
    (by intro t k; fin_cases k <;> norm_num) (by intro t k; fin_cases k <;> norm_num)]
  rw [if_neg]
  · exact fun h => by cases h
  refine (Finset.sum_pos (fun x _ => ?_) Finset.univ_nonempty).ne'
  unfold pathWeight
  refine mul_pos (by norm_num) (Finset.prod_pos fun t _ => mul_pos ?_ ?_)
  · generalize x t.castSucc = a
    generalize x t.succ = b
    unfold moveProb
    change 0 < ∑ k : Fin 3, _
    rw [Fin.sum_univ_three]
    fin_cases a <;> fin_cases b <;> norm_num [Int.ModEq]
    all_goals
      change (0 : ℝ) < 1 / 10
      norm_num
  · generalize x t.succ = b
    fin_cases b <;> norm_num

end Filterpy
