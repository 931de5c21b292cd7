import Verif.Props.DiscreteBayesRun

/-!
# C151: a ring has no special cell, and a corridor no special direction
-/

namespace Filterpy

open DiscreteBayes

variable {n m : ℕ}

/-! ## Specification -/

namespace Spec

/-- The same time step in a ring whose cells are counted from another one: only the likelihoods are renumbered. -/
def turned [NeZero n] (s : ℤ) (c : BayesStep n) : BayesStep n := { c with lik := roll c.lik s }

/-- An array read backwards. -/
def backwards (p : Fin n → ℝ) : Fin n → ℝ := fun i => p i.rev

/-- The same time step with left and right exchanged: opposite offset, kernel and likelihoods read backwards. -/
def mirrored (c : BayesStep n) : BayesStep n where
  len := c.len
  offset := -c.offset
  kernel := backwards c.kernel
  wrap := c.wrap
  lik := backwards c.lik

end Spec

open Spec

/-! ## Renumbering the cells -/

theorem predict_moved [NeZero n] (π : Equiv.Perm (Fin n)) (p : Fin n → ℝ) (c c' : BayesStep n)
    (h : ∀ i j, moveProb c' (π i) (π j) = moveProb c i j) :
    predict (fun i => p (π.symm i)) c'.offset c'.kernel c'.wrap 0 = fun j => predict p c.offset c.kernel c.wrap 0 (π.symm j) := by
  funext j
  rw [belief_predict_move, belief_predict_move, ← Equiv.sum_comp π]
  refine Finset.sum_congr rfl fun i _ => ?_
  rw [Equiv.symm_apply_apply, ← h, Equiv.apply_symm_apply]

theorem normalize_moved (π : Equiv.Perm (Fin n)) (p : Fin n → ℝ) :
    DiscreteBayes.normalize (fun i => p (π.symm i)) = (DiscreteBayes.normalize p).map fun q i => q (π.symm i) := by
  have e : ∑ i, p (π.symm i) = ∑ i, p i := Equiv.sum_comp π.symm p
  unfold DiscreteBayes.normalize
  simp only [e]
  split_ifs <;> rfl

theorem run_moved [NeZero n] (π : Equiv.Perm (Fin n)) (p : Fin n → ℝ) (c c' : ℕ → BayesStep n)
    (h : ∀ t i j, moveProb (c' t) (π i) (π j) = moveProb (c t) i j) (hl : ∀ t i, (c' t).lik (π i) = (c t).lik i) (T : ℕ) :
    bayesRun (fun i => p (π.symm i)) c' T = (bayesRun p c T).map fun q i => q (π.symm i) := by
  induction T with
  | zero => rfl
  | succ T ih =>
    simp only [bayesRun, ih]
    cases bayesRun p c T with
    | error e => rfl
    | ok q =>
      change update _ (predict (fun i => q (π.symm i)) _ _ _ 0) = (update _ _).map _
      rw [predict_moved π q (c T) (c' T) (h T)]
      unfold update
      rw [← normalize_moved]
      congr 1
      funext i
      rw [← hl T (π.symm i), Equiv.apply_symm_apply]

/-- Counting the cells of a ring from another one. -/
noncomputable def ringPerm [NeZero n] (s : ℤ) : Equiv.Perm (Fin n) := Equiv.ofBijective _ (wrapIdx_bij (n := n) s)

theorem ringPerm_modEq [NeZero n] (s : ℤ) (i : Fin n) : ((ringPerm s i : Fin n) : ℤ) ≡ i + s [ZMOD n] := wrapIdx_modEq n _

theorem ringPerm_symm [NeZero n] (s : ℤ) (i : Fin n) : (ringPerm s).symm i = wrapIdx n (i - s) := by
  rw [Equiv.symm_apply_eq]
  symm
  refine (wrapIdx_eq_iff _ _).2 ?_
  have := (wrapIdx_modEq n ((i : ℤ) - s)).add_right s
  rw [sub_add_cancel] at this
  exact this.symm

theorem ring_roll [NeZero n] (s : ℤ) (p : Fin n → ℝ) : roll p s = fun i => p ((ringPerm s).symm i) := by
  funext i; rw [ringPerm_symm]; rfl

theorem turned_move [NeZero n] (s : ℤ) (c : BayesStep n) (hw : c.wrap = true) (i j : Fin n) :
    moveProb (turned s c) (ringPerm s i) (ringPerm s j) = moveProb c i j := by
  have hw' : (turned s c).wrap = true := hw
  unfold moveProb
  refine Finset.sum_congr rfl fun k _ => ?_
  rw [hw, hw']
  simp only [if_true]
  refine if_congr ?_ rfl rfl
  have hi := ringPerm_modEq s i
  have hj := ringPerm_modEq s j
  change ((ringPerm s i : Fin n) : ℤ) + c.offset + ((k : ℤ) - (c.len / 2 : ℕ)) ≡ (ringPerm s j : Fin n) [ZMOD n] ↔ _
  rw [Int.modEq_iff_dvd] at hi hj
  rw [Int.modEq_iff_dvd, Int.modEq_iff_dvd]
  constructor <;> intro h
  · have := dvd_add (dvd_sub h hi) hj
    ring_nf at this ⊢; exact this
  · have := dvd_sub (dvd_add h hi) hj
    ring_nf at this ⊢; exact this

/-- **C151, a ring has no special cell.**  Count the cells of a ring from another one, in the prior and in all likelihoods:
after any history the beliefs are the same, counted that way, or both histories fail alike. -/
theorem C151_ring [NeZero n] (p : Fin n → ℝ) (c : ℕ → BayesStep n) (hw : ∀ t, (c t).wrap = true) (s : ℤ) (T : ℕ) :
    bayesRun (roll p s) (fun t => turned s (c t)) T = (bayesRun p c T).map fun q => roll q s := by
  rw [ring_roll, run_moved (ringPerm s) p c _ (fun t => turned_move s (c t) (hw t))]
  · simp only [ring_roll]
  · intro t i
    change roll (c t).lik s _ = _
    rw [ring_roll]
    exact congrArg _ (Equiv.symm_apply_apply _ _)

/-- **C151, whole turns do not count.**  On a ring of `n` cells an offset only matters up to multiples of `n`. -/
theorem C151_turns [NeZero n] (p : Fin n → ℝ) (a b : ℤ) (h : a ≡ b [ZMOD n]) (kernel : Fin m → ℝ) (cval : ℝ) :
    predict p a kernel true cval = predict p b kernel true cval := by
  funext i
  rw [predict_wrap_eq, predict_wrap_eq]
  refine Finset.sum_congr rfl fun j _ => ?_
  rw [wrapIdx_congr (h.sub_left _)]

/-- **C151, the order of moves.**  On a ring two moves, each with its own kernel, may be made in either order. -/
theorem C151_moves_commute [NeZero n] {m' : ℕ} (p : Fin n → ℝ) (a b : ℤ) (k : Fin m → ℝ) (l : Fin m' → ℝ) (cval cval' : ℝ) :
    predict (predict p a k true cval) b l true cval' = predict (predict p b l true cval') a k true cval := by
  funext i
  simp only [predict_wrap_eq, Finset.mul_sum]
  rw [Finset.sum_comm]
  refine Finset.sum_congr rfl fun j _ => Finset.sum_congr rfl fun j' _ => ?_
  have e : wrapIdx n ((wrapIdx n ((i : ℤ) + (m' / 2 : ℕ) - j' - b) : Fin n) + (m / 2 : ℕ) - j - a) =
      wrapIdx n ((wrapIdx n ((i : ℤ) + (m / 2 : ℕ) - j - a) : Fin n) + (m' / 2 : ℕ) - j' - b) := by
    refine wrapIdx_congr ?_
    have h1 := (((wrapIdx_modEq n ((i : ℤ) + (m' / 2 : ℕ) - j' - b)).add_right ((m / 2 : ℕ) : ℤ)).sub_right (j : ℤ)).sub_right a
    have h2 := (((wrapIdx_modEq n ((i : ℤ) + (m / 2 : ℕ) - j - a)).add_right ((m' / 2 : ℕ) : ℤ)).sub_right (j' : ℤ)).sub_right b
    refine h1.trans (Int.ModEq.trans ?_ h2.symm)
    rw [show (i : ℤ) + (m' / 2 : ℕ) - j' - b + (m / 2 : ℕ) - j - a = i + (m / 2 : ℕ) - j - a + (m' / 2 : ℕ) - j' - b by ring]
  rw [e]; ring

/-! ## Left and right -/

theorem mirrored_move (c : BayesStep n) (ho : Odd c.len) (i j : Fin n) :
    moveProb (mirrored c) i.rev j.rev = moveProb c i j := by
  obtain ⟨len, offset, kernel, wrap, lik⟩ := c
  obtain ⟨d, hd⟩ := ho
  simp only at hd
  unfold moveProb
  simp only [mirrored]
  rw [← Equiv.sum_comp Fin.revPerm]
  refine Finset.sum_congr rfl fun k _ => ?_
  have hk : ((k.rev : Fin len) : ℤ) = len - 1 - k := by
    have := k.2
    rw [Fin.val_rev]; omega
  have hi : ((i.rev : Fin n) : ℤ) = n - 1 - i := by have := i.2; rw [Fin.val_rev]; omega
  have hj : ((j.rev : Fin n) : ℤ) = n - 1 - j := by have := j.2; rw [Fin.val_rev]; omega
  have hl : (((len / 2 : ℕ) : ℤ)) = d := by omega
  have hd' : (len : ℤ) = 2 * d + 1 := by omega
  simp only [Fin.revPerm_apply, backwards]
  refine if_congr Iff.rfl (if_congr ?_ rfl rfl) (if_congr ?_ rfl rfl) <;> rw [hi, hj, hk, hl, hd']
  · rw [Int.modEq_iff_dvd, Int.modEq_iff_dvd, ← dvd_neg]
    ring_nf
  · constructor <;> rintro ⟨h1, h2, h3⟩ <;> refine ⟨?_, ?_, ?_⟩ <;> omega

/-- **C151, no special direction.**  Exchange left and right in everything the user supplies: the opposite offset, and prior,
likelihoods and kernel read backwards.  With kernels of an odd number of taps the beliefs after any history, in any mode, are
the same read backwards, or both histories fail alike. -/
theorem C151_mirror [NeZero n] (p : Fin n → ℝ) (c : ℕ → BayesStep n) (ho : ∀ t, Odd (c t).len) (T : ℕ) :
    bayesRun (backwards p) (fun t => mirrored (c t)) T = (bayesRun p c T).map backwards :=
  run_moved Fin.revPerm p c _ (fun t => mirrored_move (c t) (ho t))
    (fun t i => by change (c t).lik (Fin.rev (Fin.revPerm i)) = _; rw [Fin.revPerm_apply, Fin.rev_rev]) T

/-- A kernel with an even number of taps has no middle: `scipy.ndimage.convolve` takes the tap to the right of it.  So with
such kernels the mirror image of a prediction is not the prediction from the mirror image: this kernel always moves one cell
to the left, its mirror image never moves. -/
theorem C151_even_refuted : ∃ (p : Fin 3 → ℝ) (c : BayesStep 3), predict (backwards p) (mirrored c).offset (mirrored c).kernel
    (mirrored c).wrap 0 ≠ backwards (predict p c.offset c.kernel c.wrap 0) := by
  refine ⟨![0, 1, 0], ⟨2, 0, ![1, 0], true, 1⟩, fun h => ?_⟩
  have h1 := congrFun h 1
  simp only [mirrored, backwards] at h1
  rw [predict_wrap_eq, predict_wrap_eq, Fin.sum_univ_two, Fin.sum_univ_two] at h1
  have e1 : wrapIdx 3 (((1 : Fin 3) : ℕ) + ((2 / 2 : ℕ) : ℤ) - ((1 : Fin 2) : ℕ) - -0) = 1 := by decide
  have e2 : wrapIdx 3 (((Fin.rev 1 : Fin 3) : ℕ) + ((2 / 2 : ℕ) : ℤ) - ((0 : Fin 2) : ℕ) - 0) = 2 := by decide
  rw [e1, e2] at h1
  have b0 : backwards (![1, 0] : Fin 2 → ℝ) 0 = 0 := rfl
  have b1 : backwards (![1, 0] : Fin 2 → ℝ) 1 = 1 := rfl
  have b2 : backwards (![0, 1, 0] : Fin 3 → ℝ) 1 = 1 := rfl
  simp [Fin.rev, b0, b1, b2] at h1

/-- On a ring the mirror image is right again when the offset allows for the missing middle. -/
theorem C151_mirror_even [NeZero n] (p : Fin n → ℝ) (offset : ℤ) (kernel : Fin m → ℝ) (he : Even m) (cval : ℝ) :
    predict (backwards p) (1 - offset) (backwards kernel) true cval = backwards (predict p offset kernel true cval) := by
  obtain ⟨d, hd⟩ := he
  funext i
  change _ = predict p offset kernel true cval i.rev
  rw [predict_wrap_eq, predict_wrap_eq, ← Equiv.sum_comp Fin.revPerm]
  refine Finset.sum_congr rfl fun j _ => ?_
  simp only [Fin.revPerm_apply, backwards, Fin.rev_rev]
  have hj : ((j.rev : Fin m) : ℤ) = m - 1 - j := by have := j.2; rw [Fin.val_rev]; omega
  have hi : ((i.rev : Fin n) : ℤ) = n - 1 - i := by have := i.2; rw [Fin.val_rev]; omega
  have hl : (((m / 2 : ℕ) : ℤ)) = d := by omega
  have hd' : (m : ℤ) = d + d := by omega
  have e : (wrapIdx n ((i : ℤ) + (m / 2 : ℕ) - (j.rev : Fin m) - (1 - offset))).rev =
      wrapIdx n ((i.rev : Fin n) + ((m / 2 : ℕ) : ℤ) - j - offset) := by
    symm
    refine (wrapIdx_eq_iff _ _).2 ?_
    have h := wrapIdx_modEq n ((i : ℤ) + (m / 2 : ℕ) - (j.rev : Fin m) - (1 - offset))
    generalize wrapIdx n ((i : ℤ) + (m / 2 : ℕ) - (j.rev : Fin m) - (1 - offset)) = w at h ⊢
    have hw : ((w.rev : Fin n) : ℤ) = n - 1 - w := by have := w.2; rw [Fin.val_rev]; omega
    rw [hj, hl, hd'] at h
    rw [hw, hi, hl, Int.modEq_iff_dvd]
    rw [Int.modEq_iff_dvd, ← dvd_neg] at h
    ring_nf at h ⊢
    exact h
  rw [e]

/-! ## Non-vacuity -/

/-- A step to the right on a ring of three cells, seen by a sensor, succeeds; its mirror image is a step to the left. -/
example : bayesRun ![1, 0, 0] (fun _ => ⟨1, 1, ![1], true, ![1, 2, 3]⟩) 1 = .ok ![0, 1, 0] ∧
    (mirrored ⟨1, 1, ![1], true, ![1, 2, 3]⟩ : BayesStep 3).offset = -1 ∧
    backwards (![1, 0, 0] : Fin 3 → ℝ) ≠ ![1, 0, 0] ∧ Odd (⟨1, 1, ![1], true, ![1, 2, 3]⟩ : BayesStep 3).len := by
  refine ⟨?_, rfl, fun h => ?_, odd_one⟩
  · have e : predict ![1, 0, 0] 1 ![1] true 0 = (![0, 1, 0] : Fin 3 → ℝ) := by
      funext i
      rw [predict_wrap_eq, Fin.sum_univ_one]
      have e : wrapIdx 3 ((i : ℤ) + ((1 / 2 : ℕ) : ℤ) - ((0 : Fin 1) : ℕ) - 1) = i - 1 := by revert i; decide
      change (![1] : Fin 1 → ℝ) 0 * (![1, 0, 0] : Fin 3 → ℝ) (wrapIdx 3 ((i : ℤ) + ((1 / 2 : ℕ) : ℤ) - ((0 : Fin 1) : ℕ) - 1)) = _
      rw [e]
      fin_cases i <;> simp
    change update ![1, 2, 3] (predict ![1, 0, 0] 1 ![1] true 0) = _
    rw [e]
    unfold update DiscreteBayes.normalize
    rw [if_neg (by simp [Fin.sum_univ_three])]
    congr 1
    funext i
    fin_cases i <;> simp [Fin.sum_univ_three]
  · have := congrFun h 0
    simp [backwards] at this

end Filterpy
