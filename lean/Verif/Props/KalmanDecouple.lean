import Verif.Lemmas.Kalman
import Verif.Lemmas.Gauss
import Verif.Props.KalmanBayes
import Mathlib.LinearAlgebra.Matrix.SchurComplement
import Mathlib.Data.Fin.Tuple.Basic

/-!
# Independent subsystems decouple (C88)
-/

namespace Filterpy
open Matrix

variable {n m l n' m' l' : ℕ}

/-- Two vectors one after the other. -/
def both (a : Vec n) (b : Vec n') : Vec (n + n') := Fin.append a b

/-- The block diagonal matrix `[[A, 0], [0, B]]`. -/
def bothM (A : Mat m n) (B : Mat m' n') : Mat (m + m') (n + n') :=
  fun i j => Fin.addCases (fun i => Fin.addCases (fun j => A i j) (fun _ => 0) j)
    (fun i => Fin.addCases (fun _ => 0) (fun j => B i j) j) i

/-! ### Block algebra -/

section
variable {k k' : ℕ}

@[simp] theorem bothM_ll (A : Mat m n) (B : Mat m' n') (i j) :
    bothM A B (Fin.castAdd m' i) (Fin.castAdd n' j) = A i j := by simp [bothM]
@[simp] theorem bothM_lr (A : Mat m n) (B : Mat m' n') (i j) :
    bothM A B (Fin.castAdd m' i) (Fin.natAdd n j) = 0 := by simp [bothM]
@[simp] theorem bothM_rl (A : Mat m n) (B : Mat m' n') (i j) :
    bothM A B (Fin.natAdd m i) (Fin.castAdd n' j) = 0 := by simp [bothM]
@[simp] theorem bothM_rr (A : Mat m n) (B : Mat m' n') (i j) :
    bothM A B (Fin.natAdd m i) (Fin.natAdd n j) = B i j := by simp [bothM]
@[simp] theorem both_l (a : Vec n) (b : Vec n') (i) : both a b (Fin.castAdd n' i) = a i := by
  simp [both]
@[simp] theorem both_r (a : Vec n) (b : Vec n') (i) : both a b (Fin.natAdd n i) = b i := by
  simp [both]

theorem both_ext {v w : Vec (n + n')} (h1 : ∀ i, v (Fin.castAdd n' i) = w (Fin.castAdd n' i))
    (h2 : ∀ i, v (Fin.natAdd n i) = w (Fin.natAdd n i)) : v = w := by
  funext i; exact Fin.addCases h1 h2 i

theorem bothM_ext {A B : Mat (m + m') (n + n')}
    (h1 : ∀ i j, A (Fin.castAdd m' i) (Fin.castAdd n' j) = B (Fin.castAdd m' i) (Fin.castAdd n' j))
    (h2 : ∀ i j, A (Fin.castAdd m' i) (Fin.natAdd n j) = B (Fin.castAdd m' i) (Fin.natAdd n j))
    (h3 : ∀ i j, A (Fin.natAdd m i) (Fin.castAdd n' j) = B (Fin.natAdd m i) (Fin.castAdd n' j))
    (h4 : ∀ i j, A (Fin.natAdd m i) (Fin.natAdd n j) = B (Fin.natAdd m i) (Fin.natAdd n j)) : A = B := by
  funext i
  refine Fin.addCases (fun i => ?_) (fun i => ?_) i
  · exact both_ext (h1 i) (h2 i)
  · exact both_ext (h3 i) (h4 i)

theorem bothM_mul (A : Mat m n) (B : Mat m' n') (C : Mat n k) (D : Mat n' k') :
    bothM A B * bothM C D = bothM (A * C) (B * D) := by
  apply bothM_ext <;> intro i j <;> simp [Matrix.mul_apply, Fin.sum_univ_add]

theorem bothM_mulVec (A : Mat m n) (B : Mat m' n') (a : Vec n) (b : Vec n') :
    bothM A B *ᵥ both a b = both (A *ᵥ a) (B *ᵥ b) := by
  apply both_ext <;> intro i <;> simp [mulVec, dotProduct, Fin.sum_univ_add]

theorem bothM_add (A C : Mat m n) (B D : Mat m' n') : bothM A B + bothM C D = bothM (A + C) (B + D) := by
  apply bothM_ext <;> intro i j <;> simp

theorem bothM_sub (A C : Mat m n) (B D : Mat m' n') : bothM A B - bothM C D = bothM (A - C) (B - D) := by
  apply bothM_ext <;> intro i j <;> simp

theorem bothM_smul (c : ℝ) (A : Mat m n) (B : Mat m' n') : c • bothM A B = bothM (c • A) (c • B) := by
  apply bothM_ext <;> intro i j <;> simp

theorem bothM_transpose (A : Mat m n) (B : Mat m' n') : (bothM A B)ᵀ = bothM Aᵀ Bᵀ := by
  apply bothM_ext <;> intro i j <;> simp

theorem bothM_one : bothM (1 : Mat n n) (1 : Mat n' n') = 1 := by
  apply bothM_ext <;> intro i j <;> simp [Matrix.one_apply] <;> intro h <;>
    have h := congrArg Fin.val h <;> simp at h <;> omega

theorem both_add (a c : Vec n) (b d : Vec n') : both a b + both c d = both (a + c) (b + d) := by
  apply both_ext <;> intro i <;> simp

theorem both_sub (a c : Vec n) (b d : Vec n') : both a b - both c d = both (a - c) (b - d) := by
  apply both_ext <;> intro i <;> simp

theorem both_dot (a c : Vec n) (b d : Vec n') : both a b ⬝ᵥ both c d = a ⬝ᵥ c + b ⬝ᵥ d := by
  simp [dotProduct, Fin.sum_univ_add]

theorem bothM_det (A : Mat n n) (B : Mat n' n') : (bothM A B).det = A.det * B.det := by
  have : (bothM A B).submatrix finSumFinEquiv finSumFinEquiv = fromBlocks A 0 0 B := by
    ext i j; rcases i with i | i <;> rcases j with j | j <;> simp
  rw [← det_submatrix_equiv_self finSumFinEquiv, this, det_fromBlocks_zero₂₁]

theorem bothM_npInv {A : Mat n n} {B : Mat n' n'} {AI : Mat n n} {BI : Mat n' n'} (hA : npInv A = some AI)
    (hB : npInv B = some BI) : npInv (bothM A B) = some (bothM AI BI) := by
  obtain ⟨a1, rfl⟩ := npInv_eq_some.1 hA
  obtain ⟨b1, rfl⟩ := npInv_eq_some.1 hB
  refine npInv_eq_some.2 ⟨by rw [bothM_det]; exact mul_ne_zero a1 b1, (inv_eq_right_inv ?_).symm⟩
  rw [bothM_mul, mul_nonsing_inv _ (isUnit_iff_ne_zero.2 a1), mul_nonsing_inv _ (isUnit_iff_ne_zero.2 b1),
    bothM_one]

end


/-- A call on the two separate filters. -/
inductive TwoOp (m l m' l' : ℕ)
  /-- `predict()` on both -/
  | predict
  /-- `predict(u)` on the one, `predict(u')` on the other -/
  | control (u : Vec l) (u' : Vec l')
  /-- `update(z)` on the one, `update(z')` on the other -/
  | update (z : Vec m) (z' : Vec m')
  /-- `update(None)` on both -/
  | gap
  /-- `update(z)` on the first one only -/
  | first (z : Vec m)
  /-- `update(z')` on the second one only -/
  | second (z' : Vec m')

noncomputable def TwoOp.onFirst (s : KF n m l) : TwoOp m l m' l' → Exec (KF n m l)
  | .predict => s.predict
  | .control u _ => s.predict (.vec u)
  | .update z _ => s.update (some z)
  | .gap => s.update none
  | .first z => s.update (some z)
  | .second _ => .ok s

noncomputable def TwoOp.onSecond (s : KF n' m' l') : TwoOp m l m' l' → Exec (KF n' m' l')
  | .predict => s.predict
  | .control _ u' => s.predict (.vec u')
  | .update _ z' => s.update (some z')
  | .gap => s.update none
  | .first _ => .ok s
  | .second z' => s.update (some z')

/-- The corresponding call on one filter for the combined system; a measurement of one subsystem
only is fed in with `update_sequential`. -/
noncomputable def TwoOp.onBoth (t : KF (n + n') (m + m') (l + l')) :
    TwoOp m l m' l' → Exec (KF (n + n') (m + m') (l + l'))
  | .predict => t.predict
  | .control u u' => t.predict (.vec (both u u'))
  | .update z z' => t.update (some (both z z'))
  | .gap => t.update none
  | .first z => t.updateSequential 0 z
  | .second z' => t.updateSequential m z'

/-- The combined control matrix. -/
def BothB (B : Option (Mat n l)) (B' : Option (Mat n' l')) : Option (Mat (n + n') (l + l')) → Prop
  | none => B = none ∧ B' = none
  | some C => ∃ A A', B = some A ∧ B' = some A' ∧ C = bothM A A'

/-- `t` is the filter for the two systems of `s` and `s'` put together: the states are stacked and all
matrices are block diagonal. -/
structure Stacked (s : KF n m l) (s' : KF n' m' l') (t : KF (n + n') (m + m') (l + l')) : Prop where
  x : t.x = both s.x s'.x
  P : t.P = bothM s.P s'.P
  Q : t.Q = bothM s.Q s'.Q
  F : t.F = bothM s.F s'.F
  H : t.H = bothM s.H s'.H
  R : t.R = bothM s.R s'.R
  B : BothB s.B s'.B t.B
  alphaSq : t.alphaSq = s.alphaSq
  alphaSq' : s'.alphaSq = s.alphaSq
  inv : s.inv = npInv
  inv' : s'.inv = npInv
  inv'' : t.inv = npInv

theorem stacked_predict {s : KF n m l} {s' : KF n' m' l'} {t : KF (n + n') (m + m') (l + l')}
    (h : Stacked s s' t) (c : Option (Vec l × Vec l')) {s1 s1'}
    (h1 : s.predict (c.elim .none fun c => .vec c.1) = .ok s1)
    (h2 : s'.predict (c.elim .none fun c => .vec c.2) = .ok s1') :
    ∃ t1, t.predict (c.elim .none fun c => .vec (both c.1 c.2)) = .ok t1 ∧ Stacked s1 s1' t1 := by
  have hP : t.alphaSq • (t.F * t.P * t.Fᵀ) + t.Q = bothM (s.alphaSq • (s.F * s.P * s.Fᵀ) + s.Q)
      (s'.alphaSq • (s'.F * s'.P * s'.Fᵀ) + s'.Q) := by
    rw [h.alphaSq', h.alphaSq, h.P, h.F, h.Q, bothM_transpose, bothM_mul, bothM_mul, bothM_smul, bothM_add]
  have hx : t.F *ᵥ t.x = both (s.F *ᵥ s.x) (s'.F *ᵥ s'.x) := by rw [h.F, h.x, bothM_mulVec]
  have hB := h.B
  cases hb : t.B with
  | none =>
    rw [hb] at hB
    obtain ⟨b1, b2⟩ := hB
    have e (k j i : ℕ) (u : UArg k) : KF.control (none : Option (Mat j k)) u = .ok none := rfl
    simp only [KF.predict, b1, Option.none_or, KF.control, Except.ok.injEq] at h1
    simp only [KF.predict, b2, Option.none_or, KF.control, Except.ok.injEq] at h2
    refine ⟨_, by simp only [KF.predict, hb, Option.none_or, KF.control]; rfl, ?_⟩
    subst h1 h2
    exact ⟨hx, hP, h.Q, h.F, h.H, h.R, by exact ⟨rfl, rfl⟩, h.alphaSq, h.alphaSq', h.inv, h.inv', h.inv''⟩
  | some C =>
    rw [hb] at hB
    obtain ⟨A, A', b1, b2, rfl⟩ := hB
    cases c with
    | none =>
      simp only [Option.elim, KF.predict, b1, Option.none_or, KF.control, Except.ok.injEq] at h1
      simp only [Option.elim, KF.predict, b2, Option.none_or, KF.control, Except.ok.injEq] at h2
      refine ⟨_, by simp only [Option.elim, KF.predict, hb, Option.none_or, KF.control]; rfl, ?_⟩
      subst h1 h2
      exact ⟨hx, hP, h.Q, h.F, h.H, h.R, ⟨A, A', rfl, rfl, rfl⟩, h.alphaSq, h.alphaSq', h.inv, h.inv', h.inv''⟩
    | some c =>
      simp only [Option.elim, KF.predict, b1, Option.none_or, KF.control, Except.ok.injEq] at h1
      simp only [Option.elim, KF.predict, b2, Option.none_or, KF.control, Except.ok.injEq] at h2
      refine ⟨_, by simp only [Option.elim, KF.predict, hb, Option.none_or, KF.control]; rfl, ?_⟩
      subst h1 h2
      refine ⟨?_, hP, h.Q, h.F, h.H, h.R, ⟨A, A', rfl, rfl, rfl⟩, h.alphaSq, h.alphaSq', h.inv, h.inv', h.inv''⟩
      show t.F *ᵥ t.x + bothM A A' *ᵥ both c.1 c.2 = _
      rw [hx, bothM_mulVec, both_add]
      rfl

/-- The measurement update of stacked systems. -/
theorem stacked_meas {x : Vec n} {x' : Vec n'} {P : Mat n n} {P' : Mat n' n'} {H : Mat m n} {H' : Mat m' n'}
    {R : Mat m m} {R' : Mat m' m'} {z : Vec m} {z' : Vec m'} {SI : Mat m m} {SI' : Mat m' m'} :
    bothM H H' * (bothM P P' * (bothM H H')ᵀ) + bothM R R' = bothM (H * (P * Hᵀ) + R) (H' * (P' * H'ᵀ) + R') ∧
    both z z' - bothM H H' *ᵥ both x x' = both (z - H *ᵥ x) (z' - H' *ᵥ x') ∧
    bothM P P' * (bothM H H')ᵀ * bothM SI SI' = bothM (P * Hᵀ * SI) (P' * H'ᵀ * SI') ∧
    ∀ (K : Mat n m) (K' : Mat n' m') (y : Vec m) (y' : Vec m'),
      both x x' + bothM K K' *ᵥ both y y' = both (x + K *ᵥ y) (x' + K' *ᵥ y') ∧
      (1 - bothM K K' * bothM H H') * bothM P P' * (1 - bothM K K' * bothM H H')ᵀ +
          bothM K K' * bothM R R' * (bothM K K')ᵀ =
        bothM ((1 - K * H) * P * (1 - K * H)ᵀ + K * R * Kᵀ)
          ((1 - K' * H') * P' * (1 - K' * H')ᵀ + K' * R' * K'ᵀ) := by
  simp only [← bothM_one, bothM_transpose, bothM_mul, bothM_add, bothM_sub, bothM_mulVec, both_sub, both_add,
    implies_true, and_self]

theorem stacked_update {s : KF n m l} {s' : KF n' m' l'} {t : KF (n + n') (m + m') (l + l')}
    (h : Stacked s s' t) (z : Vec m) (z' : Vec m') {s1 s1'} (h1 : s.update (some z) = .ok s1)
    (h2 : s'.update (some z') = .ok s1') :
    ∃ t1, t.update (some (both z z')) = .ok t1 ∧ Stacked s1 s1' t1 ∧ t1.K = bothM s1.K s1'.K ∧
      t1.S = bothM s1.S s1'.S ∧ t1.y = both s1.y s1'.y ∧ t1.logLik = none ∧ s1.logLik = none ∧
      s1'.logLik = none := by
  obtain ⟨SI, g1, rfl⟩ := KF.update_ok h1
  obtain ⟨SI', g2, rfl⟩ := KF.update_ok h2
  rw [h.inv] at g1
  rw [h.inv'] at g2
  obtain ⟨e1, e2, e3, e4⟩ := stacked_meas (x := s.x) (x' := s'.x) (P := s.P) (P' := s'.P) (H := s.H) (H' := s'.H)
    (R := s.R) (R' := s'.R) (z := z) (z' := z') (SI := SI) (SI' := SI')
  have g := bothM_npInv g1 g2
  simp only [MatArg.resolve, Option.getD_none] at g
  cases hu : t.update (some (both z z')) with
  | error e => simp only [KF.update, MatArg.resolve, Option.getD_none, h.inv'', h.P, h.H, h.R, e1, g, reduceCtorEq] at hu
  | ok t1 =>
    obtain ⟨SI'', g3, hf⟩ := KF.update_ok hu
    simp only [MatArg.resolve, Option.getD_none, h.inv'', h.P, h.H, h.R, e1, g, Option.some.injEq] at g3
    subst g3
    simp only [MatArg.resolve, Option.getD_none, h.x, h.P, h.H, h.R, e1, e2, e3, (e4 _ _ _ _).1, (e4 _ _ 0 0).2] at hf
    subst hf
    exact ⟨_, rfl, ⟨rfl, rfl, h.Q, h.F, rfl, rfl, h.B, h.alphaSq, h.alphaSq', h.inv, h.inv', h.inv''⟩, rfl, rfl, rfl,
      rfl, rfl, rfl⟩


/-- A measurement matrix seeing only the first subsystem. -/
def rowL {k : ℕ} (H : Mat k n) : Mat k (n + n') := fun i => both (H i) (0)

theorem rowL_mulVec {k : ℕ} (H : Mat k n) (x : Vec n) (x' : Vec n') :
    rowL (n' := n') H *ᵥ both x x' = H *ᵥ x := by
  funext i; simp [rowL, mulVec, dotProduct, Fin.sum_univ_add]

theorem rowL_S {k : ℕ} (H : Mat k n) (P : Mat n n) (P' : Mat n' n') :
    rowL H * (bothM P P' * (rowL H)ᵀ) = H * (P * Hᵀ) := by
  ext i j; simp [rowL, Matrix.mul_apply, Fin.sum_univ_add]

theorem rowL_K {k : ℕ} (H : Mat k n) (P : Mat n n) (P' : Mat n' n') (SI : Mat k k) :
    bothM P P' * (rowL H)ᵀ * SI = (rowL ((P * Hᵀ * SI)ᵀ))ᵀ := by
  ext i j
  refine Fin.addCases (fun i => ?_) (fun i => ?_) i <;>
    simp [rowL, Matrix.mul_apply, Fin.sum_univ_add, mul_comm]

theorem rowL_x {k : ℕ} (K : Mat n k) (x : Vec n) (x' : Vec n') (y : Vec k) :
    both x x' + (rowL Kᵀ)ᵀ *ᵥ y = both (x + K *ᵥ y) x' := by
  apply both_ext <;> intro i <;> simp [rowL, mulVec, dotProduct]

theorem rowL_P {k : ℕ} (H : Mat k n) (K : Mat n k) (P : Mat n n) (P' : Mat n' n') (R : Mat k k) :
    (1 - (rowL Kᵀ)ᵀ * rowL H) * bothM P P' * (1 - (rowL Kᵀ)ᵀ * rowL H)ᵀ + (rowL Kᵀ)ᵀ * R * ((rowL Kᵀ)ᵀ)ᵀ =
      bothM ((1 - K * H) * P * (1 - K * H)ᵀ + K * R * Kᵀ) P' := by
  have e1 : (rowL (n' := n') Kᵀ)ᵀ * rowL (n' := n') H = bothM (K * H) 0 := by
    apply bothM_ext <;> intro i j <;> simp [rowL, Matrix.mul_apply]
  have e2 : (rowL (n' := n') Kᵀ)ᵀ * R * ((rowL (n' := n') Kᵀ)ᵀ)ᵀ = bothM (K * R * Kᵀ) 0 := by
    apply bothM_ext <;> intro i j <;> simp [rowL, Matrix.mul_apply]
  rw [e1, e2, ← bothM_one]
  simp only [bothM_sub, bothM_mul, bothM_transpose, bothM_add, sub_zero, transpose_one, Matrix.one_mul,
    Matrix.mul_one, add_zero]

/-- Only the first subsystem is measured. -/
theorem stacked_first {s : KF n m l} {s' : KF n' m' l'} {t : KF (n + n') (m + m') (l + l')}
    (h : Stacked s s' t) (z : Vec m) {s1} (h1 : s.update (some z) = .ok s1) :
    ∃ t1, t.updateSequential 0 z = .ok t1 ∧ Stacked s1 s' t1 := by
  obtain ⟨SI, g1, rfl⟩ := KF.update_ok h1
  rw [h.inv] at g1
  have hb : 0 + m ≤ m + m' := by omega
  have ei (i : Fin m) : KF.sliceIdx hb i = Fin.castAdd m' i := Fin.ext (by simp [KF.sliceIdx])
  have eH : t.H.submatrix (KF.sliceIdx hb) id = rowL s.H := by
    rw [h.H]
    funext i
    apply both_ext <;> intro j <;> simp [rowL, ei]
  have eR : t.R.submatrix (KF.sliceIdx hb) (KF.sliceIdx hb) = s.R := by
    rw [h.R]
    ext i j; simp [ei]
  simp only [MatArg.resolve, Option.getD_none] at g1
  obtain ⟨g3, g4⟩ := npInv_eq_some.1 g1
  obtain ⟨t1, hu⟩ := KF.updateSequential_total t hb z .none none (by
    simp only [MatArg.resolve, Option.getD_none, eH, eR, h.P, rowL_S]
    exact g3)
  obtain ⟨hb', Ki, hd, hK, hf⟩ := KF.updateSequential_ok hu
  simp only [MatArg.resolve, Option.getD_none, eH, eR, h.P, rowL_S, ← g4, rowL_K] at hK
  subst hK
  simp only [MatArg.resolve, Option.getD_none, eH, eR, h.P, h.x, rowL_mulVec, rowL_x, rowL_P] at hf
  subst hf
  exact ⟨_, hu, ⟨rfl, rfl, h.Q, h.F, h.H, h.R, h.B, h.alphaSq, h.alphaSq', h.inv, h.inv', h.inv''⟩⟩

/-- A measurement matrix seeing only the second subsystem. -/
def rowR {k : ℕ} (H : Mat k n') : Mat k (n + n') := fun i => both (0) (H i)

theorem rowR_mulVec {k : ℕ} (H : Mat k n') (x : Vec n) (x' : Vec n') :
    rowR (n := n) H *ᵥ both x x' = H *ᵥ x' := by
  funext i; simp [rowR, mulVec, dotProduct, Fin.sum_univ_add]

theorem rowR_S {k : ℕ} (H : Mat k n') (P : Mat n n) (P' : Mat n' n') :
    rowR H * (bothM P P' * (rowR H)ᵀ) = H * (P' * Hᵀ) := by
  ext i j; simp [rowR, Matrix.mul_apply, Fin.sum_univ_add]

theorem rowR_K {k : ℕ} (H : Mat k n') (P : Mat n n) (P' : Mat n' n') (SI : Mat k k) :
    bothM P P' * (rowR H)ᵀ * SI = (rowR ((P' * Hᵀ * SI)ᵀ))ᵀ := by
  ext i j
  refine Fin.addCases (fun i => ?_) (fun i => ?_) i <;>
    simp [rowR, Matrix.mul_apply, Fin.sum_univ_add, mul_comm]

theorem rowR_x {k : ℕ} (K : Mat n' k) (x : Vec n) (x' : Vec n') (y : Vec k) :
    both x x' + (rowR Kᵀ)ᵀ *ᵥ y = both x (x' + K *ᵥ y) := by
  apply both_ext <;> intro i <;> simp [rowR, mulVec, dotProduct]

theorem rowR_P {k : ℕ} (H : Mat k n') (K : Mat n' k) (P : Mat n n) (P' : Mat n' n') (R : Mat k k) :
    (1 - (rowR Kᵀ)ᵀ * rowR H) * bothM P P' * (1 - (rowR Kᵀ)ᵀ * rowR H)ᵀ + (rowR Kᵀ)ᵀ * R * ((rowR Kᵀ)ᵀ)ᵀ =
      bothM P ((1 - K * H) * P' * (1 - K * H)ᵀ + K * R * Kᵀ) := by
  have e1 : (rowR (n := n) Kᵀ)ᵀ * rowR (n := n) H = bothM 0 (K * H) := by
    apply bothM_ext <;> intro i j <;> simp [rowR, Matrix.mul_apply]
  have e2 : (rowR (n := n) Kᵀ)ᵀ * R * ((rowR (n := n) Kᵀ)ᵀ)ᵀ = bothM 0 (K * R * Kᵀ) := by
    apply bothM_ext <;> intro i j <;> simp [rowR, Matrix.mul_apply]
  rw [e1, e2, ← bothM_one]
  simp only [bothM_sub, bothM_mul, bothM_transpose, bothM_add, sub_zero, transpose_one, Matrix.one_mul,
    Matrix.mul_one, add_zero]

/-- Only the second subsystem is measured. -/
theorem stacked_second {s : KF n m l} {s' : KF n' m' l'} {t : KF (n + n') (m + m') (l + l')}
    (h : Stacked s s' t) (z : Vec m') {s1} (h1 : s'.update (some z) = .ok s1) :
    ∃ t1, t.updateSequential m z = .ok t1 ∧ Stacked s s1 t1 := by
  obtain ⟨SI, g1, rfl⟩ := KF.update_ok h1
  rw [h.inv'] at g1
  have hb : m + m' ≤ m + m' := by omega
  have ei (i : Fin m') : KF.sliceIdx hb i = Fin.natAdd m i := Fin.ext (by simp [KF.sliceIdx])
  have eH : t.H.submatrix (KF.sliceIdx hb) id = rowR s'.H := by
    rw [h.H]
    funext i
    apply both_ext <;> intro j <;> simp [rowR, ei]
  have eR : t.R.submatrix (KF.sliceIdx hb) (KF.sliceIdx hb) = s'.R := by
    rw [h.R]
    ext i j; simp [ei]
  simp only [MatArg.resolve, Option.getD_none] at g1
  obtain ⟨g3, g4⟩ := npInv_eq_some.1 g1
  obtain ⟨t1, hu⟩ := KF.updateSequential_total t hb z .none none (by
    simp only [MatArg.resolve, Option.getD_none, eH, eR, h.P, rowR_S]
    exact g3)
  obtain ⟨hb', Ki, hd, hK, hf⟩ := KF.updateSequential_ok hu
  simp only [MatArg.resolve, Option.getD_none, eH, eR, h.P, rowR_S, ← g4, rowR_K] at hK
  subst hK
  simp only [MatArg.resolve, Option.getD_none, eH, eR, h.P, h.x, rowR_mulVec, rowR_x, rowR_P] at hf
  subst hf
  exact ⟨_, hu, ⟨rfl, rfl, h.Q, h.F, h.H, h.R, h.B, h.alphaSq, h.alphaSq', h.inv, h.inv', h.inv''⟩⟩

/-- **C88.** Put two systems that do not influence each other into one filter: stacked states and
measurements, block diagonal `F`, `H`, `P`, `Q`, `R` and control matrix.  Whatever calls are made,
as long as the two separate filters do not raise, the combined one does not either, and it always
holds their two estimates side by side with uncorrelated covariances.  A measurement of one of the
subsystems alone, fed in with `update_sequential`, leaves the other one as it was. -/
theorem C88_decoupled {s : KF n m l} {s' : KF n' m' l'} {t : KF (n + n') (m + m') (l + l')}
    (h : Stacked s s' t) (ops : List (TwoOp m l m' l')) {r r'} (h1 : runList TwoOp.onFirst s ops = .ok r)
    (h2 : runList TwoOp.onSecond s' ops = .ok r') :
    ∃ q, runList TwoOp.onBoth t ops = .ok q ∧ q.x = both r.x r'.x ∧ q.P = bothM r.P r'.P ∧ Stacked r r' q := by
  induction ops generalizing s s' t with
  | nil =>
    cases h1; cases h2
    exact ⟨t, rfl, h.x, h.P, h⟩
  | cons op ops ih =>
    simp only [runList] at h1 h2
    cases g1 : TwoOp.onFirst s op with
    | error e => simp [g1] at h1
    | ok s1 =>
      cases g2 : TwoOp.onSecond s' op with
      | error e => simp [g2] at h2
      | ok s1' =>
        simp only [g1] at h1
        simp only [g2] at h2
        have key : ∃ t1, TwoOp.onBoth t op = .ok t1 ∧ Stacked s1 s1' t1 := by
          cases op with
          | predict => exact stacked_predict h none g1 g2
          | control u u' => exact stacked_predict h (some (u, u')) g1 g2
          | update z z' =>
            obtain ⟨t1, k1, k2, -⟩ := stacked_update h z z' g1 g2
            exact ⟨t1, k1, k2⟩
          | gap =>
            cases g1; cases g2
            exact ⟨_, rfl, ⟨h.x, h.P, h.Q, h.F, h.H, h.R, h.B, h.alphaSq, h.alphaSq', h.inv, h.inv', h.inv''⟩⟩
          | first z => cases g2; exact stacked_first h z g1
          | second z' => cases g1; exact stacked_second h z' g2
        obtain ⟨t1, k1, k2⟩ := key
        obtain ⟨q, q1, q2⟩ := ih k2 h1 h2
        exact ⟨q, by simp only [runList, k1]; exact q1, q2⟩

/-- **C88 (likelihood).** The likelihood of a joint measurement is the product of the separate ones:
the log-likelihoods add up. -/
theorem C88_likelihood {s : KF n m l} {s' : KF n' m' l'} {t : KF (n + n') (m + m') (l + l')}
    (h : Stacked s s' t) (z : Vec m) (z' : Vec m') {s1 s1'} (h1 : s.update (some z) = .ok s1)
    (h2 : s'.update (some z') = .ok s1') (hS : s1.S.PosDef) (hS' : s1'.S.PosDef) :
    ∃ t1, t.update (some (both z z')) = .ok t1 ∧
      t1.readLogLik.1 = s1.readLogLik.1 + s1'.readLogLik.1 := by
  obtain ⟨t1, k1, -, -, k2, k3, k4, k5, k6⟩ := stacked_update h z z' h1 h2
  refine ⟨t1, k1, ?_⟩
  have hi : (bothM s1.S s1'.S)⁻¹ = bothM s1.S⁻¹ s1'.S⁻¹ := by
    apply inv_eq_right_inv
    rw [bothM_mul, mul_nonsing_inv _ (PD.isUnit_det hS), mul_nonsing_inv _ (PD.isUnit_det hS'), bothM_one]
  simp only [KF.readLogLik, k4, k5, k6, logpdf, k2, k3, hi, bothM_mulVec, both_dot, bothM_det]
  rw [Real.log_mul hS.det_pos.ne' hS'.det_pos.ne']
  push_cast
  ring

/-- Two filters side by side as one filter. -/
noncomputable def KF.stack (s : KF n m l) (s' : KF n' m' l') (B : Option (Mat (n + n') (l + l'))) :
    KF (n + n') (m + m') (l + l') :=
  { KF.fresh (n + n') (m + m') (l + l') with
    x := both s.x s'.x, P := bothM s.P s'.P, Q := bothM s.Q s'.Q, F := bothM s.F s'.F, H := bothM s.H s'.H
    R := bothM s.R s'.R, B := B }

/-- A scalar filter with a control input. -/
private noncomputable def oneKF : KF 1 1 1 := { KF.fresh 1 1 1 with H := 1, B := some 1 }

/-- A constant-velocity filter whose velocity is controlled. -/
private noncomputable def twoKF : KF 2 1 1 :=
  { KF.fresh 2 1 1 with F := !![1, 1; 0, 1], H := !![1, 0], B := some !![0; 1] }

/-- Controlled predictions, a measurement of the second subsystem alone, a gap. -/
private def mixedOps : List (TwoOp 1 1 1 1) := [.control ![3] ![4], .second ![2], .gap, .predict]

/-- Non-vacuity of C88: a constant-velocity filter next to a scalar one. -/
example : ∃ q r r', runList TwoOp.onFirst twoKF mixedOps = .ok r ∧ runList TwoOp.onSecond oneKF mixedOps = .ok r' ∧
    runList TwoOp.onBoth (twoKF.stack oneKF (some (bothM !![0; 1] 1))) mixedOps = .ok q ∧
    q.x = both r.x r'.x ∧ q.P = bothM r.P r'.P := by
  obtain ⟨r, h1⟩ : ∃ r, runList TwoOp.onFirst twoKF mixedOps = .ok r := ⟨_, rfl⟩
  obtain ⟨r', h2⟩ : ∃ r', runList TwoOp.onSecond oneKF mixedOps = .ok r' := by
    have hd : ((1 : Mat 1 1) * (((1 : ℝ) • (1 * 1 * 1ᵀ) + 1) * 1ᵀ) + 1).det ≠ 0 := by
      simp; norm_num
    simp only [mixedOps, runList, TwoOp.onSecond, KF.predict, Option.none_or, KF.control, oneKF, KF.fresh,
      Option.getD_none, MatArg.resolve, KF.update, npInv_of_det_ne hd]
    exact ⟨_, rfl⟩
  obtain ⟨q, g1, g2, g3, -⟩ := C88_decoupled (t := twoKF.stack oneKF (some (bothM !![0; 1] 1)))
    ⟨rfl, rfl, rfl, rfl, rfl, rfl, ⟨!![0; 1], 1, rfl, rfl, rfl⟩, rfl, rfl, rfl, rfl, rfl⟩ _ h1 h2
  exact ⟨q, r, r', h1, h2, g1, g2, g3⟩

end Filterpy
