import Verif.Lemmas.Gauss
import Verif.Lemmas.Kalman
import Verif.Props.KalmanBayes

/-!
# KalmanFilter: C14, sequential updating equals joint updating
-/

namespace Filterpy

open Matrix KF Spec

variable {n m l : ℕ}

/-- A block `(start, len)` of measurement indices contains `j`. -/
def inBlock (b : ℕ × ℕ) (j : ℕ) : Prop := b.1 ≤ j ∧ j < b.1 + b.2

instance (b : ℕ × ℕ) (j : ℕ) : Decidable (inBlock b j) := by unfold inBlock; infer_instance

/-- The blocks split `0, …, m-1`: each lies in range, and every index is in exactly one. -/
def IsPartition (m : ℕ) (bs : List (ℕ × ℕ)) : Prop :=
  (∀ b ∈ bs, b.1 + b.2 ≤ m) ∧ ∀ j < m, bs.countP (fun b => decide (inBlock b j)) = 1

/-- `R` is block diagonal: entries linking a block to its complement vanish. -/
def BlockDiag (R : Mat m m) (bs : List (ℕ × ℕ)) : Prop :=
  ∀ b ∈ bs, ∀ i j : Fin m, inBlock b i → ¬ inBlock b j → R i j = 0

/-- `z[start : start+len]`. -/
noncomputable def sliceOf (z : Vec m) (b : ℕ × ℕ) : Vec b.2 :=
  fun i => if h : b.1 + i < m then z ⟨b.1 + i, h⟩ else 0

/-- `for (start, len) in blocks: kf.update_sequential(start, z[start:start+len])`. -/
noncomputable def seqRun (s : KF n m l) (z : Vec m) (bs : List (ℕ × ℕ)) : Exec (KF n m l) :=
  runList (fun s b => s.updateSequential b.1 (sliceOf z b)) s bs

section blocks

/-- The selection matrix of a block. -/
def selMat {start len : ℕ} (hb : start + len ≤ m) : Mat m len :=
  (1 : Mat m m).submatrix id (sliceIdx hb)

theorem sliceIdx_inj {start len : ℕ} (hb : start + len ≤ m) :
    Function.Injective (sliceIdx hb) := by
  intro a b h
  have := congrArg Fin.val h
  simp only [sliceIdx] at this
  exact Fin.ext (by omega)

theorem sel_H {start len : ℕ} (hb : start + len ≤ m) (H : Mat m n) :
    H.submatrix (sliceIdx hb) id = (selMat hb)ᵀ * H := by
  ext i j
  simp [selMat, Matrix.mul_apply, Matrix.one_apply]

theorem sel_R {start len : ℕ} (hb : start + len ≤ m) (R : Mat m m) :
    R.submatrix (sliceIdx hb) (sliceIdx hb) = (selMat hb)ᵀ * R * selMat hb := by
  ext i j
  simp [selMat, Matrix.mul_apply, Matrix.one_apply]

theorem sel_z (b : ℕ × ℕ) (hb : b.1 + b.2 ≤ m) (z : Vec m) :
    sliceOf z b = (selMat hb)ᵀ *ᵥ z := by
  funext i
  have : b.1 + i < m := by omega
  simp only [sliceOf, dif_pos this, selMat, mulVec, dotProduct, transpose_apply, submatrix_apply,
    id, Matrix.one_apply, ite_mul, one_mul, zero_mul, Finset.sum_ite_eq', Finset.mem_univ, if_true]
  rfl

theorem sel_orth {start len : ℕ} (hb : start + len ≤ m) : (selMat hb)ᵀ * selMat hb = 1 := by
  ext i j
  simp only [selMat, Matrix.mul_apply, transpose_apply, submatrix_apply, id, Matrix.one_apply]
  simp only [ite_mul, one_mul, zero_mul, Finset.sum_ite_eq', Finset.mem_univ, if_true]
  simp [(sliceIdx_inj hb).eq_iff]

/-- `E Eᵀ` is the indicator of the block. -/
theorem sel_proj {start len : ℕ} (hb : start + len ≤ m) :
    selMat hb * (selMat hb)ᵀ
      = diagonal fun j : Fin m => if inBlock (start, len) j then (1 : ℝ) else 0 := by
  ext i j
  simp only [selMat, Matrix.mul_apply, transpose_apply, submatrix_apply, id, Matrix.one_apply,
    diagonal_apply]
  by_cases hij : i = j
  · subst hij
    rw [if_pos rfl]
    by_cases hin : inBlock (start, len) i
    · rw [if_pos hin]
      have h1 : start ≤ i := hin.1
      have h2 : (i : ℕ) < start + len := hin.2
      rw [Finset.sum_eq_single (⟨i - start, by omega⟩ : Fin len)]
      · have : i = sliceIdx hb ⟨i - start, by omega⟩ := Fin.ext (by simp [sliceIdx]; omega)
        rw [if_pos this]; norm_num
      · intro k _ hk
        rw [if_neg]; · norm_num
        intro h
        apply hk
        have := congrArg Fin.val h
        simp only [sliceIdx] at this
        exact Fin.ext (by simp; omega)
      · simp
    · rw [if_neg hin]
      apply Finset.sum_eq_zero
      intro k _
      rw [if_neg]; · norm_num
      intro h
      apply hin
      have := congrArg Fin.val h
      simp only [sliceIdx] at this
      exact ⟨by simp; omega, by simp; omega⟩
  · rw [if_neg hij]
    apply Finset.sum_eq_zero
    intro k _
    by_cases h1 : i = sliceIdx hb k
    · have h3 : j ≠ sliceIdx hb k := fun h2 => hij (h1.trans h2.symm)
      rw [if_neg h3]; simp
    · rw [if_neg h1]; simp

/-- Inverting one diagonal block of a block-diagonal `R`. -/
theorem block_inv {start len : ℕ} (hb : start + len ≤ m) {R : Mat m m} (hR : R.PosDef)
    (hbd : ∀ i j : Fin m, inBlock (start, len) i → ¬ inBlock (start, len) j → R i j = 0) :
    selMat hb * ((selMat hb)ᵀ * R * selMat hb)⁻¹ * (selMat hb)ᵀ
      = R⁻¹ * (selMat hb * (selMat hb)ᵀ) := by
  set E := selMat hb with hE
  set D := E * Eᵀ with hD
  have hRi : R * R⁻¹ = 1 := mul_nonsing_inv _ (PD.isUnit_det hR)
  have hRi' : R⁻¹ * R = 1 := nonsing_inv_mul _ (PD.isUnit_det hR)
  have hcomm : R * D = D * R := by
    ext i j
    rw [hD, hE, sel_proj, mul_diagonal, diagonal_mul]
    by_cases hi : inBlock (start, len) i <;> by_cases hj : inBlock (start, len) j
    · simp [hi, hj]
    · simp [hi, hj, hbd i j hi hj]
    · have : R i j = R j i := by
        have := congrFun (congrFun (PD.symm hR) j) i
        simpa using this
      simp [hi, hj, this, hbd j i hj hi]
    · simp [hi, hj]
  have hcomm' : R⁻¹ * D = D * R⁻¹ := by
    calc R⁻¹ * D = R⁻¹ * (D * R) * R⁻¹ := by
          rw [Matrix.mul_assoc, Matrix.mul_assoc, hRi, Matrix.mul_one]
      _ = R⁻¹ * (R * D) * R⁻¹ := by rw [hcomm]
      _ = D * R⁻¹ := by rw [← Matrix.mul_assoc, hRi', Matrix.one_mul]
  have hDE : D * E = E := by
    rw [hD, Matrix.mul_assoc, hE, sel_orth, Matrix.mul_one]
  have hEE : Eᵀ * E = 1 := sel_orth hb
  have hinv : (Eᵀ * R * E)⁻¹ = Eᵀ * R⁻¹ * E := by
    apply inv_eq_right_inv
    calc Eᵀ * R * E * (Eᵀ * R⁻¹ * E) = Eᵀ * (R * D) * R⁻¹ * E := by
          rw [hD]; simp only [Matrix.mul_assoc]
      _ = Eᵀ * D * (R * R⁻¹) * E := by rw [hcomm]; simp only [Matrix.mul_assoc]
      _ = 1 := by rw [hRi, Matrix.mul_one, Matrix.mul_assoc, hDE, hEE]
  rw [hinv]
  calc E * (Eᵀ * R⁻¹ * E) * Eᵀ = D * R⁻¹ * D := by rw [hD]; simp only [Matrix.mul_assoc]
    _ = R⁻¹ * (D * D) := by rw [← hcomm', Matrix.mul_assoc]
    _ = R⁻¹ * D := by
      congr 1
      conv_lhs => rw [hD, ← Matrix.mul_assoc, ← hD, hDE]

/-- The sum of the block indicators, over a list of blocks. -/
def indSum (m : ℕ) (bs : List (ℕ × ℕ)) : Mat m m :=
  (bs.map fun b => diagonal fun j : Fin m => if inBlock b j then (1 : ℝ) else 0).sum

theorem indSum_eq (bs : List (ℕ × ℕ)) :
    indSum m bs = diagonal fun j : Fin m => (bs.countP (fun b => decide (inBlock b j)) : ℝ) := by
  induction bs with
  | nil => simp [indSum]
  | cons b bs ih =>
    have : indSum m (b :: bs)
        = (diagonal fun j : Fin m => if inBlock b j then (1 : ℝ) else 0) + indSum m bs := by
      simp [indSum]
    rw [this, ih, diagonal_add]
    congr 1
    funext j
    rw [List.countP_cons]
    by_cases h : inBlock b j <;> simp [h, add_comm]

end blocks

/-- Information form of one measurement update. -/
theorem info_step {k : ℕ} {P : Mat n n} {R : Mat k k} {H : Mat k n} (hP : P.PosDef)
    (hR : R.PosDef) (x : Vec n) (z : Vec k) :
    let K := P * Hᵀ * (H * (P * Hᵀ) + R)⁻¹
    let P' := (1 - K * H) * P * (1 - K * H)ᵀ + K * R * Kᵀ
    P'.PosDef ∧ P'⁻¹ = P⁻¹ + Hᵀ * R⁻¹ * H ∧
      P'⁻¹ *ᵥ (x + K *ᵥ (z - H *ᵥ x)) = P⁻¹ *ᵥ x + (Hᵀ * R⁻¹) *ᵥ z := by
  intro K P'
  have hS : (H * (P * Hᵀ) + R).PosDef := S_pd hP.posSemidef hR
  have e : P' = (1 - K * H) * P := joseph_simple (PD.symm hP) rfl
    (nonsing_inv_mul _ (PD.isUnit_det hS)) (inv_symm (PD.symm hS)) rfl
  have hpd : P'.PosDef := by rw [e]; exact post_pd hP hR
  have hi : P'⁻¹ = P⁻¹ + Hᵀ * R⁻¹ * H := by rw [e]; exact post_inv hP hR
  refine ⟨hpd, hi, ?_⟩
  have hg : P'⁻¹ * K = Hᵀ * R⁻¹ := by
    have : P' * (Hᵀ * R⁻¹) = K := by rw [e]; exact gain_info hP hR
    rw [← this, ← Matrix.mul_assoc, nonsing_inv_mul _ (PD.isUnit_det hpd), Matrix.one_mul]
  rw [mulVec_add, mulVec_mulVec, hg, hi, add_mulVec, mulVec_sub, mulVec_mulVec]
  abel

/-- What a run of `update_sequential` calls accumulates, in information form. -/
theorem seqRun_info (bs : List (ℕ × ℕ)) (s : KF n m l) (z : Vec m) (hP : s.P.PosDef)
    (hR : s.R.PosDef) (hin : ∀ b ∈ bs, b.1 + b.2 ≤ m) (hbd : BlockDiag s.R bs) :
    ∃ s', seqRun s z bs = .ok s' ∧ s'.P.PosDef ∧
      s'.P⁻¹ = s.P⁻¹ + s.Hᵀ * (s.R⁻¹ * indSum m bs) * s.H ∧
      s'.P⁻¹ *ᵥ s'.x = s.P⁻¹ *ᵥ s.x + (s.Hᵀ * (s.R⁻¹ * indSum m bs)) *ᵥ z := by
  induction bs generalizing s with
  | nil => exact ⟨s, rfl, hP, by simp [indSum], by simp [indSum]⟩
  | cons b bs ih =>
    have hb : b.1 + b.2 ≤ m := hin b (by simp)
    have hRb : (s.R.submatrix (sliceIdx hb) (sliceIdx hb)).PosDef :=
      hR.submatrix (sliceIdx_inj hb)
    obtain ⟨s1, h1⟩ := updateSequential_total s hb (sliceOf z b) .none none
      (PD.det_ne (S_pd hP.posSemidef hRb))
    obtain ⟨hb', Ki, h2⟩ := updateSequential_ok h1
    simp only [MatArg.resolve, Option.getD_none] at h2
    obtain ⟨-, rfl, h3⟩ := h2
    obtain ⟨i1, i2, i3⟩ := info_step hP hRb s.x (sliceOf z b)
      (H := s.H.submatrix (sliceIdx hb) id)
    have eP : s1.P⁻¹ = s.P⁻¹ + s.Hᵀ * (s.R⁻¹ * (selMat hb * (selMat hb)ᵀ)) * s.H := by
      rw [h3]; simp only
      rw [i2, ← block_inv hb hR (hbd b (by simp)), ← sel_R, sel_H]
      simp only [transpose_mul, transpose_transpose, Matrix.mul_assoc]
    have ex : s1.P⁻¹ *ᵥ s1.x
        = s.P⁻¹ *ᵥ s.x + (s.Hᵀ * (s.R⁻¹ * (selMat hb * (selMat hb)ᵀ))) *ᵥ z := by
      rw [h3]; simp only
      rw [i3, ← block_inv hb hR (hbd b (by simp)), ← sel_R, sel_H, sel_z b hb]
      simp only [transpose_mul, transpose_transpose, Matrix.mul_assoc, mulVec_mulVec]
    have a1 : s1.P.PosDef := by rw [h3]; exact i1
    have aR : s1.R = s.R := by rw [h3]
    have aH : s1.H = s.H := by rw [h3]
    obtain ⟨s', g1, g2, g3, g4⟩ := ih s1 a1 (by rw [aR]; exact hR)
      (fun b' h' => hin b' (by simp [h'])) (by rw [aR]; exact fun b' h' => hbd b' (by simp [h']))
    have hind : indSum m (b :: bs) = selMat hb * (selMat hb)ᵀ + indSum m bs := by
      rw [sel_proj]; simp [indSum]
    refine ⟨s', ?_, g2, ?_, ?_⟩
    · simp only [seqRun, runList, h1]; exact g1
    · rw [g3, eP, aR, aH, hind]
      simp only [Matrix.mul_add, Matrix.add_mul]; abel
    · rw [g4, ex, aR, aH, hind]
      simp only [Matrix.mul_add, add_mulVec]; abel

/-- **C14.** Split the measurement vector into blocks in any way and any order, `R` block diagonal
for that split, `P` and `R` positive definite: feeding the blocks one at a time to
`update_sequential` and giving the stacked measurement to `update` both succeed and end with the
same `x` and `P` (and the same recorded posterior). -/
theorem C14_sequential (s : KF n m l) (z : Vec m) (bs : List (ℕ × ℕ)) (hinv : s.inv = npInv)
    (hP : s.P.PosDef) (hR : s.R.PosDef) (hpart : IsPartition m bs) (hbd : BlockDiag s.R bs) :
    ∃ s₁ s₂, seqRun s z bs = .ok s₁ ∧ s.update (some z) = .ok s₂ ∧ s₁.x = s₂.x ∧ s₁.P = s₂.P := by
  obtain ⟨s₁, h1, p1, q1, r1⟩ := seqRun_info bs s z hP hR hpart.1 hbd
  have hone : indSum m bs = 1 := by
    rw [indSum_eq, ← diagonal_one]
    congr 1; funext j
    rw [hpart.2 j j.2]; norm_num
  rw [hone, Matrix.mul_one] at q1 r1
  obtain ⟨s₂, h2, -⟩ := update_pd s z .none none hinv hP hR
  obtain ⟨SI, g1, g2⟩ := update_ok h2
  rw [hinv] at g1
  obtain ⟨_, rfl⟩ := npInv_eq_some.1 g1
  simp only [MatArg.resolve, Option.getD_none] at g2
  obtain ⟨i1, i2, i3⟩ := info_step (H := s.H) hP hR s.x z
  have e2 : s₂.P⁻¹ = s.P⁻¹ + s.Hᵀ * s.R⁻¹ * s.H := by rw [g2]; exact i2
  have p2 : s₂.P.PosDef := by rw [g2]; exact i1
  have e3 : s₂.P⁻¹ *ᵥ s₂.x = s.P⁻¹ *ᵥ s.x + (s.Hᵀ * s.R⁻¹) *ᵥ z := by rw [g2]; exact i3
  have hPP : s₁.P = s₂.P := by
    have := congrArg (·⁻¹) (q1.trans e2.symm)
    simpa [nonsing_inv_nonsing_inv _ (PD.isUnit_det p1),
      nonsing_inv_nonsing_inv _ (PD.isUnit_det p2)] using this
  refine ⟨s₁, s₂, h1, h2, ?_, hPP⟩
  have := congrArg (s₂.P *ᵥ ·) (r1.trans e3.symm)
  rw [hPP] at this
  simpa [mulVec_mulVec, mul_nonsing_inv _ (PD.isUnit_det p2)] using this

/-- Hypotheses of C14 met: three sensors as a pair and a single one, fed in reverse order, with
correlated noise inside the pair. -/
example : ∃ s₁ s₂ : KF 2 3 1,
    seqRun ({ KF.fresh 2 3 1 with
      H := !![1, 0; 0, 1; 1, 1], R := !![2, 1, 0; 1, 2, 0; 0, 0, 3] } : KF 2 3 1)
      ![1, 2, 3] [(2, 1), (0, 2)] = .ok s₁ ∧
    ({ KF.fresh 2 3 1 with
      H := !![1, 0; 0, 1; 1, 1], R := !![2, 1, 0; 1, 2, 0; 0, 0, 3] } : KF 2 3 1).update
      (some ![1, 2, 3]) = .ok s₂ ∧ s₁.x = s₂.x ∧ s₁.P = s₂.P := by
  apply C14_sequential
  · rfl
  · exact PosDef.one
  · refine PosDef.of_dotProduct_mulVec_pos ?_ ?_
    · ext i j; fin_cases i <;> fin_cases j <;> simp
    · intro v hv
      have hne : ¬ (v 0 = 0 ∧ v 1 = 0 ∧ v 2 = 0) := by
        rintro ⟨a, b, c⟩
        apply hv; funext i; fin_cases i <;> simpa
      have e : star v ⬝ᵥ (!![2, 1, 0; 1, 2, 0; 0, 0, 3] *ᵥ v)
          = v 0 ^ 2 + v 1 ^ 2 + (v 0 + v 1) ^ 2 + 3 * v 2 ^ 2 := by
        simp [dotProduct, mulVec, Fin.sum_univ_three]; ring
      rw [e]
      by_contra hle
      apply hne
      refine ⟨?_, ?_, ?_⟩ <;>
      nlinarith [sq_nonneg (v 0), sq_nonneg (v 1), sq_nonneg (v 2), sq_nonneg (v 0 + v 1)]
  · refine ⟨by simp, ?_⟩
    intro j hj
    interval_cases j <;> decide
  · intro b hb i j hi hj
    simp only [List.mem_cons, List.not_mem_nil, or_false] at hb
    rcases hb with rfl | rfl <;> fin_cases i <;> fin_cases j <;> simp_all [inBlock]

end Filterpy
