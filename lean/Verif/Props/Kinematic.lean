import Verif.Model.Discretization
import Verif.Lemmas.Mat
import Verif.Lemmas.Blocks
import Mathlib.Algebra.Polynomial.Taylor
import Mathlib.Algebra.Polynomial.HasseDeriv
import Mathlib.Data.Nat.Choose.Sum
import Mathlib.Tactic.Linarith
import Mathlib.Tactic.FieldSimp
import Mathlib.Tactic.Ring
import Mathlib.Tactic.NormNum
import Mathlib.Tactic.FinCases

/-!
# Kinematic models: C52, C53
-/

namespace Filterpy

open Matrix Kinematic Discretization

/-- All branches of `kinematic_state_transition`, hard-coded or computed, have Taylor
coefficients as entries. -/
theorem transitionNat_apply (o : ℕ) (dt : ℝ) (i j : Fin (o + 1)) :
    transitionNat o dt i j =
      if (i : ℕ) ≤ j then dt ^ ((j : ℕ) - i) / (Nat.factorial ((j : ℕ) - i) : ℝ) else 0 := by
  match o with
  | 0 => fin_cases i; fin_cases j; simp [transitionNat]
  | 1 => fin_cases i <;> fin_cases j <;> simp [transitionNat]
  | 2 =>
    fin_cases i <;> fin_cases j <;> simp [transitionNat, Nat.factorial]
    · norm_num; ring
  | k + 3 =>
    simp only [transitionNat, general, Matrix.of_apply]
    by_cases h : i = ⟨0, i.pos⟩
    · rw [if_pos h, h]; simp
    · rw [if_neg h]

/-- **C52.** An integer order `≥ 0` is accepted, everything else that is not integral raises
`ValueError`. -/
theorem C52_args (dt : ℝ) :
    (∀ k : ℤ, k < 0 → stateTransition (.int k) dt = .error .valueError) ∧
    (∀ k : ℕ, stateTransition (.int k) dt = .ok ⟨k + 1, transitionNat k dt⟩) ∧
    (∀ x : ℝ, (x < 0 ∨ ∀ k : ℤ, (k : ℝ) ≠ x) →
      stateTransition (.float x) dt = .error .valueError) := by
  refine ⟨fun k hk => ?_, fun k => ?_, fun x hx => ?_⟩
  · unfold stateTransition; simp only; rw [if_neg (by omega)]
  · unfold stateTransition; simp
  · unfold stateTransition
    simp only
    rw [if_neg]
    rintro ⟨h1, h2⟩
    rcases hx with h | h
    · linarith
    · exact h _ h2

/-- An integral `float` order above two passes the check and then fails with a `TypeError`
from `np.zeros`. -/
theorem C52_float_refuted (dt : ℝ) : stateTransition (.float 3) dt = .error .typeError := by
  unfold stateTransition
  have : (⌊(3 : ℝ)⌋ : ℝ) = 3 := by
    have : ⌊(3 : ℝ)⌋ = 3 := by exact_mod_cast Int.floor_intCast (R := ℝ) 3
    rw [this]; norm_num
  simp only
  rw [if_pos ⟨by norm_num, this⟩, if_neg (by norm_num)]

/-- **C52.** Applied to the derivatives of a polynomial of degree at most `order` at time `t`, the
matrix gives its derivatives at time `t + dt`. -/
theorem C52_taylor (o : ℕ) (t dt : ℝ) (p : Polynomial ℝ) (hp : p.natDegree ≤ o) :
    transitionNat o dt *ᵥ (fun j : Fin (o + 1) => (Polynomial.derivative^[(j : ℕ)] p).eval t) =
      fun i : Fin (o + 1) => (Polynomial.derivative^[(i : ℕ)] p).eval (t + dt) := by
  funext i
  have hdeg : ∀ k, o < k → Polynomial.derivative^[k] p = 0 := fun k hk =>
    Polynomial.iterate_derivative_eq_zero (by omega)
  have h1 : (Polynomial.derivative^[(i : ℕ)] p).eval (t + dt) =
      ∑ k ∈ Finset.range (o + 1),
        (Polynomial.derivative^[k] (Polynomial.derivative^[(i : ℕ)] p)).eval t * dt ^ k /
          (Nat.factorial k : ℝ) := by
    have e : (Polynomial.derivative^[(i : ℕ)] p).eval (t + dt) =
        (Polynomial.taylor t (Polynomial.derivative^[(i : ℕ)] p)).eval dt := by
      rw [Polynomial.taylor_eval, add_comm]
    rw [e, Polynomial.eval_eq_sum_range' (n := o + 1)]
    · apply Finset.sum_congr rfl
      intro k _
      rw [Polynomial.taylor_coeff]
      have := congrArg (Polynomial.eval t)
        (Polynomial.factorial_smul_hasseDeriv (R := ℝ) k ▸ rfl :
          (k.factorial • Polynomial.hasseDeriv k) (Polynomial.derivative^[(i : ℕ)] p) =
            Polynomial.derivative^[k] (Polynomial.derivative^[(i : ℕ)] p))
      rw [LinearMap.smul_apply, Polynomial.eval_smul, nsmul_eq_mul] at this
      rw [← this]
      have : (Nat.factorial k : ℝ) ≠ 0 := by exact_mod_cast k.factorial_ne_zero
      field_simp
    · rw [Polynomial.natDegree_taylor]
      have := Polynomial.natDegree_iterate_derivative p (i : ℕ)
      omega
  rw [h1]
  simp only [mulVec, dotProduct, transitionNat_apply]
  rw [Fin.sum_univ_eq_sum_range (fun j => (if (i : ℕ) ≤ j then
    dt ^ (j - (i : ℕ)) / (Nat.factorial (j - (i : ℕ)) : ℝ) else 0) *
      (Polynomial.derivative^[j] p).eval t)]
  simp only [← Function.iterate_add_apply]
  have hi : (i : ℕ) ≤ o := by omega
  rw [← Finset.sum_range_add_sum_Ico _ (show (i : ℕ) ≤ o + 1 by omega), Finset.sum_eq_zero,
    zero_add, Finset.sum_Ico_eq_sum_range]
  · rw [← Finset.sum_range_add_sum_Ico (fun k => (Polynomial.derivative^[k + (i : ℕ)] p).eval t *
      dt ^ k / (Nat.factorial k : ℝ)) (show o + 1 - (i : ℕ) ≤ o + 1 by omega)]
    rw [Finset.sum_eq_zero (s := Finset.Ico _ _), add_zero]
    · apply Finset.sum_congr rfl
      intro k _
      rw [if_pos (by omega), show (i : ℕ) + k - i = k by omega, add_comm k]
      ring
    · intro k hk
      rw [Finset.mem_Ico] at hk
      rw [hdeg _ (by omega)]
      simp
  · intro k hk
    rw [Finset.mem_range] at hk
    rw [if_neg (by omega), zero_mul]

theorem sum_exp_conv (a b : ℝ) (n : ℕ) :
    ∑ k ∈ Finset.range (n + 1), a ^ k / (Nat.factorial k : ℝ) *
      (b ^ (n - k) / (Nat.factorial (n - k) : ℝ)) = (a + b) ^ n / (Nat.factorial n : ℝ) := by
  rw [add_pow, Finset.sum_div]
  apply Finset.sum_congr rfl
  intro k hk
  rw [Finset.mem_range] at hk
  have h := Nat.choose_mul_factorial_mul_factorial (show k ≤ n by omega)
  have h' : (n.choose k : ℝ) * k.factorial * (n - k).factorial = n.factorial := by exact_mod_cast h
  have h1 : (Nat.factorial k : ℝ) ≠ 0 := by exact_mod_cast k.factorial_ne_zero
  have h2 : (Nat.factorial (n - k) : ℝ) ≠ 0 := by exact_mod_cast (n - k).factorial_ne_zero
  have h3 : (Nat.factorial n : ℝ) ≠ 0 := by exact_mod_cast n.factorial_ne_zero
  rw [div_mul_div_comm, div_eq_div_iff (mul_ne_zero h1 h2) h3, ← h']
  ring

/-- **C52.** `F(a) F(b) = F(a + b)` and `F(0) = I`, for every order. -/
theorem C52_semigroup (o : ℕ) (a b : ℝ) :
    transitionNat o a * transitionNat o b = transitionNat o (a + b) ∧ transitionNat o 0 = 1 := by
  constructor
  · ext i k
    rw [Matrix.mul_apply]
    simp only [transitionNat_apply]
    rw [Fin.sum_univ_eq_sum_range (fun j => (if (i : ℕ) ≤ j then
      a ^ (j - (i : ℕ)) / (Nat.factorial (j - (i : ℕ)) : ℝ) else 0) *
        (if j ≤ (k : ℕ) then b ^ ((k : ℕ) - j) / (Nat.factorial ((k : ℕ) - j) : ℝ) else 0))]
    by_cases h : (i : ℕ) ≤ k
    · rw [if_pos h, ← sum_exp_conv]
      rw [← Finset.sum_range_add_sum_Ico _ (show (i : ℕ) ≤ o + 1 by omega), Finset.sum_eq_zero,
        zero_add, Finset.sum_Ico_eq_sum_range]
      · have hk : (k : ℕ) - i + 1 ≤ o + 1 - i := by omega
        rw [← Finset.sum_range_add_sum_Ico _ hk, Finset.sum_eq_zero (s := Finset.Ico _ _), add_zero]
        · apply Finset.sum_congr rfl
          intro j hj
          rw [Finset.mem_range] at hj
          rw [if_pos (by omega), if_pos (by omega), show (i : ℕ) + j - i = j by omega,
            show (k : ℕ) - (i + j) = k - i - j by omega]
        · intro j hj
          rw [Finset.mem_Ico] at hj
          rw [if_neg (show ¬ ((i : ℕ) + j ≤ k) by omega), mul_zero]
      · intro j hj
        rw [Finset.mem_range] at hj
        rw [if_neg (by omega), zero_mul]
    · rw [if_neg h]
      apply Finset.sum_eq_zero
      intro j _
      by_cases h1 : (i : ℕ) ≤ j
      · rw [if_neg (show ¬ j ≤ (k : ℕ) by omega), mul_zero]
      · rw [if_neg h1, zero_mul]
  · ext i j
    rw [transitionNat_apply, Matrix.one_apply]
    by_cases h : i = j
    · subst h; simp
    · rw [if_neg h]
      by_cases h1 : (i : ℕ) ≤ j
      · have : (j : ℕ) - i ≠ 0 := by
          intro h2; exact h (Fin.ext (by omega))
        rw [if_pos h1, zero_pow this, zero_div]
      · rw [if_neg h1]

example : transitionNat 4 2 0 4 = 2 / 3 := by
  rw [transitionNat_apply, if_pos (by decide)]
  norm_num [Nat.factorial]


/-! ## C53 -/

/-- `kinematic_kf` accepts exactly `dim ≥ 1`, `order ≥ 0`, `dim_z ≥ 1`. -/
theorem C53_args (dim order dimZ : ℤ) (dt : ℝ) (ob : Bool) :
    (∃ kf, kinematicKf dim order dt dimZ ob = .ok kf) ↔ 1 ≤ dim ∧ 0 ≤ order ∧ 1 ≤ dimZ := by
  by_cases h1 : dim < 1
  · simp only [kinematicKf, if_pos h1]; simp; omega
  by_cases h2 : order < 0
  · simp only [kinematicKf, if_neg h1, if_pos h2]; simp; omega
  by_cases h3 : dimZ < 1
  · simp only [kinematicKf, if_neg h1, if_neg h2, if_pos h3]; simp; omega
  simp only [kinematicKf, if_neg h1, if_neg h2, if_neg h3]
  exact ⟨fun _ => by omega, fun _ => ⟨_, rfl⟩⟩

theorem C53_args_error (dim order dimZ : ℤ) (dt : ℝ) (ob : Bool)
    (h : ¬ (1 ≤ dim ∧ 0 ≤ order ∧ 1 ≤ dimZ)) :
    kinematicKf dim order dt dimZ ob = .error .valueError := by
  by_cases h1 : dim < 1
  · simp only [kinematicKf, if_pos h1]
  by_cases h2 : order < 0
  · simp only [kinematicKf, if_neg h1, if_pos h2]
  by_cases h3 : dimZ < 1
  · simp only [kinematicKf, if_neg h1, if_neg h2, if_pos h3]
  omega

/-- Where the state vector keeps derivative `i` of coordinate `p`: `[x x' y y']` when
`order_by_dim`, `[x y x' y']` otherwise. -/
def Spec.stateIdx (dim o : ℕ) (ob : Bool) (p : Fin dim) (i : Fin (o + 1)) : Fin (dim * (o + 1)) :=
  if ob then ⟨p * (o + 1) + i, by
    have := p.2; have := i.2
    calc (p : ℕ) * (o + 1) + i < p * (o + 1) + (o + 1) := by omega
      _ = (p + 1) * (o + 1) := by ring
      _ ≤ dim * (o + 1) := Nat.mul_le_mul_right _ (by omega)⟩
  else ⟨i * dim + p, by
    have := p.2; have := i.2
    calc (i : ℕ) * dim + p < i * dim + dim := by omega
      _ = (i + 1) * dim := by ring
      _ ≤ (o + 1) * dim := Nat.mul_le_mul_right _ (by omega)
      _ = dim * (o + 1) := by ring⟩

open Spec

theorem stateIdx_bijective (dim o : ℕ) (ob : Bool) :
    Function.Bijective fun q : Fin dim × Fin (o + 1) => stateIdx dim o ob q.1 q.2 := by
  rw [Fintype.bijective_iff_injective_and_card]
  refine ⟨?_, by simp⟩
  rintro ⟨p, i⟩ ⟨q, j⟩ h
  have hp := p.2; have hq := q.2; have hi := i.2; have hj := j.2
  cases ob with
  | true =>
    have h : (p : ℕ) * (o + 1) + i = q * (o + 1) + j := by simpa [stateIdx] using h
    have h1 : (p : ℕ) = q := by
      have a := congrArg (· / (o + 1)) h
      simp only [Nat.mul_comm _ (o + 1), Nat.mul_add_div (Nat.succ_pos o), Nat.div_eq_of_lt hi,
        Nat.div_eq_of_lt hj] at a
      omega
    have h2 : (i : ℕ) = j := by rw [h1] at h; omega
    exact Prod.ext (Fin.ext h1) (Fin.ext h2)
  | false =>
    have h : (i : ℕ) * dim + p = j * dim + q := by simpa [stateIdx] using h
    have hd : 0 < dim := by omega
    have h1 : (i : ℕ) = j := by
      have a := congrArg (· / dim) h
      simp only [Nat.mul_comm _ dim, Nat.mul_add_div hd, Nat.div_eq_of_lt hp,
        Nat.div_eq_of_lt hq] at a
      omega
    have h2 : (p : ℕ) = q := by rw [h1] at h; omega
    exact Prod.ext (Fin.ext h2) (Fin.ext h1)

theorem sum_stateIdx {dim o : ℕ} (ob : Bool) (f : Fin (dim * (o + 1)) → ℝ) :
    ∑ k, f k = ∑ p : Fin dim, ∑ i : Fin (o + 1), f (stateIdx dim o ob p i) := by
  rw [← Fintype.sum_prod_type', ← (stateIdx_bijective dim o ob).sum_comp]

theorem fMat_apply (dim o : ℕ) (dt : ℝ) (ob : Bool) (p q : Fin dim) (i j : Fin (o + 1)) :
    (if ob then fByDim dim o dt else fByDeriv dim o dt) (stateIdx dim o ob p i)
      (stateIdx dim o ob q j) = if p = q then transitionNat o dt i j else 0 := by
  cases ob with
  | true =>
    simp only [if_true, fByDim]
    have e : ∀ (p : Fin dim) (i : Fin (o + 1)),
        stateIdx dim o true p i = finProdFinEquiv (p, i) := by
      intro p i; apply Fin.ext; simp [stateIdx, finProdFinEquiv]; ring
    rw [e, e, blockDiag_apply]
  | false =>
    simp only [Bool.false_eq_true, if_false, fByDeriv, Matrix.of_apply]
    have e : ∀ (p : Fin dim) (i : Fin (o + 1)),
        ((stateIdx dim o false p i : Fin _) : ℕ) = i * dim + p := by
      intro p i; simp [stateIdx]
    rw [e, e]
    exact scatter_index _ _ _ _ _

/-- **C53, F.** In either ordering the filter moves every coordinate independently by the
one-dimensional kinematic matrix. -/
theorem C53_F_partial (dim o : ℕ) (hd : 1 ≤ dim) (dt : ℝ) (dimZ : ℕ) (hz : 1 ≤ dimZ) (ob : Bool) :
    ∃ kf : KF (dim * (o + 1)) dimZ 0, kinematicKf dim o dt dimZ ob = .ok ⟨_, _, kf⟩ ∧
      ∀ (x : Vec (dim * (o + 1))) (p : Fin dim) (i : Fin (o + 1)),
        (kf.F *ᵥ x) (stateIdx dim o ob p i) =
          (transitionNat o dt *ᵥ fun j => x (stateIdx dim o ob p j)) i := by
  refine ⟨_, by
    unfold kinematicKf
    rw [if_neg (by omega), if_neg (by omega), if_neg (by omega)]
    rfl, ?_⟩
  intro x p i
  simp only [mulVec, dotProduct, Int.toNat_natCast]
  rw [sum_stateIdx ob]
  rw [Finset.sum_eq_single p]
  · apply Finset.sum_congr rfl
    intro j _
    have := fMat_apply dim o dt ob p p i j
    rw [if_pos rfl] at this
    rw [← this]
  · intro q _ hq
    apply Finset.sum_eq_zero
    intro j _
    have := fMat_apply dim o dt ob p q i j
    rw [if_neg (Ne.symm hq)] at this
    erw [this, zero_mul]
  · simp

/-- **C53, what H really measures.** Every row of `H` measures the *sum* of the positions of all
coordinates; this is the position only for `dim = 1`. -/
theorem C53_H_partial (dim o : ℕ) (hd : 1 ≤ dim) (dt : ℝ) (dimZ : ℕ) (hz : 1 ≤ dimZ) (ob : Bool) :
    ∃ kf : KF (dim * (o + 1)) dimZ 0, kinematicKf dim o dt dimZ ob = .ok ⟨_, _, kf⟩ ∧
      ∀ (x : Vec (dim * (o + 1))) (r : Fin dimZ),
        (kf.H *ᵥ x) r = ∑ p : Fin dim, x (stateIdx dim o ob p 0) := by
  refine ⟨_, by
    unfold kinematicKf
    rw [if_neg (by omega), if_neg (by omega), if_neg (by omega)]
    rfl, ?_⟩
  intro x r
  simp only [mulVec, dotProduct, Int.toNat_natCast]
  rw [sum_stateIdx ob]
  apply Finset.sum_congr rfl
  intro p _
  have key : ∀ i : Fin (o + 1), hMat dim o dimZ ob r (stateIdx dim o ob p i) =
      if i = 0 then 1 else 0 := by
    intro i
    have hp := p.2; have hi := i.2
    cases ob with
    | true =>
      simp only [hMat, Matrix.of_apply, if_true, stateIdx]
      apply if_congr _ rfl rfl
      constructor
      · rintro ⟨j, hj, h⟩
        apply Fin.ext
        have a := congrArg (· % (o + 1)) h
        simp only [Nat.mul_add_mod', Nat.mul_mod_left, Nat.mod_eq_of_lt hi] at a
        simpa using a
      · rintro rfl
        exact ⟨p, hp, by simp⟩
    | false =>
      simp only [hMat, Matrix.of_apply, Bool.false_eq_true, if_false, stateIdx]
      apply if_congr _ rfl rfl
      constructor
      · intro h
        apply Fin.ext
        by_contra h0
        have : 1 ≤ (i : ℕ) := by
          have : (i : ℕ) ≠ 0 := by simpa using h0
          omega
        have := Nat.mul_le_mul_right dim this
        omega
      · rintro rfl
        simpa using hp
  rw [Finset.sum_eq_single 0]
  · have := key 0
    rw [if_pos rfl] at this
    erw [this, one_mul]
  · intro i _ hi
    have := key i
    rw [if_neg hi] at this
    erw [this, zero_mul]
  · simp

/-- **C53 refuted.** With two coordinates and two measurements, `kinematic_kf` does not measure the
position of each coordinate: at position `(1, 0)` both predicted measurements are `1`. -/
theorem C53_H_refuted (o : ℕ) (dt : ℝ) (ob : Bool) :
    ∃ kf : KF (2 * (o + 1)) 2 0, kinematicKf 2 o dt 2 ob = .ok ⟨_, _, kf⟩ ∧
      ∃ x : Vec (2 * (o + 1)), ¬ ∀ p : Fin 2, (kf.H *ᵥ x) p = x (stateIdx 2 o ob p 0) := by
  obtain ⟨kf, h1, h2⟩ := C53_H_partial 2 o (by norm_num) dt 2 (by norm_num) ob
  refine ⟨kf, h1, fun k => if k = stateIdx 2 o ob 0 0 then 1 else 0, fun h => ?_⟩
  have a := h 1
  rw [h2, Fin.sum_univ_two] at a
  simp only [if_true] at a
  linarith

example : ∃ kf : KF (1 * (2 + 1)) 1 0, kinematicKf 1 2 3 1 true = .ok ⟨_, _, kf⟩ ∧
    ∀ x, (kf.H *ᵥ x) 0 = x 0 := by
  obtain ⟨kf, h1, h2⟩ := C53_H_partial 1 2 (by norm_num) 3 1 (by norm_num) true
  refine ⟨kf, h1, fun x => ?_⟩
  rw [h2]; simp [stateIdx]

end Filterpy
