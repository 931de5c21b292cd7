import Verif.Spec.NumberArrays
import Verif.Props.KalmanShapes

/-!
# C135: numbers, 1-D arrays, columns and matrices in the module-level functions
-/

namespace Filterpy

open Matrix Nd Spec

variable {n m l : ℕ}

theorem one_smul {a : ℝ} {A : Nd} (c : ℝ) (hA : OneNumber a A) : OneNumber (c * a) (Nd.smul c A) := by
  cases hA
  · exact .number
  · exact .vector
  · exact .matrix

theorem one_T {a : ℝ} {A : Nd} (hA : OneNumber a A) : OneNumber a A.T := by
  cases hA
  · exact .number
  · exact .vector
  · exact .matrix

theorem one_dot {a b : ℝ} {A B : Nd} (hA : OneNumber a A) (hB : OneNumber b B) :
    ∃ C, dot A B = .ok C ∧ OneNumber (a * b) C := by
  cases hA with
  | number => exact ⟨_, rfl, one_smul a hB⟩
  | vector =>
    cases hB with
    | number =>
      refine ⟨_, rfl, ?_⟩
      have := one_smul b (OneNumber.vector (a := a))
      rwa [mul_comm] at this
    | vector =>
      refine ⟨.d0 (a * b), ?_, .number⟩
      simp [dot, dotProduct]
    | matrix =>
      refine ⟨.d1 1 fun _ => a * b, ?_, .vector⟩
      simp [dot]
      funext i; simp [vecMul, dotProduct]
  | matrix =>
    cases hB with
    | number =>
      refine ⟨_, rfl, ?_⟩
      have := one_smul b (OneNumber.matrix (a := a))
      rwa [mul_comm] at this
    | vector =>
      refine ⟨.d1 1 fun _ => a * b, ?_, .vector⟩
      simp [dot]
      funext i; simp [mulVec, dotProduct]
    | matrix =>
      refine ⟨.d2 1 1 (of fun _ _ => a * b), ?_, .matrix⟩
      simp [dot]
      ext i j; simp [mul_apply]

theorem one_broadcast (f : ℝ → ℝ → ℝ) {a b : ℝ} {A B : Nd} (hA : OneNumber a A) (hB : OneNumber b B) :
    ∃ C, broadcast f A B = .ok C ∧ OneNumber (f a b) C := by
  have hr : A.rows = 1 ∧ A.cols = 1 ∧ A.get 0 0 = a := by cases hA <;> simp [rows, cols, Nd.get]
  have hr' : B.rows = 1 ∧ B.cols = 1 ∧ B.get 0 0 = b := by cases hB <;> simp [rows, cols, Nd.get]
  have he : ∀ i, bidx 1 i = 0 := fun i => by simp [bidx]
  simp only [broadcast, hr.1, hr.2.1, hr'.1, hr'.2.1, bdim_self, he, hr.2.2, hr'.2.2]
  cases hA <;> cases hB <;>
    first
    | exact ⟨_, rfl, .number⟩
    | exact ⟨_, rfl, .vector⟩
    | exact ⟨_, rfl, .matrix⟩

theorem one_add {a b : ℝ} {A B : Nd} (hA : OneNumber a A) (hB : OneNumber b B) :
    ∃ C, add A B = .ok C ∧ OneNumber (a + b) C := one_broadcast _ hA hB

theorem one_sub {a b : ℝ} {A B : Nd} (hA : OneNumber a A) (hB : OneNumber b B) :
    ∃ C, sub A B = .ok C ∧ OneNumber (a - b) C := one_broadcast _ hA hB

theorem one_recip {a : ℝ} {A : Nd} (hA : OneNumber a A) :
    if a = 0 then NFun.recip A = .error .nonFinite else ∃ C, NFun.recip A = .ok C ∧ OneNumber (1 / a) C := by
  split_ifs with h
  · cases hA <;> simp [NFun.recip, h]
  · cases hA <;> simp [NFun.recip, h]
    · exact .number
    · exact .vector
    · exact .matrix

theorem one_inv {a : ℝ} {A : Nd} (hA : OneNumber a A) :
    (∃ e, Nd.inv A = .error e) ∨ ∃ C, Nd.inv A = .ok C ∧ OneNumber (1 / a) C ∧ a ≠ 0 := by
  cases hA with
  | number => exact Or.inl ⟨_, rfl⟩
  | vector => exact Or.inl ⟨_, rfl⟩
  | matrix =>
    rw [inv_sq]
    have hdet : (of fun _ _ => a : Mat 1 1).det = a := by simp
    by_cases h : a = 0
    · left
      rw [npInv_eq_none.2 (by rw [hdet, h])]
      exact ⟨_, rfl⟩
    · right
      rw [npInv_of_det_ne (by rw [hdet]; exact h)]
      refine ⟨_, rfl, ?_, h⟩
      have : (of fun _ _ => a : Mat 1 1)⁻¹ = of fun _ _ => 1 / a := by
        refine Matrix.inv_eq_right_inv ?_
        ext i j
        rw [Subsingleton.elim i 0, Subsingleton.elim j 0]
        simp [mul_apply, h]
      rw [this]
      exact .matrix

theorem one_gain {k s : ℝ} {PHT S : Nd} (hP : OneNumber k PHT) (hS : OneNumber s S) :
    if s = 0 then NFun.gain PHT S = .error .nonFinite
    else ∃ K, NFun.gain PHT S = .ok K ∧ OneNumber (k / s) K := by
  have hrec := one_recip hS
  rcases one_inv hS with ⟨e, he⟩ | ⟨C, hC, hC1, hs⟩
  · have hg : NFun.gain PHT S = NFun.gainRecip PHT S := by
      simp only [NFun.gain, NFun.gainInv, he]; rfl
    rw [hg]
    split_ifs with h
    · rw [if_pos h] at hrec
      simp only [NFun.gainRecip, hrec]; rfl
    · rw [if_neg h] at hrec
      obtain ⟨C, hC, hC1⟩ := hrec
      obtain ⟨D, hD, hD1⟩ := one_dot hP hC1
      refine ⟨D, ?_, by rwa [mul_one_div] at hD1⟩
      simp only [NFun.gainRecip, hC]; exact hD
  · rw [if_neg hs]
    obtain ⟨D, hD, hD1⟩ := one_dot hP hC1
    refine ⟨D, ?_, by rwa [mul_one_div] at hD1⟩
    have : NFun.gainInv PHT S = .ok D := by simp only [NFun.gainInv, hC]; exact hD
    simp only [NFun.gain, this]

theorem one_iKH {a : ℝ} {A : Nd} (hA : OneNumber a A) : ∃ C, NFun.iKH A = .ok C ∧ OneNumber (1 - a) C := by
  have he : OneNumber 1 (Nd.eye 1) := by
    have : (1 : Mat 1 1) = of fun _ _ => 1 := by
      ext i j; rw [Subsingleton.elim i 0, Subsingleton.elim j 0]; simp
    rw [Nd.eye, this]; exact .matrix
  cases hA with
  | number => exact ⟨_, rfl, .vector⟩
  | vector =>
    obtain ⟨C, hC, h1⟩ := one_sub he (OneNumber.vector (a := a))
    exact ⟨C, by simp only [NFun.iKH, NFun.shape0, hC], h1⟩
  | matrix =>
    obtain ⟨C, hC, h1⟩ := one_sub he (OneNumber.matrix (a := a))
    exact ⟨C, by simp only [NFun.iKH, NFun.shape0, hC], h1⟩

theorem one_reshapeZ {a : ℝ} {A : Nd} (hA : OneNumber a A) (k : ℕ) :
    ∃ C, Nd.reshapeZ A 1 k = .ok C ∧ OneNumber a C := by
  have key : ∀ v : ℕ → ℕ → ℝ, v 0 0 = a →
      ∃ C, Helpers.reshape2 1 1 v 1 k = .ok C ∧ OneNumber a (Nd.ofArr C) := by
    intro v hv
    have hv' : ∀ i : Fin 1, v i 0 = a ∧ v 0 i = a := fun i => by
      rw [Subsingleton.elim i 0]; exact ⟨hv, hv⟩
    rcases k with _ | _ | k
    · refine ⟨_, rfl, ?_⟩
      show OneNumber a (.d0 (v 0 0))
      rw [hv]; exact .number
    · refine ⟨_, rfl, ?_⟩
      show OneNumber a (.d1 1 fun i => v 0 i)
      have : (fun i : Fin 1 => v 0 i) = fun _ => a := funext fun i => (hv' i).2
      rw [this]; exact .vector
    · refine ⟨_, rfl, ?_⟩
      show OneNumber a (.d2 1 1 fun i j => v j i)
      have : (fun i j : Fin 1 => v j i) = of fun _ _ => a := by
        funext i j; rw [Subsingleton.elim i 0, Subsingleton.elim j 0]; exact hv
      rw [this]; exact .matrix
  cases hA with
  | number =>
    obtain ⟨C, h1, h2⟩ := key (fun _ _ => a) rfl
    exact ⟨_, by simp only [Nd.reshapeZ, Nd.toArr, Helpers.reshapeZ, h1], h2⟩
  | vector =>
    obtain ⟨C, h1, h2⟩ := key (fun _ j => get (d1 1 fun _ => a) 0 j) (by simp [Nd.get])
    exact ⟨_, by simp only [Nd.reshapeZ, Nd.toArr, Helpers.reshapeZ, h1], h2⟩
  | matrix =>
    obtain ⟨C, h1, h2⟩ := key (fun i j => get (d2 1 1 (of fun _ _ => a)) i j) (by simp [Nd.get])
    exact ⟨_, by simp only [Nd.reshapeZ, Nd.toArr, Helpers.reshapeZ, h1], h2⟩

theorem one_conj {a p : ℝ} {A P : Nd} (hA : OneNumber a A) (hP : OneNumber p P) :
    ∃ C, NFun.conj A P = .ok C ∧ OneNumber (a * p * a) C := by
  obtain ⟨B, hB, h1⟩ := one_dot hA hP
  obtain ⟨C, hC, h2⟩ := one_dot h1 (one_T hA)
  exact ⟨C, by simp only [NFun.conj, hB]; exact hC, h2⟩

theorem one_factor {h : ℝ} {H : NdArg} (hH : OneFactor h H) : OneNumber h (NFun.resolveH H) := by
  cases hH with
  | default h1 => rw [h1]; exact .vector
  | number => exact .vector
  | array A hA => exact hA

theorem one_residual {x z h : ℝ} {X Z H : Nd} (hx : OneNumber x X) (hz : OneNumber z Z) (hH : OneNumber h H) :
    ∃ Y, NFun.residual (.np X) Z H = .ok Y ∧ OneNumber (z - h * x) Y := by
  obtain ⟨Hx, h1, h2⟩ := one_dot hH hx
  have h3 : OneNumber (h * x) (NFun.atleast1d Hx) ∧ NFun.shape0 (NFun.atleast1d Hx) = 1 := by
    cases h2
    · exact ⟨.vector, rfl⟩
    · exact ⟨.vector, rfl⟩
    · exact ⟨.matrix, rfl⟩
  obtain ⟨Z', h4, h5⟩ := one_reshapeZ hz X.ndim
  obtain ⟨Y, h6, h7⟩ := one_sub h5 h3.1
  refine ⟨Y, ?_, h7⟩
  simp only [NFun.residual, NFun.PyX.val, h1]
  show (do let z ← Nd.reshapeZ Z (NFun.shape0 (NFun.atleast1d Hx)) X.ndim; Nd.sub z (NFun.atleast1d Hx)) = _
  rw [h3.2, h4]
  exact h6

theorem one_updateAll {x p z r h : ℝ} {X P Z R : Nd} {H : NdArg} (hx : OneNumber x X) (hP : OneNumber p P)
    (hz : OneNumber z Z) (hR : OneNumber r R) (hH : OneFactor h H) :
    if h ^ 2 * p + r = 0 then NFun.updateAll (.np X) P Z (some R) H = .error .nonFinite
    else ∃ o, NFun.updateAll (.np X) P Z (some R) H = .ok o ∧
      OneNumber ((r * x + p * h * z) / (h ^ 2 * p + r)) o.x ∧ OneNumber (p * r / (h ^ 2 * p + r)) o.P ∧
      OneNumber (z - h * x) o.y ∧ OneNumber (p * h / (h ^ 2 * p + r)) o.K ∧ OneNumber (h ^ 2 * p + r) o.S := by
  have hH' := one_factor hH
  generalize hG : NFun.resolveH H = G at hH'
  obtain ⟨y, hy, y1⟩ := one_residual hx hz hH'
  obtain ⟨HP, hHP, HP1⟩ := one_dot hH' hP
  obtain ⟨HPH, hHPH, HPH1⟩ := one_dot HP1 (one_T hH')
  obtain ⟨S, hS, S1⟩ := one_add HPH1 hR
  have hS' : NFun.innovCov G P (some R) = .ok S := by
    simp only [NFun.innovCov, hHP]
    show (do let HPH ← Nd.dot HP G.T; Nd.add HPH R) = _
    rw [hHPH]; exact hS
  have hs : h * p * h + r = h ^ 2 * p + r := by ring
  rw [hs] at S1
  obtain ⟨PHT, hPHT, PHT1⟩ := one_dot hP (one_T hH')
  have hg := one_gain PHT1 S1
  split_ifs at hg ⊢ with h0
  · simp only [NFun.updateAll, hG, hy, hS', hPHT, hg, bind, Except.bind]
  · obtain ⟨K, hK, K1⟩ := hg
    obtain ⟨Ky, hKy, Ky1⟩ := one_dot K1 y1
    obtain ⟨X', hX', X1⟩ := one_add hx Ky1
    obtain ⟨KH, hKH, KH1⟩ := one_dot K1 hH'
    obtain ⟨A, hA, A1⟩ := one_iKH KH1
    obtain ⟨a, ha, a1⟩ := one_conj A1 hP
    obtain ⟨b, hb, b1⟩ := one_conj K1 hR
    obtain ⟨P', hP', P1⟩ := one_add a1 b1
    refine ⟨⟨X', P', y, K, S⟩, ?_, ?_, ?_, y1, K1, S1⟩
    · simp only [NFun.updateAll, hG, hy, hS', hPHT, hK, hKy, NFun.PyX.val, hX', hKH, hA, ha, Option.getD_some,
        hb, hP', bind, Except.bind]
    · have e : (r * x + p * h * z) / (h ^ 2 * p + r) = x + p * h / (h ^ 2 * p + r) * (z - h * x) := by
        generalize hS0 : h ^ 2 * p + r = σ at h0
        obtain rfl : r = σ - h ^ 2 * p := by linarith
        field_simp
        ring
      rw [e]; exact X1
    · have e : p * r / (h ^ 2 * p + r) = (1 - p * h / (h ^ 2 * p + r) * h) * p * (1 - p * h / (h ^ 2 * p + r) * h)
          + p * h / (h ^ 2 * p + r) * r * (p * h / (h ^ 2 * p + r)) := by
        generalize hS0 : h ^ 2 * p + r = σ at h0
        obtain rfl : r = σ - h ^ 2 * p := by linarith
        field_simp
        ring
      rw [e]; exact P1

/-- **C135, one variable.**  `update` on arrays that each hold one number, in any mixture of forms, returns the
textbook posterior of one variable: mean `(r x + p h z) / (h² p + r)` and variance `p r / (h² p + r)`. -/
theorem C135_update_one {x p z r h : ℝ} {X P Z R : Nd} {H : NdArg} (hx : OneNumber x X) (hP : OneNumber p P)
    (hz : OneNumber z Z) (hR : OneNumber r R) (hH : OneFactor h H) (hs : h ^ 2 * p + r ≠ 0) :
    ∃ X' P', NFun.update (.np X) P (some Z) (some R) H = .ok (.np X', P') ∧
      OneNumber ((r * x + p * h * z) / (h ^ 2 * p + r)) X' ∧ OneNumber (p * r / (h ^ 2 * p + r)) P' := by
  have := one_updateAll hx hP hz hR hH
  rw [if_neg hs] at this
  obtain ⟨o, h1, h2, h3, -⟩ := this
  exact ⟨o.x, o.P, by simp only [NFun.update, h1]; rfl, h2, h3⟩

theorem one_predict {x p f q u b : ℝ} (alpha : ℝ) {X : NFun.PyX} {P F Q U B : Nd} (hx : OneNumber x X.val)
    (hP : OneNumber p P) (hF : OneNumber f F) (hQ : OneNumber q Q) (hu : OneNumber u U) (hB : OneNumber b B) :
    ∃ X' P', NFun.predict X P F Q U B alpha = .ok (.np X', P') ∧
      OneNumber (f * x + b * u) X' ∧ OneNumber (alpha ^ 2 * f ^ 2 * p + q) P' := by
  obtain ⟨Fx, h1, h2⟩ := one_dot hF hx
  obtain ⟨Bu, h3, h4⟩ := one_dot hB hu
  obtain ⟨X', h5, h6⟩ := one_add h2 h4
  obtain ⟨C, h7, h8⟩ := one_conj hF hP
  obtain ⟨P', h9, h10⟩ := one_add (one_smul (alpha * alpha) h8) hQ
  refine ⟨X', P', ?_, h6, ?_⟩
  · simp only [NFun.predict, NFun.predictX, h1, h3, h5, h7, h9, bind, Except.bind]
  · convert h10 using 1
    ring

/-- **C135, nothing to divide by.**  If both the variance of the state (seen through `h`) and that of the measurement
vanish, the division by zero is not caught: the result is not a number. -/
theorem C135_zero_refuted {x p z r h : ℝ} {X P Z R : Nd} {H : NdArg} (hx : OneNumber x X) (hP : OneNumber p P)
    (hz : OneNumber z Z) (hR : OneNumber r R) (hH : OneFactor h H) (hs : h ^ 2 * p + r = 0) :
    NFun.update (.np X) P (some Z) (some R) H = .error .nonFinite := by
  have := one_updateAll hx hP hz hR hH
  rw [if_pos hs] at this
  simp only [NFun.update, this]
  rfl

/-- **C135, programs.**  A program of any length that passes `x` and `P` from call to call, written with numbers, arrays
of one value and one-by-one matrices in any mixture, computes the textbook filter for one variable and never raises,
if variances are not negative and those of measurements positive. -/
theorem C135_program {x p : ℝ} {X P : Nd} (hx : OneNumber x X) (hP : OneNumber p P) (hp : 0 ≤ p)
    (calls : List NFun.Call) (ops : List NumCall) (h : List.Forall₂ IsNumCall calls ops)
    (hs : ∀ o ∈ ops, o.Sensible) :
    ∃ X' P', NFun.run (.np X, P) calls = .ok (.np X', P') ∧
      OneNumber (ops.foldl NumCall.apply (x, p)).1 X' ∧ OneNumber (ops.foldl NumCall.apply (x, p)).2 P' ∧
      0 ≤ (ops.foldl NumCall.apply (x, p)).2 := by
  induction h generalizing x p X P with
  | nil => exact ⟨X, P, rfl, hx, hP, hp⟩
  | @cons c o cs os hc _ ih =>
    have ho := hs o (by simp)
    have hos : ∀ o ∈ os, o.Sensible := fun o h => hs o (by simp [h])
    have hstep : ∃ X' P', NFun.step (.np X, P) c = .ok (.np X', P') ∧
        OneNumber (o.apply (x, p)).1 X' ∧ OneNumber (o.apply (x, p)).2 P' ∧ 0 ≤ (o.apply (x, p)).2 := by
      cases hc with
      | @predict f q u b alpha F Q U B hF hQ hu hB =>
        obtain ⟨X', P', h1, h2, h3⟩ := one_predict alpha (X := .np X) hx hP hF hQ hu hB
        have hq : 0 ≤ q := ho
        exact ⟨X', P', h1, h2, h3, by simp only [NumCall.apply]; positivity⟩
      | @update z r h Z R H hz hR hH =>
        have hr : 0 < r := ho
        obtain ⟨X', P', h1, h2, h3⟩ := C135_update_one hx hP hz hR hH (by positivity)
        exact ⟨X', P', h1, h2, h3, by simp only [NumCall.apply]; positivity⟩
      | missing => exact ⟨X, P, rfl, hx, hP, hp⟩
    obtain ⟨X', P', h1, h2, h3, h4⟩ := hstep
    obtain ⟨X'', P'', h5, h6⟩ := ih h2 h3 h4 hos
    refine ⟨X'', P'', ?_, h6⟩
    simp only [NFun.run, h1]
    exact h5

/-- A number combined with every entry of a matrix. -/
theorem add_mat_num (A : Mat m n) (c : ℝ) : add (d2 m n A) (d0 c) = .ok (d2 m n (of fun i j => A i j + c)) := by
  simp only [Nd.add, broadcast, rows, cols, bdim_one, ndim, shape, List.length_cons, List.length_nil,
    show max (0 + 1 + 1) 0 = 2 from rfl]
  congr 2
  funext i j
  have h : Nd.get (d0 c) (bidx 1 i) (bidx 1 j) = c := rfl
  simp only [bidx_lt i.2, bidx_lt j.2, get_d2, h, of_apply]

theorem add_vec_num (col : Bool) (v : Vec n) (c : ℝ) :
    add (vecAs col v) (d0 c) = .ok (vecAs col fun i => v i + c) := by
  cases col
  · simp only [vecAs, Nd.add, broadcast, rows, cols, bdim_one, ndim, shape, List.length_cons, List.length_nil,
      show max (0 + 1) 0 = 1 from rfl, Bool.false_eq_true, if_false]
    congr 2
    funext j
    have h : Nd.get (d0 c) (bidx 1 0) (bidx 1 j) = c := rfl
    simp only [bidx_lt j.2, get_d1, h]
  · simp only [vecAs, if_true]
    rw [add_mat_num]
    rfl

open Classical in
theorem recip_mat (S : Mat m n) : NFun.recip (d2 m n S)
    = if ∃ i j, S i j = 0 then Except.error Err.nonFinite
      else Except.ok (d2 m n (of fun i j => 1 / S i j)) := by
  simp only [NFun.recip]

theorem gain_mat (P : Mat n n) (H : Mat m n) (S : Mat m m) :
    NFun.gain (d2 n m (P * Hᵀ)) (d2 m m S) = match KFun.gain P H S with
      | .ok K => .ok (d2 n m K)
      | .error e => .error e := by
  classical
  simp only [NFun.gain, NFun.gainInv, inv_sq, KFun.gain]
  cases npInv S with
  | some SI =>
    show (match dot (d2 n m (P * Hᵀ)) (d2 m m SI) with
      | .ok K => Except.ok K
      | .error _ => _) = _
    rw [dot_mm]
  | none =>
    show NFun.gainRecip (d2 n m (P * Hᵀ)) (d2 m m S) = _
    simp only [NFun.gainRecip, recip_mat]
    by_cases h : ∃ i j, S i j = 0
    · rw [if_pos h, if_pos h]; rfl
    · rw [if_neg h, if_neg h]
      exact dot_mm _ _

theorem residual_arrays (col : Bool) (x : Vec n) (z : Nd) (v : Vec m) (hz : Holds v z) (H : Mat m n) :
    NFun.residual (.np (vecAs col x)) z (d2 m n H) = .ok (vecAs col (v - H *ᵥ x)) := by
  simp only [NFun.residual, NFun.PyX.val, dot_vecAs]
  show (do let z ← Nd.reshapeZ z (NFun.shape0 (NFun.atleast1d (vecAs col (H *ᵥ x)))) (vecAs col x).ndim
           Nd.sub z (NFun.atleast1d (vecAs col (H *ᵥ x)))) = _
  have h1 : NFun.atleast1d (vecAs col (H *ᵥ x)) = vecAs col (H *ᵥ x) := by cases col <;> rfl
  have h2 : NFun.shape0 (vecAs col (H *ᵥ x)) = m := by cases col <;> rfl
  rw [h1, h2, vecAs_ndim, reshapeZ_holds col hz]
  exact sub_vecAs _ _ _

/-- **C135, arrays.**  With a measurement matrix `H` of shape `(m, n)`, a state stored as a 1-D array or as a column,
and a measurement given as a number, a vector, a row or a column, `update` computes what the model of C19 says, and
returns the state in the form in which it was passed. -/
theorem C135_update_arrays (col : Bool) (x : Vec n) (P : Mat n n) (z : Nd) (v : Vec m) (hz : Holds v z) (R : MatArg m)
    (H : Mat m n) :
    NFun.updateAll (.np (vecAs col x)) (d2 n n P) z (ndOf R) (.arr (d2 m n H))
      = match KFun.updateAll x P v R (some H) with
        | .ok o => .ok ⟨vecAs col o.x, d2 n n o.P, vecAs col o.y, d2 n m o.K, d2 m m o.S⟩
        | .error e => .error e := by
  have hres := residual_arrays col x z v hz H
  simp only [NFun.updateAll, NFun.resolveH, hres, KFun.updateAll, KFun.resolveH]
  have hS : NFun.innovCov (d2 m n H) (d2 n n P) (ndOf R) = match KFun.addArg (H * P * Hᵀ) R with
      | none => .error .typeError
      | some S => .ok (d2 m m S) := by
    simp only [NFun.innovCov, dot_mm, Nd.T, bind, Except.bind]
    cases R with
    | none => rfl
    | scalar c => exact add_mat_num _ _
    | mat R => exact add_mm _ _
  simp only [hS, bind, Except.bind]
  cases hA : KFun.addArg (H * P * Hᵀ) R with
  | none => rfl
  | some S =>
    simp only [Nd.T, dot_mm, gain_mat]
    cases KFun.gain P H S with
    | error e => rfl
    | ok K =>
      have hb : NFun.conj (d2 n m K) ((ndOf R).getD (.d0 0)) = .ok (d2 n n (KFun.mulArg K R)) := by
        cases R with
        | none => simp [KFun.addArg] at hA
        | scalar c =>
          simp only [NFun.conj, ndOf, Option.getD, dot_ms, Nd.T, bind, Except.bind]
          exact (dot_mm _ _).trans (by rw [Matrix.smul_mul]; rfl)
        | mat R =>
          simp only [NFun.conj, ndOf, Option.getD, dot_mm, Nd.T, bind, Except.bind]
          rfl
      have hI : NFun.iKH (d2 n n (K * H)) = .ok (d2 n n (1 - K * H)) := by
        show (match sub (d2 n n 1) (d2 n n (K * H)) with
          | .ok A => Except.ok A
          | .error _ => Except.error Err.shape) = _
        rw [sub_mm]
      have hc : NFun.conj (d2 n n (1 - K * H)) (d2 n n P) = .ok (d2 n n ((1 - K * H) * P * (1 - K * H)ᵀ)) := by
        simp only [NFun.conj, dot_mm, Nd.T, bind, Except.bind]
      simp only [dot_vecAs, NFun.PyX.val, add_vecAs, dot_mm, hI, hc, hb, add_mm]

theorem reshapeZ_bad (z : Nd) (k : ℕ) (hz : ∀ v : Vec m, ¬ Holds v z) :
    Nd.reshapeZ z m k = .error .valueError := by
  unfold Nd.reshapeZ
  have hnot : ¬ IsMeasurement m z.toArr := by
    intro hm
    cases z with
    | d0 a => exact hz (fun _ => a) (.number a hm fun _ => rfl)
    | d1 k v =>
      obtain rfl : k = m := hm
      exact hz v .vector
    | d2 r c A =>
      rcases hm with ⟨h1, h2⟩ | ⟨h1, h2⟩
      · subst h1; subst h2
        refine hz (A 0) ?_
        have : A = of fun _ j => A 0 j := by ext i j; rw [Subsingleton.elim i 0]; rfl
        rw [this]
        exact .row
      · subst h1; subst h2
        refine hz (fun i => A i 0) ?_
        have : A = of fun i _ => A i 0 := by ext i j; rw [Subsingleton.elim j 0]; rfl
        rw [this]
        exact .column
  rw [(C57_reshape_z_partial z.toArr m k).2 hnot]

/-- **C135, what is refused.**  A measurement that is not a number, vector, row or column of as many values as `H` has
rows, and a measurement matrix whose number of columns is not the number of state variables, raise `ValueError`,
whatever the other arguments are; so does a transition matrix with the wrong number of columns. -/
theorem C135_refused (col : Bool) (x : Vec n) (P : Nd) :
    (∀ (z : Nd) (R K : Nd) (H : Mat m n), (∀ v : Vec m, ¬ Holds v z) →
      NFun.update (.np (vecAs col x)) P (some z) (some R) (.arr (d2 m n H)) = .error .valueError ∧
      NFun.updateSteadystate (.np (vecAs col x)) (some z) K (.arr (d2 m n H)) = .error .valueError) ∧
    (∀ (z : Nd) (R K : Nd) (k j : ℕ) (H : Mat k j), j ≠ n →
      NFun.update (.np (vecAs col x)) P (some z) (some R) (.arr (d2 k j H)) = .error .valueError ∧
      NFun.updateSteadystate (.np (vecAs col x)) (some z) K (.arr (d2 k j H)) = .error .valueError) ∧
    (∀ (z : Nd) (R K : Nd) (H : NdArg), (∀ A, H ≠ .arr A) → n ≠ 1 →
      NFun.update (.np (vecAs col x)) P (some z) (some R) H = .error .valueError ∧
      NFun.updateSteadystate (.np (vecAs col x)) (some z) K H = .error .valueError) ∧
    (∀ (k j : ℕ) (F : Mat k j) (Q u B : Nd) (alpha : ℝ), j ≠ n →
      NFun.predict (.np (vecAs col x)) P (d2 k j F) Q u B alpha = .error .valueError ∧
      NFun.predictSteadystate (.np (vecAs col x)) (d2 k j F) u B = .error .valueError) := by
  have hd : ∀ (k j : ℕ) (F : Mat k j), j ≠ n → dot (.d2 k j F) (vecAs col x) = .error .valueError := by
    intro k j F hj
    cases col
    · exact dot_mv_ne hj.symm F _
    · exact dot_mm_ne hj.symm F _
  have hup : ∀ (z R K : Nd) (H : NdArg), NFun.residual (.np (vecAs col x)) z (NFun.resolveH H) = .error .valueError →
      NFun.update (.np (vecAs col x)) P (some z) (some R) H = .error .valueError ∧
      NFun.updateSteadystate (.np (vecAs col x)) (some z) K H = .error .valueError := by
    intro z R K H h
    simp only [NFun.update, NFun.updateAll, NFun.updateSteadystate, h, bind, Except.bind, and_self]
  refine ⟨fun z R K H hz => hup z R K _ ?_, fun z R K k j H hj => hup z R K _ ?_, fun z R K H hH hn => hup z R K _ ?_,
    fun k j F Q u B alpha hj => ?_⟩
  · simp only [NFun.residual, NFun.resolveH, NFun.PyX.val, dot_vecAs, bind, Except.bind]
    have h1 : NFun.atleast1d (vecAs col (H *ᵥ x)) = vecAs col (H *ᵥ x) := by cases col <;> rfl
    have h2 : NFun.shape0 (vecAs col (H *ᵥ x)) = m := by cases col <;> rfl
    rw [h1, h2, reshapeZ_bad z _ hz]
  · simp only [NFun.residual, NFun.resolveH, NFun.PyX.val, hd k j H hj, bind, Except.bind]
  · have hr : ∃ v, NFun.resolveH H = d1 1 v := by
      cases H with
      | none => exact ⟨_, rfl⟩
      | scalar h => exact ⟨_, rfl⟩
      | arr A => exact absurd rfl (hH A)
    obtain ⟨v, hv⟩ := hr
    have hdv : dot (d1 1 v) (vecAs col x) = .error .valueError := by
      cases col
      · simp [dot, vecAs, hn]
      · exact dot_vm_ne hn v _
    simp only [NFun.residual, hv, NFun.PyX.val, hdv, bind, Except.bind]
  · simp only [NFun.predict, NFun.predictSteadystate, NFun.predictX, NFun.PyX.val, hd k j F hj, bind, Except.bind,
      and_self]

theorem smul_vecAs (col : Bool) (c : ℝ) (v : Vec n) : Nd.smul c (vecAs col v) = vecAs col (c • v) := by
  cases col <;> rfl

theorem predictX_arrays (col : Bool) (x : Vec n) (F : KFun.FArg n) (bu : KFun.BUArg n l) :
    NFun.predictX (.np (vecAs col x)) (transOf F) (controlsOf col bu).2 (controlsOf col bu).1
      = .ok (vecAs col (F.apply x + bu.term)) := by
  have hF : dot (transOf F) (vecAs col x) = .ok (vecAs col (F.apply x)) := by
    cases F with
    | scalar c => exact congrArg _ (smul_vecAs _ _ _)
    | mat F => exact dot_vecAs _ _ _
  simp only [NFun.predictX, NFun.PyX.val, hF]
  cases bu with
  | scalars B u => exact add_vec_num _ _ _
  | scalarVec B u =>
    show add (vecAs col (F.apply x)) (Nd.smul B (vecAs col u)) = _
    rw [smul_vecAs]; exact add_vecAs _ _ _
  | matVec B u =>
    simp only [controlsOf, dot_vecAs]
    exact add_vecAs _ _ _

/-- **C135, `predict` on arrays.**  For a 1-D or column state and controls in the same form, `predict` computes what the
model of C19 says, and returns the state in the form in which it was passed. -/
theorem C135_predict_arrays (col : Bool) (x : Vec n) (P : Mat n n) (F : KFun.FArg n) (Q : MatArg n) (Q' : Nd)
    (hQ : ndOf Q = some Q') (bu : KFun.BUArg n l) (alpha : ℝ) :
    NFun.predict (.np (vecAs col x)) (d2 n n P) (transOf F) Q' (controlsOf col bu).2 (controlsOf col bu).1 alpha
      = match KFun.predict x P F Q bu alpha with
        | .ok o => .ok (.np (vecAs col o.1), d2 n n o.2)
        | .error e => .error e := by
  have hx := predictX_arrays col x F bu
  have hP : NFun.conj (transOf F) (d2 n n P) = .ok (d2 n n (F.congr P)) := by
    cases F with
    | scalar c =>
      show dot (d2 n n (c • P)) (d0 c) = _
      rw [dot_ms]; rfl
    | mat F =>
      simp only [NFun.conj, transOf, dot_mm, Nd.T, bind, Except.bind]
      rfl
  simp only [NFun.predict, hx, hP, bind, Except.bind, Nd.smul, KFun.predict]
  cases Q with
  | none => simp [ndOf] at hQ
  | scalar c =>
    obtain rfl := Option.some.inj hQ
    simp only [add_mat_num]
    rfl
  | mat Q =>
    obtain rfl := Option.some.inj hQ
    simp only [add_mm]
    rfl

/-- **C135, the steady-state functions on arrays**, likewise. -/
theorem C135_steadystate_arrays (col : Bool) (x : Vec n) (z : Nd) (v : Vec m) (hz : Holds v z) (K : Mat n m)
    (H : Mat m n) (F : KFun.FArg n) (bu : KFun.BUArg n l) :
    NFun.updateSteadystate (.np (vecAs col x)) (some z) (d2 n m K) (.arr (d2 m n H))
      = (KFun.updateSteadystate x (some v) K (some H)).map (fun x' => .np (vecAs col x')) ∧
    NFun.predictSteadystate (.np (vecAs col x)) (transOf F) (controlsOf col bu).2 (controlsOf col bu).1
      = .ok (.np (vecAs col (KFun.predictSteadystate x F bu))) := by
  constructor
  · rw [NFun.updateSteadystate]
    simp only [NFun.resolveH, residual_arrays col x z v hz H, dot_vecAs, NFun.PyX.val, add_vecAs, bind, Except.bind]
    rfl
  · simp only [NFun.predictSteadystate, predictX_arrays, bind, Except.bind]
    rfl

/-- **C135, plain numbers.**  When everything is a numpy number, `update` and `predict` return numpy numbers, ready for
the next call. -/
theorem C135_numbers (x p z r h f q u b alpha : ℝ) (H : NdArg) (hH : H = .scalar h ∨ (H = .none ∧ h = 1))
    (hs : h ^ 2 * p + r ≠ 0) :
    NFun.update (.np (.d0 x)) (.d0 p) (some (.d0 z)) (some (.d0 r)) H
      = .ok (.np (.d0 ((r * x + p * h * z) / (h ^ 2 * p + r))), .d0 (p * r / (h ^ 2 * p + r))) ∧
    NFun.predict (.np (.d0 x)) (.d0 p) (.d0 f) (.d0 q) (.d0 u) (.d0 b) alpha
      = .ok (.np (.d0 (f * x + b * u)), .d0 (alpha ^ 2 * f ^ 2 * p + q)) := by
  constructor
  · have hH1 : OneFactor h H := by
      rcases hH with rfl | ⟨rfl, h1⟩
      · exact .number
      · exact .default h1
    have hres : NFun.resolveH H = d1 1 fun _ => h := by
      rcases hH with rfl | ⟨rfl, rfl⟩ <;> rfl
    obtain ⟨X', P', h1, h2, h3⟩ := C135_update_one (x := x) (p := p) (z := z) (r := r) .number .number .number .number hH1 hs
    have hform : ∃ a c, NFun.update (.np (.d0 x)) (.d0 p) (some (.d0 z)) (some (.d0 r)) H
        = .ok (.np (.d0 a), .d0 c) := by
      obtain ⟨y, hy⟩ : ∃ y : Vec 1, NFun.residual (.np (.d0 x)) (.d0 z) (d1 1 fun _ => h) = .ok (d1 1 y) := ⟨_, rfl⟩
      obtain ⟨s, hS⟩ : ∃ s, NFun.innovCov (d1 1 fun _ => h) (.d0 p) (some (.d0 r)) = .ok (d0 s) := ⟨_, rfl⟩
      obtain ⟨k, hk⟩ : ∃ k : Vec 1, dot (.d0 p) (Nd.T (d1 1 fun _ => h)) = .ok (d1 1 k) := ⟨_, rfl⟩
      have hg : NFun.gain (d1 1 k) (d0 s) = if s = 0 then .error .nonFinite else .ok (d1 1 ((1 / s) • k)) := by
        show NFun.gainRecip _ _ = _
        simp only [NFun.gainRecip, NFun.recip]
        by_cases h0 : s = 0
        · simp only [if_pos h0]; rfl
        · simp only [if_neg h0]; rfl
      by_cases h0 : s = 0
      · rw [if_pos h0] at hg
        simp only [NFun.update, NFun.updateAll, hres, hy, hS, hk, hg, bind, Except.bind] at h1
        cases h1
      · rw [if_neg h0] at hg
        obtain ⟨a1, h5⟩ : ∃ a, dot (d1 1 ((1 / s) • k)) (d1 1 y) = .ok (d0 a) := ⟨_, rfl⟩
        obtain ⟨a2, h6⟩ : ∃ a, dot (d1 1 ((1 / s) • k)) (d1 1 fun _ => h) = .ok (d0 a) := ⟨_, rfl⟩
        obtain ⟨a3, h7⟩ : ∃ a, NFun.conj (d1 1 fun _ => 1 - a2) (.d0 p) = .ok (d0 a) := ⟨_, rfl⟩
        obtain ⟨a4, h8⟩ : ∃ a, NFun.conj (d1 1 ((1 / s) • k)) (.d0 r) = .ok (d0 a) := ⟨_, rfl⟩
        refine ⟨x + a1, a3 + a4, ?_⟩
        simp only [NFun.update, NFun.updateAll, hres, hy, hS, hk, hg, h5, h6, NFun.iKH, h7, Option.getD_some, h8,
          bind, Except.bind]
        rfl
    obtain ⟨a, c, h4⟩ := hform
    rw [h4] at h1 ⊢
    simp only [Except.ok.injEq, Prod.mk.injEq, NFun.PyX.np.injEq] at h1
    obtain ⟨rfl, rfl⟩ := h1
    cases h2; cases h3; rfl
  · obtain ⟨X', P', h1, h2, h3⟩ := one_predict alpha (X := .np (.d0 x)) .number (OneNumber.number (a := p))
      (OneNumber.number (a := f)) (OneNumber.number (a := q)) (OneNumber.number (a := u)) (OneNumber.number (a := b))
    obtain ⟨a, c, h4⟩ : ∃ a c, NFun.predict (.np (.d0 x)) (.d0 p) (.d0 f) (.d0 q) (.d0 u) (.d0 b) alpha
        = .ok (.np (.d0 a), .d0 c) := ⟨_, _, rfl⟩
    rw [h4] at h1 ⊢
    simp only [Except.ok.injEq, Prod.mk.injEq, NFun.PyX.np.injEq] at h1
    obtain ⟨rfl, rfl⟩ := h1
    cases h2; cases h3; rfl

/-- **C135 for Python numbers is false**: the state must be a numpy value when a measurement comes, `update` raises
`AttributeError` otherwise.  A call of `predict` repairs that. -/
theorem C135_python_number_refuted {x h : ℝ} {H : NdArg} (hH : OneFactor h H) (P z K : Nd) (R : Option Nd) :
    NFun.update (.num x) P (some z) R H = .error .attributeError ∧
    NFun.updateSteadystate (.num x) (some z) K H = .error .attributeError ∧
    (∀ R, NFun.update (.num x) P none R H = .ok (.num x, P)) ∧
    ∀ F Q u B alpha, NFun.predict (.num x) P F Q u B alpha = NFun.predict (.np (.d0 x)) P F Q u B alpha := by
  obtain ⟨C, hC, -⟩ := one_dot (one_factor hH) (OneNumber.number (a := x))
  refine ⟨?_, ?_, fun _ => rfl, fun _ _ _ _ _ => rfl⟩
  · simp only [NFun.update, NFun.updateAll, NFun.residual, NFun.PyX.val, hC, bind, Except.bind]
  · simp only [NFun.updateSteadystate, NFun.residual, NFun.PyX.val, hC, bind, Except.bind]

/-- **C135 for a 1-D `H` is false**: with two or more state variables a measurement matrix given as a 1-D array of `n`
values passes every computation up to the gain, and then `update` raises `ValueError`. -/
theorem C135_row_H_refuted (hn : n ≠ 1) (col : Bool) (x : Vec n) (P : Mat n n) (z : Nd) (v : Vec 1) (hz : Holds v z)
    (r : ℝ) (h : Vec n) (hs : h ⬝ᵥ P *ᵥ h + r ≠ 0) :
    NFun.update (.np (vecAs col x)) (d2 n n P) (some z) (some (.d0 r)) (.arr (d1 n h)) = .error .valueError := by
  have hres : ∃ w : Vec 1, NFun.residual (.np (vecAs col x)) z (d1 n h) = .ok (vecAs col w) := by
    cases col
    · have hd : dot (d1 n h) (vecAs false x) = .ok (d0 (h ⬝ᵥ x)) := by simp [dot, vecAs]
      refine ⟨v - fun _ => h ⬝ᵥ x, ?_⟩
      simp only [NFun.residual, NFun.PyX.val, hd, bind, Except.bind, NFun.atleast1d, NFun.shape0, vecAs_ndim,
        reshapeZ_holds false hz]
      exact sub_vv _ _
    · have hd : dot (d1 n h) (vecAs true x) = .ok (d1 1 (h ᵥ* (of fun i _ => x i : Mat n 1))) := by
        simp [dot, vecAs]
      refine ⟨fun i => v i - (h ᵥ* (of fun i _ => x i : Mat n 1)) 0, ?_⟩
      have hz' := reshapeZ_holds true hz
      simp only [if_true] at hz'
      simp only [NFun.residual, NFun.PyX.val, hd, bind, Except.bind, NFun.atleast1d, NFun.shape0, vecAs_ndim,
        if_true, hz']
      have := broadcast_col_vec (· - ·) (of fun i _ => v i : Mat 1 1) (h ᵥ* (of fun i _ => x i : Mat n 1))
      refine this.trans ?_
      simp only [vecAs, if_true]
      congr 2
  obtain ⟨w, hw⟩ := hres
  have hS : NFun.innovCov (d1 n h) (d2 n n P) (some (.d0 r)) = .ok (d0 (h ⬝ᵥ P *ᵥ h + r)) := by
    have h1 : dot (d1 n h) (d2 n n P) = .ok (d1 n (h ᵥ* P)) := by simp [dot]
    have h2 : dot (d1 n (h ᵥ* P)) (d1 n h) = .ok (d0 ((h ᵥ* P) ⬝ᵥ h)) := by simp [dot]
    simp only [NFun.innovCov, h1, Nd.T, h2, bind, Except.bind]
    rw [← dotProduct_mulVec]
    rfl
  have hg : NFun.gain (d1 n (P *ᵥ h)) (d0 (h ⬝ᵥ P *ᵥ h + r)) = .ok (d1 n ((1 / (h ⬝ᵥ P *ᵥ h + r)) • (P *ᵥ h))) := by
    have : NFun.recip (d0 (h ⬝ᵥ P *ᵥ h + r)) = .ok (d0 (1 / (h ⬝ᵥ P *ᵥ h + r))) := by
      simp only [NFun.recip, if_neg hs]
    show NFun.gainRecip _ _ = _
    simp only [NFun.gainRecip, this]
    rfl
  have hky : ∀ k : Vec n, dot (d1 n k) (vecAs col w) = .error .valueError := by
    intro k
    cases col
    · simp [dot, vecAs, Ne.symm hn]
    · exact dot_vm_ne (Ne.symm hn) k _
  simp only [NFun.update, NFun.updateAll, NFun.resolveH, hw, hS, Nd.T, dot_mv, hg, hky, bind, Except.bind]

/-- **C135 for a control in the other form is false**: a 1-D state with a column of controls, or the reverse, becomes
an `n` by `n` matrix without any exception. -/
theorem C135_mixed_control_refuted (col : Bool) (x : Vec n) (F P Q : Mat n n) (B : Mat n l) (u : Vec l) (alpha : ℝ) :
    ∃ A : Mat n n, ∃ P' : Nd,
      NFun.predict (.np (vecAs col x)) (d2 n n P) (d2 n n F) (d2 n n Q) (vecAs (!col) u) (d2 n l B) alpha
        = .ok (.np (d2 n n A), P') := by
  have hP : NFun.conj (d2 n n F) (d2 n n P) = .ok (d2 n n (F * P * Fᵀ)) := by
    simp only [NFun.conj, dot_mm, Nd.T, bind, Except.bind]
  have hx : ∃ A : Mat n n, add (vecAs col (F *ᵥ x)) (vecAs (!col) (B *ᵥ u)) = .ok (d2 n n A) := by
    cases col
    · exact ⟨_, broadcast_vec_col _ _ _⟩
    · exact ⟨_, broadcast_col_vec _ _ _⟩
  obtain ⟨A, hA⟩ := hx
  refine ⟨A, d2 n n ((alpha * alpha) • (F * P * Fᵀ) + Q), ?_⟩
  simp only [NFun.predict, NFun.predictX, NFun.PyX.val, dot_vecAs, hA, hP, Nd.smul, add_mm, bind, Except.bind]

/-- `x, P = predict(0., 1., Q=1.)`, then `x, P = update(x, P, 3., 2.)`: Python numbers first, numpy numbers after. -/
example : NFun.run (.num 0, .d0 1) [.predict (.d0 1) (.d0 1) (.d0 0) (.d0 1) 1, .update (some (.d0 3)) (some (.d0 2)) .none]
    = .ok (.np (.d0 (3 / 2)), .d0 1) := by
  have h1 := (C135_python_number_refuted (x := 0) (.default rfl) (.d0 1) (.d0 0) (.d0 0) none).2.2.2
    (.d0 1) (.d0 1) (.d0 0) (.d0 1) 1
  have h2 := (C135_numbers 0 1 0 1 1 1 1 0 1 1 .none (Or.inr ⟨rfl, rfl⟩) (by norm_num)).2
  have h3 := (C135_numbers (1 * 0 + 1 * 0) (1 ^ 2 * 1 ^ 2 * 1 + 1) 3 2 1 1 1 0 1 1 .none (Or.inr ⟨rfl, rfl⟩)
    (by norm_num)).1
  simp only [NFun.run, NFun.step, h1, h2, h3, bind, Except.bind]
  norm_num

/-- The hypotheses of `C135_program` are met by a mixture of forms. -/
example : ∃ X' P', NFun.run (.np (.d1 1 fun _ => 0), .d2 1 1 (of fun _ _ => 1))
      [.predict (.d0 1) (.d2 1 1 (of fun _ _ => 1)) (.d0 0) (.d0 1) 1,
        .update (some (.d0 3)) (some (.d2 1 1 (of fun _ _ => 2))) (.scalar 1)] = .ok (.np X', P') ∧
    OneNumber (3 / 2) X' ∧ OneNumber 1 P' := by
  obtain ⟨X', P', h1, h2, h3, -⟩ := C135_program (x := 0) (p := 1) .vector .matrix (by norm_num) _
    [.predict 1 1 0 1 1, .update (some 3) 2 1]
    (.cons (.predict .number .matrix .number .number) (.cons (.update .number .matrix .number) .nil))
    (by
      intro o ho
      simp only [List.mem_cons, List.not_mem_nil, or_false] at ho
      rcases ho with rfl | rfl
      · exact zero_le_one
      · exact two_pos)
  refine ⟨X', P', h1, ?_, ?_⟩
  · have e : (3 / 2 : ℝ) = ([NumCall.predict 1 1 0 1 1, .update (some 3) 2 1].foldl NumCall.apply (0, 1)).1 := by
      simp only [List.foldl, NumCall.apply]; norm_num
    rw [e]; exact h2
  · have e : (1 : ℝ) = ([NumCall.predict 1 1 0 1 1, .update (some 3) 2 1].foldl NumCall.apply (0, 1)).2 := by
      simp only [List.foldl, NumCall.apply]; norm_num
    rw [e]; exact h3

/-- A position and a velocity, of which the position is measured: `H = np.array([1, 0])` is refused. -/
example : NFun.update (.np (vecAs false ![0, 1])) (d2 2 2 1) (some (.d0 3)) (some (.d0 1)) (.arr (d1 2 ![1, 0]))
    = .error .valueError :=
  C135_row_H_refuted (by norm_num) false _ 1 _ (fun _ => 3) (.number 3 rfl fun _ => rfl) 1 _ (by
    simp [dotProduct, Fin.sum_univ_two])

/-- With `H = np.array([[1, 0]])` the same call, on a 1-D or a column state, is that of the model of C19. -/
example (col : Bool) : NFun.updateAll (.np (vecAs col ![0, 1])) (d2 2 2 1) (.d0 3) (some (.d0 1)) (.arr (d2 1 2 !![1, 0]))
    = match KFun.updateAll ![0, 1] (1 : Mat 2 2) (fun _ : Fin 1 => 3) (.scalar 1) (some !![1, 0]) with
      | .ok o => .ok ⟨vecAs col o.x, d2 2 2 o.P, vecAs col o.y, d2 2 1 o.K, d2 1 1 o.S⟩
      | .error e => .error e :=
  (C135_update_arrays (n := 2) col ![0, 1] (1 : Mat 2 2) (.d0 3) (fun _ : Fin 1 => 3) (.number 3 rfl fun _ => rfl)
    (.scalar 1) !![1, 0]).trans (by
      cases KFun.updateAll ![0, 1] (1 : Mat 2 2) (fun _ : Fin 1 => 3) (.scalar 1) (some !![1, 0]) <;> rfl)

end Filterpy
