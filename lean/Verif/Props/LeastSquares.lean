import Verif.Model.PolyFilters
import Verif.Spec.LeastSquares
import Verif.Spec.Prob
import Verif.Lemmas.WhiteNoise
import Verif.Props.GH
import Mathlib.Data.List.GetD
import Mathlib.Tactic

/-!
# `LeastSquaresFilter` (C41, C42)
-/

namespace Filterpy
open Finset Spec Matrix

/-! ## Least squares -/

section generic
variable {m : ℕ}

/-- Residuals are orthogonal to all powers up to `m`. -/
def NormalEq (m : ℕ) (dt : ℝ) (z : ℕ → ℝ) (n : ℕ) (c : Fin (m + 1) → ℝ) : Prop :=
  ∀ j ≤ m, ∑ i ∈ range n, (z i - poly c (sampleTime dt n i)) * sampleTime dt n i ^ j = 0

theorem poly_sub (c c' : Fin (m + 1) → ℝ) (t : ℝ) : poly (c - c') t = poly c t - poly c' t := by
  simp [poly, sub_mul, Finset.sum_sub_distrib]

theorem NormalEq.orth {dt : ℝ} {z : ℕ → ℝ} {n : ℕ} {c : Fin (m + 1) → ℝ} (h : NormalEq m dt z n c)
    (d : Fin (m + 1) → ℝ) :
    ∑ i ∈ range n, (z i - poly c (sampleTime dt n i)) * poly d (sampleTime dt n i) = 0 := by
  have : ∀ i, (z i - poly c (sampleTime dt n i)) * poly d (sampleTime dt n i)
      = ∑ j, d j / (Nat.factorial j : ℝ) *
        ((z i - poly c (sampleTime dt n i)) * sampleTime dt n i ^ (j : ℕ)) := by
    intro i
    conv_lhs => rw [poly.eq_1 d, Finset.mul_sum]
    exact Finset.sum_congr rfl fun j _ => by ring
  simp only [this]
  rw [Finset.sum_comm]
  refine Finset.sum_eq_zero fun j _ => ?_
  rw [← Finset.mul_sum, h j (by omega), mul_zero]

theorem NormalEq.sse {dt : ℝ} {z : ℕ → ℝ} {n : ℕ} {c : Fin (m + 1) → ℝ} (h : NormalEq m dt z n c)
    (c' : Fin (m + 1) → ℝ) :
    sse dt z n c' = sse dt z n c + ∑ i ∈ range n, poly (c' - c) (sampleTime dt n i) ^ 2 := by
  have := h.orth (c' - c)
  have e : Spec.sse dt z n c' = Spec.sse dt z n c
      + ∑ i ∈ range n, poly (c' - c) (sampleTime dt n i) ^ 2
      - 2 * ∑ i ∈ range n, (z i - poly c (sampleTime dt n i)) * poly (c' - c) (sampleTime dt n i) := by
    simp only [Spec.sse]
    rw [Finset.mul_sum, ← Finset.sum_add_distrib, ← Finset.sum_sub_distrib]
    refine Finset.sum_congr rfl fun i _ => ?_
    rw [poly_sub]; ring
  rw [e, this]; ring

theorem NormalEq.isFit {dt : ℝ} {z : ℕ → ℝ} {n : ℕ} {c : Fin (m + 1) → ℝ}
    (h : NormalEq m dt z n c) : IsFit dt z n c := fun c' => by
  rw [h.sse c']
  have := Finset.sum_nonneg (s := range n) fun i _ => sq_nonneg (poly (c' - c) (sampleTime dt n i))
  linarith

/-- Two fits agree at all sample points. -/
theorem NormalEq.unique {dt : ℝ} {z : ℕ → ℝ} {n : ℕ} {c c' : Fin (m + 1) → ℝ}
    (h : NormalEq m dt z n c) (h' : IsFit dt z n c') (i : ℕ) (hi : i < n) :
    poly (c' - c) (sampleTime dt n i) = 0 := by
  have h1 := h.sse c'
  have h2 := h' c
  have h3 : ∑ i ∈ range n, poly (c' - c) (sampleTime dt n i) ^ 2 = 0 :=
    le_antisymm (by linarith) (Finset.sum_nonneg fun i _ => sq_nonneg _)
  have := (Finset.sum_eq_zero_iff_of_nonneg (fun i _ => sq_nonneg _)).1 h3 i (mem_range.2 hi)
  exact pow_eq_zero_iff (two_ne_zero) |>.1 this

theorem sampleTime_succ (dt : ℝ) (n i : ℕ) :
    sampleTime dt (n + 1) i = sampleTime dt n i - dt := by
  simp only [sampleTime]; push_cast; ring

theorem sampleTime_last (dt : ℝ) (n : ℕ) : sampleTime dt (n + 1) n = 0 := by
  simp [sampleTime]

/-- One step of the recursive fit. -/
theorem NormalEq.step {dt : ℝ} {z : ℕ → ℝ} {n : ℕ} {c c' κ : Fin (m + 1) → ℝ}
    (h : NormalEq m dt z n c)
    (hc : ∀ t, poly c' t = poly c (t + dt) + (z n - poly c dt) * poly κ t)
    (hκ : ∀ j ≤ m, ∑ i ∈ range (n + 1), poly κ (sampleTime dt (n + 1) i)
      * sampleTime dt (n + 1) i ^ j = if j = 0 then 1 else 0) :
    NormalEq m dt z (n + 1) c' := by
  intro j hj
  have e : ∀ i, (z i - poly c' (sampleTime dt (n + 1) i)) * sampleTime dt (n + 1) i ^ j
      = (z i - poly c (sampleTime dt n i)) * (sampleTime dt n i - dt) ^ j
        - (z n - poly c dt) * (poly κ (sampleTime dt (n + 1) i) * sampleTime dt (n + 1) i ^ j) := by
    intro i
    rw [hc, sampleTime_succ, sub_add_cancel]; ring
  simp only [e]
  rw [Finset.sum_sub_distrib, ← Finset.mul_sum, hκ j hj, Finset.sum_range_succ]
  have e2 : ∑ i ∈ range n, (z i - poly c (sampleTime dt n i)) * (sampleTime dt n i - dt) ^ j = 0 := by
    have : ∀ i, (z i - poly c (sampleTime dt n i)) * (sampleTime dt n i - dt) ^ j
        = ∑ k ∈ range (j + 1), (-dt) ^ (j - k) * (j.choose k : ℝ)
          * ((z i - poly c (sampleTime dt n i)) * sampleTime dt n i ^ k) := by
      intro i
      rw [sub_eq_add_neg (sampleTime dt n i) dt, add_pow, Finset.mul_sum]
      exact Finset.sum_congr rfl fun k _ => by ring
    simp only [this]
    rw [Finset.sum_comm]
    refine Finset.sum_eq_zero fun k hk => ?_
    rw [← Finset.mul_sum, h k (by have := mem_range.1 hk; omega), mul_zero]
  rw [e2, ← sampleTime_succ, sampleTime_last]
  have e3 : sampleTime dt n n = dt := by simp [sampleTime]
  rw [e3]
  rcases j with _ | j
  · simp
  · simp

end generic

/-! ## Power sums -/

theorem sum_reflect_pow (n k : ℕ) (dt : ℝ) :
    ∑ i ∈ range (n + 1), sampleTime dt (n + 1) i ^ k = ∑ i ∈ range (n + 1), (-(i : ℝ) * dt) ^ k := by
  rw [← Finset.sum_range_reflect]
  refine Finset.sum_congr rfl fun i hi => ?_
  have : i ≤ n := by have := mem_range.1 hi; omega
  congr 1
  simp only [sampleTime]
  rw [show n + 1 - 1 - i = n - i by omega]
  push_cast [this]
  ring

theorem psum0 (n : ℕ) (dt : ℝ) : ∑ i ∈ range (n + 1), sampleTime dt (n + 1) i ^ 0 = n + 1 := by
  simp

theorem psum1 (n : ℕ) (dt : ℝ) :
    ∑ i ∈ range (n + 1), sampleTime dt (n + 1) i ^ 1 = -dt * (n * (n + 1) / 2) := by
  rw [sum_reflect_pow]
  induction n with
  | zero => simp
  | succ n ih => rw [Finset.sum_range_succ, ih]; push_cast; ring

theorem psum2 (n : ℕ) (dt : ℝ) :
    ∑ i ∈ range (n + 1), sampleTime dt (n + 1) i ^ 2 = dt ^ 2 * (n * (n + 1) * (2 * n + 1) / 6) := by
  rw [sum_reflect_pow]
  induction n with
  | zero => simp
  | succ n ih => rw [Finset.sum_range_succ, ih]; push_cast; ring

theorem psum3 (n : ℕ) (dt : ℝ) :
    ∑ i ∈ range (n + 1), sampleTime dt (n + 1) i ^ 3 = -dt ^ 3 * (n * (n + 1) / 2) ^ 2 := by
  rw [sum_reflect_pow]
  induction n with
  | zero => simp
  | succ n ih => rw [Finset.sum_range_succ, ih]; push_cast; ring

theorem psum4 (n : ℕ) (dt : ℝ) :
    ∑ i ∈ range (n + 1), sampleTime dt (n + 1) i ^ 4
      = dt ^ 4 * (n * (n + 1) * (2 * n + 1) * (3 * n ^ 2 + 3 * n - 1) / 30) := by
  rw [sum_reflect_pow]
  induction n with
  | zero => simp
  | succ n ih => rw [Finset.sum_range_succ, ih]; push_cast; ring

theorem poly_zero (c : Fin 1 → ℝ) (t : ℝ) : poly (m := 0) c t = c 0 := by simp [poly]

theorem poly_one (c : Fin 2 → ℝ) (t : ℝ) : poly (m := 1) c t = c 0 + c 1 * t := by
  simp [poly, Fin.sum_univ_two]

theorem poly_two (c : Fin 3 → ℝ) (t : ℝ) : poly (m := 2) c t = c 0 + c 1 * t + c 2 * t ^ 2 / 2 := by
  simp [poly, Fin.sum_univ_three]; ring

/-- The gains reproduce constants: order 0. -/
theorem kappa0 (n : ℕ) (dt : ℝ) : ∀ j ≤ 0, ∑ i ∈ range (n + 1),
    poly (m := 0) ![1 / ((n : ℝ) + 1)] (sampleTime dt (n + 1) i) * sampleTime dt (n + 1) i ^ j
      = if j = 0 then 1 else 0 := by
  intro j hj
  obtain rfl : j = 0 := by omega
  have : (n : ℝ) + 1 ≠ 0 := by positivity
  simp [poly_zero]
  field_simp

theorem kappa1 (n : ℕ) (dt : ℝ) (hdt : dt ≠ 0) : ∀ j ≤ 1, ∑ i ∈ range (n + 1),
    poly (m := 1) ![2 * (2 * ((n : ℝ) + 1) - 1) / (((n : ℝ) + 1) * ((n : ℝ) + 1 + 1)),
      6 / (((n : ℝ) + 1) * ((n : ℝ) + 1 + 1) * dt)] (sampleTime dt (n + 1) i)
      * sampleTime dt (n + 1) i ^ j = if j = 0 then 1 else 0 := by
  intro j hj
  have h1 : (n : ℝ) + 1 ≠ 0 := by positivity
  have h2 : (n : ℝ) + 1 + 1 ≠ 0 := by positivity
  have e : ∀ (a b : ℝ) j, ∑ i ∈ range (n + 1), poly (m := 1) ![a, b] (sampleTime dt (n + 1) i)
      * sampleTime dt (n + 1) i ^ j = a * ∑ i ∈ range (n + 1), sampleTime dt (n + 1) i ^ j
        + b * ∑ i ∈ range (n + 1), sampleTime dt (n + 1) i ^ (j + 1) := by
    intro a b j
    rw [Finset.mul_sum, Finset.mul_sum, ← Finset.sum_add_distrib]
    refine Finset.sum_congr rfl fun i _ => ?_
    rw [poly_one]; simp; ring
  rw [e]
  interval_cases j
  · rw [psum0, psum1, if_pos rfl]; field_simp; ring
  · rw [psum1, psum2, if_neg one_ne_zero]; field_simp; ring

theorem kappa2 (n : ℕ) (dt : ℝ) (hdt : dt ≠ 0) : ∀ j ≤ 2, ∑ i ∈ range (n + 1),
    poly (m := 2) ![3 * (3 * ((n : ℝ) + 1) ^ 2 - 3 * ((n : ℝ) + 1) + 2)
        / (((n : ℝ) + 1) * ((n : ℝ) + 1 + 1) * ((n : ℝ) + 1 + 2)),
      18 * (2 * ((n : ℝ) + 1) - 1) / (((n : ℝ) + 1) * ((n : ℝ) + 1 + 1) * ((n : ℝ) + 1 + 2) * dt),
      60 / (((n : ℝ) + 1) * ((n : ℝ) + 1 + 1) * ((n : ℝ) + 1 + 2) * dt ^ 2)]
      (sampleTime dt (n + 1) i) * sampleTime dt (n + 1) i ^ j = if j = 0 then 1 else 0 := by
  intro j hj
  have h1 : (n : ℝ) + 1 ≠ 0 := by positivity
  have h2 : (n : ℝ) + 1 + 1 ≠ 0 := by positivity
  have h3 : (n : ℝ) + 1 + 2 ≠ 0 := by positivity
  have e : ∀ (a b c : ℝ) j, ∑ i ∈ range (n + 1), poly (m := 2) ![a, b, c] (sampleTime dt (n + 1) i)
      * sampleTime dt (n + 1) i ^ j = a * ∑ i ∈ range (n + 1), sampleTime dt (n + 1) i ^ j
        + b * ∑ i ∈ range (n + 1), sampleTime dt (n + 1) i ^ (j + 1)
        + c / 2 * ∑ i ∈ range (n + 1), sampleTime dt (n + 1) i ^ (j + 2) := by
    intro a b c j
    rw [Finset.mul_sum, Finset.mul_sum, Finset.mul_sum, ← Finset.sum_add_distrib,
      ← Finset.sum_add_distrib]
    refine Finset.sum_congr rfl fun i _ => ?_
    rw [poly_two]; simp; ring
  rw [e]
  interval_cases j
  · rw [psum0, psum1, psum2, if_pos rfl]; field_simp; ring
  · rw [psum1, psum2, psum3, if_neg one_ne_zero]; field_simp; ring
  · rw [psum2, psum3, psum4, if_neg two_ne_zero]; field_simp; ring

/-! ## C41 -/

namespace LSQ

/-- Run the filter on `z 0, …, z (n-1)` from construction. -/
noncomputable def run (dt : ℝ) (order : ℕ) (σ : ℝ) (z : ℕ → ℝ) (n : ℕ) : Except Err LSQ :=
  match init dt order σ with
  | .error e => .error e
  | .ok s =>
    match runList update s ((List.range n).map z) with
    | .error e => .error e.1
    | .ok s => .ok s

/-- The object `__init__` returns. -/
def fresh (dt : ℝ) (order : ℕ) (σ : ℝ) : LSQ :=
  ⟨dt, σ, order, 0, List.replicate (order + 1) 0, List.replicate (order + 1) 0, 0⟩

theorem init_eq (dt : ℝ) (order : ℕ) (ho : order ≤ 2) (σ : ℝ) :
    init dt order σ = .ok (fresh dt order σ) := by
  rw [init, if_neg (by omega)]; simp [reset, fresh]

/-- The state after `n` samples solves the normal equations. -/
theorem run_spec (dt : ℝ) (hdt : dt ≠ 0) (order : ℕ) (ho : order ≤ 2) (σ : ℝ) (z : ℕ → ℝ) (n : ℕ) :
    ∃ s, run dt order σ z n = .ok s ∧ s.n = n ∧ s.order = order ∧ s.dt = dt ∧ s.sigma = σ ∧
      ∃ c : Fin (order + 1) → ℝ, s.x = List.ofFn c ∧ NormalEq order dt z n c := by
  suffices h : ∃ s, runList update (fresh dt order σ) ((List.range n).map z) = .ok s ∧ s.n = n ∧
      s.order = order ∧ s.dt = dt ∧
      s.sigma = σ ∧ ∃ c : Fin (order + 1) → ℝ, s.x = List.ofFn c ∧ NormalEq order dt z n c by
    obtain ⟨s, h1, h2⟩ := h
    exact ⟨s, by simp [run, init_eq dt order ho, h1], h2⟩
  induction n with
  | zero =>
    refine ⟨_, rfl, rfl, rfl, rfl, rfl, fun _ => 0, ?_, ?_⟩
    · simp only [fresh, List.ofFn_const]
    · intro j _; simp
  | succ n ih =>
    obtain ⟨s, h1, hn, hord, hd, hs, c, hx, hc⟩ := ih
    rw [List.range_succ, List.map_append, runList_append, h1]
    simp only [List.map_cons, List.map_nil, runList]
    interval_cases order
    · have hx' : s.x = [c 0] := by rw [hx]; simp
      refine ⟨{ s with
                n := n + 1, K := [1 / ((n : ℝ) + 1)],
                x := [c 0 + 1 / ((n : ℝ) + 1) * (z n - c 0)] }, by simp [update, hord, hx', hn],
        rfl, hord, hd, hs, ![c 0 + 1 / ((n : ℝ) + 1) * (z n - c 0)], by simp, ?_⟩
      refine hc.step (fun t => ?_) (kappa0 n dt)
      simp [poly_zero]; ring
    · have hx' : s.x = [c 0, c 1] := by rw [hx]; simp
      set K0 := 2 * (2 * ((n : ℝ) + 1) - 1) / (((n : ℝ) + 1) * ((n : ℝ) + 1 + 1)) with hK0
      set K1 := 6 / (((n : ℝ) + 1) * ((n : ℝ) + 1 + 1) * dt) with hK1
      set y := z n - c 0 - dt * c 1 with hy
      refine ⟨{ s with
                n := n + 1, K := [K0, K1],
                x := [c 0 + (K0 * y + dt * c 1), c 1 + K1 * y] },
        by simp [update, hord, hx', hn, hd, hdt, hs, hK0, hK1, hy],
        rfl, hord, hd, hs, ![c 0 + (K0 * y + dt * c 1), c 1 + K1 * y], by simp, ?_⟩
      refine hc.step (fun t => ?_) (kappa1 n dt hdt)
      rw [← hK0, ← hK1, poly_one, poly_one, poly_one, poly_one]
      simp [hy]; ring
    · have hx' : s.x = [c 0, c 1, c 2] := by rw [hx]; simp
      set K0 := 3 * (3 * ((n : ℝ) + 1) ^ 2 - 3 * ((n : ℝ) + 1) + 2)
        / (((n : ℝ) + 1) * ((n : ℝ) + 1 + 1) * ((n : ℝ) + 1 + 2)) with hK0
      set K1 := 18 * (2 * ((n : ℝ) + 1) - 1)
        / (((n : ℝ) + 1) * ((n : ℝ) + 1 + 1) * ((n : ℝ) + 1 + 2) * dt) with hK1
      set K2 := 60 / (((n : ℝ) + 1) * ((n : ℝ) + 1 + 1) * ((n : ℝ) + 1 + 2) * dt ^ 2) with hK2
      set y := z n - c 0 - dt * c 1 - 0.5 * dt ^ 2 * c 2 with hy
      refine ⟨{ s with
                n := n + 1, K := [K0, K1, K2],
                x := [c 0 + (K0 * y + c 1 * dt + 0.5 * dt ^ 2 * c 2),
                  c 1 + (K1 * y + c 2 * dt), c 2 + K2 * y] },
        by simp [update, hord, hx', hn, hd, hdt, hs, hK0, hK1, hK2, hy],
        rfl, hord, hd, hs, ![c 0 + (K0 * y + c 1 * dt + 0.5 * dt ^ 2 * c 2),
                  c 1 + (K1 * y + c 2 * dt), c 2 + K2 * y], by simp, ?_⟩
      refine hc.step (fun t => ?_) (kappa2 n dt hdt)
      rw [← hK0, ← hK1, ← hK2, poly_two, poly_two, poly_two, poly_two]
      simp [hy]; ring

/-- A polynomial of degree ≤ 2 vanishing at the last `order + 1` samples is zero. -/
theorem coeff_zero (dt : ℝ) (hdt : dt ≠ 0) (order : ℕ) (ho : order ≤ 2) (n : ℕ) (hn : order < n)
    (d : Fin (order + 1) → ℝ) (h : ∀ i < n, poly d (sampleTime dt n i) = 0) : d = 0 := by
  obtain ⟨n, rfl⟩ : ∃ k, n = k + 1 := ⟨n - 1, by omega⟩
  have h0 := h n (by omega)
  rw [sampleTime_last] at h0
  interval_cases order
  · rw [poly_zero] at h0
    ext i; fin_cases i; exact h0
  · have h1 := h (n - 1) (by omega)
    obtain ⟨n, rfl⟩ : ∃ k, n = k + 1 := ⟨n - 1, by omega⟩
    simp only [poly_one, sampleTime, Nat.add_sub_cancel] at h0 h1
    push_cast at h0 h1
    have a0 : d 0 = 0 := by linarith
    have a1 : d 1 * dt = 0 := by rw [a0] at h1; linarith
    ext i; fin_cases i
    · exact a0
    · exact (mul_eq_zero.1 a1).resolve_right hdt
  · have h1 := h (n - 1) (by omega)
    have h2 := h (n - 2) (by omega)
    obtain ⟨n, rfl⟩ : ∃ k, n = k + 2 := ⟨n - 2, by omega⟩
    rw [show n + 2 - 1 = n + 1 by omega] at h1
    rw [show n + 2 - 2 = n by omega] at h2
    simp only [poly_two, sampleTime] at h0 h1 h2
    push_cast at h0 h1 h2
    have a0 : d 0 = 0 := by linarith
    have a1 : d 1 * dt = 0 := by rw [a0] at h1 h2; linarith
    have a2 : d 2 * (dt * dt) = 0 := by rw [a0] at h1 h2; linarith
    ext i; fin_cases i
    · exact a0
    · exact (mul_eq_zero.1 a1).resolve_right hdt
    · exact (mul_eq_zero.1 a2).resolve_right (mul_ne_zero hdt hdt)

end LSQ

/-- **C41.** After `n` updates the state of `LeastSquaresFilter` is a least squares fit of its
order to all `n` measurements (value and derivatives at the latest sample), and it is the only
one as soon as `n` exceeds the order. -/
theorem C41_least_squares (dt : ℝ) (hdt : dt ≠ 0) (order : ℕ) (ho : order ≤ 2) (σ : ℝ)
    (z : ℕ → ℝ) (n : ℕ) : ∃ s, LSQ.run dt order σ z n = .ok s ∧ s.n = n ∧
      ∃ c : Fin (order + 1) → ℝ, s.x = List.ofFn c ∧ IsFit dt z n c ∧
        (order < n → ∀ c', IsFit dt z n c' → c' = c) := by
  obtain ⟨s, h1, h2, -, -, -, c, h3, h4⟩ := LSQ.run_spec dt hdt order ho σ z n
  refine ⟨s, h1, h2, c, h3, h4.isFit, fun hn c' hc' => ?_⟩
  exact sub_eq_zero.1 (LSQ.coeff_zero dt hdt order ho n hn _ fun i hi => h4.unique hc' i hi)

/-- C41 on concrete data: three points of the parabola `t²`, order 2, unit step; the fit is the
value 4 and derivatives 4 and 2 at the last sample. -/
example : ∃ s, LSQ.run 1 2 0 (fun i => (i : ℝ) ^ 2) 3 = .ok s ∧ s.x = [4, 4, 2] := by
  obtain ⟨s, h1, -, c, h3, -, h5⟩ := C41_least_squares 1 one_ne_zero 2 le_rfl 0
    (fun i => (i : ℝ) ^ 2) 3
  refine ⟨s, h1, ?_⟩
  have : ![4, 4, 2] = c := h5 (by norm_num) _ fun c' => by
    have e : sse (m := 2) 1 (fun i => (i : ℝ) ^ 2) 3 ![4, 4, 2] = 0 := by
      simp only [sse, Finset.sum_range_succ, poly_two, sampleTime]
      norm_num [show (![4, 4, 2] : Fin 3 → ℝ) 2 = 2 from rfl]
    rw [e]
    exact Finset.sum_nonneg fun i _ => sq_nonneg _
  rw [h3, ← this]
  simp

/-- **C40 (least squares gains).** A `GHFilter` started at zero and fed, at step `i = 0, 1, …`,
the gains `least_squares_parameters(i)` holds at every step the estimate of the first order
`LeastSquaresFilter` — by `C41_least_squares` the least squares line through all the data. -/
theorem C40_least_squares (dt : ℝ) (hdt : dt ≠ 0) (σ g0 h0 : ℝ) (z : ℕ → ℝ) (n : ℕ) :
    ∃ (gains : ℕ → ℝ × ℝ) (s : LSQ) (f : GH ℝ),
      (∀ i : ℕ, leastSquaresParameters i = .ok (gains i)) ∧
      LSQ.run dt 1 σ z n = .ok s ∧
      runList GH.upd (GH.init 0 0 dt g0 h0)
        ((List.range n).map fun i => (z i, some (gains i).1, some (gains i).2)) = .ok f ∧
      s.x = [f.x, f.dx] := by
  let gains : ℕ → ℝ × ℝ := fun i => ((2 * (2 * (i : ℝ) + 1)) / (((i : ℝ) + 2) * ((i : ℝ) + 1)),
    6 / (((i : ℝ) + 2) * ((i : ℝ) + 1)))
  suffices h : ∃ (s : LSQ) (f : GH ℝ), runList LSQ.update (LSQ.fresh dt 1 σ) ((List.range n).map z)
        = .ok s ∧ runList GH.upd (GH.init 0 0 dt g0 h0)
        ((List.range n).map fun i => (z i, some (gains i).1, some (gains i).2)) = .ok f ∧
      s.x = [f.x, f.dx] ∧ s.n = n ∧ s.order = 1 ∧ s.dt = dt ∧ f.dt = dt by
    obtain ⟨s, f, h1, h2, h3, -⟩ := h
    refine ⟨gains, s, f, fun i => ?_, by rw [LSQ.run, LSQ.init_eq dt 1 (by norm_num)]; simp [h1], h2, h3⟩
    have : ((i : ℤ) + 2) * ((i : ℤ) + 1) ≠ 0 := by positivity
    simp [leastSquaresParameters, this, gains]
  induction n with
  | zero => exact ⟨_, _, rfl, rfl, rfl, rfl, rfl, rfl, rfl⟩
  | succ n ih =>
    obtain ⟨s, f, h1, h2, h3, h4, h5, h6, h7⟩ := ih
    rw [List.range_succ, List.map_append, List.map_append, runList_append, runList_append, h1, h2]
    simp only [List.map_cons, List.map_nil, runList, GH.upd]
    rw [GH.update_ok f (by rw [h7]; exact hdt)]
    refine ⟨{ s with
        n := n + 1, K := [2 * (2 * ((n : ℝ) + 1) - 1) / (((n : ℝ) + 1) * ((n : ℝ) + 1 + 1)),
          6 / (((n : ℝ) + 1) * ((n : ℝ) + 1 + 1) * dt)],
        x := [f.x + (2 * (2 * ((n : ℝ) + 1) - 1) / (((n : ℝ) + 1) * ((n : ℝ) + 1 + 1))
          * (z n - f.x - dt * f.dx) + dt * f.dx),
          f.dx + 6 / (((n : ℝ) + 1) * ((n : ℝ) + 1 + 1) * dt) * (z n - f.x - dt * f.dx)] }, _,
      by simp [LSQ.update, h3, h4, h5, h6, hdt], rfl, ?_, rfl, h5, h6, h7⟩
    have a1 : (n : ℝ) + 1 ≠ 0 := by positivity
    have a2 : (n : ℝ) + 2 ≠ 0 := by positivity
    have a3 : (n : ℝ) + 1 + 1 ≠ 0 := by positivity
    simp [gains, h7]
    constructor
    · field_simp; ring
    · field_simp; ring

/-! ## C42 -/

/-- **C42 (reset).** Whatever was fed to the filter, and whether or not the last update
succeeded, `reset()` restores exactly the state at construction. -/
theorem C42_reset (dt : ℝ) (order : ℤ) (σ : ℝ) (s0 : LSQ) (h0 : LSQ.init dt order σ = .ok s0)
    (data : List ℝ) : (runList LSQ.update s0 data).left.reset = s0 := by
  have hs0 : s0.reset = s0 := by
    unfold LSQ.init at h0
    split_ifs at h0
    simp only [Except.ok.injEq] at h0
    rw [← h0]; rfl
  have step : ∀ (s : LSQ) z, (s.update z).left.reset = s.reset := by
    intro s z
    unfold LSQ.update
    simp only
    split
    · rfl
    · split_ifs <;> rfl
    · split_ifs <;> rfl
    · rfl
  suffices h : ∀ (l : List ℝ) (s : LSQ), s.reset = s0 → (runList LSQ.update s l).left.reset = s0 from
    h data s0 hs0
  intro l
  induction l with
  | nil => intro s hs; exact hs
  | cons z l ih =>
    intro s hs
    have := step s z
    rw [runList]
    cases hu : s.update z with
    | error e => rw [hu] at this; simp only [Exec.left] at this ⊢; rw [this, hs]
    | ok s' => rw [hu] at this; exact ih s' (by simp only [Exec.left] at this; rw [this, hs])

/-- **C42 refuted.** `errors()` raises `ZeroDivisionError` on a filter of order 1 after its
first update, and on one of order 2 after its first and second (the guarded `error` is computed,
the unguarded `std` is not). -/
theorem C42_errors_refuted (dt σ : ℝ) (hdt : dt ≠ 0) (z : ℕ → ℝ) :
    (∃ s, LSQ.run dt 1 σ z 1 = .ok s ∧ s.errors = .error .zeroDivision) ∧
    (∃ s, LSQ.run dt 2 σ z 1 = .ok s ∧ s.errors = .error .zeroDivision) ∧
    (∃ s, LSQ.run dt 2 σ z 2 = .ok s ∧ s.errors = .error .zeroDivision) := by
  have key : ∀ order ≤ 2, ∀ n, ∃ s, LSQ.run dt order σ z n = .ok s ∧ s.n = n ∧ s.order = order := by
    intro order ho n
    obtain ⟨s, h1, h2, h3, -⟩ := LSQ.run_spec dt hdt order ho σ z n
    exact ⟨s, h1, h2, h3⟩
  refine ⟨?_, ?_, ?_⟩
  · obtain ⟨s, h1, h2, h3⟩ := key 1 (by norm_num) 1
    exact ⟨s, h1, by simp [LSQ.errors, LSQ.errors1, h2, h3]⟩
  · obtain ⟨s, h1, h2, h3⟩ := key 2 (by norm_num) 1
    exact ⟨s, h1, by simp [LSQ.errors, LSQ.errors2, h2, h3]⟩
  · obtain ⟨s, h1, h2, h3⟩ := key 2 (by norm_num) 2
    exact ⟨s, h1, by norm_num [LSQ.errors, LSQ.errors2, h2, h3]⟩

/-- Entries of the normal matrix. -/
theorem normalMat_apply (m : ℕ) (dt : ℝ) (n : ℕ) (j k : Fin (m + 1)) :
    normalMat m dt n j k = (∑ i ∈ range n, sampleTime dt n i ^ ((j : ℕ) + k))
      / ((Nat.factorial j : ℝ) * (Nat.factorial k : ℝ)) := by
  simp only [normalMat, of_apply]
  rw [Finset.sum_div]
  refine Finset.sum_congr rfl fun i _ => ?_
  rw [pow_add, div_mul_div_comm]

theorem normalMat_one (dt : ℝ) (n : ℕ) : normalMat 1 dt (n + 1)
    = !![(n : ℝ) + 1, -dt * (n * (n + 1) / 2);
        -dt * (n * (n + 1) / 2), dt ^ 2 * (n * (n + 1) * (2 * n + 1) / 6)] := by
  ext i j
  rw [normalMat_apply]
  fin_cases i <;> fin_cases j
  · simp
  · have := psum1 n dt
    simpa using this
  · have := psum1 n dt
    simpa using this
  · have := psum2 n dt
    simpa using this

theorem normalMat_two (dt : ℝ) (n : ℕ) : normalMat 2 dt (n + 1)
    = !![(n : ℝ) + 1, -dt * (n * (n + 1) / 2), dt ^ 2 * (n * (n + 1) * (2 * n + 1) / 6) / 2;
        -dt * (n * (n + 1) / 2), dt ^ 2 * (n * (n + 1) * (2 * n + 1) / 6),
          -dt ^ 3 * (n * (n + 1) / 2) ^ 2 / 2;
        dt ^ 2 * (n * (n + 1) * (2 * n + 1) / 6) / 2, -dt ^ 3 * (n * (n + 1) / 2) ^ 2 / 2,
          dt ^ 4 * (n * (n + 1) * (2 * n + 1) * (3 * n ^ 2 + 3 * n - 1) / 30) / 4] := by
  have p1 := psum1 n dt
  have p2 := psum2 n dt
  have p3 := psum3 n dt
  have p4 := psum4 n dt
  ext i j
  rw [normalMat_apply]
  fin_cases i <;> fin_cases j
  · simp
  · simpa using p1
  · simp [p2]
  · simpa using p1
  · simpa using p2
  · simp [p3]
  · simp [p2]
  · simp [p3]
  · simp [p4]; ring

theorem normalMat_zero (dt : ℝ) (n : ℕ) : normalMat 0 dt n = !![(n : ℝ)] := by
  ext i j
  rw [normalMat_apply]
  fin_cases i; fin_cases j
  simp

theorem sqrt_div_mul_self (a dt : ℝ) (hdt : 0 < dt) (d : ℝ) :
    √(a / (d * dt * dt)) = 1 / dt * √(a / d) := by
  rw [show a / (d * dt * dt) = (1 / dt) ^ 2 * (a / d) by field_simp,
    Real.sqrt_mul (by positivity), Real.sqrt_sq (by positivity)]

/-- Diagonal of the inverse normal matrix, order 0. -/
theorem normalInv_zero (dt : ℝ) (n : ℕ) : (normalMat 0 dt (n + 1))⁻¹ = !![1 / ((n : ℝ) + 1)] ∧
    IsUnit (normalMat 0 dt (n + 1)).det := by
  have h1 : (n : ℝ) + 1 ≠ 0 := by positivity
  have e : normalMat 0 dt (n + 1) * !![1 / ((n : ℝ) + 1)] = 1 := by
    rw [normalMat_zero]
    ext i j; fin_cases i; fin_cases j
    simp [Matrix.mul_apply]
    field_simp
  exact ⟨Matrix.inv_eq_right_inv e, Matrix.isUnit_det_of_right_inverse e⟩

/-- The inverse normal matrix, order 1 (`n + 2` samples). -/
theorem normalInv_one (dt : ℝ) (hdt : dt ≠ 0) (n : ℕ) (N : ℝ) (hN : N = (n : ℝ) + 2) :
    (normalMat 1 dt (n + 2))⁻¹ = !![2 * (2 * N - 1) / (N * (N + 1)), 6 / (N * (N + 1) * dt);
      6 / (N * (N + 1) * dt), 12 / (N * (N * N - 1) * dt * dt)] ∧
    IsUnit (normalMat 1 dt (n + 2)).det := by
  have h1 : N ≠ 0 := by rw [hN]; positivity
  have h2 : N + 1 ≠ 0 := by rw [hN]; positivity
  have h3 : N - 1 ≠ 0 := by rw [hN]; ring_nf; positivity
  have h4 : N * N - 1 = (N - 1) * (N + 1) := by ring
  have e : normalMat 1 dt (n + 2) * !![2 * (2 * N - 1) / (N * (N + 1)), 6 / (N * (N + 1) * dt);
      6 / (N * (N + 1) * dt), 12 / (N * (N * N - 1) * dt * dt)] = 1 := by
    rw [normalMat_one]
    push_cast
    rw [show (n : ℝ) + 1 = N - 1 by rw [hN]; ring, h4, Matrix.mul_fin_two, Matrix.one_fin_two]
    congr 1
    ext i j
    fin_cases i <;> fin_cases j <;> simp <;> field_simp <;> ring
  exact ⟨Matrix.inv_eq_right_inv e, Matrix.isUnit_det_of_right_inverse e⟩

/-- The inverse normal matrix, order 2 (`n + 3` samples). -/
theorem normalInv_two (dt : ℝ) (hdt : dt ≠ 0) (n : ℕ) (N : ℝ) (hN : N = (n : ℝ) + 3) :
    (normalMat 2 dt (n + 3))⁻¹ =
      !![3 * (3 * N * N - 3 * N + 2) / (N * (N + 1) * (N + 2)),
          18 * (2 * N - 1) / (N * (N + 1) * (N + 2) * dt), 60 / (N * (N + 1) * (N + 2) * dt ^ 2);
        18 * (2 * N - 1) / (N * (N + 1) * (N + 2) * dt),
          12 * (16 * N * N - 30 * N + 11) / (N * (N * N - 1) * (N * N - 4) * (dt * dt)),
          360 / (N * (N + 1) * (N * N - 4) * dt ^ 3);
        60 / (N * (N + 1) * (N + 2) * dt ^ 2), 360 / (N * (N + 1) * (N * N - 4) * dt ^ 3),
          720 / (N * (N * N - 1) * (N * N - 4) * (dt * dt) * (dt * dt))] ∧
    IsUnit (normalMat 2 dt (n + 3)).det := by
  have h1 : N ≠ 0 := by rw [hN]; positivity
  have h2 : N + 1 ≠ 0 := by rw [hN]; positivity
  have h2' : N + 2 ≠ 0 := by rw [hN]; positivity
  have h3 : N - 1 ≠ 0 := by rw [hN]; ring_nf; positivity
  have h3' : N - 2 ≠ 0 := by rw [hN]; ring_nf; positivity
  have h4 : N * N - 1 = (N - 1) * (N + 1) := by ring
  have h5 : N * N - 4 = (N - 2) * (N + 2) := by ring
  have e : normalMat 2 dt (n + 3) * 
      !![3 * (3 * N * N - 3 * N + 2) / (N * (N + 1) * (N + 2)),
          18 * (2 * N - 1) / (N * (N + 1) * (N + 2) * dt), 60 / (N * (N + 1) * (N + 2) * dt ^ 2);
        18 * (2 * N - 1) / (N * (N + 1) * (N + 2) * dt),
          12 * (16 * N * N - 30 * N + 11) / (N * (N * N - 1) * (N * N - 4) * (dt * dt)),
          360 / (N * (N + 1) * (N * N - 4) * dt ^ 3);
        60 / (N * (N + 1) * (N + 2) * dt ^ 2), 360 / (N * (N + 1) * (N * N - 4) * dt ^ 3),
          720 / (N * (N * N - 1) * (N * N - 4) * (dt * dt) * (dt * dt))] = 1 := by
    rw [normalMat_two]
    push_cast
    rw [show (n : ℝ) + 2 = N - 1 by rw [hN]; ring, h4, h5, Matrix.mul_fin_three,
      Matrix.one_fin_three]
    congr 1
    ext i j
    fin_cases i <;> fin_cases j <;> simp <;> field_simp <;> ring
  exact ⟨Matrix.inv_eq_right_inv e, Matrix.isUnit_det_of_right_inverse e⟩

/-- **C42 partial (errors).** As soon as more samples than the order have been seen, both lists
`errors()` returns are `σ` times the square roots of the diagonal of the inverse normal matrix,
which is invertible.  (For fewer samples see `C42_errors_refuted`.) -/
theorem C42_errors_partial (dt : ℝ) (hdt : 0 < dt) (order : ℕ) (ho : order ≤ 2) (σ : ℝ)
    (z : ℕ → ℝ) (n : ℕ) (hn : order < n) : ∃ s, LSQ.run dt order σ z n = .ok s ∧
      IsUnit (normalMat order dt n).det ∧
      s.errors = .ok (List.ofFn fun j => σ * √((normalMat order dt n)⁻¹ j j),
        List.ofFn fun j => σ * √((normalMat order dt n)⁻¹ j j)) := by
  obtain ⟨s, h1, h2, h3, h4, h5, -⟩ := LSQ.run_spec dt hdt.ne' order ho σ z n
  refine ⟨s, h1, ?_⟩
  interval_cases order
  · obtain ⟨n, rfl⟩ : ∃ k, n = k + 1 := ⟨n - 1, by omega⟩
    obtain ⟨e, hu⟩ := normalInv_zero dt n
    refine ⟨hu, ?_⟩
    rw [e]
    simp [LSQ.errors, h2, h3, h5, div_eq_mul_inv]
  · obtain ⟨n, rfl⟩ : ∃ k, n = k + 2 := ⟨n - 2, by omega⟩
    obtain ⟨N, hN⟩ : ∃ N : ℝ, N = (n : ℝ) + 2 := ⟨_, rfl⟩
    obtain ⟨e, hu⟩ := normalInv_one dt hdt.ne' n N hN
    refine ⟨hu, ?_⟩
    rw [e]
    have hN' : ((s.n : ℕ) : ℝ) = N := by rw [h2, hN]; push_cast; ring
    have hN1 : N > 1 := by rw [hN]; have : (0 : ℝ) ≤ n := by positivity
                           linarith
    have hd : ¬ (N * (N * N - 1) = 0 ∨ dt = 0) := by
      rintro (h | h)
      · have : 0 < N * (N * N - 1) := mul_pos (by linarith) (by nlinarith)
        linarith
      · exact hdt.ne' h
    have e1 := sqrt_div_mul_self 12 dt hdt (N * (N * N - 1))
    simp only [LSQ.errors, h2, h3, h4, h5, LSQ.errors1, Nat.succ_ne_zero, if_false]
    rw [← h2, hN', if_pos hN1, if_neg hd]
    simp [e1]
    ring
  · obtain ⟨n, rfl⟩ : ∃ k, n = k + 3 := ⟨n - 3, by omega⟩
    obtain ⟨N, hN⟩ : ∃ N : ℝ, N = (n : ℝ) + 3 := ⟨_, rfl⟩
    obtain ⟨e, hu⟩ := normalInv_two dt hdt.ne' n N hN
    refine ⟨hu, ?_⟩
    rw [e]
    have hN' : ((s.n : ℕ) : ℝ) = N := by rw [h2, hN]; push_cast; ring
    have hN1 : N ≥ 3 := by rw [hN]; have : (0 : ℝ) ≤ n := by positivity
                           linarith
    have hd : ¬ (N * (N * N - 1) * (N * N - 4) = 0 ∨ dt = 0) := by
      rintro (h | h)
      · have : 0 < N * (N * N - 1) * (N * N - 4) :=
          mul_pos (mul_pos (by linarith) (by nlinarith)) (by nlinarith)
        linarith
      · exact hdt.ne' h
    have e1 : √(12 * (16 * N * N - 30 * N + 11) / (N * (N * N - 1) * (N * N - 4) * (dt * dt)))
        = 1 / dt * √(12 * (16 * N * N - 30 * N + 11) / (N * (N * N - 1) * (N * N - 4))) := by
      rw [← sqrt_div_mul_self _ dt hdt, mul_assoc _ dt dt]
    have e2 : √(720 / (N * (N * N - 1) * (N * N - 4) * (dt * dt) * (dt * dt)))
        = 1 / (dt * dt) * √(720 / (N * (N * N - 1) * (N * N - 4))) :=
      sqrt_div_mul_self _ (dt * dt) (by positivity) _
    simp only [LSQ.errors, h2, h3, h4, h5, LSQ.errors2, Nat.succ_ne_zero, if_false]
    rw [← h2, hN', if_pos hN1, if_neg hd]
    simp only [List.ofFn_succ, List.ofFn_zero]
    simp [Fin.succ, e1, e2]
    constructor <;> ring

section stat
open MeasureTheory ProbabilityTheory
variable {Ω : Type*} [MeasurableSpace Ω] {μ : Measure Ω} [IsProbabilityMeasure μ]

/-- Variance of a linear combination of white noise. -/
theorem var_lin {v : ℕ → Ω → ℝ} {σ2 : ℝ} (hv : WhiteNoise v σ2 μ) (sig w : ℕ → ℝ) (n : ℕ) :
    Var[fun ω => ∑ i ∈ range n, w i * (sig i + v i ω); μ] = σ2 * ∑ i ∈ range n, w i ^ 2 := by
  have hm : ∀ i, MemLp (fun ω => w i * (sig i + v i ω)) 2 μ := fun i =>
    ((memLp_const (sig i)).add (hv.memLp i)).const_mul (w i)
  rw [← covariance_self (memLp_finset_sum _ fun i _ => hm i).aemeasurable,
    covariance_fun_sum_fun_sum' (fun i _ => hm i) (fun i _ => hm i), Finset.mul_sum]
  refine Finset.sum_congr rfl fun i hi => ?_
  have e : ∀ j, cov[fun ω => w i * (sig i + v i ω), fun ω => w j * (sig j + v j ω); μ]
      = w i * (w j * cov[v i, v j; μ]) := by
    intro j
    rw [covariance_const_mul_left, covariance_const_mul_right,
      covariance_const_add_left ((hv.memLp i).integrable (by norm_num)),
      covariance_const_add_right ((hv.memLp j).integrable (by norm_num))]
  rw [Finset.sum_eq_single i]
  · rw [e, hv.var]; ring
  · intro j _ hj
    rw [e, hv.uncorr i j hj.symm]; simp
  · intro h; exact absurd hi h

/-- The least squares estimate is linear in the data, with the weights of the inverse normal
matrix. -/
theorem NormalEq.solve {m : ℕ} {dt : ℝ} {z : ℕ → ℝ} {n : ℕ} {c : Fin (m + 1) → ℝ}
    (h : NormalEq m dt z n c) (hu : IsUnit (normalMat m dt n).det) (j : Fin (m + 1)) :
    c j = ∑ i ∈ range n, (∑ k, (normalMat m dt n)⁻¹ j k
      * (sampleTime dt n i ^ (k : ℕ) / (Nat.factorial k : ℝ))) * z i := by
  have e : normalMat m dt n *ᵥ c
      = fun k : Fin (m + 1) => ∑ i ∈ range n, sampleTime dt n i ^ (k : ℕ) / (Nat.factorial k : ℝ) * z i := by
    funext k
    have := h k (by omega)
    have e1 : (normalMat m dt n *ᵥ c) k = ∑ i ∈ range n,
        sampleTime dt n i ^ (k : ℕ) / (Nat.factorial k : ℝ) * poly c (sampleTime dt n i) := by
      simp only [mulVec, dotProduct, normalMat, of_apply, Finset.sum_mul]
      rw [Finset.sum_comm]
      refine Finset.sum_congr rfl fun i _ => ?_
      rw [poly, Finset.mul_sum]
      exact Finset.sum_congr rfl fun l _ => by ring
    rw [e1, ← sub_eq_zero, ← Finset.sum_sub_distrib]
    have e2 : ∀ i, sampleTime dt n i ^ (k : ℕ) / (Nat.factorial k : ℝ) * poly c (sampleTime dt n i)
        - sampleTime dt n i ^ (k : ℕ) / (Nat.factorial k : ℝ) * z i
        = -(1 / (Nat.factorial k : ℝ)) *
          ((z i - poly c (sampleTime dt n i)) * sampleTime dt n i ^ (k : ℕ)) := fun i => by ring
    simp only [e2]
    rw [← Finset.mul_sum, this, mul_zero]
  have e3 : c = (normalMat m dt n)⁻¹ *ᵥ (normalMat m dt n *ᵥ c) := by
    rw [mulVec_mulVec, nonsing_inv_mul _ hu, one_mulVec]
  rw [e] at e3
  conv_lhs => rw [e3]
  simp only [mulVec, dotProduct, Finset.sum_mul, Finset.mul_sum]
  rw [Finset.sum_comm]
  exact Finset.sum_congr rfl fun i _ => Finset.sum_congr rfl fun k _ => by ring

/-- **C42 partial (what the errors mean).** When the measurements are an arbitrary signal plus
white noise of standard deviation `σ`, the numbers returned by `errors()` are the standard
deviations of the components of the estimate. -/
theorem C42_errors_std_partial (dt : ℝ) (hdt : 0 < dt) (order : ℕ) (ho : order ≤ 2) (σ : ℝ)
    (hσ : 0 ≤ σ) (sig : ℕ → ℝ) (v : ℕ → Ω → ℝ) (hv : WhiteNoise v (σ ^ 2) μ) (n : ℕ)
    (hn : order < n) (s : Ω → LSQ)
    (hs : ∀ ω, LSQ.run dt order σ (fun i => sig i + v i ω) n = .ok (s ω)) :
    ∃ std : Fin (order + 1) → ℝ, (∀ ω, (s ω).errors = .ok (List.ofFn std, List.ofFn std)) ∧
      ∀ j, std j = √(Var[fun ω => (s ω).x.getD j 0; μ]) := by
  refine ⟨fun j => σ * √((normalMat order dt n)⁻¹ j j), fun ω => ?_, fun j => ?_⟩
  · obtain ⟨s', h1, -, h2⟩ := C42_errors_partial dt hdt order ho σ (fun i => sig i + v i ω) n hn
    rw [hs] at h1
    cases h1
    exact h2
  · have hu : IsUnit (normalMat order dt n).det :=
      (C42_errors_partial dt hdt order ho σ sig n hn).choose_spec.2.1
    set W := (normalMat order dt n)⁻¹ with hW
    have hx : ∀ ω, (s ω).x.getD j 0 = ∑ i ∈ range n, (∑ k, W j k
        * (sampleTime dt n i ^ (k : ℕ) / (Nat.factorial k : ℝ))) * (sig i + v i ω) := by
      intro ω
      obtain ⟨s', h1, -, -, -, -, c, h2, h3⟩ :=
        LSQ.run_spec dt hdt.ne' order ho σ (fun i => sig i + v i ω) n
      rw [hs] at h1
      cases h1
      rw [h2, ← h3.solve hu j, List.getD_eq_getElem _ _ (by rw [List.length_ofFn]; exact j.2),
        List.getElem_ofFn]
    simp only [hx]
    rw [var_lin hv]
    have e : ∑ i ∈ range n, (∑ k, W j k
        * (sampleTime dt n i ^ (k : ℕ) / (Nat.factorial k : ℝ))) ^ 2 = W j j := by
      have sym : (normalMat order dt n)ᵀ = normalMat order dt n := by
        ext a b; simp [normalMat_apply, add_comm, mul_comm]
      have hWt : Wᵀ = W := by rw [hW, transpose_nonsing_inv, sym]
      have e1 : (W * normalMat order dt n * Wᵀ) j j = W j j := by
        rw [hWt, hW, nonsing_inv_mul _ hu, one_mul]
      have gen : ∀ (a : Fin (order + 1) → ℝ) (φ : ℕ → Fin (order + 1) → ℝ),
          ∑ i ∈ range n, (∑ k, a k * φ i k) ^ 2
          = ∑ l, (∑ k, a k * ∑ i ∈ range n, φ i k * φ i l) * a l := by
        intro a φ
        simp only [pow_two, Finset.sum_mul_sum, Finset.mul_sum, Finset.sum_mul]
        rw [Finset.sum_comm]
        refine Finset.sum_congr rfl fun k _ => ?_
        rw [Finset.sum_comm]
        exact Finset.sum_congr rfl fun l _ => Finset.sum_congr rfl fun i _ => by ring
      rw [gen, ← e1]
      simp only [mul_apply, transpose_apply, normalMat, of_apply]
    rw [e, Real.sqrt_mul (by positivity), Real.sqrt_sq hσ]

end stat

/-- The hypotheses of the statistical statement are met: white noise exists. -/
example : ∃ (v : ℕ → (ℕ → ℝ) → ℝ), WhiteNoise v ((1 : ℝ) ^ 2)
    (MeasureTheory.Measure.infinitePi fun _ : ℕ => ProbabilityTheory.gaussianReal 0 1) := by
  simpa using whiteNoise_exists

end Filterpy
