import Mathlib.Tactic.Module
import Mathlib.Analysis.Calculus.MeanValue
import Mathlib.Analysis.Asymptotics.Lemmas
import Mathlib.Analysis.Calculus.Deriv.Pow

/-!
# Expansions in a small step

Taylor's formula for a vector field, orders of magnitude in a step `h`, and the expansion of the solution of
`y' = g y` to fourth order, uniformly along an interval.
-/

namespace Filterpy

open Asymptotics Filter Set

set_option maxSynthPendingDepth 3

variable {E F : Type*} [NormedAddCommGroup E] [NormedSpace ℝ E] [NormedAddCommGroup F] [NormedSpace ℝ F]

/-- The vector field `g` is three times differentiable with derivatives bounded by `M`, and the third
derivative is Lipschitz with the constant `M`. -/
structure BoundedDerivs (g : E → E) (A : E → E →L[ℝ] E) (B : E → E →L[ℝ] E →L[ℝ] E)
    (C : E → E →L[ℝ] E →L[ℝ] E →L[ℝ] E) (M : ℝ) : Prop where
  first : ∀ z, HasFDerivAt g (A z) z
  second : ∀ z, HasFDerivAt A (B z) z
  third : ∀ z, HasFDerivAt B (C z) z
  hA : ∀ z, ‖A z‖ ≤ M
  hB : ∀ z, ‖B z‖ ≤ M
  hC : ∀ z, ‖C z‖ ≤ M
  lip : ∀ z w, ‖C z - C w‖ ≤ M * ‖z - w‖

theorem norm_le_of_deriv {f f' : ℝ → E} (hf : ∀ t, HasDerivAt f (f' t) t) (h0 : f 0 = 0) {c : ℝ}
    (hc : ∀ t ∈ Icc (0 : ℝ) 1, ‖f' t‖ ≤ c) : ∀ t ∈ Icc (0 : ℝ) 1, ‖f t‖ ≤ c := by
  intro t ht
  have h := norm_image_sub_le_of_norm_deriv_le_segment' (f := f) (f' := f') (C := c) (a := 0) (b := 1)
    (fun x _ => (hf x).hasDerivWithinAt) (fun x hx => hc x ⟨hx.1, hx.2.le⟩) t ht
  rw [h0, sub_zero, sub_zero] at h
  have : 0 ≤ c := (norm_nonneg _).trans (hc 0 ⟨le_rfl, zero_le_one⟩)
  nlinarith [ht.1, ht.2]

variable {g : E → E} {A : E → E →L[ℝ] E} {B : E → E →L[ℝ] E →L[ℝ] E}
    {C : E → E →L[ℝ] E →L[ℝ] E →L[ℝ] E} {M : ℝ}

/-- Taylor's formula of order three. -/
theorem BoundedDerivs.taylor (h : BoundedDerivs g A B C M) (y d : E) :
    ‖g (y + d) - (g y + A y d + (1 / 2 : ℝ) • B y d d + (1 / 6 : ℝ) • C y d d d)‖ ≤ M * ‖d‖ ^ 4 := by
  have hl : ∀ t : ℝ, HasDerivAt (fun t : ℝ => y + t • d) d t := by
    intro t
    simpa using ((hasDerivAt_id t).smul_const d).const_add y
  have hB' : ∀ t : ℝ, HasDerivAt (fun t : ℝ => B (y + t • d) d d) (C (y + t • d) d d d) t := by
    intro t
    have := (h.third (y + t • d)).comp_hasDerivAt t (hl t)
    exact (this.clm_apply (hasDerivAt_const t d)).clm_apply (hasDerivAt_const t d) |>.congr_deriv (by simp)
  have hA' : ∀ t : ℝ, HasDerivAt (fun t : ℝ => A (y + t • d) d) (B (y + t • d) d d) t := by
    intro t
    have := (h.second (y + t • d)).comp_hasDerivAt t (hl t)
    exact (this.clm_apply (hasDerivAt_const t d)).congr_deriv (by simp)
  have hg' : ∀ t : ℝ, HasDerivAt (fun t : ℝ => g (y + t • d)) (A (y + t • d) d) t := fun t =>
    (h.first (y + t • d)).comp_hasDerivAt t (hl t)
  have hM : 0 ≤ M := (norm_nonneg _).trans (h.hA y)
  have p1 : ∀ (v : E) (t : ℝ), HasDerivAt (fun t : ℝ => t • v) v t := fun v t => by
    simpa using (hasDerivAt_id t).smul_const v
  have p2 : ∀ (v : E) (t : ℝ), HasDerivAt (fun t : ℝ => (t ^ 2 / 2) • v) (t • v) t := fun v t => by
    have := (((hasDerivAt_pow 2 t).div_const 2).smul_const v)
    refine this.congr_deriv ?_
    congr 1
    norm_num
  have p3 : ∀ (v : E) (t : ℝ), HasDerivAt (fun t : ℝ => (t ^ 3 / 6) • v) ((t ^ 2 / 2) • v) t := fun v t => by
    have := (((hasDerivAt_pow 3 t).div_const 6).smul_const v)
    refine this.congr_deriv ?_
    congr 1
    norm_num
    ring
  have s3 : ∀ t ∈ Icc (0 : ℝ) 1, ‖C (y + t • d) d d d - C y d d d‖ ≤ M * ‖d‖ ^ 4 := by
    intro t ht
    have e : C (y + t • d) d d d - C y d d d = (C (y + t • d) - C y) d d d := by
      simp only [sub_apply]
    rw [e]
    have h1 := h.lip (y + t • d) y
    rw [add_sub_cancel_left, norm_smul, Real.norm_of_nonneg ht.1] at h1
    have h2 : ‖C (y + t • d) - C y‖ ≤ M * ‖d‖ := by
      refine h1.trans ?_
      have : t * ‖d‖ ≤ ‖d‖ := by nlinarith [norm_nonneg d, ht.2]
      exact mul_le_mul_of_nonneg_left this hM
    calc ‖(C (y + t • d) - C y) d d d‖ ≤ ‖(C (y + t • d) - C y) d d‖ * ‖d‖ := ContinuousLinearMap.le_opNorm _ _
      _ ≤ ‖(C (y + t • d) - C y) d‖ * ‖d‖ * ‖d‖ := by gcongr; exact ContinuousLinearMap.le_opNorm _ _
      _ ≤ ‖C (y + t • d) - C y‖ * ‖d‖ * ‖d‖ * ‖d‖ := by gcongr; exact ContinuousLinearMap.le_opNorm _ _
      _ ≤ M * ‖d‖ * ‖d‖ * ‖d‖ * ‖d‖ := by gcongr
      _ = M * ‖d‖ ^ 4 := by ring
  have s2 := norm_le_of_deriv (f := fun t => B (y + t • d) d d - B y d d - t • C y d d d)
    (fun t => ((hB' t).sub_const _).sub (p1 _ t)) (by simp) s3
  have s1 := norm_le_of_deriv (f := fun t => A (y + t • d) d - A y d - t • B y d d - (t ^ 2 / 2) • C y d d d)
    (fun t => (((hA' t).sub_const _).sub (p1 _ t)).sub (p2 _ t)) (by simp) s2
  have s0 := norm_le_of_deriv
    (f := fun t => g (y + t • d) - g y - t • A y d - (t ^ 2 / 2) • B y d d - (t ^ 3 / 6) • C y d d d)
    (fun t => ((((hg' t).sub_const _).sub (p1 _ t)).sub (p2 _ t)).sub (p3 _ t)) (by simp) s1
  have := s0 1 ⟨zero_le_one, le_rfl⟩
  norm_num at this
  convert this using 2
  norm_num
  abel

/-! ## Orders of magnitude -/

variable {α : Type*} {l : Filter α} {h : α → ℝ}

theorem ord_mono (hh : h =O[l] (fun _ => (1 : ℝ))) {j k : ℕ} (hjk : j ≤ k) :
    (fun q => h q ^ k) =O[l] (fun q => h q ^ j) := by
  obtain ⟨i, rfl⟩ := Nat.exists_eq_add_of_le hjk
  have := (isBigO_refl (fun q => h q ^ j) l).mul (hh.pow i)
  simpa [pow_add] using this

theorem ord_apply {T : α → E →L[ℝ] F} {j k : ℕ} (hT : T =O[l] (fun q => h q ^ j)) {u : α → E}
    (hu : u =O[l] (fun q => h q ^ k)) : (fun q => T q (u q)) =O[l] (fun q => h q ^ (j + k)) := by
  have h1 : (fun q => T q (u q)) =O[l] (fun q => ‖T q‖ * ‖u q‖) :=
    IsBigO.of_bound 1 (Eventually.of_forall fun q => by
      rw [one_mul, Real.norm_of_nonneg (by positivity)]
      exact (T q).le_opNorm _)
  refine h1.trans ?_
  simpa [pow_add] using hT.norm_left.mul hu.norm_left

theorem ord_smul {k : ℕ} {u : α → E} (hu : u =O[l] (fun _ => (1 : ℝ))) :
    (fun q => h q ^ k • u q) =O[l] (fun q => h q ^ k) := by
  simpa using (isBigO_refl (fun q => h q ^ k) l).smul hu

/-- Arguments that agree up to order `k` in both places of a bilinear map. -/
theorem ord_bilin {T : α → E →L[ℝ] E →L[ℝ] F} (hT : T =O[l] (fun q => h q ^ 0)) {u v : α → E} {k : ℕ}
    (hu : u =O[l] (fun q => h q ^ 1)) (hv : v =O[l] (fun q => h q ^ 1))
    (huv : (fun q => u q - v q) =O[l] (fun q => h q ^ k)) :
    (fun q => T q (u q) (u q) - T q (v q) (v q)) =O[l] (fun q => h q ^ (k + 1)) := by
  have h1 := ord_apply (ord_apply hT huv) hu
  have h2 := ord_apply (ord_apply hT hv) huv
  rw [show 0 + k + 1 = k + 1 by ring] at h1
  rw [show 0 + 1 + k = k + 1 by ring] at h2
  refine (h1.add h2).congr_left fun q => ?_
  simp only [map_sub, sub_apply]
  abel

theorem ord_trilin {T : α → E →L[ℝ] E →L[ℝ] E →L[ℝ] F} (hT : T =O[l] (fun q => h q ^ 0)) {u v : α → E} {k : ℕ}
    (hu : u =O[l] (fun q => h q ^ 1)) (hv : v =O[l] (fun q => h q ^ 1))
    (huv : (fun q => u q - v q) =O[l] (fun q => h q ^ k)) :
    (fun q => T q (u q) (u q) (u q) - T q (v q) (v q) (v q)) =O[l] (fun q => h q ^ (k + 2)) := by
  have h1 := ord_apply (ord_apply (ord_apply hT huv) hu) hu
  have h2 := ord_apply (ord_apply (ord_apply hT hv) huv) hu
  have h3 := ord_apply (ord_apply (ord_apply hT hv) hv) huv
  rw [show 0 + k + 1 + 1 = k + 2 by ring] at h1
  rw [show 0 + 1 + k + 1 = k + 2 by ring] at h2
  rw [show 0 + 1 + 1 + k = k + 2 by ring] at h3
  refine ((h1.add h2).add h3).congr_left fun q => ?_
  simp only [map_sub, sub_apply]
  abel

/-- The field at a point of order `h` away. -/
theorem ord_taylor (hb : BoundedDerivs g A B C M) {y δ : α → E} (hδ : δ =O[l] (fun q => h q ^ 1)) :
    (fun q => g (y q + δ q) - (g (y q) + A (y q) (δ q) + (1 / 2 : ℝ) • B (y q) (δ q) (δ q)
      + (1 / 6 : ℝ) • C (y q) (δ q) (δ q) (δ q))) =O[l] (fun q => h q ^ 4) := by
  have h1 : (fun q => ‖δ q‖ ^ 4) =O[l] (fun q => h q ^ 4) := by
    simpa using (hδ.norm_left.pow 4)
  refine IsBigO.trans (IsBigO.of_bound M (Eventually.of_forall fun q => ?_)) h1
  rw [Real.norm_of_nonneg (by positivity)]
  exact hb.taylor _ _

section stages

variable (hb : BoundedDerivs g A B C M) (hh : h =O[l] (fun _ => (1 : ℝ))) {y δ u v w : α → E}
include hb

theorem ordA : (fun q => A (y q)) =O[l] (fun q => h q ^ 0) :=
  IsBigO.of_bound M (Eventually.of_forall fun q => by simpa using hb.hA (y q))

theorem ordB : (fun q => B (y q)) =O[l] (fun q => h q ^ 0) :=
  IsBigO.of_bound M (Eventually.of_forall fun q => by simpa using hb.hB (y q))

theorem ordC : (fun q => C (y q)) =O[l] (fun q => h q ^ 0) :=
  IsBigO.of_bound M (Eventually.of_forall fun q => by simpa using hb.hC (y q))

theorem ordB2 (hδ : δ =O[l] (fun q => h q ^ 1)) : (fun q => B (y q) (δ q) (δ q)) =O[l] (fun q => h q ^ 2) := by
  simpa using ord_apply (ord_apply (ordB hb (y := y)) hδ) hδ

theorem ordC3 (hδ : δ =O[l] (fun q => h q ^ 1)) : (fun q => C (y q) (δ q) (δ q) (δ q)) =O[l] (fun q => h q ^ 3) := by
  simpa using ord_apply (ord_apply (ord_apply (ordC hb (y := y)) hδ) hδ) hδ

include hh

theorem stage1 (hδ : δ =O[l] (fun q => h q ^ 1)) :
    (fun q => g (y q + δ q) - g (y q)) =O[l] (fun q => h q ^ 1) := by
  have h0 := (ord_taylor hb (y := y) hδ).trans (ord_mono hh (show 1 ≤ 4 by norm_num))
  have h1 : (fun q => A (y q) (δ q)) =O[l] (fun q => h q ^ 1) := by simpa using ord_apply (ordA hb (y := y)) hδ
  have h2 := ((ordB2 hb (y := y) hδ).trans (ord_mono hh (show 1 ≤ 2 by norm_num))).const_smul_left (1 / 2 : ℝ)
  have h3 := ((ordC3 hb (y := y) hδ).trans (ord_mono hh (show 1 ≤ 3 by norm_num))).const_smul_left (1 / 6 : ℝ)
  refine (((h0.add h1).add h2).add h3).congr_left fun q => ?_
  simp only [Pi.smul_apply]
  abel

theorem stage2 (hδ : δ =O[l] (fun q => h q ^ 1)) (hδ' : (fun q => δ q - h q • u q) =O[l] (fun q => h q ^ 2)) :
    (fun q => g (y q + δ q) - (g (y q) + h q • A (y q) (u q))) =O[l] (fun q => h q ^ 2) := by
  have h0 := (ord_taylor hb (y := y) hδ).trans (ord_mono hh (show 2 ≤ 4 by norm_num))
  have h1 : (fun q => A (y q) (δ q - h q • u q)) =O[l] (fun q => h q ^ 2) := by
    simpa using ord_apply (ordA hb (y := y)) hδ'
  have h2 := (ordB2 hb (y := y) hδ).const_smul_left (1 / 2 : ℝ)
  have h3 := ((ordC3 hb (y := y) hδ).trans (ord_mono hh (show 2 ≤ 3 by norm_num))).const_smul_left (1 / 6 : ℝ)
  refine (((h0.add h1).add h2).add h3).congr_left fun q => ?_
  simp only [Pi.smul_apply, map_sub, map_smul]
  abel

theorem stage3 (hu : u =O[l] (fun _ => (1 : ℝ))) (hδ : δ =O[l] (fun q => h q ^ 1))
    (hδ2 : (fun q => δ q - h q • u q) =O[l] (fun q => h q ^ 2))
    (hδ3 : (fun q => δ q - (h q • u q + h q ^ 2 • v q)) =O[l] (fun q => h q ^ 3)) :
    (fun q => g (y q + δ q) - (g (y q) + h q • A (y q) (u q)
      + h q ^ 2 • (A (y q) (v q) + (1 / 2 : ℝ) • B (y q) (u q) (u q)))) =O[l] (fun q => h q ^ 3) := by
  have hu1 : (fun q => h q • u q) =O[l] (fun q => h q ^ 1) := by simpa using ord_smul (h := h) (k := 1) hu
  have h0 := (ord_taylor hb (y := y) hδ).trans (ord_mono hh (show 3 ≤ 4 by norm_num))
  have h1 := ord_apply (ordA hb (y := y)) hδ3
  rw [zero_add] at h1
  have h2 := (ord_bilin (ordB hb (y := y)) hδ hu1 hδ2).const_smul_left (1 / 2 : ℝ)
  have h3 := (ordC3 hb (y := y) hδ).const_smul_left (1 / 6 : ℝ)
  refine (((h0.add h1).add h2).add h3).congr_left fun q => ?_
  simp only [Pi.smul_apply, map_sub, map_add, map_smul, smul_apply]
  module

theorem stage4 (hu : u =O[l] (fun _ => (1 : ℝ))) (hv : v =O[l] (fun _ => (1 : ℝ)))
    (hδ : δ =O[l] (fun q => h q ^ 1))
    (hδ2 : (fun q => δ q - h q • u q) =O[l] (fun q => h q ^ 2))
    (hδ3 : (fun q => δ q - (h q • u q + h q ^ 2 • v q)) =O[l] (fun q => h q ^ 3))
    (hδ4 : (fun q => δ q - (h q • u q + h q ^ 2 • v q + h q ^ 3 • w q)) =O[l] (fun q => h q ^ 4)) :
    (fun q => g (y q + δ q) - (g (y q) + h q • A (y q) (u q)
      + h q ^ 2 • (A (y q) (v q) + (1 / 2 : ℝ) • B (y q) (u q) (u q))
      + h q ^ 3 • (A (y q) (w q) + (1 / 2 : ℝ) • (B (y q) (u q) (v q) + B (y q) (v q) (u q))
        + (1 / 6 : ℝ) • C (y q) (u q) (u q) (u q)))) =O[l] (fun q => h q ^ 4) := by
  have hu1 : (fun q => h q • u q) =O[l] (fun q => h q ^ 1) := by simpa using ord_smul (h := h) (k := 1) hu
  have huv : (fun q => h q • u q + h q ^ 2 • v q) =O[l] (fun q => h q ^ 1) :=
    hu1.add ((ord_smul hv).trans (ord_mono hh (by norm_num)))
  have h0 := ord_taylor hb (y := y) hδ
  have h1 := ord_apply (ordA hb (y := y)) hδ4
  rw [zero_add] at h1
  have h2 := (ord_bilin (ordB hb (y := y)) hδ huv hδ3).const_smul_left (1 / 2 : ℝ)
  have h3 := (ord_trilin (ordC hb (y := y)) hδ hu1 hδ2).const_smul_left (1 / 6 : ℝ)
  have h4 : (fun q => h q ^ 4 • B (y q) (v q) (v q)) =O[l] (fun q => h q ^ 4) := by
    refine ord_smul ?_
    have hv' : v =O[l] (fun q => h q ^ 0) := by simpa using hv
    simpa using ord_apply (ord_apply (ordB hb (y := y)) hv') hv'
  have h5 := h4.const_smul_left (1 / 2 : ℝ)
  refine ((((h0.add h1).add h2).add h3).add h5).congr_left fun q => ?_
  simp only [Pi.smul_apply, map_sub, map_add, map_smul, smul_apply, add_apply]
  module

end stages

/-! ## The exact solution -/

/-- Points in time and steps that stay within the interval. -/
def stepsWithin (T : ℝ) : Set (ℝ × ℝ) := {q | 0 ≤ q.1 ∧ 0 ≤ q.2 ∧ q.1 + q.2 ≤ T}

variable {T : ℝ} {Y : ℝ → E}

theorem ord_step (T : ℝ) : (fun q : ℝ × ℝ => q.2) =O[𝓟 (stepsWithin T)] (fun _ => (1 : ℝ)) := by
  rw [isBigO_principal]
  refine ⟨T, fun q hq => ?_⟩
  rw [norm_one, mul_one, Real.norm_of_nonneg hq.2.1]
  linarith [hq.1, hq.2.2]

/-- An expansion of the field along the solution can be integrated term by term. -/
theorem ord_integrate (hY : ∀ t ∈ Icc 0 T, HasDerivWithinAt Y (g (Y t)) (Icc 0 T) t) {p P : ℝ × ℝ → E} {k : ℕ}
    (hP : ∀ t s, HasDerivAt (fun s => P (t, s)) (p (t, s)) s) (hP0 : ∀ t, P (t, 0) = 0)
    (hO : (fun q => g (Y (q.1 + q.2)) - p q) =O[𝓟 (stepsWithin T)] (fun q => q.2 ^ k)) :
    (fun q => Y (q.1 + q.2) - Y q.1 - P q) =O[𝓟 (stepsWithin T)] (fun q => q.2 ^ (k + 1)) := by
  rw [isBigO_principal] at hO ⊢
  obtain ⟨c, hc⟩ := hO
  refine ⟨|c|, fun q hq => ?_⟩
  obtain ⟨t, s⟩ := q
  obtain ⟨ht, hs, hts⟩ := hq
  simp only at ht hs hts ⊢
  have hd : ∀ r ∈ Icc (0 : ℝ) s, HasDerivWithinAt (fun r => Y (t + r) - Y t - P (t, r))
      (g (Y (t + r)) - p (t, r)) (Icc 0 s) r := by
    intro r hr
    have h1 : HasDerivWithinAt (fun r => Y (t + r)) (g (Y (t + r))) (Icc 0 s) r := by
      have := (hY (t + r) ⟨by linarith [hr.1], by linarith [hr.2]⟩).scomp (h := fun r => t + r) (s := Icc 0 s) r
        (((hasDerivAt_id r).const_add t).hasDerivWithinAt)
        (fun x hx => ⟨by linarith [hx.1], by linarith [hx.2]⟩)
      rw [one_smul] at this
      exact this
    exact (h1.sub_const _).sub (hP t r).hasDerivWithinAt
  have hb : ∀ r ∈ Ico (0 : ℝ) s, ‖g (Y (t + r)) - p (t, r)‖ ≤ |c| * s ^ k := by
    intro r hr
    refine (hc (t, r) ⟨ht, hr.1, by simp only; linarith [hr.2]⟩).trans ?_
    simp only [norm_pow, Real.norm_of_nonneg hr.1]
    have h1 : r ^ k ≤ s ^ k := pow_le_pow_left₀ hr.1 hr.2.le k
    have h2 : c * r ^ k ≤ |c| * r ^ k := mul_le_mul_of_nonneg_right (le_abs_self c) (pow_nonneg hr.1 k)
    exact h2.trans (mul_le_mul_of_nonneg_left h1 (abs_nonneg c))
  have := norm_image_sub_le_of_norm_deriv_le_segment' hd hb s ⟨hs, le_rfl⟩
  simp only [add_zero, sub_self, hP0, sub_zero] at this
  rw [norm_pow, Real.norm_of_nonneg hs, pow_succ]
  linarith

theorem poly1 (a : E) (t : ℝ) : HasDerivAt (fun t : ℝ => t • a) a t := by
  simpa using (hasDerivAt_id t).smul_const a

theorem poly2 (a b : E) (t : ℝ) : HasDerivAt (fun t : ℝ => t • a + (t ^ 2 / 2) • b) (a + t • b) t := by
  refine ((poly1 a t).fun_add (((hasDerivAt_pow 2 t).div_const 2).smul_const b)).congr_deriv ?_
  norm_num

theorem poly3 (a b c : E) (t : ℝ) : HasDerivAt (fun t : ℝ => t • a + (t ^ 2 / 2) • b + (t ^ 3 / 3) • c)
    (a + t • b + t ^ 2 • c) t := by
  refine ((poly2 a b t).fun_add (((hasDerivAt_pow 3 t).div_const 3).smul_const c)).congr_deriv ?_
  norm_num

theorem poly4 (a b c d : E) (t : ℝ) :
    HasDerivAt (fun t : ℝ => t • a + (t ^ 2 / 2) • b + (t ^ 3 / 3) • c + (t ^ 4 / 4) • d)
    (a + t • b + t ^ 2 • c + t ^ 3 • d) t := by
  refine ((poly3 a b c t).fun_add (((hasDerivAt_pow 4 t).div_const 4).smul_const d)).congr_deriv ?_
  norm_num

section expansion

variable (hb : BoundedDerivs g A B C M) (hY : ∀ t ∈ Icc 0 T, HasDerivWithinAt Y (g (Y t)) (Icc 0 T) t)
include hb hY

theorem ord_field : (fun q : ℝ × ℝ => g (Y q.1)) =O[𝓟 (stepsWithin T)] (fun _ => (1 : ℝ)) := by
  have hc : ContinuousOn (fun t => g (Y t)) (Icc 0 T) := by
    have h1 : Continuous g := continuous_iff_continuousAt.2 fun z => (hb.first z).continuousAt
    exact h1.comp_continuousOn fun t ht => (hY t ht).continuousWithinAt
  obtain ⟨c, hc⟩ := isCompact_Icc.exists_bound_of_continuousOn hc
  rw [isBigO_principal]
  refine ⟨c, fun q hq => ?_⟩
  rw [norm_one, mul_one]
  exact hc q.1 ⟨hq.1, by linarith [hq.2.1, hq.2.2]⟩

theorem ord_fieldA : (fun q : ℝ × ℝ => A (Y q.1) (g (Y q.1))) =O[𝓟 (stepsWithin T)] (fun _ => (1 : ℝ)) := by
  have h1 : (fun q : ℝ × ℝ => g (Y q.1)) =O[𝓟 (stepsWithin T)] (fun q => q.2 ^ 0) := by
    simpa using ord_field hb hY
  simpa using ord_apply (ordA hb (y := fun q : ℝ × ℝ => Y q.1)) h1

/-- The expansion of the solution to fourth order. -/
theorem exact_expansion : (fun q : ℝ × ℝ => Y (q.1 + q.2) - Y q.1 - (q.2 • g (Y q.1)
      + (q.2 ^ 2 / 2) • A (Y q.1) (g (Y q.1))
      + (q.2 ^ 3 / 6) • (A (Y q.1) (A (Y q.1) (g (Y q.1))) + B (Y q.1) (g (Y q.1)) (g (Y q.1)))
      + (q.2 ^ 4 / 4) • ((1 / 6 : ℝ) • A (Y q.1) (A (Y q.1) (A (Y q.1) (g (Y q.1))) + B (Y q.1) (g (Y q.1)) (g (Y q.1)))
        + (1 / 4 : ℝ) • (B (Y q.1) (g (Y q.1)) (A (Y q.1) (g (Y q.1))) + B (Y q.1) (A (Y q.1) (g (Y q.1))) (g (Y q.1)))
        + (1 / 6 : ℝ) • C (Y q.1) (g (Y q.1)) (g (Y q.1)) (g (Y q.1)))))
    =O[𝓟 (stepsWithin T)] (fun q => q.2 ^ 5) := by
  have hh := ord_step T
  have ha := ord_field hb hY
  have hAa := ord_fieldA hb hY
  have e : ∀ q : ℝ × ℝ, Y q.1 + (Y (q.1 + q.2) - Y q.1) = Y (q.1 + q.2) := fun q => by abel
  have hv : (fun q : ℝ × ℝ => (1 / 2 : ℝ) • A (Y q.1) (g (Y q.1))) =O[𝓟 (stepsWithin T)] (fun _ => (1 : ℝ)) :=
    hAa.const_smul_left (1 / 2 : ℝ)
  have d1 : (fun q : ℝ × ℝ => Y (q.1 + q.2) - Y q.1) =O[𝓟 (stepsWithin T)] (fun q => q.2 ^ 1) := by
    have h0 : (fun q : ℝ × ℝ => g (Y (q.1 + q.2)) - 0) =O[𝓟 (stepsWithin T)] (fun q => q.2 ^ 0) := by
      have := ha
      rw [isBigO_principal] at this ⊢
      obtain ⟨c, hc⟩ := this
      refine ⟨c, fun q hq => ?_⟩
      have := hc (q.1 + q.2, 0) ⟨add_nonneg hq.1 hq.2.1, le_rfl, by simpa using hq.2.2⟩
      simpa using this
    simpa using ord_integrate hY (P := fun _ => 0) (fun t s => hasDerivAt_const s 0) (fun t => rfl) h0
  have d2 := ord_integrate hY (P := fun q => q.2 • g (Y q.1)) (fun t s => poly1 (g (Y t)) s) (fun t => by simp)
    ((stage1 hb hh (y := fun q => Y q.1) d1).congr_left fun q => by rw [e])
  have d3 := ord_integrate hY (P := fun q => q.2 • g (Y q.1) + (q.2 ^ 2 / 2) • A (Y q.1) (g (Y q.1)))
    (fun t s => poly2 (g (Y t)) (A (Y t) (g (Y t))) s) (fun t => by simp)
    ((stage2 hb hh (y := fun q => Y q.1) d1 d2).congr_left fun q => by rw [e])
  have d3' : (fun q : ℝ × ℝ => Y (q.1 + q.2) - Y q.1 - (q.2 • g (Y q.1)
      + q.2 ^ 2 • (1 / 2 : ℝ) • A (Y q.1) (g (Y q.1)))) =O[𝓟 (stepsWithin T)] (fun q => q.2 ^ 3) :=
    d3.congr_left fun q => by module
  have d4 := ord_integrate hY (P := fun q => q.2 • g (Y q.1) + (q.2 ^ 2 / 2) • A (Y q.1) (g (Y q.1))
      + (q.2 ^ 3 / 3) • (A (Y q.1) ((1 / 2 : ℝ) • A (Y q.1) (g (Y q.1)))
        + (1 / 2 : ℝ) • B (Y q.1) (g (Y q.1)) (g (Y q.1))))
    (fun t s => poly3 (g (Y t)) (A (Y t) (g (Y t))) (A (Y t) ((1 / 2 : ℝ) • A (Y t) (g (Y t)))
      + (1 / 2 : ℝ) • B (Y t) (g (Y t)) (g (Y t))) s) (fun t => by simp)
    ((stage3 hb hh (y := fun q => Y q.1) ha d1 d2 d3').congr_left fun q => by rw [e])
  have d4' : (fun q : ℝ × ℝ => Y (q.1 + q.2) - Y q.1 - (q.2 • g (Y q.1)
      + q.2 ^ 2 • (1 / 2 : ℝ) • A (Y q.1) (g (Y q.1))
      + q.2 ^ 3 • (1 / 6 : ℝ) • (A (Y q.1) (A (Y q.1) (g (Y q.1))) + B (Y q.1) (g (Y q.1)) (g (Y q.1)))))
      =O[𝓟 (stepsWithin T)] (fun q => q.2 ^ 4) :=
    d4.congr_left fun q => by simp only [map_smul]; module
  have d5 := ord_integrate hY (P := fun q => q.2 • g (Y q.1) + (q.2 ^ 2 / 2) • A (Y q.1) (g (Y q.1))
      + (q.2 ^ 3 / 3) • (A (Y q.1) ((1 / 2 : ℝ) • A (Y q.1) (g (Y q.1)))
        + (1 / 2 : ℝ) • B (Y q.1) (g (Y q.1)) (g (Y q.1)))
      + (q.2 ^ 4 / 4) • (A (Y q.1) ((1 / 6 : ℝ) • (A (Y q.1) (A (Y q.1) (g (Y q.1))) + B (Y q.1) (g (Y q.1)) (g (Y q.1))))
        + (1 / 2 : ℝ) • (B (Y q.1) (g (Y q.1)) ((1 / 2 : ℝ) • A (Y q.1) (g (Y q.1)))
          + B (Y q.1) ((1 / 2 : ℝ) • A (Y q.1) (g (Y q.1))) (g (Y q.1)))
        + (1 / 6 : ℝ) • C (Y q.1) (g (Y q.1)) (g (Y q.1)) (g (Y q.1))))
    (fun t s => poly4 (g (Y t)) (A (Y t) (g (Y t))) (A (Y t) ((1 / 2 : ℝ) • A (Y t) (g (Y t)))
      + (1 / 2 : ℝ) • B (Y t) (g (Y t)) (g (Y t)))
      (A (Y t) ((1 / 6 : ℝ) • (A (Y t) (A (Y t) (g (Y t))) + B (Y t) (g (Y t)) (g (Y t))))
        + (1 / 2 : ℝ) • (B (Y t) (g (Y t)) ((1 / 2 : ℝ) • A (Y t) (g (Y t)))
          + B (Y t) ((1 / 2 : ℝ) • A (Y t) (g (Y t))) (g (Y t)))
        + (1 / 6 : ℝ) • C (Y t) (g (Y t)) (g (Y t)) (g (Y t))) s) (fun t => by simp)
    ((stage4 hb hh (y := fun q => Y q.1) ha hv d1 d2 d3' d4').congr_left fun q => by rw [e])
  refine d5.congr_left fun q => ?_
  simp only [map_smul, map_add, smul_apply]
  module

end expansion

end Filterpy
