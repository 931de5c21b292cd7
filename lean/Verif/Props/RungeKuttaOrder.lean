import Verif.Props.RungeKutta
import Verif.Lemmas.SmallSteps
import Mathlib.Analysis.Complex.Exponential
import Mathlib.Analysis.Calculus.BumpFunction.FiniteDimension
import Mathlib.Analysis.Calculus.ContDiff.Bounds
import Mathlib.Analysis.Calculus.ContDiff.FiniteDimension
import Mathlib.Analysis.Calculus.ContDiff.Operations
import Mathlib.Analysis.SpecialFunctions.Trigonometric.ArctanDeriv

/-!
# `runge_kutta4` is a method of fourth order

The routine of filterpy/common/helpers.py, called in a loop with the step `dx`, follows the solution of the
differential equation `y' = f(y, x)` with an error of the order of `dx⁴`: halving the step divides the error by
sixteen.  One call is wrong by the order of `dx⁵`.
-/

namespace Filterpy

/-- `Y` solves the differential equation `y' = f(y, x)` from `x0` to `x1`. -/
def Spec.Solves {E : Type*} [NormedAddCommGroup E] [NormedSpace ℝ E] (f : E → ℝ → E) (Y : ℝ → E) (x0 x1 : ℝ) : Prop :=
  ∀ x ∈ Set.Icc x0 x1, HasDerivWithinAt Y (f (Y x) x) (Set.Icc x0 x1) x

open Asymptotics Filter Set

set_option maxSynthPendingDepth 3

variable {E : Type*} [NormedAddCommGroup E] [NormedSpace ℝ E]
variable {g : E → E} {A : E → E →L[ℝ] E} {B : E → E →L[ℝ] E →L[ℝ] E}
    {C : E → E →L[ℝ] E →L[ℝ] E →L[ℝ] E} {M : ℝ} {T : ℝ} {Y : ℝ → E}

/-- Multiplying by the step raises the order by one. -/
theorem ord_times {α : Type*} {l : Filter α} {h : α → ℝ} {u : α → E} {k : ℕ} (c : ℝ)
    (hu : u =O[l] (fun q => h q ^ k)) : (fun q => h q • c • u q) =O[l] (fun q => h q ^ (k + 1)) := by
  have := (isBigO_refl h l).smul (hu.const_smul_left c)
  refine this.congr (fun q => rfl) fun q => ?_
  rw [smul_eq_mul, pow_succ, mul_comm]

section step

variable (hb : BoundedDerivs g A B C M) (hY : ∀ t ∈ Icc 0 T, HasDerivWithinAt Y (g (Y t)) (Icc 0 T) t)
include hb hY

/-- One step of the routine from a point of the solution, for a field that does not mention the time. -/
theorem one_step_auto : (fun q : ℝ × ℝ => rungeKutta4 (Y q.1) 0 q.2 (fun y _ => g y) - Y (q.1 + q.2))
    =O[𝓟 (stepsWithin T)] (fun q => q.2 ^ 5) := by
  have hh := ord_step T
  have ha := ord_field hb hY
  have hAa := ord_fieldA hb hY
  have ha2 : (fun q : ℝ × ℝ => (1 / 2 : ℝ) • g (Y q.1)) =O[𝓟 (stepsWithin T)] (fun _ => (1 : ℝ)) :=
    ha.const_smul_left (1 / 2 : ℝ)
  have hA2 : (fun q : ℝ × ℝ => (1 / 2 : ℝ) • A (Y q.1) (g (Y q.1))) =O[𝓟 (stepsWithin T)] (fun _ => (1 : ℝ)) :=
    hAa.const_smul_left (1 / 2 : ℝ)
  have hA4 : (fun q : ℝ × ℝ => (1 / 4 : ℝ) • A (Y q.1) (g (Y q.1))) =O[𝓟 (stepsWithin T)] (fun _ => (1 : ℝ)) :=
    hAa.const_smul_left (1 / 4 : ℝ)
  have hz : ∀ k : ℕ, (fun _ : ℝ × ℝ => (0 : E)) =O[𝓟 (stepsWithin T)] (fun q => q.2 ^ k) := fun k => isBigO_zero _ _
  have hz' : (fun _ : ℝ × ℝ => (0 : E)) =O[𝓟 (stepsWithin T)] (fun _ => (1 : ℝ)) := isBigO_zero _ _
  have one : (fun q : ℝ × ℝ => q.2 ^ 0) = fun _ => (1 : ℝ) := by funext q; simp
  -- the second stage
  have e1 : (fun q : ℝ × ℝ => q.2 • (1 / 2 : ℝ) • g (Y q.1)) =O[𝓟 (stepsWithin T)] (fun q => q.2 ^ 1) :=
    ord_times (k := 0) _ (by rw [one]; exact ha)
  have s1 := stage1 hb hh (y := fun q => Y q.1) e1
  have s2 := stage2 hb hh (y := fun q => Y q.1) (u := fun q => (1 / 2 : ℝ) • g (Y q.1)) e1
    ((hz 2).congr_left fun q => (sub_self _).symm)
  have s3 := stage3 hb hh (y := fun q => Y q.1) (u := fun q => (1 / 2 : ℝ) • g (Y q.1)) (v := fun _ => 0) ha2 e1
    ((hz 2).congr_left fun q => (sub_self _).symm) ((hz 3).congr_left fun q => by simp)
  have s4 := stage4 hb hh (y := fun q => Y q.1) (u := fun q => (1 / 2 : ℝ) • g (Y q.1)) (v := fun _ => 0)
    (w := fun _ => 0) ha2 hz' e1
    ((hz 2).congr_left fun q => (sub_self _).symm) ((hz 3).congr_left fun q => by simp)
    ((hz 4).congr_left fun q => by simp)
  -- the third stage
  set g2 : ℝ × ℝ → E := fun q => g (Y q.1 + q.2 • (1 / 2 : ℝ) • g (Y q.1)) with hg2
  have b2 : g2 =O[𝓟 (stepsWithin T)] (fun _ => (1 : ℝ)) := by
    have := (s1.trans (ord_mono hh (Nat.zero_le 1)))
    rw [one] at this
    exact (this.add ha).congr_left fun q => by simp only [hg2]; abel
  have f1 : (fun q : ℝ × ℝ => q.2 • (1 / 2 : ℝ) • g2 q) =O[𝓟 (stepsWithin T)] (fun q => q.2 ^ 1) :=
    ord_times (k := 0) _ (by rw [one]; exact b2)
  have f2 : (fun q : ℝ × ℝ => q.2 • (1 / 2 : ℝ) • g2 q - q.2 • (1 / 2 : ℝ) • g (Y q.1)) =O[𝓟 (stepsWithin T)]
      (fun q => q.2 ^ 2) := (ord_times (1 / 2) s1).congr_left fun q => by simp only [hg2]; module
  have f3 : (fun q : ℝ × ℝ => q.2 • (1 / 2 : ℝ) • g2 q - (q.2 • (1 / 2 : ℝ) • g (Y q.1)
      + q.2 ^ 2 • (1 / 4 : ℝ) • A (Y q.1) (g (Y q.1)))) =O[𝓟 (stepsWithin T)]
      (fun q => q.2 ^ 3) := (ord_times (1 / 2) s2).congr_left fun q => by
        simp only [hg2, map_smul]; module
  have f4 : (fun q : ℝ × ℝ => q.2 • (1 / 2 : ℝ) • g2 q - (q.2 • (1 / 2 : ℝ) • g (Y q.1)
      + q.2 ^ 2 • (1 / 4 : ℝ) • A (Y q.1) (g (Y q.1)) + q.2 ^ 3 • (1 / 16 : ℝ) • B (Y q.1) (g (Y q.1)) (g (Y q.1))))
      =O[𝓟 (stepsWithin T)] (fun q => q.2 ^ 4) := (ord_times (1 / 2) s3).congr_left fun q => by
        simp only [hg2, map_smul, smul_apply, map_zero]; module
  have t1 := stage1 hb hh (y := fun q => Y q.1) f1
  have t2 := stage2 hb hh (y := fun q => Y q.1) (u := fun q => (1 / 2 : ℝ) • g (Y q.1)) f1 f2
  have t3 := stage3 hb hh (y := fun q => Y q.1) (u := fun q => (1 / 2 : ℝ) • g (Y q.1))
    (v := fun q => (1 / 4 : ℝ) • A (Y q.1) (g (Y q.1))) ha2 f1 f2 f3
  have t4 := stage4 hb hh (y := fun q => Y q.1) (u := fun q => (1 / 2 : ℝ) • g (Y q.1))
    (v := fun q => (1 / 4 : ℝ) • A (Y q.1) (g (Y q.1)))
    (w := fun q => (1 / 16 : ℝ) • B (Y q.1) (g (Y q.1)) (g (Y q.1))) ha2 hA4 f1 f2 f3 f4
  -- the fourth stage
  set g3 : ℝ × ℝ → E := fun q => g (Y q.1 + q.2 • (1 / 2 : ℝ) • g2 q) with hg3
  have b3 : g3 =O[𝓟 (stepsWithin T)] (fun _ => (1 : ℝ)) := by
    have := (t1.trans (ord_mono hh (Nat.zero_le 1)))
    rw [one] at this
    exact (this.add ha).congr_left fun q => by simp only [hg3]; abel
  have k1 : (fun q : ℝ × ℝ => q.2 • (1 : ℝ) • g3 q) =O[𝓟 (stepsWithin T)] (fun q => q.2 ^ 1) :=
    ord_times (k := 0) _ (by rw [one]; exact b3)
  have k2 : (fun q : ℝ × ℝ => q.2 • (1 : ℝ) • g3 q - q.2 • g (Y q.1)) =O[𝓟 (stepsWithin T)]
      (fun q => q.2 ^ 2) := (ord_times 1 t1).congr_left fun q => by simp only [hg3]; module
  have k3 : (fun q : ℝ × ℝ => q.2 • (1 : ℝ) • g3 q - (q.2 • g (Y q.1)
      + q.2 ^ 2 • (1 / 2 : ℝ) • A (Y q.1) (g (Y q.1)))) =O[𝓟 (stepsWithin T)]
      (fun q => q.2 ^ 3) := (ord_times 1 t2).congr_left fun q => by
        simp only [hg3, map_smul]; module
  have k4 : (fun q : ℝ × ℝ => q.2 • (1 : ℝ) • g3 q - (q.2 • g (Y q.1)
      + q.2 ^ 2 • (1 / 2 : ℝ) • A (Y q.1) (g (Y q.1))
      + q.2 ^ 3 • ((1 / 4 : ℝ) • A (Y q.1) (A (Y q.1) (g (Y q.1))) + (1 / 8 : ℝ) • B (Y q.1) (g (Y q.1)) (g (Y q.1)))))
      =O[𝓟 (stepsWithin T)] (fun q => q.2 ^ 4) := (ord_times 1 t3).congr_left fun q => by
        simp only [hg3, map_smul, smul_apply]; module
  have u4 := stage4 hb hh (y := fun q => Y q.1) (u := fun q => g (Y q.1))
    (v := fun q => (1 / 2 : ℝ) • A (Y q.1) (g (Y q.1)))
    (w := fun q => (1 / 4 : ℝ) • A (Y q.1) (A (Y q.1) (g (Y q.1))) + (1 / 8 : ℝ) • B (Y q.1) (g (Y q.1)) (g (Y q.1)))
    ha hA2 k1 k2 k3 k4
  -- the step
  have ex := exact_expansion hb hY
  refine ((((ord_times (1 / 3) s4).add (ord_times (1 / 3) t4)).add (ord_times (1 / 6) u4)).sub ex).congr_left fun q => ?_
  have hk : rungeKutta4 (Y q.1) 0 q.2 (fun y _ => g y) = Y q.1 + (1 / 6 : ℝ) • (q.2 • g (Y q.1)
      + (2 : ℝ) • q.2 • g2 q + (2 : ℝ) • q.2 • g3 q + q.2 • g (Y q.1 + q.2 • (1 : ℝ) • g3 q)) := by
    have c : ∀ v : E, (0.5 : ℝ) • q.2 • v = q.2 • (1 / 2 : ℝ) • v := fun v => by
      rw [smul_comm]; norm_num
    unfold rungeKutta4
    simp only [c, one_smul, hg2, hg3]
  rw [hk]
  simp only [hg2, hg3, map_smul, map_add, smul_apply, map_zero, zero_apply]
  module

end step

/-- One step with a Lipschitz field does not spread two starting points by more than `exp (M h)`. -/
theorem step_lipschitz {f : E → ℝ → E} (hM : 0 ≤ M) (hf : ∀ y z x, ‖f y x - f z x‖ ≤ M * ‖y - z‖) (y z : E) (x : ℝ)
    {h : ℝ} (hh : 0 ≤ h) : ‖rungeKutta4 y x h f - rungeKutta4 z x h f‖ ≤ Real.exp (M * h) * ‖y - z‖ := by
  have hs : ∀ (c : ℝ) (v w : E), ‖c • v - c • w‖ = |c| * ‖v - w‖ := fun c v w => by
    rw [← smul_sub, norm_smul, Real.norm_eq_abs]
  have stage : ∀ (c : ℝ) (v w : E) (b t : ℝ), 0 ≤ c → ‖v - w‖ ≤ b → ‖f (y + c • h • v) t - f (z + c • h • w) t‖
      ≤ M * (‖y - z‖ + c * h * b) := by
    intro c v w b t hc hvw
    refine (hf _ _ _).trans (mul_le_mul_of_nonneg_left ?_ hM)
    have e : y + c • h • v - (z + c • h • w) = (y - z) + c • h • (v - w) := by module
    rw [e]
    refine (norm_add_le _ _).trans ?_
    rw [norm_smul, norm_smul, Real.norm_of_nonneg hc, Real.norm_of_nonneg hh, mul_assoc]
    gcongr
  set e := ‖y - z‖ with he
  have q1 : ‖f y x - f z x‖ ≤ M * e := hf y z x
  have q2 := stage 0.5 _ _ _ (x + 0.5 * h) (by norm_num) q1
  have q3 := stage 0.5 _ _ _ (x + 0.5 * h) (by norm_num) q2
  have q4 := stage 1 _ _ _ (x + h) (by norm_num) q3
  simp only [one_smul] at q4
  unfold rungeKutta4
  simp only
  set a1 := f y x
  set b1 := f z x
  set a2 := f (y + (0.5 : ℝ) • h • a1) (x + 0.5 * h)
  set b2 := f (z + (0.5 : ℝ) • h • b1) (x + 0.5 * h)
  set a3 := f (y + (0.5 : ℝ) • h • a2) (x + 0.5 * h)
  set b3 := f (z + (0.5 : ℝ) • h • b2) (x + 0.5 * h)
  set a4 := f (y + h • a3) (x + h)
  set b4 := f (z + h • b3) (x + h)
  have ee : y + (1 / 6 : ℝ) • (h • a1 + (2 : ℝ) • h • a2 + (2 : ℝ) • h • a3 + h • a4)
      - (z + (1 / 6 : ℝ) • (h • b1 + (2 : ℝ) • h • b2 + (2 : ℝ) • h • b3 + h • b4))
      = (y - z) + (h / 6) • ((a1 - b1) + (2 : ℝ) • (a2 - b2) + (2 : ℝ) • (a3 - b3) + (a4 - b4)) := by module
  rw [ee]
  have n1 : ‖(a1 - b1) + (2 : ℝ) • (a2 - b2) + (2 : ℝ) • (a3 - b3) + (a4 - b4)‖
      ≤ ‖a1 - b1‖ + 2 * ‖a2 - b2‖ + 2 * ‖a3 - b3‖ + ‖a4 - b4‖ := by
    refine (norm_add_le _ _).trans (add_le_add_left ((norm_add_le _ _).trans (add_le_add ((norm_add_le _ _).trans
      (add_le_add_right ?_ _)) ?_)) _)
    · rw [norm_smul]; norm_num
    · rw [norm_smul]; norm_num
  have n2 : ‖(y - z) + (h / 6) • ((a1 - b1) + (2 : ℝ) • (a2 - b2) + (2 : ℝ) • (a3 - b3) + (a4 - b4))‖
      ≤ e + (h / 6) * (‖a1 - b1‖ + 2 * ‖a2 - b2‖ + 2 * ‖a3 - b3‖ + ‖a4 - b4‖) := by
    refine (norm_add_le _ _).trans (add_le_add le_rfl ?_)
    rw [norm_smul, Real.norm_of_nonneg (by positivity)]
    gcongr
  refine n2.trans ?_
  have hexp : (1 + M * h + (M * h) ^ 2 / 2 + (M * h) ^ 3 / 6 + (M * h) ^ 4 / 24) ≤ Real.exp (M * h) := by
    have := Real.sum_le_exp_of_nonneg (mul_nonneg hM hh) 5
    simp only [Finset.sum_range_succ, Finset.sum_range_zero, Nat.factorial] at this
    norm_num at this
    linarith
  have he0 : 0 ≤ e := norm_nonneg _
  calc e + h / 6 * (‖a1 - b1‖ + 2 * ‖a2 - b2‖ + 2 * ‖a3 - b3‖ + ‖a4 - b4‖)
      ≤ e + h / 6 * (M * e + 2 * (M * (e + 0.5 * h * (M * e)))
        + 2 * (M * (e + 0.5 * h * (M * (e + 0.5 * h * (M * e)))))
        + M * (e + 1 * h * (M * (e + 0.5 * h * (M * (e + 0.5 * h * (M * e))))))) := by gcongr
    _ = (1 + M * h + (M * h) ^ 2 / 2 + (M * h) ^ 3 / 6 + (M * h) ^ 4 / 24) * e := by ring
    _ ≤ Real.exp (M * h) * e := mul_le_mul_of_nonneg_right hexp he0

/-! ## Many steps -/

/-- The loop a user writes around the routine: `y = runge_kutta4(y, x, dx, f); x += dx`, `k` times. -/
noncomputable def rkLoop (f : E → ℝ → E) (dx : ℝ) (k : ℕ) (y : E) (x : ℝ) : E × ℝ :=
  (fun s : E × ℝ => (rungeKutta4 s.1 s.2 dx f, s.2 + dx))^[k] (y, x)

theorem BoundedDerivs.lipschitz (hb : BoundedDerivs g A B C M) (y z : E) : ‖g y - g z‖ ≤ M * ‖y - z‖ :=
  Convex.norm_image_sub_le_of_norm_hasFDerivWithin_le (s := univ) (fun x _ => (hb.first x).hasFDerivWithinAt)
    (fun x _ => hb.hA x) convex_univ (mem_univ z) (mem_univ y)

theorem many_steps_auto (hb : BoundedDerivs g A B C M)
    (hY : ∀ t ∈ Icc 0 T, HasDerivWithinAt Y (g (Y t)) (Icc 0 T) t) :
    ∃ c, 0 ≤ c ∧ ∀ h, 0 ≤ h → ∀ k : ℕ, k * h ≤ T → ∀ z,
      ‖(fun s => rungeKutta4 s 0 h (fun y _ => g y))^[k] z - Y (k * h)‖
        ≤ Real.exp (M * T) * ‖z - Y 0‖ + c * h ^ 4 := by
  have hM : 0 ≤ M := (norm_nonneg _).trans (hb.hA 0)
  have h1 := one_step_auto hb hY
  rw [isBigO_principal] at h1
  obtain ⟨c, hc⟩ := h1
  refine ⟨Real.exp (M * T) * (|T| * |c|), by positivity, fun h hh k => ?_⟩
  have key : ∀ k : ℕ, k * h ≤ T → ∀ z, ‖(fun s => rungeKutta4 s 0 h (fun y _ => g y))^[k] z - Y (k * h)‖
      ≤ Real.exp (M * (k * h)) * (‖z - Y 0‖ + k * (|c| * h ^ 5)) := by
    intro k
    induction k with
    | zero => intro _ z; simp
    | succ k ih =>
      intro hk z
      push_cast at hk
      have hk0 : 0 ≤ (k : ℝ) * h := by positivity
      have hk' : (k : ℝ) * h ≤ T := by nlinarith
      have i1 := ih hk' z
      rw [Function.iterate_succ_apply']
      set w := (fun s => rungeKutta4 s 0 h (fun y _ => g y))^[k] z
      have i2 := step_lipschitz hM (f := fun y _ => g y) (fun y z _ => hb.lipschitz y z) w (Y (k * h)) 0 hh
      have i3 := hc (k * h, h) ⟨hk0, hh, by simp only; linarith⟩
      simp only [norm_pow, Real.norm_of_nonneg hh] at i3
      have e1 : (k : ℝ) * h + h = ((k + 1 : ℕ) : ℝ) * h := by push_cast; ring
      rw [e1] at i3
      have i4 : c * h ^ 5 ≤ |c| * h ^ 5 := mul_le_mul_of_nonneg_right (le_abs_self c) (by positivity)
      have e2 : Real.exp (M * (((k + 1 : ℕ) : ℝ) * h)) = Real.exp (M * h) * Real.exp (M * (k * h)) := by
        rw [← Real.exp_add]
        congr 1
        push_cast
        ring
      have i5 : 1 ≤ Real.exp (M * (((k + 1 : ℕ) : ℝ) * h)) := Real.one_le_exp (by positivity)
      calc ‖rungeKutta4 w 0 h (fun y _ => g y) - Y (((k + 1 : ℕ) : ℝ) * h)‖
          ≤ ‖rungeKutta4 w 0 h (fun y _ => g y) - rungeKutta4 (Y (k * h)) 0 h (fun y _ => g y)‖
            + ‖rungeKutta4 (Y (k * h)) 0 h (fun y _ => g y) - Y (((k + 1 : ℕ) : ℝ) * h)‖ := norm_sub_le_norm_sub_add_norm_sub _ _ _
        _ ≤ Real.exp (M * h) * ‖w - Y (k * h)‖ + |c| * h ^ 5 := add_le_add i2 (i3.trans i4)
        _ ≤ Real.exp (M * h) * (Real.exp (M * (k * h)) * (‖z - Y 0‖ + k * (|c| * h ^ 5))) + |c| * h ^ 5 := by gcongr
        _ = Real.exp (M * (((k + 1 : ℕ) : ℝ) * h)) * (‖z - Y 0‖ + k * (|c| * h ^ 5)) + |c| * h ^ 5 := by
          rw [e2]; ring
        _ ≤ Real.exp (M * (((k + 1 : ℕ) : ℝ) * h)) * (‖z - Y 0‖ + ((k + 1 : ℕ) : ℝ) * (|c| * h ^ 5)) := by
          push_cast
          have : 0 ≤ |c| * h ^ 5 := by positivity
          push_cast at i5
          nlinarith
  intro hk z
  refine (key k hk z).trans ?_
  have hk0 : 0 ≤ (k : ℝ) * h := by positivity
  have hT : (k : ℝ) * h ≤ |T| := hk.trans (le_abs_self T)
  have hx : Real.exp (M * (k * h)) ≤ Real.exp (M * T) := Real.exp_le_exp.2 (mul_le_mul_of_nonneg_left hk hM)
  calc Real.exp (M * (k * h)) * (‖z - Y 0‖ + k * (|c| * h ^ 5))
      ≤ Real.exp (M * T) * (‖z - Y 0‖ + k * (|c| * h ^ 5)) := by gcongr
    _ = Real.exp (M * T) * ‖z - Y 0‖ + Real.exp (M * T) * ((k * h) * |c|) * h ^ 4 := by ring
    _ ≤ Real.exp (M * T) * ‖z - Y 0‖ + Real.exp (M * T) * (|T| * |c|) * h ^ 4 := by gcongr

/-! ## Fields that mention the time -/

/-- The field on pairs of a value and a time. -/
def withTime (f : E → ℝ → E) (p : E × ℝ) : E × ℝ := (f p.1 p.2, 1)

theorem step_withTime (f : E → ℝ → E) (p : E × ℝ) (h : ℝ) :
    rungeKutta4 p 0 h (fun s _ => withTime f s) = (rungeKutta4 p.1 p.2 h f, p.2 + h) := by
  obtain ⟨y, x⟩ := p
  unfold rungeKutta4 withTime
  refine Prod.ext ?_ ?_
  · simp
  · simp
    ring

theorem loop_withTime (f : E → ℝ → E) (h : ℝ) (k : ℕ) (y : E) (x : ℝ) :
    (fun s => rungeKutta4 s 0 h (fun p _ => withTime f p))^[k] (y, x) = rkLoop f h k y x := by
  unfold rkLoop
  congr 2
  funext s
  exact step_withTime f s h

theorem bounded_of_compact {F : E → E} (hF : ContDiff ℝ 4 F) (hs : HasCompactSupport F) :
    ∃ A B C M, BoundedDerivs F A B C M := by
  have c1 : ContDiff ℝ 3 (fderiv ℝ F) := hF.fderiv_right (by norm_num)
  have c2 : ContDiff ℝ 2 (fderiv ℝ (fderiv ℝ F)) := c1.fderiv_right (by norm_num)
  have c3 : ContDiff ℝ 1 (fderiv ℝ (fderiv ℝ (fderiv ℝ F))) := c2.fderiv_right (by norm_num)
  have c4 : ContDiff ℝ 0 (fderiv ℝ (fderiv ℝ (fderiv ℝ (fderiv ℝ F)))) := c3.fderiv_right (by norm_num)
  have s1 := hs.fderiv ℝ
  have s2 := s1.fderiv ℝ
  have s3 := s2.fderiv ℝ
  have s4 := s3.fderiv ℝ
  obtain ⟨M1, h1⟩ := c1.continuous.bounded_above_of_compact_support s1
  obtain ⟨M2, h2⟩ := c2.continuous.bounded_above_of_compact_support s2
  obtain ⟨M3, h3⟩ := c3.continuous.bounded_above_of_compact_support s3
  obtain ⟨M4, h4⟩ := c4.continuous.bounded_above_of_compact_support s4
  refine ⟨_, _, _, max (max M1 M2) (max M3 M4), fun z => (hF.differentiable (by norm_num) z).hasFDerivAt,
    fun z => (c1.differentiable (by norm_num) z).hasFDerivAt, fun z => (c2.differentiable (by norm_num) z).hasFDerivAt,
    fun z => (h1 z).trans (by simp), fun z => (h2 z).trans (by simp), fun z => (h3 z).trans (by simp), fun z w => ?_⟩
  have := Convex.norm_image_sub_le_of_norm_fderiv_le (𝕜 := ℝ) (s := univ)
    (fun x _ => c3.differentiable (by norm_num) x) (fun x _ => h4 x) convex_univ (mem_univ w) (mem_univ z)
  refine this.trans (mul_le_mul_of_nonneg_right (by simp) (norm_nonneg _))

/-- A field that is smooth can be replaced, on a ball of values and times, by one that is bounded together with all
the derivatives that matter. -/
theorem cut_off [FiniteDimensional ℝ E] {f : E → ℝ → E} (hf : ContDiff ℝ 4 (fun p : E × ℝ => f p.1 p.2)) {R : ℝ}
    (hR : 0 < R) : ∃ f' : E → ℝ → E, (∀ y x, ‖(y, x)‖ ≤ R → f' y x = f y x) ∧ (∃ K, ∀ y x, ‖f' y x‖ ≤ K) ∧
      ∃ A B C M, BoundedDerivs (withTime f') A B C M := by
  let χ : ContDiffBump (0 : E × ℝ) := ⟨R, R + 1, hR, by linarith⟩
  let F : E × ℝ → E := fun p => χ p • f p.1 p.2
  have hF : ContDiff ℝ 4 F := χ.contDiff.smul hf
  have hs : HasCompactSupport F := χ.hasCompactSupport.smul_right
  have hF' : ContDiff ℝ 4 (fun p => (F p, (0 : ℝ))) := hF.prodMk contDiff_const
  have hs' : HasCompactSupport (fun p => (F p, (0 : ℝ))) :=
    hs.comp_left (g := fun v : E => (v, (0 : ℝ))) rfl
  refine ⟨fun y x => F (y, x), ?_, ?_, ?_⟩
  · intro y x hyx
    have : χ (y, x) = 1 := χ.one_of_mem_closedBall (by simpa using hyx)
    simp [F, this]
  · obtain ⟨K, hK⟩ := hF.continuous.bounded_above_of_compact_support hs
    exact ⟨K, fun y x => hK (y, x)⟩
  · obtain ⟨A, B, C, M, h⟩ := bounded_of_compact hF' hs'
    refine ⟨A, B, C, M, ⟨fun z => ?_, h.second, h.third, h.hA, h.hB, h.hC, h.lip⟩⟩
    refine ((h.first z).add_const ((0 : E), (1 : ℝ))).congr_of_eventuallyEq (Eventually.of_forall fun p => ?_)
    simp [withTime]

/-- Where two fields agree, so do the steps. -/
theorem step_congr {f f' : E → ℝ → E} {R K : ℝ} (hK : ∀ y x, ‖f' y x‖ ≤ K)
    (hf : ∀ y x, ‖(y, x)‖ ≤ R + 1 → f' y x = f y x) {y : E} {x h : ℝ} (hy : ‖(y, x)‖ ≤ R) (hh : 0 ≤ h) (h1 : h ≤ 1)
    (hK1 : h * K ≤ 1) : rungeKutta4 y x h f' = rungeKutta4 y x h f := by
  have near : ∀ (c d : ℝ) (v : E), 0 ≤ c → c ≤ 1 → 0 ≤ d → d ≤ 1 → ‖v‖ ≤ K → ‖(y + c • h • v, x + d * h)‖ ≤ R + 1 := by
    intro c d v hc hc1 hd hd1 hv
    rw [Prod.norm_def] at hy ⊢
    simp only at hy ⊢
    have hy1 : ‖y‖ ≤ R := (le_max_left _ _).trans hy
    have hy2 : ‖x‖ ≤ R := (le_max_right _ _).trans hy
    refine max_le ((norm_add_le _ _).trans (add_le_add hy1 ?_)) ((norm_add_le _ _).trans (add_le_add hy2 ?_))
    · rw [norm_smul, norm_smul, Real.norm_of_nonneg hc, Real.norm_of_nonneg hh]
      have : h * ‖v‖ ≤ h * K := mul_le_mul_of_nonneg_left hv hh
      have h0 : 0 ≤ h * ‖v‖ := by positivity
      nlinarith
    · rw [Real.norm_of_nonneg (by positivity)]
      nlinarith
  have e1 : f' y x = f y x := hf y x (by linarith)
  have e2 : f' (y + (0.5 : ℝ) • h • f y x) (x + 0.5 * h) = f (y + (0.5 : ℝ) • h • f y x) (x + 0.5 * h) := by
    rw [← e1]
    exact hf _ _ (near _ _ _ (by norm_num) (by norm_num) (by norm_num) (by norm_num) (hK _ _))
  have e3 : f' (y + (0.5 : ℝ) • h • f (y + (0.5 : ℝ) • h • f y x) (x + 0.5 * h)) (x + 0.5 * h)
      = f (y + (0.5 : ℝ) • h • f (y + (0.5 : ℝ) • h • f y x) (x + 0.5 * h)) (x + 0.5 * h) := by
    rw [← e2]
    exact hf _ _ (near _ _ _ (by norm_num) (by norm_num) (by norm_num) (by norm_num) (hK _ _))
  have e4 : f' (y + h • f (y + (0.5 : ℝ) • h • f (y + (0.5 : ℝ) • h • f y x) (x + 0.5 * h)) (x + 0.5 * h)) (x + h)
      = f (y + h • f (y + (0.5 : ℝ) • h • f (y + (0.5 : ℝ) • h • f y x) (x + 0.5 * h)) (x + 0.5 * h)) (x + h) := by
    rw [← e3]
    have := near 1 1 (f' (y + (0.5 : ℝ) • h • f (y + (0.5 : ℝ) • h • f y x) (x + 0.5 * h)) (x + 0.5 * h))
      (by norm_num) (by norm_num) (by norm_num) (by norm_num) (hK _ _)
    rw [one_smul, one_mul] at this
    exact hf _ _ this
  unfold rungeKutta4
  simp only [e1, e2, e3, e4]

theorem rkLoop_succ (f : E → ℝ → E) (h : ℝ) (k : ℕ) (y : E) (x : ℝ) : rkLoop f h (k + 1) y x
    = (rungeKutta4 (rkLoop f h k y x).1 (rkLoop f h k y x).2 h f, (rkLoop f h k y x).2 + h) := by
  unfold rkLoop
  rw [Function.iterate_succ_apply']

/-- Both error bounds, near a solution. -/
theorem near_solution [FiniteDimensional ℝ E] {f : E → ℝ → E} (hf : ContDiff ℝ 4 (fun p : E × ℝ => f p.1 p.2))
    {x0 x1 : ℝ} (hx : x0 ≤ x1) (hY : Spec.Solves f Y x0 x1) :
    ∃ c L h0 d0 : ℝ, 0 ≤ c ∧ 0 < L ∧ 0 < h0 ∧ 0 < d0 ∧ ∀ h, 0 ≤ h → h ≤ h0 →
      (∀ x, x0 ≤ x → x + h ≤ x1 → ‖rungeKutta4 (Y x) x h f - Y (x + h)‖ ≤ c * h ^ 5) ∧
      (∀ (k : ℕ) (y0 : E), x0 + k * h ≤ x1 → ‖y0 - Y x0‖ ≤ d0 →
        ‖(rkLoop f h k y0 x0).1 - Y (x0 + k * h)‖ ≤ L * ‖y0 - Y x0‖ + c * h ^ 4) := by
  have hc : ContinuousOn (fun x => (Y x, x)) (Icc x0 x1) := fun x hx =>
    (hY x hx).continuousWithinAt.prodMk continuousWithinAt_id
  obtain ⟨R, hR⟩ := isCompact_Icc.exists_bound_of_continuousOn hc
  have hR0 : 0 ≤ R := (norm_nonneg _).trans (hR x0 ⟨le_rfl, hx⟩)
  obtain ⟨f', hag, ⟨K, hK⟩, A, B, C, M, hb⟩ := cut_off hf (R := R + 2) (by linarith)
  have hK0 : 0 ≤ K := (norm_nonneg _).trans (hK 0 0)
  set T := x1 - x0 with hT
  set Z : ℝ → E × ℝ := fun t => (Y (x0 + t), x0 + t) with hZ
  have hin : ∀ t ∈ Icc 0 T, x0 + t ∈ Icc x0 x1 := fun t ht => ⟨by linarith [ht.1], by linarith [ht.2]⟩
  have hsol : ∀ t ∈ Icc 0 T, HasDerivWithinAt Z (withTime f' (Z t)) (Icc 0 T) t := by
    intro t ht
    have h0 : HasDerivWithinAt (fun t => x0 + t) 1 (Icc 0 T) t :=
      ((hasDerivAt_id t).const_add x0).hasDerivWithinAt
    have h1 := (hY (x0 + t) (hin t ht)).scomp (h := fun t => x0 + t) t h0 hin
    rw [one_smul] at h1
    have e : withTime f' (Z t) = (f (Y (x0 + t)) (x0 + t), 1) := by
      simp only [withTime, hZ]
      rw [hag _ _ ((hR _ (hin t ht)).trans (by linarith))]
    rw [e]
    exact h1.prodMk h0
  obtain ⟨c2, hc2, many⟩ := many_steps_auto hb hsol
  have one := one_step_auto hb hsol
  rw [isBigO_principal] at one
  obtain ⟨c1, hc1⟩ := one
  set L := Real.exp (M * T) with hL
  have hL0 : 0 < L := Real.exp_pos _
  have hh0 : 0 < min 1 (min (1 / (K + 1)) (1 / (2 * c2 + 1))) := by positivity
  refine ⟨max |c1| c2, L, min 1 (min (1 / (K + 1)) (1 / (2 * c2 + 1))), 1 / (2 * L),
    (abs_nonneg c1).trans (le_max_left _ _), hL0, hh0, by positivity, fun h hh hle => ?_⟩
  have hh1 : h ≤ 1 := hle.trans (min_le_left _ _)
  have hhK : h * K ≤ 1 := by
    have h2 : h ≤ 1 / (K + 1) := hle.trans ((min_le_right _ _).trans (min_le_left _ _))
    rw [le_div_iff₀ (by linarith)] at h2
    nlinarith
  have hhc : c2 * h ^ 4 ≤ 1 / 2 := by
    have h2 : h ≤ 1 / (2 * c2 + 1) := hle.trans ((min_le_right _ _).trans (min_le_right _ _))
    rw [le_div_iff₀ (by linarith)] at h2
    have h3 : h ^ 4 ≤ h := pow_le_of_le_one hh hh1 (by norm_num)
    nlinarith
  have agree : ∀ y x, ‖(y, x)‖ ≤ R + 1 → rungeKutta4 y x h f' = rungeKutta4 y x h f := fun y x hyx =>
    step_congr hK (fun y x hyx => hag y x (by linarith)) hyx hh hh1 hhK
  constructor
  · intro x hx0 hx1
    have h1 := hc1 (x - x0, h) ⟨sub_nonneg.2 hx0, hh, by simp only; linarith⟩
    simp only [hZ, step_withTime] at h1
    have e1 : x0 + (x - x0) = x := by ring
    have e2 : x0 + (x - x0 + h) = x + h := by ring
    rw [e1, e2, agree _ _ ((hR x ⟨hx0, by linarith⟩).trans (by linarith))] at h1
    have h2 := (norm_fst_le _).trans h1
    simp only [Prod.fst_sub, norm_pow, Real.norm_of_nonneg hh] at h2
    refine h2.trans (mul_le_mul_of_nonneg_right ?_ (by positivity))
    exact (le_abs_self _).trans (le_max_left _ _)
  · intro k y0 hk hd
    have start : ‖((y0, x0) : E × ℝ) - Z 0‖ = ‖y0 - Y x0‖ := by
      simp [hZ, Prod.norm_def]
    have hLd : L * ‖y0 - Y x0‖ ≤ 1 / 2 := by
      rw [le_div_iff₀ (by positivity)] at hd
      linarith
    have err : ∀ k : ℕ, k * h ≤ T → ‖rkLoop f' h k y0 x0 - Z (k * h)‖ ≤ L * ‖y0 - Y x0‖ + c2 * h ^ 4 := by
      intro k hk
      have := many h hh k hk (y0, x0)
      rwa [loop_withTime, start] at this
    have same : ∀ k : ℕ, k * h ≤ T → rkLoop f' h k y0 x0 = rkLoop f h k y0 x0 := by
      intro k
      induction k with
      | zero => intro _; rfl
      | succ k ih =>
        intro hk
        push_cast at hk
        have hk' : (k : ℝ) * h ≤ T := by nlinarith
        have h1 := err k hk'
        have hZk : ‖Z (k * h)‖ ≤ R := hR _ (hin _ ⟨by positivity, hk'⟩)
        have h2 : ‖rkLoop f' h k y0 x0‖ ≤ R + 1 := by
          have := norm_le_norm_add_norm_sub' (rkLoop f' h k y0 x0) (Z (k * h))
          linarith
        rw [rkLoop_succ, rkLoop_succ, ← ih hk', agree (rkLoop f' h k y0 x0).1 (rkLoop f' h k y0 x0).2 h2]
    have hk' : (k : ℝ) * h ≤ T := by rw [hT]; linarith
    have h1 := err k hk'
    rw [same k hk'] at h1
    have h2 := (norm_fst_le _).trans h1
    simp only [Prod.fst_sub, hZ] at h2
    refine h2.trans (add_le_add le_rfl (mul_le_mul_of_nonneg_right (le_max_right _ _) (by positivity)))

/-! ## The property -/

/-- One call from a point of the solution is wrong by the order of the fifth power of the step. -/
theorem C113_one_step [FiniteDimensional ℝ E] {f : E → ℝ → E} (hf : ContDiff ℝ 4 (fun p : E × ℝ => f p.1 p.2))
    {x0 x1 : ℝ} (hx : x0 ≤ x1) (hY : Spec.Solves f Y x0 x1) :
    ∃ c h0 : ℝ, 0 < h0 ∧ ∀ dx, 0 ≤ dx → dx ≤ h0 → ∀ x, x0 ≤ x → x + dx ≤ x1 →
      ‖rungeKutta4 (Y x) x dx f - Y (x + dx)‖ ≤ c * dx ^ 5 := by
  obtain ⟨c, _, h0, _, _, _, hh0, _, h⟩ := near_solution hf hx hY
  exact ⟨c, h0, hh0, fun dx hdx hle => (h dx hdx hle).1⟩

/-- Covering an interval with `N` calls follows the solution with an error of the order of `1 / N ^ 4`. -/
theorem C113_fourth_order [FiniteDimensional ℝ E] {f : E → ℝ → E}
    (hf : ContDiff ℝ 4 (fun p : E × ℝ => f p.1 p.2)) {x0 x1 : ℝ} (hx : x0 ≤ x1) (hY : Spec.Solves f Y x0 x1) :
    ∃ (c : ℝ) (N0 : ℕ), ∀ N : ℕ, N0 ≤ N → ∀ k : ℕ, k ≤ N →
      ‖(rkLoop f ((x1 - x0) / N) k (Y x0) x0).1 - Y (x0 + k * ((x1 - x0) / N))‖ ≤ c / (N : ℝ) ^ 4 := by
  obtain ⟨c, L, h0, d0, _, _, hh0, hd0, h⟩ := near_solution hf hx hY
  obtain ⟨N0, hN0⟩ := exists_nat_gt ((x1 - x0) / h0)
  refine ⟨c * (x1 - x0) ^ 4, N0 + 1, fun N hN k hk => ?_⟩
  have hNpos : (0 : ℝ) < N := by exact_mod_cast (show 0 < N by omega)
  have hNr : (N0 : ℝ) ≤ N := by exact_mod_cast (show N0 ≤ N by omega)
  have hdx : 0 ≤ (x1 - x0) / N := div_nonneg (sub_nonneg.2 hx) hNpos.le
  have hle : (x1 - x0) / N ≤ h0 := by
    rw [div_lt_iff₀ hh0] at hN0
    rw [div_le_iff₀ hNpos]
    nlinarith
  have hkN : (k : ℝ) ≤ N := by exact_mod_cast hk
  have hend : x0 + k * ((x1 - x0) / N) ≤ x1 := by
    have : (k : ℝ) * ((x1 - x0) / N) ≤ N * ((x1 - x0) / N) := mul_le_mul_of_nonneg_right hkN hdx
    rw [mul_div_cancel₀ _ hNpos.ne'] at this
    linarith
  have := (h _ hdx hle).2 k (Y x0) hend (by rw [sub_self, norm_zero]; exact hd0.le)
  rw [sub_self, norm_zero, mul_zero, zero_add, div_pow] at this
  rwa [mul_div_assoc]

/-- A start that is slightly off stays slightly off: it adds at most a constant multiple of its own error. -/
theorem C113_start [FiniteDimensional ℝ E] {f : E → ℝ → E} (hf : ContDiff ℝ 4 (fun p : E × ℝ => f p.1 p.2))
    {x0 x1 : ℝ} (hx : x0 ≤ x1) (hY : Spec.Solves f Y x0 x1) :
    ∃ c L h0 d0 : ℝ, 0 < h0 ∧ 0 < d0 ∧ ∀ dx, 0 ≤ dx → dx ≤ h0 → ∀ (k : ℕ) (y0 : E), x0 + k * dx ≤ x1 →
      ‖y0 - Y x0‖ ≤ d0 → ‖(rkLoop f dx k y0 x0).1 - Y (x0 + k * dx)‖ ≤ L * ‖y0 - Y x0‖ + c * dx ^ 4 := by
  obtain ⟨c, L, h0, d0, _, _, hh0, hd0, h⟩ := near_solution hf hx hY
  exact ⟨c, L, h0, d0, hh0, hd0, fun dx hdx hle k y0 hk hd => (h dx hdx hle).2 k y0 hk hd⟩

/-- The order is four and not five: on `y' = 5 x⁴` every call is wrong by exactly `dx⁵ / 24`, and a loop by
`k dx⁵ / 24`. -/
theorem C113_sharp (dx : ℝ) (k : ℕ) (y x : ℝ) :
    (rkLoop (fun _ x => 5 * x ^ 4) dx k y x).1 = y + (x + k * dx) ^ 5 - x ^ 5 + k * dx ^ 5 / 24 := by
  have hx : ∀ k : ℕ, (rkLoop (fun _ x => 5 * x ^ 4) dx k y x).2 = x + k * dx := by
    intro k
    induction k with
    | zero => simp [rkLoop]
    | succ k ih => rw [rkLoop_succ]; simp only [ih]; push_cast; ring
  induction k with
  | zero => simp [rkLoop]
  | succ k ih =>
    rw [rkLoop_succ]
    simp only [ih, hx]
    unfold rungeKutta4
    simp only [smul_eq_mul]
    push_cast
    ring

/-- A driven nonlinear equation meets the hypotheses: `y' = cos x · (1 + y²) ` with `y = tan (sin x)` from 0 to 1. -/
example : ∃ (c : ℝ) (N0 : ℕ), ∀ N : ℕ, N0 ≤ N → ∀ k : ℕ, k ≤ N →
    ‖(rkLoop (fun y x : ℝ => Real.cos x * (1 + y ^ 2)) ((1 - 0) / N) k (Real.tan (Real.sin 0)) 0).1
      - Real.tan (Real.sin (0 + k * ((1 - 0) / N)))‖ ≤ c / (N : ℝ) ^ 4 := by
  refine C113_fourth_order (Y := fun x => Real.tan (Real.sin x)) ?_ zero_le_one ?_
  · fun_prop
  · intro x _
    have hc : Real.cos (Real.sin x) ≠ 0 := by
      refine (Real.cos_pos_of_mem_Ioo ⟨?_, ?_⟩).ne'
      · linarith [Real.neg_one_le_sin x, Real.pi_gt_three]
      · linarith [Real.sin_le_one x, Real.pi_gt_three]
    refine (((Real.hasDerivAt_tan hc).comp x (Real.hasDerivAt_sin x)).congr_deriv ?_).hasDerivWithinAt
    rw [← Real.inv_one_add_tan_sq hc, one_div, inv_inv]
    ring

end Filterpy
