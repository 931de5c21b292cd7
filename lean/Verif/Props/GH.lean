import Verif.Model.GH
import Verif.Lemmas.Steady
import Mathlib.Tactic.Module
import Mathlib.Probability.Moments.Variance

/-!
# Properties of the g-h filters (C36 – C39, C65)
-/

namespace Filterpy
open Filter Topology Matrix

variable {E : Type*} [AddCommGroup E] [Module ℝ E]

theorem runList_append {σ ι : Type*} (f : σ → ι → Exec σ) (s : σ) (l₁ l₂ : List ι) :
    runList f s (l₁ ++ l₂) = match runList f s l₁ with
      | .ok s' => runList f s' l₂
      | .error e => .error e := by
  induction l₁ generalizing s with
  | nil => rfl
  | cons i l ih =>
    simp only [List.cons_append, runList]
    cases f s i with
    | error e => rfl
    | ok s' => exact ih s'

namespace GH

/-- One measurement with optional per-step gains. -/
noncomputable def upd (s : GH E) (i : E × Option ℝ × Option ℝ) : Exec (GH E) := s.update i.1 i.2.1 i.2.2

theorem update_ok (s : GH E) (hdt : s.dt ≠ 0) (z : E) (g h : Option ℝ) :
    s.update z g h = .ok { s with
      dxPred := s.dx, xPred := s.x + s.dt • s.dx, y := z - (s.x + s.dt • s.dx),
      dx := s.dx + (h.getD s.h / s.dt) • (z - (s.x + s.dt • s.dx)),
      x := s.x + s.dt • s.dx + g.getD s.g • (z - (s.x + s.dt • s.dx)) } := by
  simp [update, hdt]

/-- The object after the first `k` of the measurements `z 0, z 1, …`. -/
noncomputable def after (s : GH E) (z : ℕ → E) (k : ℕ) : GH E :=
  (runList (fun s z => s.update z) s ((List.range k).map z)).left

theorem after_ok (s : GH E) (hdt : s.dt ≠ 0) (z : ℕ → E) (k : ℕ) :
    runList (fun s z => s.update z) s ((List.range k).map z) = .ok (s.after z k) ∧
    (s.after z k).dt = s.dt ∧ (s.after z k).g = s.g ∧ (s.after z k).h = s.h := by
  unfold after
  induction k with
  | zero => exact ⟨rfl, rfl, rfl, rfl⟩
  | succ k ih =>
    obtain ⟨h1, h2, h3, h4⟩ := ih
    rw [List.range_succ, List.map_append, runList_append, h1]
    simp only [List.map_cons, List.map_nil, runList]
    rw [update_ok _ (by rw [h2]; exact hdt)]
    exact ⟨rfl, h2, h3, h4⟩

theorem after_succ (s : GH E) (hdt : s.dt ≠ 0) (z : ℕ → E) (k : ℕ) :
    (s.after z k).update (z k) = .ok (s.after z (k + 1)) := by
  obtain ⟨h1, h2, -⟩ := after_ok s hdt z k
  obtain ⟨h1', -⟩ := after_ok s hdt z (k + 1)
  rw [List.range_succ, List.map_append, runList_append, h1] at h1'
  simp only [List.map_cons, List.map_nil, runList] at h1'
  rw [update_ok _ (by rw [h2]; exact hdt)] at h1' ⊢
  exact h1'

end GH

/-- **C36 (g-h).** Started at position `a`, rate `b` of a straight line, the filter stays on it
with zero residual, whatever gains are used at each step. -/
theorem C36_gh_on_line (s : GH E) (hdt : s.dt ≠ 0) (gs : List (Option ℝ × Option ℝ)) :
    ∃ s', runList GH.upd s
        (gs.mapIdx fun i gh => (s.x + ((i + 1 : ℝ) * s.dt) • s.dx, gh.1, gh.2)) = .ok s' ∧
      s'.x = s.x + ((gs.length : ℝ) * s.dt) • s.dx ∧ s'.dx = s.dx ∧
      (gs ≠ [] → s'.y = 0 ∧ s'.xPred = s'.x ∧ s'.dxPred = s.dx) := by
  induction gs generalizing s with
  | nil => exact ⟨s, rfl, by simp, rfl, fun h => absurd rfl h⟩
  | cons gh gs ih =>
    simp only [List.mapIdx_cons, runList, GH.upd]
    rw [GH.update_ok _ hdt]
    have hy : (s.x + (((0 : ℕ) + 1 : ℝ) * s.dt) • s.dx) - (s.x + s.dt • s.dx) = 0 := by
      simp
    simp only [hy, smul_zero, add_zero]
    obtain ⟨s', h1, h2, h3, h4⟩ := ih { s with dxPred := s.dx, xPred := s.x + s.dt • s.dx, y := 0, x := s.x + s.dt • s.dx } hdt
    refine ⟨s', ?_, ?_, h3, ?_⟩
    · rw [← h1]
      congr 1
      apply List.mapIdx_eq_mapIdx_iff.2
      intro i hi
      simp only [Prod.mk.injEq, and_true]
      push_cast; module
    · rw [h2]; simp only [List.length_cons]; push_cast; module
    · intro _
      by_cases hg : gs = []
      · subst hg
        simp only [List.mapIdx_nil, runList, Except.ok.injEq] at h1
        subst h1; exact ⟨rfl, rfl, rfl⟩
      · exact h4 hg

/-- **C36 (linearity).** Estimates are a linear function of start and data: the difference of
two runs with the same gains is itself a run of the filter on the difference of the data. In
particular two filters fed the same data differ by an amount that does not depend on it. -/
theorem C36_gh_superposition (s t d : GH E) (hdt : s.dt ≠ 0)
    (ht : t.dt = s.dt ∧ t.g = s.g ∧ t.h = s.h) (hd : d.dt = s.dt ∧ d.g = s.g ∧ d.h = s.h)
    (hx : d.x = s.x - t.x) (hdx : d.dx = s.dx - t.dx)
    (zs : List (E × E × Option ℝ × Option ℝ)) :
    ∃ s' t' d', runList GH.upd s (zs.map fun z => (z.1, z.2.2)) = .ok s' ∧
      runList GH.upd t (zs.map fun z => (z.2.1, z.2.2)) = .ok t' ∧
      runList GH.upd d (zs.map fun z => (z.1 - z.2.1, z.2.2)) = .ok d' ∧
      d'.x = s'.x - t'.x ∧ d'.dx = s'.dx - t'.dx := by
  induction zs generalizing s t d with
  | nil => exact ⟨s, t, d, rfl, rfl, rfl, hx, hdx⟩
  | cons z zs ih =>
    simp only [List.map_cons, runList, GH.upd]
    rw [GH.update_ok s hdt, GH.update_ok t (by rw [ht.1]; exact hdt),
      GH.update_ok d (by rw [hd.1]; exact hdt)]
    simp only [ht.1, ht.2.1, ht.2.2, hd.1, hd.2.1, hd.2.2, hx, hdx]
    refine ih _ _ _ hdt ⟨rfl, rfl, rfl⟩ ⟨rfl, rfl, rfl⟩ ?_ ?_
    · simp only; module
    · simp only; module

/-! ## Error dynamics -/

namespace GH

theorem mat2_transpose (a b c d : ℝ) : (!![a, b; c, d])ᵀ = !![a, c; b, d] := by
  ext i j; fin_cases i <;> fin_cases j <;> rfl
theorem vecMulVec2 (a b c d : ℝ) : vecMulVec ![a, b] ![c, d] = !![a * c, a * d; b * c, b * d] := by
  ext i j; fin_cases i <;> fin_cases j <;> rfl
theorem mat2_add (a b c d a' b' c' d' : ℝ) :
    !![a, b; c, d] + !![a', b'; c', d'] = !![a + a', b + b'; c + c', d + d'] := by
  ext i j; fin_cases i <;> fin_cases j <;> rfl
theorem mat2_inj (a b c d a' b' c' d' : ℝ) :
    !![a, b; c, d] = !![a', b'; c', d'] ↔ a = a' ∧ b = b' ∧ c = c' ∧ d = d' := by
  constructor
  · intro h
    exact ⟨congrFun (congrFun h 0) 0, congrFun (congrFun h 0) 1, congrFun (congrFun h 1) 0,
      congrFun (congrFun h 1) 1⟩
  · rintro ⟨rfl, rfl, rfl, rfl⟩; rfl

/-- Transition matrix of the estimation error. -/
noncomputable def A (s : GH E) : Mat 2 2 :=
  !![1 - s.g, (1 - s.g) * s.dt; -(s.h / s.dt), 1 - s.h]
/-- How a measurement enters the estimate. -/
noncomputable def b (s : GH E) : Vec 2 := ![s.g, s.h / s.dt]

theorem after_vec (s : GH ℝ) (hdt : s.dt ≠ 0) (z : ℕ → ℝ) (k : ℕ) :
    ![(s.after z (k + 1)).x, (s.after z (k + 1)).dx]
      = s.A *ᵥ ![(s.after z k).x, (s.after z k).dx] + z k • s.b := by
  have h := after_succ s hdt z k
  obtain ⟨-, h2, h3, h4⟩ := after_ok s hdt z k
  rw [update_ok _ (by rw [h2]; exact hdt)] at h
  simp only [Except.ok.injEq] at h
  rw [← h]
  ext i
  fin_cases i <;> simp [A, b, h2, h3, h4, Matrix.mulVec, dotProduct, Fin.sum_univ_two] <;>
    field_simp <;> ring

theorem after_pred (s : GH ℝ) (hdt : s.dt ≠ 0) (z : ℕ → ℝ) (k : ℕ) :
    (s.after z (k + 1)).xPred = (s.after z k).x + s.dt * (s.after z k).dx := by
  have h := after_succ s hdt z k
  obtain ⟨-, h2, h3, h4⟩ := after_ok s hdt z k
  rw [update_ok _ (by rw [h2]; exact hdt)] at h
  simp only [Except.ok.injEq] at h
  rw [← h]
  simp [h2]

/-- A g-h filter is stable when the effect of its starting state dies out: with all
measurements zero, estimate and rate tend to zero from every start. -/
def Stable (s : GH ℝ) : Prop := ∀ x dx : ℝ,
  Tendsto (fun k => (({ s with x := x, dx := dx } : GH ℝ).after (fun _ => 0) k).x) atTop (𝓝 0) ∧
  Tendsto (fun k => (({ s with x := x, dx := dx } : GH ℝ).after (fun _ => 0) k).dx) atTop (𝓝 0)

theorem after_zero (s : GH ℝ) (hdt : s.dt ≠ 0) (k : ℕ) :
    ![(s.after (fun _ => 0) k).x, (s.after (fun _ => 0) k).dx] = s.A ^ k *ᵥ ![s.x, s.dx] := by
  induction k with
  | zero => simp [after, runList, Exec.left]
  | succ k ih => rw [after_vec s hdt, ih, zero_smul, add_zero, pow_succ', mulVec_mulVec]

theorem Stable.pow {s : GH ℝ} (h : s.Stable) (hdt : s.dt ≠ 0) :
    Tendsto (fun k => s.A ^ k) atTop (𝓝 0) := by
  refine tendsto_pi_nhds.2 fun i => tendsto_pi_nhds.2 fun j => ?_
  have key : ∀ x dx : ℝ, Tendsto (fun k => (s.A ^ k *ᵥ ![x, dx]) i) atTop (𝓝 0) := by
    intro x dx
    have e := after_zero { s with x := x, dx := dx } hdt
    fin_cases i
    · refine (h x dx).1.congr fun k => ?_
      exact congrFun (e k) 0
    · refine (h x dx).2.congr fun k => ?_
      exact congrFun (e k) 1
  fin_cases j
  · refine (key 1 0).congr fun k => ?_
    simp [Matrix.mulVec, dotProduct, Fin.sum_univ_two]
  · refine (key 0 1).congr fun k => ?_
    simp [Matrix.mulVec, dotProduct, Fin.sum_univ_two]

theorem stable_of_pow {s : GH ℝ} (hdt : s.dt ≠ 0) (hA : Tendsto (fun k => s.A ^ k) atTop (𝓝 0)) :
    s.Stable := by
  intro x dx
  have e := after_zero { s with x := x, dx := dx } hdt
  have h1 := lin_tendsto (A := s.A) hA (e := fun k => s.A ^ k *ᵥ ![x, dx])
    (fun k => by rw [pow_succ', mulVec_mulVec])
  have h2 := tendsto_pi_nhds.1 h1
  refine ⟨(h2 0).congr fun k => ?_, (h2 1).congr fun k => ?_⟩
  · exact (congrFun (e k) 0).symm
  · exact (congrFun (e k) 1).symm

/-- Steady-state covariance of estimate and rate for unit measurement noise. -/
noncomputable def Pss (s : GH E) : Mat 2 2 :=
  let D := s.g * (4 - 2 * s.g - s.h)
  !![(2 * s.g ^ 2 + 2 * s.h - 3 * s.g * s.h) / D, s.h * (2 * s.g - s.h) / (s.dt * D);
     s.h * (2 * s.g - s.h) / (s.dt * D), 2 * s.h ^ 2 / (s.dt ^ 2 * D)]

theorem Pss_fixed (s : GH E) (hdt : s.dt ≠ 0) (hg : s.g ≠ 0) (hd : 4 - 2 * s.g - s.h ≠ 0) :
    s.Pss = s.A * s.Pss * s.Aᵀ + vecMulVec s.b s.b := by
  rcases s with ⟨x, dx, dt, g, h, _, _, _, _⟩
  simp only [Pss, A, b] at *
  obtain ⟨d, hd'⟩ : ∃ d, h = 4 - 2 * g - d := ⟨4 - 2 * g - h, by ring⟩
  subst hd'
  have e : 4 - 2 * g - (4 - 2 * g - d) = d := by ring
  rw [e] at hd ⊢
  rw [mat2_transpose, mul_fin_two, mul_fin_two, vecMulVec2, mat2_add, mat2_inj]
  refine ⟨?_, ?_, ?_, ?_⟩ <;> field_simp <;> ring

end GH

/-- **C39, stability region.** `0 < g`, `0 < h`, `2 g + h < 4` makes the filter stable. -/
theorem C39_gh_stable (s : GH ℝ) (hdt : s.dt ≠ 0) (hg : 0 < s.g) (hh : 0 < s.h)
    (h4 : 2 * s.g + s.h < 4) : s.Stable := by
  refine GH.stable_of_pow hdt ?_
  have hD : 0 < 4 - 2 * s.g - s.h := by linarith
  have hfix := s.Pss_fixed hdt hg.ne' hD.ne'
  have hsym : s.Pssᵀ = s.Pss := by
    ext i j; fin_cases i <;> fin_cases j <;> rfl
  have hdt2 : 0 < s.dt ^ 2 := by positivity
  have hquad : ∀ v : Vec 2, (s.g * (4 - 2 * s.g - s.h)) * (v ⬝ᵥ (s.Pss *ᵥ v))
      = (2 * (s.h * v 1 / s.dt + (2 * s.g - s.h) / 2 * v 0) ^ 2
        + s.h * (4 - 2 * s.g - s.h) / 2 * v 0 ^ 2) := by
    intro v
    have := hg.ne'
    have := hD.ne'
    simp only [GH.Pss, dotProduct, Matrix.mulVec, Fin.sum_univ_two, of_apply, cons_val', cons_val_zero,
      cons_val_one, cons_val_fin_one, empty_val']
    rcases s with ⟨x, dx, dt, g, h, _, _, _, _⟩
    simp only at *
    obtain ⟨d, hd'⟩ : ∃ d, h = 4 - 2 * g - d := ⟨4 - 2 * g - h, by ring⟩
    subst hd'
    have e : 4 - 2 * g - (4 - 2 * g - d) = d := by ring
    have hd0 : d ≠ 0 := by rw [e] at hD; exact hD.ne'
    rw [e]
    field_simp
    ring
  have hPD : s.Pss.PosDef := by
    refine PD.of_quad hsym fun v hv => ?_
    have h := hquad v
    have hpos : 0 < (2 * (s.h * v 1 / s.dt + (2 * s.g - s.h) / 2 * v 0) ^ 2
        + s.h * (4 - 2 * s.g - s.h) / 2 * v 0 ^ 2) := by
      by_cases h0 : v 0 = 0
      · have h1 : v 1 ≠ 0 := by
          intro h1; apply hv; ext i; fin_cases i <;> assumption
        rw [h0]
        have : s.h * v 1 / s.dt ≠ 0 := by
          have := hh.ne'
          exact div_ne_zero (mul_ne_zero this h1) hdt
        rw [mul_zero, add_zero]
        positivity
      · have : 0 < s.h * (4 - 2 * s.g - s.h) / 2 := by positivity
        positivity
    rw [← h] at hpos
    exact (pos_iff_pos_of_mul_pos hpos).1 (by positivity)
  have hb : ∀ v : Vec 2, v ⬝ᵥ (vecMulVec s.b s.b *ᵥ v) = (s.b ⬝ᵥ v) ^ 2 := by
    intro v
    simp only [dotProduct, Matrix.mulVec, vecMulVec, Fin.sum_univ_two, of_apply]; ring
  refine pow_tendsto_zero hPD ?_ 2 ?_
  · have : s.Pss - s.A * s.Pss * s.Aᵀ = vecMulVec s.b s.b := by
      conv_lhs => enter [1]; rw [hfix]
      abel
    rw [this]
    refine PSD.of_quad (by ext i j; simp [vecMulVec, mul_comm]) fun v => ?_
    rw [hb]; positivity
  · have : s.Pss - s.A ^ 2 * s.Pss * (s.A ^ 2)ᵀ
        = vecMulVec s.b s.b + s.A * vecMulVec s.b s.b * s.Aᵀ := by
      have e : s.A ^ 2 * s.Pss * (s.A ^ 2)ᵀ = s.A * (s.A * s.Pss * s.Aᵀ) * s.Aᵀ := by
        rw [pow_two, transpose_mul]; simp only [Matrix.mul_assoc]
      have e2 : s.A * s.Pss * s.Aᵀ = s.Pss - vecMulVec s.b s.b := by
        conv_rhs => enter [1]; rw [hfix]
        abel
      rw [e, e2, Matrix.mul_sub, Matrix.sub_mul, e2]
      abel
    rw [this]
    refine PD.of_quad ?_ fun v hv => ?_
    · rw [transpose_add, transpose_mul, transpose_mul, transpose_transpose, Matrix.mul_assoc]
      have : (vecMulVec s.b s.b)ᵀ = vecMulVec s.b s.b := by ext i j; simp [vecMulVec, mul_comm]
      rw [this]
    · rw [add_mulVec, dotProduct_add, quad_congr, hb, hb]
      have hne : s.b ⬝ᵥ v ≠ 0 ∨ s.b ⬝ᵥ (s.Aᵀ *ᵥ v) ≠ 0 := by
        by_contra hcon
        push Not at hcon
        obtain ⟨c1, c2⟩ := hcon
        simp only [GH.b, GH.A, dotProduct, Matrix.mulVec, Fin.sum_univ_two, of_apply, cons_val',
          cons_val_zero, cons_val_one, cons_val_fin_one, empty_val', transpose_apply] at c1 c2
        apply hv
        have h0 : s.h * v 0 = 0 := by
          field_simp at c1 c2
          have : s.dt * (s.h * v 0) = 0 := by linear_combination c2 - (1 - s.g - s.h) * c1
          exact (mul_eq_zero.1 this).resolve_left hdt
        have h0' : v 0 = 0 := (mul_eq_zero.1 h0).resolve_left hh.ne'
        rw [h0', mul_zero, zero_add] at c1
        have h1 : v 1 = 0 := (mul_eq_zero.1 c1).resolve_left (div_ne_zero hh.ne' hdt)
        ext i; fin_cases i <;> assumption
      rcases hne with h | h <;> positivity

/-- **C36 (convergence).** A stable g-h filter whose measurements lie on a straight line
converges to that line, from every start. -/
theorem C36_gh_converges (s : GH ℝ) (hdt : s.dt ≠ 0) (hs : s.Stable) (p v : ℝ) :
    Tendsto (fun k : ℕ => (s.after (fun i => p + v * ((i + 1) * s.dt)) k).x - (p + v * (k * s.dt)))
      atTop (𝓝 0) ∧
    Tendsto (fun k : ℕ => (s.after (fun i => p + v * ((i + 1) * s.dt)) k).dx) atTop (𝓝 v) := by
  set z : ℕ → ℝ := fun i => p + v * ((i + 1) * s.dt)
  have key := lin_tendsto (hs.pow hdt)
    (e := fun k : ℕ => ![(s.after z k).x - (p + v * (k * s.dt)), (s.after z k).dx - v]) (by
      intro k
      have h := GH.after_vec s hdt z k
      have hz : z k = p + v * ((k + 1) * s.dt) := rfl
      clear_value z
      have h0 := congrFun h 0
      have h1 := congrFun h 1
      ext i
      fin_cases i
      · simp [GH.A, GH.b, Matrix.mulVec, dotProduct, Fin.sum_univ_two, hz] at h0 ⊢
        rw [h0]; ring
      · simp [GH.A, GH.b, Matrix.mulVec, dotProduct, Fin.sum_univ_two, hz] at h1 ⊢
        rw [h1]; field_simp; ring)
  have k2 := tendsto_pi_nhds.1 key
  refine ⟨k2 0, ?_⟩
  have := (k2 1).add_const v
  simpa using this

section vrf
open MeasureTheory ProbabilityTheory Spec
variable {Ω : Type*} [MeasurableSpace Ω] {μ : Measure Ω} [IsProbabilityMeasure μ]

/-- **C39 (g-h).** Feed a stable g-h filter any signal plus white noise of variance `σ2`: the
variances of its estimate, of its rate and of its prediction converge to `σ2` times the numbers
returned by `VRF()` and `VRF_prediction()`, which do not raise. -/
theorem C39_gh_vrf (s : GH ℝ) (hdt : s.dt ≠ 0) (hs : s.Stable) (vx vdx vp : ℝ)
    (hvrf : s.vrf = .ok (vx, vdx)) (hvp : s.vrfPrediction = .ok vp)
    (sig : ℕ → ℝ) (v : ℕ → Ω → ℝ) (σ2 : ℝ) (hv : WhiteNoise v σ2 μ) :
    Tendsto (fun k => Var[fun ω => (s.after (fun i => sig i + v i ω) k).x; μ]) atTop
      (𝓝 (σ2 * vx)) ∧
    Tendsto (fun k => Var[fun ω => (s.after (fun i => sig i + v i ω) k).dx; μ]) atTop
      (𝓝 (σ2 * vdx)) ∧
    Tendsto (fun k => Var[fun ω => (s.after (fun i => sig i + v i ω) k).xPred; μ]) atTop
      (𝓝 (σ2 * vp)) := by
  have hD : s.g * (4 - 2 * s.g - s.h) ≠ 0 := by
    intro h; simp [GH.vrf, h] at hvrf
  obtain ⟨hg, hd⟩ := mul_ne_zero_iff.1 hD
  have hvx : vx = s.Pss 0 0 ∧ vdx = s.Pss 1 1 := by
    unfold GH.vrf at hvrf
    simp only [hD, if_false] at hvrf
    split_ifs at hvrf with h
    simp only [Except.ok.injEq, Prod.mk.injEq] at hvrf
    exact ⟨hvrf.1.symm, hvrf.2.symm⟩
  let X : ℕ → Ω → Vec 2 := fun k ω =>
    ![(s.after (fun i => sig i + v i ω) k).x, (s.after (fun i => sig i + v i ω) k).dx]
  have hX0 : ∀ ω, X 0 ω = ![s.x, s.dx] := fun ω => by simp [X, GH.after, runList, Exec.left]
  have hX : ∀ k ω, X (k + 1) ω = s.A *ᵥ X k ω + (sig k + v k ω) • s.b :=
    fun k ω => GH.after_vec s hdt _ k
  have hdr := fun k => driven_cov hv _ hX0 hX k
  have hfix : σ2 • s.Pss = s.A * (σ2 • s.Pss) * s.Aᵀ + σ2 • vecMulVec s.b s.b := by
    conv_lhs => rw [s.Pss_fixed hdt hg hd]
    rw [Matrix.mul_smul, Matrix.smul_mul, smul_add]
  have hlim := cov_tendsto (hs.pow hdt) hfix (C := fun k => covMat (X k) (X k) μ)
    (fun k => (hdr k).2)
  have hent : ∀ i j, Tendsto (fun k => covMat (X k) (X k) μ i j) atTop (𝓝 (σ2 * s.Pss i j)) :=
    fun i j => tendsto_pi_nhds.1 (tendsto_pi_nhds.1 hlim i) j
  have hvar : ∀ k i, Var[fun ω => X k ω i; μ] = covMat (X k) (X k) μ i i := fun k i =>
    (covariance_self ((hdr k).1 i).aemeasurable).symm
  refine ⟨?_, ?_, ?_⟩
  · rw [hvx.1]; exact (hent 0 0).congr fun k => (hvar k 0).symm
  · rw [hvx.2]; exact (hent 1 1).congr fun k => (hvar k 1).symm
  · rw [← tendsto_add_atTop_iff_nat 1]
    have e : ∀ k, Var[fun ω => (s.after (fun i => sig i + v i ω) (k + 1)).xPred; μ]
        = covMat (X k) (X k) μ 0 0 + 2 * s.dt * covMat (X k) (X k) μ 0 1
          + s.dt ^ 2 * covMat (X k) (X k) μ 1 1 := by
      intro k
      have e1 : (fun ω => (s.after (fun i => sig i + v i ω) (k + 1)).xPred)
          = (fun ω => X k ω 0) + fun ω => s.dt * X k ω 1 := by
        funext ω; exact GH.after_pred s hdt _ k
      rw [e1, variance_add ((hdr k).1 0) (((hdr k).1 1).const_mul s.dt), variance_const_mul,
        covariance_const_mul_right, hvar, hvar]
      simp only [covMat, of_apply]
      ring
    have hp : vp = s.Pss 0 0 + 2 * s.dt * s.Pss 0 1 + s.dt ^ 2 * s.Pss 1 1 := by
      unfold GH.vrfPrediction at hvp
      rw [if_neg hD, Except.ok.injEq] at hvp
      rw [← hvp]
      simp only [GH.Pss, of_apply, cons_val', cons_val_zero, cons_val_one, cons_val_fin_one,
        empty_val']
      obtain ⟨d, hd'⟩ : ∃ d, d = 4 - 2 * s.g - s.h := ⟨_, rfl⟩
      rw [← hd'] at hd ⊢
      have hh : s.h = 4 - 2 * s.g - d := by rw [hd']; ring
      rw [hh]
      field_simp
      ring
    have := ((hent 0 0).add ((hent 0 1).const_mul (2 * s.dt))).add ((hent 1 1).const_mul (s.dt ^ 2))
    rw [hp]
    convert this.congr fun k => (e k).symm using 2
    ring

end vrf

/-- The hypotheses of C36/C39 are met by ordinary gains. -/
example : (GH.init (0 : ℝ) 0 2 (1/2) (1/5)).Stable ∧
    (GH.init (0 : ℝ) 0 2 (1/2) (1/5)).vrf = .ok (3/7, 1/70) := by
  constructor
  · apply C39_gh_stable <;> norm_num [GH.init]
  · norm_num [GH.vrf, GH.init]

/-! ## C37 -/

theorem batchLoop_spec (s : GH ℝ) (hdt : s.dt ≠ 0) (data : List ℝ) :
    (GH.batchLoop s.dt s.g (s.h / s.dt) s.x s.dx data).length = data.length ∧
    ∀ k < data.length, ∃ s', runList (fun s z => s.update z) s (data.take (k + 1)) = .ok s' ∧
      (GH.batchLoop s.dt s.g (s.h / s.dt) s.x s.dx data)[k]? = some (s'.x, s'.dx, s'.xPred) := by
  induction data generalizing s with
  | nil => exact ⟨rfl, fun k hk => absurd hk (Nat.not_lt_zero k)⟩
  | cons z data ih =>
    have hu := GH.update_ok s hdt z none none
    set s1 : GH ℝ := { s with
      dxPred := s.dx, xPred := s.x + s.dt • s.dx, y := z - (s.x + s.dt • s.dx),
      dx := s.dx + ((none : Option ℝ).getD s.h / s.dt) • (z - (s.x + s.dt • s.dx)),
      x := s.x + s.dt • s.dx + (none : Option ℝ).getD s.g • (z - (s.x + s.dt • s.dx)) } with hs1
    obtain ⟨l1, l2⟩ := ih s1 hdt
    have e : GH.batchLoop s.dt s.g (s.h / s.dt) s.x s.dx (z :: data)
        = (s1.x, s1.dx, s1.xPred) :: GH.batchLoop s1.dt s1.g (s1.h / s1.dt) s1.x s1.dx data := by
      simp [GH.batchLoop, hs1, mul_comm]
    rw [e]
    refine ⟨by simp [l1], fun k hk => ?_⟩
    cases k with
    | zero => exact ⟨s1, by simp [runList, hu], rfl⟩
    | succ k =>
      obtain ⟨s', h1, h2⟩ := l2 k (by simpa using hk)
      refine ⟨s', ?_, by simpa using h2⟩
      simp only [List.take_succ_cons, runList, hu]
      exact h1

/-- **C37 (g-h).** `batch_filter` returns the initial state followed by exactly the estimates
that calling `update` on the data one by one gives, the predictions are the ones `update`
makes, and the filter itself is unchanged. -/
theorem C37_gh_batch (s : GH ℝ) (hdt : s.dt ≠ 0) (data : List ℝ) :
    ∃ r, s.batchFilter data = .ok r ∧ r.after = s ∧ r.results.length = data.length + 1 ∧
      r.predictions.length = data.length ∧ r.results[0]? = some (s.x, s.dx) ∧
      ∀ k < data.length, ∃ s', runList (fun s z => s.update z) s (data.take (k + 1)) = .ok s' ∧
        r.results[k + 1]? = some (s'.x, s'.dx) ∧ r.predictions[k]? = some s'.xPred := by
  obtain ⟨h1, h2⟩ := batchLoop_spec s hdt data
  unfold GH.batchFilter
  rw [if_neg hdt]
  refine ⟨_, rfl, rfl, by simp [h1], by simp [h1], rfl, fun k hk => ?_⟩
  obtain ⟨s', h3, h4⟩ := h2 k hk
  exact ⟨s', h3, by simp [h4], by simp [h4]⟩

/-- **C37 refuted (saver).** The documentation of `batch_filter` says the saver is called after
every epoch; it stores the same unmodified filter every time, here although the second estimate
differs from the first. -/
theorem C37_gh_saver_refuted : ∃ (s : GH ℝ) (data : List ℝ) (r : GH.BatchResult (GH ℝ)),
    s.batchFilter data = .ok r ∧ r.saved.map (·.x) ≠ r.results.tail.map (·.1) := by
  refine ⟨GH.init 0 0 1 1 1, [1], _, by rw [GH.batchFilter, if_neg (by norm_num [GH.init])], ?_⟩
  norm_num [GH.init, GH.batchLoop]

/-- **C37 partial (g-h-k).** `GHKFilter.batch_filter` is the g-h batch filter of the same `g`,
`h`: right only when `k = 0` and the acceleration is zero. -/
theorem C37_ghk_batch_partial (s : GHK ℝ) (hdt : s.dt ≠ 0) (hk : s.k = 0) (ha : s.ddx = 0)
    (data : List ℝ) :
    ∃ r, s.batchFilter data = .ok r ∧ r.after = s ∧ r.results.length = data.length + 1 ∧
      r.results[0]? = some (s.x, s.dx) ∧
      ∀ k < data.length, ∃ s', runList (fun s z => s.update z) s (data.take (k + 1)) = .ok s' ∧
        r.results[k + 1]? = some (s'.x, s'.dx) ∧ r.predictions[k]? = some s'.xPred := by
  set t : GH ℝ := { GH.init s.x s.dx s.dt s.g s.h with xPred := s.xPred } with ht
  obtain ⟨h1, h2⟩ := batchLoop_spec t hdt data
  unfold GHK.batchFilter
  rw [if_neg hdt]
  refine ⟨_, rfl, rfl, ?_, rfl, fun k hk' => ?_⟩
  · simpa using (show (GH.batchLoop s.dt s.g (s.h / s.dt) s.x s.dx data).length = _ from h1)
  obtain ⟨t', h3, h4⟩ := h2 k hk'
  have key : ∀ (l : List ℝ) (s : GHK ℝ) (t t' : GH ℝ), s.k = 0 → s.ddx = 0 → s.dt ≠ 0 → t.x = s.x →
      t.dx = s.dx → t.dt = s.dt → t.g = s.g → t.h = s.h → t.xPred = s.xPred →
      runList (fun s z => s.update z) t l = .ok t' →
      ∃ s', runList (fun s z => s.update z) s l = .ok s' ∧ s'.x = t'.x ∧ s'.dx = t'.dx ∧
        s'.xPred = t'.xPred := by
    intro l
    induction l with
    | nil =>
      intro s t t' _ _ _ e1 e2 _ _ _ e6 h
      simp only [runList, Except.ok.injEq] at h
      subst h
      exact ⟨s, rfl, e1.symm, e2.symm, e6.symm⟩
    | cons z l ih =>
      intro s t t' hk ha hdt e1 e2 e3 e4 e5 e6 h
      simp only [runList] at h ⊢
      rw [GH.update_ok _ (by rw [e3]; exact hdt)] at h
      simp only [GHK.update, hdt, if_false]
      refine ih _ _ t' ?_ ?_ ?_ ?_ ?_ ?_ ?_ ?_ ?_ h <;>
        simp [hk, ha, hdt, e1, e2, e3, e4, e5]
  obtain ⟨s', k1, k2, k3, k4⟩ := key _ s t t' hk ha hdt rfl rfl rfl rfl rfl rfl h3
  refine ⟨s', k1, ?_, ?_⟩
  · rw [k2, k3]
    have h4 : (GH.batchLoop s.dt s.g (s.h / s.dt) s.x s.dx data)[k]? = _ := h4
    simp [h4]
  · rw [k4]
    have h4 : (GH.batchLoop s.dt s.g (s.h / s.dt) s.x s.dx data)[k]? = _ := h4
    simp [h4]

/-- **C37 refuted (g-h-k).** With a nonzero acceleration gain the second estimate of
`GHKFilter.batch_filter` is not what two `update` calls give. -/
theorem C37_ghk_batch_refuted : ∃ (s s' : GHK ℝ) (data : List ℝ) (r : GH.BatchResult (GHK ℝ)),
    s.batchFilter data = .ok r ∧ runList (fun s z => s.update z) s data = .ok s' ∧
    r.results[data.length]? ≠ some (s'.x, s'.dx) := by
  refine ⟨GHK.init 0 0 0 1 (1/2) (1/2) 1, _, [1, 1], _,
    by rw [GHK.batchFilter, if_neg (by norm_num [GHK.init])],
    by norm_num [runList, GHK.update, GHK.init]; rfl, ?_⟩
  norm_num [GHK.init, GH.batchLoop]

end Filterpy
