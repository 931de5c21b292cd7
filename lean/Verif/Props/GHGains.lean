import Verif.Props.GHK
import Verif.Lemmas.WhiteNoise

/-!
# Gain selection, variance reduction of the g-h-k filter, `GHFilterOrder` (C38 – C40, C65)
-/

namespace Filterpy
open Filter Topology Matrix

/-! ## C40 -/

/-- **C40 (critical damping, order 2).** With the returned gains the characteristic polynomial
of the error dynamics is `(λ - θ)²`, and for `θ < 1` the filter is stable. -/
theorem C40_critical_two (θ : ℝ) (h0 : 0 ≤ θ) (h1 : θ ≤ 1) : ∃ g h,
    criticalDamping θ 2 = .ok (.two g h) ∧ ∀ (x dx dt : ℝ), dt ≠ 0 →
      (∀ lam : ℝ, (lam • (1 : Mat 2 2) - (GH.init x dx dt g h).A).det = (lam - θ) ^ 2) ∧
      (θ < 1 → (GH.init x dx dt g h).Stable) := by
  refine ⟨1 - θ ^ 2, (1 - θ) ^ 2, ?_, fun x dx dt hdt => ⟨fun lam => ?_, fun hlt => ?_⟩⟩
  · rw [criticalDamping, if_neg (by rintro (h | h) <;> linarith), if_pos rfl]
  · rw [det_fin_two]
    simp [GH.A, GH.init]
    field_simp
    ring
  · refine C39_gh_stable _ hdt ?_ ?_ ?_ <;> simp only [GH.init] <;> nlinarith

/-- **C40 (critical damping, order 3).** The same for the g-h-k filter: `(λ - θ)³`. -/
theorem C40_critical_three (θ : ℝ) (h0 : 0 ≤ θ) (h1 : θ ≤ 1) : ∃ g h k,
    criticalDamping θ 3 = .ok (.three g h k) ∧ ∀ (x dx ddx dt : ℝ), dt ≠ 0 →
      (∀ lam : ℝ, (lam • (1 : Mat 3 3) - (GHK.init x dx ddx dt g h k).A).det = (lam - θ) ^ 3) ∧
      (θ < 1 → (GHK.init x dx ddx dt g h k).Stable) := by
  refine ⟨1 - θ ^ 3, 1.5 * (1 - θ ^ 2) * (1 - θ), 0.5 * (1 - θ) ^ 3, ?_,
    fun x dx ddx dt hdt => ⟨fun lam => ?_, fun hlt => ?_⟩⟩
  · rw [criticalDamping, if_neg (by rintro (h | h) <;> linarith), if_neg (by norm_num), if_pos rfl]
  · rw [det_fin_three]
    simp [GHK.A, GHK.init]
    field_simp
    ring
  · refine GHK.stable_of_pow hdt (pow_tendsto_of_nilpotent (θ := θ) (abs_lt.2 ⟨by linarith, hlt⟩) ?_)
    have e : (GHK.init x dx ddx dt (1 - θ ^ 3) (1.5 * (1 - θ ^ 2) * (1 - θ)) (0.5 * (1 - θ) ^ 3)).A
        - θ • (1 : Mat 3 3)
        = !![θ ^ 3 - θ, θ ^ 3 * dt, θ ^ 3 * dt ^ 2 / 2;
            -(1.5 * (1 - θ ^ 2) * (1 - θ) / dt), 1 - 1.5 * (1 - θ ^ 2) * (1 - θ) - θ,
              dt - 1.5 * (1 - θ ^ 2) * (1 - θ) * dt / 2;
            -((1 - θ) ^ 3 / dt ^ 2), -((1 - θ) ^ 3 / dt), 1 - 0.5 * (1 - θ) ^ 3 - θ] := by
      ext i j
      fin_cases i <;> fin_cases j <;> simp [GHK.A, GHK.init] <;> ring
    rw [e, pow_succ, pow_two, mul_fin_three, mul_fin_three]
    rw [show (0 : Mat 3 3) = !![0, 0, 0; 0, 0, 0; 0, 0, 0] by
      ext i j; fin_cases i <;> fin_cases j <;> rfl]
    apply mat3_ext <;> field_simp <;> ring

/-- **C40.** Other arguments raise `ValueError`. -/
theorem C40_critical_errors (θ : ℝ) (order : ℤ)
    (h : θ < 0 ∨ 1 < θ ∨ (order ≠ 2 ∧ order ≠ 3)) :
    criticalDamping θ order = .error .valueError := by
  unfold criticalDamping
  by_cases h1 : θ < 0 ∨ θ > 1
  · rw [if_pos h1]
  · rw [if_neg h1]
    rcases h with h | h | ⟨h2, h3⟩
    · exact absurd (.inl h) h1
    · exact absurd (.inr h) h1
    · rw [if_neg h2, if_neg h3]

/-- **C40 (Benedict-Bordner).** For `0 < g ≤ 1` the constants are `g` and `h = g²/(2-g)`, the
filter they define is stable, and `h (2 - g) = g²`. -/
theorem C40_benedict (g : ℝ) (h0 : 0 < g) (h1 : g ≤ 1) : ∃ h,
    benedictBornder g = .ok (g, h) ∧ h * (2 - g) = g ^ 2 ∧
    ∀ (x dx dt : ℝ), dt ≠ 0 → (GH.init x dx dt g h).Stable := by
  have h2 : (2 - g) ≠ 0 := by linarith
  have h2' : 0 < 2 - g := by linarith
  refine ⟨g ^ 2 / (2 - g), ?_, by field_simp, fun x dx dt hdt => ?_⟩
  · simp [benedictBornder, h2]
  · refine C39_gh_stable _ hdt h0 (by simp only [GH.init]; positivity) ?_
    simp only [GH.init]
    have : g ^ 2 / (2 - g) ≤ 1 := by rw [div_le_one h2']; nlinarith
    linarith

/-- **C40 (Benedict-Bordner, near critical).** With `critical=True` the filter is stable for
`0 < g < 1`, and its damping ratio is 0.8 of the critical one: `g² h = 0.8 (2 - g² - 2 √(1-g²))`. -/
theorem C40_benedict_critical (g : ℝ) (h0 : 0 < g) (h1 : g < 1) : ∃ h,
    benedictBornder g true = .ok (g, h) ∧
    h * g ^ 2 = 0.8 * (2 - g ^ 2 - 2 * Real.sqrt (1 - g ^ 2)) ∧
    ∀ (x dx dt : ℝ), dt ≠ 0 → (GH.init x dx dt g h).Stable := by
  have hg2 : g ^ 2 ≠ 0 := by positivity
  have hpos : 0 < 1 - g ^ 2 := by nlinarith
  set r := Real.sqrt (1 - g ^ 2)
  have hr0 : 0 < r := Real.sqrt_pos.2 hpos
  have hrsq : r ^ 2 = 1 - g ^ 2 := Real.sq_sqrt hpos.le
  have hr1 : r < 1 := by nlinarith [sq_nonneg g]
  refine ⟨0.8 * (2 - g ^ 2 - 2 * r) / g ^ 2, ?_, by field_simp, fun x dx dt hdt => ?_⟩
  · rw [benedictBornder, if_pos rfl, if_neg (by linarith), if_neg hg2]
  · have e : 2 - g ^ 2 - 2 * r = (1 - r) ^ 2 := by nlinarith
    refine C39_gh_stable _ hdt h0 ?_ ?_ <;> simp only [GH.init]
    · rw [e]
      have : 0 < 1 - r := by linarith
      positivity
    · rw [e]
      have e2 : g ^ 2 = (1 - r) * (1 + r) := by nlinarith
      have : 0.8 * (1 - r) ^ 2 / g ^ 2 ≤ 0.8 := by
        rw [div_le_iff₀ (by positivity), e2]
        nlinarith
      linarith

/-- **C40 (noise smoothing).** Where `optimal_noise_smoothing` returns, `g` is unchanged and the
two relations of Polge and Bhagavan hold: `2 h = g (g + h + k)` and
`4 (1-g) h² + 2 g² (2-g) h = 3 g⁴`; in particular it returns for every `0 < g < 1`. -/
theorem C40_optimal_noise (g g' h k : ℝ) (hr : optimalNoiseSmoothing g = .ok (g', h, k)) :
    g' = g ∧ 2 * h = g * (g + h + k) ∧
    4 * (1 - g) * h ^ 2 + 2 * g ^ 2 * (2 - g) * h = 3 * g ^ 4 := by
  unfold optimalNoiseSmoothing at hr
  simp only at hr
  split_ifs at hr with h1 h2 h3
  simp only [Except.ok.injEq, Prod.mk.injEq] at hr
  obtain ⟨rfl, hh, hk⟩ := hr
  have hg1 : 1 - g ≠ 0 := sub_ne_zero.2 (Ne.symm h2)
  set d := 4 * g ^ 6 - 64 * g ^ 5 + 64 * g ^ 4
  have hsq : Real.sqrt d ^ 2 = d := Real.sq_sqrt (not_lt.1 h1)
  refine ⟨rfl, ?_, ?_⟩
  · rw [hh] at hk
    rw [← hk]; field_simp; ring
  · have e : 8 * (1 - g) * h - (2 * g ^ 3 - 4 * g ^ 2) = Real.sqrt d := by
      rw [← hh]; field_simp; ring
    have e2 : (8 * (1 - g) * h - (2 * g ^ 3 - 4 * g ^ 2)) ^ 2 = d := by rw [e, hsq]
    have e3 : 16 * (1 - g) * (4 * (1 - g) * h ^ 2 + 2 * g ^ 2 * (2 - g) * h - 3 * g ^ 4) = 0 := by
      have : d = 4 * g ^ 6 - 64 * g ^ 5 + 64 * g ^ 4 := rfl
      rw [this] at e2
      linear_combination e2
    have := (mul_eq_zero.1 e3).resolve_left (mul_ne_zero (by norm_num) hg1)
    linarith

/-- `optimal_noise_smoothing` returns for every `0 < g < 1`. -/
theorem C40_optimal_noise_total (g : ℝ) (h0 : 0 < g) (h1 : g < 1) :
    ∃ r, optimalNoiseSmoothing g = .ok r := by
  unfold optimalNoiseSmoothing
  have : ¬ (4 * g ^ 6 - 64 * g ^ 5 + 64 * g ^ 4 < 0) := by
    have e : 4 * g ^ 6 - 64 * g ^ 5 + 64 * g ^ 4 = 4 * g ^ 4 * (g ^ 2 - 16 * g + 16) := by ring
    rw [e]
    have : 0 < g ^ 2 - 16 * g + 16 := by nlinarith
    have : 0 < 4 * g ^ 4 * (g ^ 2 - 16 * g + 16) := by positivity
    linarith
  simp only [this, if_false, h1.ne, h0.ne']
  exact ⟨_, rfl⟩

/-! ## C39 for the g-h-k filter -/

section vrf
open MeasureTheory ProbabilityTheory Spec
variable {Ω : Type*} [MeasurableSpace Ω] {μ : Measure Ω} [IsProbabilityMeasure μ]

/-- The steady-state variances of a stable g-h-k filter driven by white noise. -/
theorem ghk_variances (s : GHK ℝ) (hdt : s.dt ≠ 0) (hs : s.Stable) (hd : 4 - 2 * s.g - s.h ≠ 0)
    (hk : s.g * s.h + s.g * s.k - 2 * s.k ≠ 0)
    (sig : ℕ → ℝ) (v : ℕ → Ω → ℝ) (σ2 : ℝ) (hv : WhiteNoise v σ2 μ) :
    (∀ i, Tendsto (fun k => Var[fun ω => (s.after (fun i => sig i + v i ω) k).vec i; μ]) atTop
      (𝓝 (σ2 * s.Pss i i))) ∧
    Tendsto (fun k => Var[fun ω => (s.after (fun i => sig i + v i ω) k).xPred; μ]) atTop
      (𝓝 (σ2 * (s.Pss 0 0 + s.dt ^ 2 * s.Pss 1 1 + s.dt ^ 4 / 4 * s.Pss 2 2
        + 2 * s.dt * s.Pss 0 1 + s.dt ^ 2 * s.Pss 0 2 + s.dt ^ 3 * s.Pss 1 2))) := by
  let X : ℕ → Ω → Vec 3 := fun k ω => (s.after (fun i => sig i + v i ω) k).vec
  have hX0 : ∀ ω, X 0 ω = s.vec := fun ω => by simp [X, GHK.after, runList, Exec.left]
  have hX : ∀ k ω, X (k + 1) ω = s.A *ᵥ X k ω + (sig k + v k ω) • s.b :=
    fun k ω => GHK.after_vec s hdt _ k
  have hdr := fun k => driven_cov hv _ hX0 hX k
  have hfix : σ2 • s.Pss = s.A * (σ2 • s.Pss) * s.Aᵀ + σ2 • vecMulVec s.b s.b := by
    conv_lhs => rw [s.Pss_fixed hdt hd hk]
    rw [Matrix.mul_smul, Matrix.smul_mul, smul_add]
  have hlim := cov_tendsto (hs.pow hdt) hfix (C := fun k => covMat (X k) (X k) μ)
    (fun k => (hdr k).2)
  have hent : ∀ i j, Tendsto (fun k => covMat (X k) (X k) μ i j) atTop (𝓝 (σ2 * s.Pss i j)) :=
    fun i j => tendsto_pi_nhds.1 (tendsto_pi_nhds.1 hlim i) j
  have hvar : ∀ k i, Var[fun ω => X k ω i; μ] = covMat (X k) (X k) μ i i := fun k i =>
    (covariance_self ((hdr k).1 i).aemeasurable).symm
  refine ⟨fun i => (hent i i).congr fun k => (hvar k i).symm, ?_⟩
  rw [← tendsto_add_atTop_iff_nat 1]
  have e : ∀ k, Var[fun ω => (s.after (fun i => sig i + v i ω) (k + 1)).xPred; μ]
      = covMat (X k) (X k) μ 0 0 + s.dt ^ 2 * covMat (X k) (X k) μ 1 1
        + s.dt ^ 4 / 4 * covMat (X k) (X k) μ 2 2 + 2 * s.dt * covMat (X k) (X k) μ 0 1
        + s.dt ^ 2 * covMat (X k) (X k) μ 0 2 + s.dt ^ 3 * covMat (X k) (X k) μ 1 2 := by
    intro k
    have e1 : (fun ω => (s.after (fun i => sig i + v i ω) (k + 1)).xPred)
        = ((fun ω => X k ω 0) + fun ω => s.dt * X k ω 1) + fun ω => s.dt ^ 2 / 2 * X k ω 2 := by
      funext ω; exact GHK.after_pred s hdt _ k
    have m0 := (hdr k).1 0
    have m1 := ((hdr k).1 1).const_mul s.dt
    have m2 := ((hdr k).1 2).const_mul (s.dt ^ 2 / 2)
    rw [e1, variance_add (m0.add m1) m2, variance_add m0 m1, covariance_add_left m0 m1 m2,
      variance_const_mul, variance_const_mul,
      covariance_const_mul_right, covariance_const_mul_right, covariance_const_mul_right,
      covariance_const_mul_left, hvar, hvar, hvar]
    simp only [covMat, of_apply]
    ring
  have := (((((hent 0 0).add ((hent 1 1).const_mul (s.dt ^ 2))).add
    ((hent 2 2).const_mul (s.dt ^ 4 / 4))).add ((hent 0 1).const_mul (2 * s.dt))).add
    ((hent 0 2).const_mul (s.dt ^ 2))).add ((hent 1 2).const_mul (s.dt ^ 3))
  convert this.congr fun k => (e k).symm using 2
  ring

/-- **C39 partial (g-h-k).** The third number returned by `VRF()` is the steady-state variance
of the acceleration estimate.  The first two, and `VRF_prediction()`, are wrong, see below. -/
theorem C39_ghk_vrf_partial (s : GHK ℝ) (hdt : s.dt ≠ 0) (hs : s.Stable) (vx vdx vddx : ℝ)
    (hvrf : s.vrf = .ok (vx, vdx, vddx))
    (sig : ℕ → ℝ) (v : ℕ → Ω → ℝ) (σ2 : ℝ) (hv : WhiteNoise v σ2 μ) :
    Tendsto (fun k => Var[fun ω => (s.after (fun i => sig i + v i ω) k).ddx; μ]) atTop
      (𝓝 (σ2 * vddx)) := by
  unfold GHK.vrf at hvrf
  simp only at hvrf
  split_ifs at hvrf with h1 h2 h3
  simp only [Except.ok.injEq, Prod.mk.injEq] at hvrf
  obtain ⟨-, -, rfl⟩ := hvrf
  have hk : s.g * s.h + s.g * s.k - 2 * s.k ≠ 0 := fun h => h3 (by rw [h, mul_zero])
  have hd : 4 - 2 * s.g - s.h ≠ 0 := fun h => h3 (by rw [h, mul_zero, zero_mul])
  have h := (ghk_variances s hdt hs hd hk sig v σ2 hv).1 2
  have e : s.Pss 2 2 = 8 * s.h * s.k ^ 2 / (s.dt ^ 4 * (4 - 2 * s.g - s.h) *
      (s.g * s.h + s.g * s.k - 2 * s.k)) := by
    rw [mul_assoc (s.dt ^ 4)]; rfl
  rw [e] at h
  exact h

/-- The critically damped g-h-k filter with `θ = 1/2` and unit time step. -/
noncomputable def ghkHalf : GHK ℝ := GHK.init 0 0 0 1 (7/8) (9/16) (1/16)

theorem ghkHalf_stable : ghkHalf.Stable := by
  obtain ⟨g, h, k, e, hs⟩ := C40_critical_three (1/2) (by norm_num) (by norm_num)
  rw [criticalDamping, if_neg (by norm_num), if_neg (by norm_num), if_pos rfl] at e
  simp only [Except.ok.injEq, Gains.three.injEq] at e
  obtain ⟨rfl, rfl, rfl⟩ := e
  have := (hs 0 0 0 1 (by norm_num)).2 (by norm_num)
  norm_num at this
  exact this

/-- **C39 partial (g-h-k, what the other two numbers are).** The first number has the right
numerator over a mis-parenthesised denominator, the second lacks the factor `2 / dt²`, and
`VRF_prediction()` again has the right numerator over a wrong denominator: multiplied by the
ratio of the denominators they are the steady-state variances. -/
theorem C39_ghk_vrf_scale_partial (s : GHK ℝ) (hdt : s.dt ≠ 0) (hs : s.Stable) (vx vdx vddx vp : ℝ)
    (hvrf : s.vrf = .ok (vx, vdx, vddx)) (hvp : s.vrfPrediction = .ok vp)
    (sig : ℕ → ℝ) (v : ℕ → Ω → ℝ) (σ2 : ℝ) (hv : WhiteNoise v σ2 μ) :
    Tendsto (fun k => Var[fun ω => (s.after (fun i => sig i + v i ω) k).x; μ]) atTop
      (𝓝 (σ2 * (vx * ((2 * s.k - s.g * (s.h + s.k) * (4 - 2 * s.g - s.h)) /
        (2 * (4 - 2 * s.g - s.h) * (s.g * s.h + s.g * s.k - 2 * s.k)))))) ∧
    Tendsto (fun k => Var[fun ω => (s.after (fun i => sig i + v i ω) k).dx; μ]) atTop
      (𝓝 (σ2 * (vdx * (2 / s.dt ^ 2)))) ∧
    Tendsto (fun k => Var[fun ω => (s.after (fun i => sig i + v i ω) k).xPred; μ]) atTop
      (𝓝 (σ2 * (vp * ((2 * s.k + s.g * (s.h + s.k) * (4 - 2 * s.g - s.h)) /
        ((4 - 2 * s.g - s.h) * (s.g * s.h + s.g * s.k - 2 * s.k)))))) := by
  unfold GHK.vrf at hvrf
  unfold GHK.vrfPrediction at hvp
  simp only at hvrf hvp
  split_ifs at hvrf with h1 h2 h3
  split_ifs at hvp with h4
  simp only [Except.ok.injEq, Prod.mk.injEq] at hvrf hvp
  obtain ⟨rfl, rfl, rfl⟩ := hvrf
  have hk : s.g * s.h + s.g * s.k - 2 * s.k ≠ 0 := fun h => h3 (by rw [h, mul_zero])
  have hd : 4 - 2 * s.g - s.h ≠ 0 := fun h => h3 (by rw [h, mul_zero, zero_mul])
  obtain ⟨h, hp⟩ := ghk_variances s hdt hs hd hk sig v σ2 hv
  have q (M : Mat 3 3) (a b c d e f g h i : ℝ) (hM : M = !![a, b, c; d, e, f; g, h, i]) :
      M 0 0 = a ∧ M 1 1 = e ∧ M 2 2 = i ∧ M 0 1 = b ∧ M 0 2 = c ∧ M 1 2 = f := by
    subst hM; exact ⟨rfl, rfl, rfl, rfl, rfl, rfl⟩
  obtain ⟨q1, q2, q3, q4, q5, q6⟩ := q s.Pss _ _ _ _ _ _ _ _ _ rfl
  have h0 : Tendsto (fun k => Var[fun ω => (s.after (fun i => sig i + v i ω) k).x; μ]) atTop
    (𝓝 (σ2 * s.Pss 0 0)) := h 0
  have hh1 : Tendsto (fun k => Var[fun ω => (s.after (fun i => sig i + v i ω) k).dx; μ]) atTop
    (𝓝 (σ2 * s.Pss 1 1)) := h 1
  rw [q1] at h0
  rw [q2] at hh1
  rw [q1, q2, q3, q4, q5, q6] at hp
  refine ⟨?_, ?_, ?_⟩
  · convert h0 using 3
    rw [div_mul_div_cancel₀ h1]
    rw [div_eq_div_iff (mul_ne_zero (mul_ne_zero two_ne_zero hd) hk) (mul_ne_zero hd hk)]
    ring
  · convert hh1 using 3
    field_simp
    ring
  · convert hp using 3
    subst hvp
    have e4 : 2 * s.k - s.g * (s.h + s.k) * (2 * s.g + s.h - 4) =
        2 * s.k + s.g * (s.h + s.k) * (4 - 2 * s.g - s.h) := by ring
    rw [← e4, div_mul_div_cancel₀ h4]
    field_simp
    ring
/-- The hypotheses of the two partial theorems hold for `ghkHalf`. -/
example : ghkHalf.dt ≠ 0 ∧ ghkHalf.Stable ∧ (∃ v, ghkHalf.vrf = .ok v) ∧
    ∃ vp, ghkHalf.vrfPrediction = .ok vp := by
  refine ⟨by norm_num [ghkHalf, GHK.init], ghkHalf_stable, ?_, ?_⟩
  · norm_num [GHK.vrf, ghkHalf, GHK.init]
  · norm_num [GHK.vrfPrediction, ghkHalf, GHK.init]

/-- **C39 refuted (g-h-k).** On the critically damped filter with `θ = 1/2` the methods return,
but the variances of estimate, rate and prediction under unit white noise converge to other
values (`vx` is even negative). -/
theorem C39_ghk_vrf_refuted : ∃ vx vdx vddx vp,
    ghkHalf.vrf = .ok (vx, vdx, vddx) ∧ ghkHalf.vrfPrediction = .ok vp ∧ vx < 0 ∧
    ∀ (v : ℕ → Ω → ℝ), WhiteNoise v 1 μ →
      ¬ Tendsto (fun k => Var[fun ω => (ghkHalf.after (fun i => v i ω) k).x; μ]) atTop (𝓝 vx) ∧
      ¬ Tendsto (fun k => Var[fun ω => (ghkHalf.after (fun i => v i ω) k).dx; μ]) atTop (𝓝 vdx) ∧
      ¬ Tendsto (fun k => Var[fun ω => (ghkHalf.after (fun i => v i ω) k).xPred; μ]) atTop
        (𝓝 vp) := by
  have e1 : ∃ a b c, ghkHalf.vrf = .ok (a, b, c) ∧ a < 0 ∧ a ≠ ghkHalf.Pss 0 0 ∧
      b ≠ ghkHalf.Pss 1 1 := by
    norm_num [GHK.vrf, ghkHalf, GHK.init, GHK.Pss]
    exact ⟨_, _, ⟨rfl, rfl⟩, by norm_num, by norm_num, by norm_num⟩
  have e2 : ∃ a, ghkHalf.vrfPrediction = .ok a ∧
      a ≠ ghkHalf.Pss 0 0 + ghkHalf.dt ^ 2 * ghkHalf.Pss 1 1 + ghkHalf.dt ^ 4 / 4 * ghkHalf.Pss 2 2
        + 2 * ghkHalf.dt * ghkHalf.Pss 0 1 + ghkHalf.dt ^ 2 * ghkHalf.Pss 0 2
        + ghkHalf.dt ^ 3 * ghkHalf.Pss 1 2 := by
    have q (M : Mat 3 3) (a b c d e f g h i : ℝ) (hM : M = !![a, b, c; d, e, f; g, h, i]) :
        M 0 0 = a ∧ M 1 1 = e ∧ M 2 2 = i ∧ M 0 1 = b ∧ M 0 2 = c ∧ M 1 2 = f := by
      subst hM; exact ⟨rfl, rfl, rfl, rfl, rfl, rfl⟩
    obtain ⟨q1, q2, q3, q4, q5, q6⟩ := q ghkHalf.Pss _ _ _ _ _ _ _ _ _ rfl
    rw [q1, q2, q3, q4, q5, q6]
    norm_num [GHK.vrfPrediction, ghkHalf, GHK.init]
  obtain ⟨vx, vdx, vddx, ha, hneg, n1, n2⟩ := e1
  obtain ⟨vp, hb, n3⟩ := e2
  refine ⟨vx, vdx, vddx, vp, ha, hb, hneg, fun v hv => ?_⟩
  obtain ⟨h1, h2⟩ := ghk_variances ghkHalf (by norm_num [ghkHalf, GHK.init]) ghkHalf_stable
    (by norm_num [ghkHalf, GHK.init]) (by norm_num [ghkHalf, GHK.init]) (fun _ => 0) v 1 hv
  simp only [zero_add, one_mul] at h1 h2
  refine ⟨fun h => n1 (tendsto_nhds_unique h (h1 0)), fun h => n2 (tendsto_nhds_unique h (h1 1)),
    fun h => n3 (tendsto_nhds_unique h h2)⟩

end vrf

/-! ## C38 -/

/-- **C38 (constructor).** -/
theorem C38_init (x0 : X0) (dt : ℝ) (order : ℤ) (g : ℝ) (h k : Option ℝ) :
    (GHO.init x0 dt order g h k = .error .valueError ↔ order < 0 ∨ 2 < order) ∧
    ∀ s, GHO.init x0 dt order g h k = .ok s → s.x = x0.toList order.toNat ∧
      (s.order : ℤ) = order ∧ s.g = g ∧ s.h = h ∧ s.k = k ∧ s.dt = dt := by
  unfold GHO.init
  split_ifs with h1
  · exact ⟨by simp [h1], by simp⟩
  · refine ⟨by simp [h1], ?_⟩
    rintro s hs
    simp only [Except.ok.injEq] at hs
    subst hs
    refine ⟨rfl, ?_, rfl, rfl, rfl, rfl⟩
    simp only [not_or, not_lt] at h1
    exact Int.toNat_of_nonneg h1.1

/-- **C38 (order 1).** For every data sequence and every choice of per-step gains,
`GHFilterOrder` of order 1 and `GHFilter` hold the same estimate, rate and residual. -/
theorem C38_order_one (o : GHO) (f : GH ℝ) (rest : List ℝ) (ho : o.order = 1) (hdt : f.dt ≠ 0)
    (e1 : o.dt = f.dt) (e2 : o.g = f.g) (e3 : o.h = some f.h) (hx : o.x = f.x :: f.dx :: rest)
    (data : List (ℝ × Option ℝ × Option ℝ)) :
    ∃ o' f', runList (fun s (i : ℝ × Option ℝ × Option ℝ) => s.update i.1 i.2.1 i.2.2) o data
        = .ok o' ∧
      runList GH.upd f data = .ok f' ∧ o'.x = f'.x :: f'.dx :: rest ∧
      (data ≠ [] → o'.y = f'.y) := by
  induction data generalizing o f with
  | nil => exact ⟨o, f, rfl, rfl, hx, fun h => absurd rfl h⟩
  | cons i data ih =>
    obtain ⟨z, g, h⟩ := i
    have hu : o.update z g h = .ok { o with
        y := z - (f.x + f.dx * f.dt), z := z,
        x := (f.x + f.dx * f.dt + g.getD f.g * (z - (f.x + f.dx * f.dt))) ::
          (f.dx + h.getD f.h * (z - (f.x + f.dx * f.dt)) / f.dt) :: rest } := by
      unfold GHO.update
      rw [ho]
      simp only [GHO.update1, hx, e1, e2, e3]
      cases h <;> simp [hdt, e1, ho]
    simp only [runList, GH.upd, hu, GH.update_ok f hdt]
    obtain ⟨o', f', h1, h2, h3, h4⟩ := ih
      { o with
        y := z - (f.x + f.dx * f.dt), z := z,
        x := (f.x + f.dx * f.dt + g.getD f.g * (z - (f.x + f.dx * f.dt))) ::
          (f.dx + h.getD f.h * (z - (f.x + f.dx * f.dt)) / f.dt) :: rest }
      { f with
        dxPred := f.dx, xPred := f.x + f.dt • f.dx, y := z - (f.x + f.dt • f.dx),
        dx := f.dx + (h.getD f.h / f.dt) • (z - (f.x + f.dt • f.dx)),
        x := f.x + f.dt • f.dx + g.getD f.g • (z - (f.x + f.dt • f.dx)) }
      ho hdt e1 e2 e3 (by simp only [smul_eq_mul, mul_comm f.dx]; congr 2; ring)
    refine ⟨o', f', h1, h2, h3, fun _ => ?_⟩
    by_cases hd : data = []
    · subst hd
      simp only [runList, Except.ok.injEq] at h1 h2
      subst h1 h2
      simp [mul_comm]
    · exact h4 hd

/-- **C38 (order 2).** The same for `GHFilterOrder` of order 2 and `GHKFilter`. -/
theorem C38_order_two (o : GHO) (f : GHK ℝ) (rest : List ℝ) (ho : o.order = 2) (hdt : f.dt ≠ 0)
    (e1 : o.dt = f.dt) (e2 : o.g = f.g) (e3 : o.h = some f.h) (e4 : o.k = some f.k)
    (hx : o.x = f.x :: f.dx :: f.ddx :: rest)
    (data : List (ℝ × Option ℝ × Option ℝ × Option ℝ)) :
    ∃ o' f', runList (fun s (i : ℝ × Option ℝ × Option ℝ × Option ℝ) =>
        s.update i.1 i.2.1 i.2.2.1 i.2.2.2) o data = .ok o' ∧
      runList GHK.upd f data = .ok f' ∧ o'.x = f'.x :: f'.dx :: f'.ddx :: rest ∧
      (data ≠ [] → o'.y = f'.y) := by
  induction data generalizing o f with
  | nil => exact ⟨o, f, rfl, rfl, hx, fun h => absurd rfl h⟩
  | cons i data ih =>
    obtain ⟨z, g, h, k⟩ := i
    set p := f.x + f.dx * f.dt + 0.5 * f.ddx * f.dt ^ 2 with hp
    have hu : o.update z g h k = .ok { o with
        y := z - p,
        x := (p + g.getD f.g * (z - p)) ::
          (f.dx + f.ddx * f.dt + h.getD f.h * (z - p) / f.dt) ::
          (f.ddx + 2 * k.getD f.k * (z - p) / f.dt ^ 2) :: rest } := by
      unfold GHO.update
      rw [ho]
      simp only [GHO.update2, hx, e1, e2, e3, e4]
      cases h <;> cases k <;> simp [hdt, hp, ho]
    simp only [runList, GHK.upd, hu, GHK.update_ok f hdt]
    have hq : f.x + f.dt • f.dx + (0.5 * f.dt ^ 2) • f.ddx = p := by
      simp only [smul_eq_mul, hp]; ring
    rw [hq]
    obtain ⟨o', f', h1, h2, h3, h4⟩ := ih
      { o with
        y := z - p,
        x := (p + g.getD f.g * (z - p)) ::
          (f.dx + f.ddx * f.dt + h.getD f.h * (z - p) / f.dt) ::
          (f.ddx + 2 * k.getD f.k * (z - p) / f.dt ^ 2) :: rest }
      { f with
        ddxPred := f.ddx, dxPred := f.dx + f.dt • f.ddx, xPred := p, y := z - p,
        ddx := f.ddx + (2 * k.getD f.k / f.dt ^ 2) • (z - p),
        dx := f.dx + f.dt • f.ddx + (h.getD f.h / f.dt) • (z - p),
        x := p + g.getD f.g • (z - p) }
      ho hdt e1 e2 e3 e4 (by
        simp only [smul_eq_mul, mul_comm f.ddx]
        congr 2
        · ring
        · congr 1; ring)
    refine ⟨o', f', h1, h2, h3, fun _ => ?_⟩
    by_cases hd : data = []
    · subst hd
      simp only [runList, Except.ok.injEq] at h1 h2
      subst h1 h2
      rfl
    · exact h4 hd

/-- **C38 (order 0).** Order 0 is exponential smoothing: after the data `z₁ … z_N` the estimate
is `(1-g)^N x₀ + Σ g (1-g)^(N-1-i) z_{i+1}`. -/
theorem C38_order_zero (o : GHO) (x0 : ℝ) (ho : o.order = 0) (hx : o.x = [x0]) (z : ℕ → ℝ) (N : ℕ) :
    ∃ o', runList (fun s z => s.update z) o ((List.range N).map z) = .ok o' ∧
      o'.x = [(1 - o.g) ^ N * x0
        + ∑ i ∈ Finset.range N, o.g * (1 - o.g) ^ (N - 1 - i) * z i] ∧
      o'.order = 0 ∧ o'.g = o.g := by
  induction N with
  | zero => exact ⟨o, rfl, by simp [hx], ho, rfl⟩
  | succ N ih =>
    obtain ⟨o', h1, h2, h3, h4⟩ := ih
    rw [List.range_succ, List.map_append, runList_append, h1]
    simp only [List.map_cons, List.map_nil, runList, GHO.update, h3, GHO.update0, h2, h4]
    refine ⟨_, rfl, ?_, by simp, by simp⟩
    simp only [Option.getD_none, List.cons.injEq, and_true]
    rw [Finset.sum_range_succ, Nat.add_sub_cancel, Nat.sub_self, pow_zero, mul_one]
    have : ∑ i ∈ Finset.range N, o.g * (1 - o.g) ^ (N - i) * z i
        = (1 - o.g) * ∑ i ∈ Finset.range N, o.g * (1 - o.g) ^ (N - 1 - i) * z i := by
      rw [Finset.mul_sum]
      refine Finset.sum_congr rfl fun i hi => ?_
      have : N - i = (N - 1 - i) + 1 := by have := Finset.mem_range.1 hi; omega
      rw [this, pow_succ]; ring
    rw [this]
    ring

/-- C38 is about real objects: a scalar start of order 1 and the matching `GHFilter`. -/
example : ∃ o f, GHO.init (.scalar 3) 1 1 (1/2) (some (1/5)) none = .ok o ∧
    f = GH.init (3 : ℝ) 0 1 (1/2) (1/5) ∧ o.order = 1 ∧ o.x = f.x :: f.dx :: [] := by
  refine ⟨_, _, rfl, rfl, rfl, rfl⟩

/-! ## C65 -/

/-- **C65 partial.** `GHFilterOrder` of order 1 stores the measurement in `z`. -/
theorem C65_order_one_partial (o o' : GHO) (z : ℝ) (g h k : Option ℝ) (ho : o.order = 1)
    (hu : o.update z g h k = .ok o') : o'.z = z := by
  unfold GHO.update at hu
  rw [ho] at hu
  simp only [GHO.update1] at hu
  split at hu
  · split at hu
    · cases hu
    · split_ifs at hu
      simp only [Except.ok.injEq] at hu
      rw [← hu]
  · cases hu

/-- **C65 refuted.** The documented attribute "`z`: measurement passed into `update()`" never
changes in `GHFilter` and `GHKFilter`, nor in `GHFilterOrder` of order 0 or 2. -/
theorem C65_z_refuted :
    (∀ (s s' : GH ℝ) z g h, s.update z g h = .ok s' → s'.z = s.z) ∧
    (∀ (s s' : GHK ℝ) z g h k, s.update z g h k = .ok s' → s'.z = s.z) ∧
    (∀ (s s' : GHO) z g h k, s.order ≠ 1 → s.update z g h k = .ok s' → s'.z = s.z) ∧
    ∃ s' : GH ℝ, (GH.init 0 0 1 1 1).update 5 = .ok s' ∧ s'.z ≠ 5 := by
  refine ⟨?_, ?_, ?_, ?_⟩
  · intro s s' z g h hu
    unfold GH.update at hu
    simp only at hu
    split_ifs at hu
    simp only [Except.ok.injEq] at hu
    rw [← hu]
  · intro s s' z g h k hu
    unfold GHK.update at hu
    simp only at hu
    split_ifs at hu
    simp only [Except.ok.injEq] at hu
    rw [← hu]
  · intro s s' z g h k ho hu
    unfold GHO.update at hu
    split at hu
    · simp only [GHO.update0] at hu
      split at hu
      · cases hu
      · simp only [Except.ok.injEq] at hu
        rw [← hu]
    · exact absurd ‹_› ho
    · simp only [GHO.update2] at hu
      split at hu
      · split at hu
        · cases hu
        · split_ifs at hu
          split at hu
          · cases hu
          · simp only [Except.ok.injEq] at hu
            rw [← hu]
      · cases hu
  · refine ⟨_, GH.update_ok _ (by norm_num [GH.init]) _ _ _, ?_⟩
    norm_num [GH.init]

end Filterpy
