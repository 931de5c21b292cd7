import Verif.Model.PolyFilters
import Verif.Props.GHGains

/-!
# `FadingMemoryFilter` (C43, and C64 for its attribute `e`)
-/

namespace Filterpy
open Filter Topology Matrix

namespace FadingMemory

/-- The filter after the measurements `z 0, …, z (k-1)`. -/
noncomputable def after (s : FadingMemory) (z : ℕ → ℝ) (k : ℕ) : FadingMemory :=
  (runList update s ((List.range k).map z)).left

end FadingMemory

/-- **C43 (constructor).** Exactly which arguments the constructor accepts: orders 0, 1, 2 with
`beta ≠ ±1`, and a nonzero time step for order 2; the starting state is the one given. -/
theorem C43_init (x0 : X0) (dt : ℝ) (order : ℤ) (β : ℝ) :
    (¬ (0 ≤ order ∧ order ≤ 2) → FadingMemory.init x0 dt order β = .error .valueError) ∧
    (0 ≤ order ∧ order ≤ 2 → (β = 1 ∨ β = -1 ∨ order = 2 ∧ dt = 0) →
      FadingMemory.init x0 dt order β = .error .zeroDivision) ∧
    (0 ≤ order ∧ order ≤ 2 → ¬ (β = 1 ∨ β = -1 ∨ order = 2 ∧ dt = 0) → ∃ s,
      FadingMemory.init x0 dt order β = .ok s ∧ (s.order : ℤ) = order ∧ s.dt = dt ∧ s.beta = β ∧
      (∀ v, x0 = .scalar v → s.x = v :: List.replicate s.order 0) ∧
      (∀ l, x0 = .array l → s.x = l)) := by
  have e : (1 + β = 0 ∨ 1 - β = 0 ∨ (order = 2 ∧ dt = 0)) ↔
      (β = 1 ∨ β = -1 ∨ order = 2 ∧ dt = 0) := by
    constructor
    · rintro (h | h | h)
      · right; left; linarith
      · left; linarith
      · right; right; exact h
    · rintro (h | h | h)
      · right; left; linarith
      · left; linarith
      · right; right; exact h
  refine ⟨fun h => ?_, fun h h' => ?_, fun h h' => ?_⟩
  · rw [FadingMemory.init, if_pos (by omega)]
  · rw [FadingMemory.init, if_neg (by omega), if_pos (e.2 h')]
  · rw [FadingMemory.init, if_neg (by omega), if_neg (fun q => h' (e.1 q))]
    refine ⟨_, rfl, Int.toNat_of_nonneg h.1, rfl, rfl, ?_, ?_⟩
    · rintro v rfl; rfl
    · rintro l rfl; rfl

example : ∃ s, FadingMemory.init (.scalar 3) 0 1 (1/2) = .ok s ∧ s.x = [3, 0] := by
  obtain ⟨s, h, ho, -, -, hx, -⟩ := (C43_init (.scalar 3) 0 1 (1/2)).2.2 (by norm_num) (by norm_num)
  refine ⟨s, h, ?_⟩
  have : s.order = 1 := by omega
  rw [hx 3 rfl, this]; rfl
/-- **C43 (order 0).** Order 0 is the g filter with `g = 1 - beta`: for all data the same
estimates as `GHFilterOrder` of order 0. -/
theorem C43_order_zero (s : FadingMemory) (o : GHO) (x0 : ℝ) (hs : s.order = 0) (ho : o.order = 0)
    (hx : s.x = [x0]) (hx' : o.x = [x0]) (hg : o.g = 1 - s.beta) (data : List ℝ) :
    ∃ s' o', runList FadingMemory.update s data = .ok s' ∧
      runList (fun o z => o.update z) o data = .ok o' ∧ s'.x = o'.x := by
  induction data generalizing s o x0 with
  | nil => exact ⟨s, o, rfl, rfl, by rw [hx, hx']⟩
  | cons z data ih =>
    have h1 : s.update z = .ok { s with x := [x0 + (1 - s.beta) * (z - x0)] } := by
      simp [FadingMemory.update, hs, hx]
    have h2 : o.update z = .ok { o with
        x := [x0 + (1 - s.beta) * (z - x0)], y := z - x0 } := by
      simp [GHO.update, ho, GHO.update0, hx', hg]
    simp only [runList, h1, h2]
    exact ih _ _ _ hs ho rfl rfl hg

/-- **C43 (order 1).** Order 1 is the g-h filter with the critically damped gains. -/
theorem C43_order_one (s : FadingMemory) (f : GH ℝ) (hs : s.order = 1) (hdt : f.dt ≠ 0)
    (hdt' : s.dt = f.dt) (rest : List ℝ) (hx : s.x = f.x :: f.dx :: rest)
    (hgain : criticalDamping s.beta 2 = .ok (.two f.g f.h)) (data : List ℝ) :
    ∃ s' f', runList FadingMemory.update s data = .ok s' ∧
      runList (fun s z => s.update z) f data = .ok f' ∧
      s'.x = f'.x :: f'.dx :: rest := by
  have hgh : f.g = 1 - s.beta ^ 2 ∧ f.h = (1 - s.beta) ^ 2 := by
    unfold criticalDamping at hgain
    split_ifs at hgain
    · simp only [Except.ok.injEq, Gains.two.injEq] at hgain
      exact ⟨hgain.1.symm, hgain.2.symm⟩
    · simp at *
  clear hgain
  induction data generalizing s f with
  | nil => exact ⟨s, f, rfl, rfl, hx⟩
  | cons z data ih =>
    have h1 : s.update z = .ok { s with
        x := (f.x + f.dx * f.dt + (1 - s.beta ^ 2) * (z - (f.x + f.dx * f.dt))) ::
          (f.dx + ((1 - s.beta) ^ 2 / f.dt) * (z - (f.x + f.dx * f.dt))) :: rest } := by
      simp [FadingMemory.update, hs, hx, hdt, hdt']
    simp only [runList, h1, GH.update_ok f hdt]
    refine ih _ _ hs hdt hdt' ?_ hgh
    simp [hgh.1, hgh.2, mul_comm]

/-- **C43 (order 2).** Order 2 is the g-h-k filter with the critically damped gains. -/
theorem C43_order_two (s : FadingMemory) (f : GHK ℝ) (hs : s.order = 2) (hdt : f.dt ≠ 0)
    (hdt' : s.dt = f.dt) (rest : List ℝ) (hx : s.x = f.x :: f.dx :: f.ddx :: rest)
    (hgain : criticalDamping s.beta 3 = .ok (.three f.g f.h f.k)) (data : List ℝ) :
    ∃ s' f', runList FadingMemory.update s data = .ok s' ∧
      runList (fun s z => s.update z) f data = .ok f' ∧
      s'.x = f'.x :: f'.dx :: f'.ddx :: rest := by
  have hgh : f.g = 1 - s.beta ^ 3 ∧ f.h = 1.5 * (1 + s.beta) * (1 - s.beta) ^ 2 ∧
      f.k = 0.5 * (1 - s.beta) ^ 3 := by
    unfold criticalDamping at hgain
    split_ifs at hgain
    · simp at *
    · simp only [Except.ok.injEq, Gains.three.injEq] at hgain
      refine ⟨hgain.1.symm, ?_, hgain.2.2.symm⟩
      rw [← hgain.2.1]; ring
  clear hgain
  induction data generalizing s f with
  | nil => exact ⟨s, f, rfl, rfl, hx⟩
  | cons z data ih =>
    set p := f.x + f.dx * f.dt + 0.5 * f.ddx * f.dt ^ 2 with hp
    have h1 : s.update z = .ok { s with
        x := (p + (1 - s.beta ^ 3) * (z - p)) ::
          (f.dx + f.ddx * f.dt + (1.5 * (1 + s.beta) * (1 - s.beta) ^ 2 / f.dt) * (z - p)) ::
          (f.ddx + (2 * (0.5 * (1 - s.beta) ^ 3) / f.dt ^ 2) * (z - p)) :: rest } := by
      simp [FadingMemory.update, hs, hx, hdt, hdt', hp]
    have hq : f.x + f.dt • f.dx + (0.5 * f.dt ^ 2) • f.ddx = p := by
      simp only [smul_eq_mul, hp]; ring
    simp only [runList, h1, GHK.update_ok f hdt]
    refine ih _ _ hs hdt hdt' ?_ hgh
    rw [hq]
    simp [hgh.1, hgh.2.1, hgh.2.2, mul_comm f.ddx]

/-- The constants the three orders use are those of `critical_damping_parameters`. -/
example (β : ℝ) (h0 : 0 ≤ β) (h1 : β ≤ 1) :
    criticalDamping β 2 = .ok (.two (1 - β ^ 2) ((1 - β) ^ 2)) := by
  rw [criticalDamping, if_neg (by rintro (h | h) <;> linarith), if_pos rfl]

namespace FadingMemory

/-- The g-h filter behind an order 1 fading memory filter. -/
noncomputable def gh (a b dt β : ℝ) : GH ℝ := GH.init a b dt (1 - β ^ 2) ((1 - β) ^ 2)

/-- The g-h-k filter behind an order 2 fading memory filter. -/
noncomputable def ghk (a b c dt β : ℝ) : GHK ℝ :=
  GHK.init a b c dt (1 - β ^ 3) (1.5 * (1 - β ^ 2) * (1 - β)) (0.5 * (1 - β) ^ 3)

theorem after_zero (x0 dt β : ℝ) (s : FadingMemory) (hs : init (.array [x0]) dt 0 β = .ok s)
    (z : ℕ → ℝ) (k : ℕ) : ∃ x, (s.after z k).x = [x] ∧
      (s.after z (k + 1)).x = [β * x + (1 - β) * z k] ∧ (s.after z 0).x = [x0] := by
  unfold init at hs
  split_ifs at hs
  simp only [Except.ok.injEq] at hs
  subst hs
  obtain ⟨s0, hs0⟩ : ∃ s0 : FadingMemory, s0 = ⟨X0.toList (.array [x0]) (0 : ℤ).toNat, dt,
    (0 : ℤ).toNat, β, initP (0 : ℤ).toNat dt β, initE (0 : ℤ).toNat dt β⟩ := ⟨_, rfl⟩
  rw [← hs0]
  have e : ∀ k, ∃ s', runList update s0 ((List.range k).map z) = .ok s' ∧ s'.order = 0 ∧
      s'.beta = β ∧ ∃ x, s'.x = [x] := by
    intro k
    induction k with
    | zero => exact ⟨s0, rfl, by rw [hs0]; rfl, by rw [hs0], x0, by rw [hs0]; rfl⟩
    | succ k ih =>
      obtain ⟨s', h1, h2, h3, x, h4⟩ := ih
      rw [List.range_succ, List.map_append, runList_append, h1]
      exact ⟨{ s' with x := [x + (1 - β) * (z k - x)] }, by simp [runList, update, h2, h3, h4], h2,
        h3, _, rfl⟩
  obtain ⟨s', h1, h2, h3, x, h4⟩ := e k
  refine ⟨x, by rw [after, h1]; exact h4, ?_, by rw [hs0]; rfl⟩
  rw [after, List.range_succ, List.map_append, runList_append, h1]
  simp [runList, update, h2, h3, h4, Exec.left]
  ring

theorem after_one (a b dt β : ℝ) (hdt : dt ≠ 0) (h0 : 0 ≤ β) (h1 : β < 1) (s : FadingMemory)
    (hs : init (.array [a, b]) dt 1 β = .ok s) (z : ℕ → ℝ) (k : ℕ) :
    (s.after z k).x = [((gh a b dt β).after z k).x, ((gh a b dt β).after z k).dx] := by
  unfold init at hs
  split_ifs at hs
  simp only [Except.ok.injEq] at hs
  subst hs
  obtain ⟨s', f', e1, e2, e3⟩ := C43_order_one ⟨X0.toList (.array [a, b]) (1 : ℤ).toNat, dt,
    (1 : ℤ).toNat, β, initP (1 : ℤ).toNat dt β, initE (1 : ℤ).toNat dt β⟩ (gh a b dt β) rfl hdt rfl
    [] rfl (by
      rw [criticalDamping, if_neg (by rintro (h | h) <;> linarith), if_pos rfl]; rfl)
    ((List.range k).map z)
  rw [after, e1, GH.after, e2]
  exact e3

theorem after_two (a b c dt β : ℝ) (hdt : dt ≠ 0) (h0 : 0 ≤ β) (h1 : β < 1) (s : FadingMemory)
    (hs : init (.array [a, b, c]) dt 2 β = .ok s) (z : ℕ → ℝ) (k : ℕ) :
    (s.after z k).x = [((ghk a b c dt β).after z k).x, ((ghk a b c dt β).after z k).dx,
      ((ghk a b c dt β).after z k).ddx] := by
  unfold init at hs
  split_ifs at hs
  simp only [Except.ok.injEq] at hs
  subst hs
  obtain ⟨s', f', e1, e2, e3⟩ := C43_order_two ⟨X0.toList (.array [a, b, c]) (2 : ℤ).toNat, dt,
    (2 : ℤ).toNat, β, initP (2 : ℤ).toNat dt β, initE (2 : ℤ).toNat dt β⟩ (ghk a b c dt β) rfl hdt
    rfl [] rfl (by
      rw [criticalDamping, if_neg (by rintro (h | h) <;> linarith), if_neg (by norm_num),
        if_pos rfl]; rfl)
    ((List.range k).map z)
  rw [after, e1, GHK.after, e2]
  exact e3

theorem gh_stable (a b dt β : ℝ) (hdt : dt ≠ 0) (h0 : 0 ≤ β) (h1 : β < 1) : (gh a b dt β).Stable := by
  refine C39_gh_stable _ hdt ?_ ?_ ?_ <;> simp only [gh, GH.init] <;> nlinarith

theorem ghk_stable (a b c dt β : ℝ) (hdt : dt ≠ 0) (h0 : 0 ≤ β) (h1 : β < 1) :
    (ghk a b c dt β).Stable := by
  obtain ⟨g, h, k, e, hs⟩ := C40_critical_three β h0 h1.le
  rw [criticalDamping, if_neg (by rintro (h | h) <;> linarith), if_neg (by norm_num),
    if_pos rfl] at e
  simp only [Except.ok.injEq, Gains.three.injEq] at e
  obtain ⟨rfl, rfl, rfl⟩ := e
  exact (hs a b c dt hdt).2 h1

end FadingMemory

/-! ### Tracking -/

/-- **C43 (tracking).** Started on a polynomial of its order the filter stays exactly on it. -/
theorem C43_tracks (dt β : ℝ) (hdt : dt ≠ 0) (h0 : 0 ≤ β) (h1 : β < 1) (a b c : ℝ) (k : ℕ) :
    (∀ s, FadingMemory.init (.array [a]) dt 0 β = .ok s → (s.after (fun _ => a) k).x = [a]) ∧
    (∀ s, FadingMemory.init (.array [a, b]) dt 1 β = .ok s →
      (s.after (fun i => a + b * ((i + 1) * dt)) k).x = [a + b * (k * dt), b]) ∧
    (∀ s, FadingMemory.init (.array [a, b, c]) dt 2 β = .ok s →
      (s.after (fun i => a + b * ((i + 1) * dt) + c * ((i + 1) * dt) ^ 2 / 2) k).x
        = [a + b * (k * dt) + c * (k * dt) ^ 2 / 2, b + c * (k * dt), c]) := by
  refine ⟨?_, ?_, ?_⟩
  · intro s hs
    induction k with
    | zero =>
      obtain ⟨x, -, -, h⟩ := FadingMemory.after_zero a dt β s hs (fun _ => a) 0
      exact h
    | succ k ih =>
      obtain ⟨x, e1, e2, -⟩ := FadingMemory.after_zero a dt β s hs (fun _ => a) k
      rw [ih, List.cons.injEq] at e1
      rw [e2, ← e1.1]; congr 1; ring
  · intro s hs
    rw [FadingMemory.after_one a b dt β hdt h0 h1 s hs]
    have key : ∀ k : ℕ, ![((FadingMemory.gh a b dt β).after (fun i => a + b * ((i + 1) * dt)) k).x,
        ((FadingMemory.gh a b dt β).after (fun i => a + b * ((i + 1) * dt)) k).dx]
        = ![a + b * (k * dt), b] := by
      intro k
      induction k with
      | zero => simp [GH.after, runList, Exec.left, FadingMemory.gh, GH.init]
      | succ k ih =>
        rw [GH.after_vec _ hdt, ih]
        ext i; fin_cases i <;>
          simp [GH.A, GH.b, mulVec, dotProduct, Fin.sum_univ_two, FadingMemory.gh, GH.init] <;>
          field_simp <;> ring
    have h := key k
    rw [show ((FadingMemory.gh a b dt β).after (fun i => a + b * ((i + 1) * dt)) k).x
        = a + b * (k * dt) from congrFun h 0,
      show ((FadingMemory.gh a b dt β).after (fun i => a + b * ((i + 1) * dt)) k).dx = b
        from congrFun h 1]
  · intro s hs
    rw [FadingMemory.after_two a b c dt β hdt h0 h1 s hs]
    set f := FadingMemory.ghk a b c dt β with hf
    have key : ∀ k : ℕ, (f.after (fun i => a + b * ((i + 1) * dt) + c * ((i + 1) * dt) ^ 2 / 2) k).vec
        = ![a + b * (k * dt) + c * (k * dt) ^ 2 / 2, b + c * (k * dt), c] := by
      intro k
      induction k with
      | zero =>
        simp [GHK.after, runList, Exec.left, GHK.vec, hf, FadingMemory.ghk, GHK.init]
      | succ k ih =>
        rw [GHK.after_vec _ hdt, ih]
        ext i; fin_cases i <;>
          simp [GHK.A, GHK.b, mulVec, dotProduct, Fin.sum_univ_three, hf, FadingMemory.ghk,
            GHK.init] <;> field_simp <;> ring
    have h := key k
    have e0 := congrFun h 0
    have e1 := congrFun h 1
    have e2 := congrFun h 2
    simp only [GHK.vec] at e0 e1 e2
    rw [show (f.after _ k).x = _ from e0, show (f.after _ k).dx = _ from e1,
      show (f.after _ k).ddx = _ from e2]
    rfl

/-! ### The attribute `P` -/

section P
open MeasureTheory ProbabilityTheory Spec
variable {Ω : Type*} [MeasurableSpace Ω] {μ : Measure Ω} [IsProbabilityMeasure μ]

/-- **C43 (P, order 0).** -/
theorem C43_P_zero (x0 dt β : ℝ) (h0 : 0 ≤ β) (h1 : β < 1) (s : FadingMemory)
    (hs : FadingMemory.init (.array [x0]) dt 0 β = .ok s)
    (sig : ℕ → ℝ) (v : ℕ → Ω → ℝ) (σ2 : ℝ) (hv : WhiteNoise v σ2 μ) :
    Tendsto (fun k => Var[fun ω => (s.after (fun i => sig i + v i ω) k).x.getD 0 0; μ]) atTop
      (𝓝 (σ2 * s.P.getD 0 0)) := by
  let A : Mat 1 1 := !![β]
  let b : Vec 1 := ![1 - β]
  let X : ℕ → Ω → Vec 1 := fun k ω => ![(s.after (fun i => sig i + v i ω) k).x.getD 0 0]
  have hX0 : ∀ ω, X 0 ω = ![x0] := fun ω => by
    obtain ⟨x, -, -, h⟩ := FadingMemory.after_zero x0 dt β s hs (fun i => sig i + v i ω) 0
    simp [X, h]
  have hX : ∀ k ω, X (k + 1) ω = A *ᵥ X k ω + (sig k + v k ω) • b := fun k ω => by
    obtain ⟨x, e1, e2, -⟩ := FadingMemory.after_zero x0 dt β s hs (fun i => sig i + v i ω) k
    ext i; fin_cases i
    simp [X, e1, e2, A, b]; ring
  have hdr := fun k => driven_cov hv _ hX0 hX k
  have hA : Tendsto (fun k => A ^ k) atTop (𝓝 0) := by
    refine pow_tendsto_of_nilpotent (θ := β) (abs_lt.2 ⟨by linarith, h1⟩) ?_
    have : A - β • (1 : Mat 1 1) = 0 := by ext i j; fin_cases i; fin_cases j; simp [A]
    rw [this]; simp
  have hP : s.P.getD 0 0 = (1 - β) / (1 + β) := by
    unfold FadingMemory.init at hs
    split_ifs at hs
    simp only [Except.ok.injEq] at hs
    rw [← hs]; rfl
  have hfix : !![σ2 * ((1 - β) / (1 + β))] = A * !![σ2 * ((1 - β) / (1 + β))] * Aᵀ
      + σ2 • vecMulVec b b := by
    have : 1 + β ≠ 0 := by linarith
    have hAt : Aᵀ = !![β] := by ext i j; fin_cases i; fin_cases j; rfl
    rw [hAt]
    ext i j; fin_cases i; fin_cases j
    simp [A, b, vecMulVec, Matrix.mul_apply]
    field_simp
    ring
  have hlim := cov_tendsto hA hfix (C := fun k => covMat (X k) (X k) μ) (fun k => (hdr k).2)
  have hent := tendsto_pi_nhds.1 (tendsto_pi_nhds.1 hlim 0) 0
  rw [hP]
  exact hent.congr fun k => covariance_self ((hdr k).1 0).aemeasurable

/-- **C43 partial (P, order 1).** The first entry is the steady-state variance of the estimate;
the second is that of the rate only for `dt = 1` (see the refutation). -/
theorem C43_P_one_partial (a b dt β : ℝ) (hdt : dt ≠ 0) (h0 : 0 ≤ β) (h1 : β < 1)
    (s : FadingMemory) (hs : FadingMemory.init (.array [a, b]) dt 1 β = .ok s)
    (sig : ℕ → ℝ) (v : ℕ → Ω → ℝ) (σ2 : ℝ) (hv : WhiteNoise v σ2 μ) :
    Tendsto (fun k => Var[fun ω => (s.after (fun i => sig i + v i ω) k).x.getD 0 0; μ]) atTop
      (𝓝 (σ2 * s.P.getD 0 0)) ∧
    Tendsto (fun k => Var[fun ω => (s.after (fun i => sig i + v i ω) k).x.getD 1 0; μ]) atTop
      (𝓝 (σ2 * (s.P.getD 1 0 / dt ^ 2))) := by
  have hP : s.P = [(1 - β) * (1 + 4 * β + 5 * β ^ 2) / (1 + β) ^ 3,
      2 * (1 - β) ^ 3 / (1 + β) ^ 3] := by
    unfold FadingMemory.init at hs
    split_ifs at hs
    simp only [Except.ok.injEq] at hs
    rw [← hs]; rfl
  have hb : 1 + β ≠ 0 := by linarith
  have hb' : 1 - β ≠ 0 := by linarith
  have hg : (1 - β ^ 2) ≠ 0 := by nlinarith
  have hD : 4 - 2 * (1 - β ^ 2) - (1 - β) ^ 2 = (1 + β) ^ 2 := by ring
  have hg' : (1 - β ^ 2) = (1 - β) * (1 + β) := by ring
  have hvrf : (FadingMemory.gh a b dt β).vrf = .ok ((1 - β) * (1 + 4 * β + 5 * β ^ 2) / (1 + β) ^ 3,
      2 * (1 - β) ^ 3 / (1 + β) ^ 3 / dt ^ 2) := by
    have c1 : ¬ ((1 - β ^ 2) * (4 - 2 * (1 - β ^ 2) - (1 - β) ^ 2) = 0) := by
      rw [hD]; exact mul_ne_zero hg (pow_ne_zero _ hb)
    simp only [GH.vrf, FadingMemory.gh, GH.init, hD]
    rw [hD] at c1
    rw [if_neg c1, if_neg (by rw [hg'] at *; simp [hb, hb', hdt])]
    rw [hg']
    congr 2
    · field_simp; ring
    · field_simp
  have hvp : ∃ vp, (FadingMemory.gh a b dt β).vrfPrediction = .ok vp := by
    have c1 : ¬ ((1 - β ^ 2) * (4 - 2 * (1 - β ^ 2) - (1 - β) ^ 2) = 0) := by
      rw [hD]; exact mul_ne_zero hg (pow_ne_zero _ hb)
    exact ⟨_, by rw [GH.vrfPrediction]; exact if_neg c1⟩
  obtain ⟨vp, hvp⟩ := hvp
  obtain ⟨t0, t1, -⟩ := C39_gh_vrf (FadingMemory.gh a b dt β) hdt
    (FadingMemory.gh_stable a b dt β hdt h0 h1) _ _ vp hvrf hvp sig v σ2 hv
  simp only [FadingMemory.after_one a b dt β hdt h0 h1 s hs, hP]
  exact ⟨t0, t1⟩

/-- **C43 refuted (P, order 1).** For every `dt` with `dt² ≠ 1` the second entry of `P` is not
the steady-state variance of the rate (the division by `dt²` is missing). -/
theorem C43_P_one_refuted (a b dt β : ℝ) (hdt : dt ≠ 0) (h2 : dt ^ 2 ≠ 1) (h0 : 0 ≤ β) (h1 : β < 1)
    (s : FadingMemory) (hs : FadingMemory.init (.array [a, b]) dt 1 β = .ok s)
    (v : ℕ → Ω → ℝ) (hv : WhiteNoise v 1 μ) :
    ¬ Tendsto (fun k => Var[fun ω => (s.after (fun i => v i ω) k).x.getD 1 0; μ]) atTop
      (𝓝 (s.P.getD 1 0)) := by
  intro h
  obtain ⟨-, t1⟩ := C43_P_one_partial a b dt β hdt h0 h1 s hs (fun _ => 0) v 1 hv
  simp only [zero_add, one_mul] at t1
  have e := tendsto_nhds_unique h t1
  have hP : s.P.getD 1 0 = 2 * (1 - β) ^ 3 / (1 + β) ^ 3 := by
    unfold FadingMemory.init at hs
    split_ifs at hs
    simp only [Except.ok.injEq] at hs
    rw [← hs]; rfl
  have hpos : 0 < s.P.getD 1 0 := by
    rw [hP]
    have : 0 < 1 - β := by linarith
    positivity
  field_simp at e
  apply h2
  nlinarith

/-- **C43 (P, order 2).** -/
theorem C43_P_two (a b c dt β : ℝ) (hdt : dt ≠ 0) (h0 : 0 ≤ β) (h1 : β < 1)
    (s : FadingMemory) (hs : FadingMemory.init (.array [a, b, c]) dt 2 β = .ok s)
    (sig : ℕ → ℝ) (v : ℕ → Ω → ℝ) (σ2 : ℝ) (hv : WhiteNoise v σ2 μ) (i : Fin 3) :
    Tendsto (fun k => Var[fun ω => (s.after (fun i => sig i + v i ω) k).x.getD i 0; μ]) atTop
      (𝓝 (σ2 * s.P.getD i 0)) := by
  have hP : s.P = FadingMemory.initP 2 dt β := by
    unfold FadingMemory.init at hs
    split_ifs at hs
    simp only [Except.ok.injEq] at hs
    rw [← hs]; rfl
  have hb : 1 + β ≠ 0 := by linarith
  have hb' : 1 - β ≠ 0 := by linarith
  set f := FadingMemory.ghk a b c dt β with hf
  have e1 : 4 - 2 * f.g - f.h = (1 + β) ^ 3 / 2 := by
    simp only [hf, FadingMemory.ghk, GHK.init]; ring
  have e2 : f.g * f.h + f.g * f.k - 2 * f.k = ((1 - β) * (1 + β)) ^ 3 := by
    simp only [hf, FadingMemory.ghk, GHK.init]; ring
  have n1 : 4 - 2 * f.g - f.h ≠ 0 := by rw [e1]; simp [hb]
  have n2 : f.g * f.h + f.g * f.k - 2 * f.k ≠ 0 := by rw [e2]; simp [hb, hb']
  obtain ⟨hv1, -⟩ := ghk_variances f hdt (FadingMemory.ghk_stable a b c dt β hdt h0 h1) n1 n2
    sig v σ2 hv
  have hPi : s.P.getD i 0 = f.Pss i i := by
    rw [hP]
    fin_cases i
    · show (1 - β) * ((1 + 6 * β + 16 * β ^ 2 + 24 * β ^ 3 + 19 * β ^ 4) / (1 + β) ^ 5) = f.Pss 0 0
      show _ = (2 * f.h ^ 2 - 4 * f.g * f.k + f.g * f.h * f.k - 3 * f.g * f.h ^ 2 + 2 * f.g ^ 2 * f.k
        + 2 * f.g ^ 2 * f.h) / ((4 - 2 * f.g - f.h) * (f.g * f.h + f.g * f.k - 2 * f.k))
      rw [e1, e2]
      simp only [hf, FadingMemory.ghk, GHK.init]
      field_simp
      ring
    · show (1 - β) ^ 3 * ((13 + 50 * β + 49 * β ^ 2) / (2 * (1 + β) ^ 5 * dt ^ 2)) = f.Pss 1 1
      show _ = (8 * f.k ^ 2 - 4 * f.h ^ 2 * f.k + 2 * f.h ^ 3 - 4 * f.g * f.k ^ 2)
        / (f.dt ^ 2 * ((4 - 2 * f.g - f.h) * (f.g * f.h + f.g * f.k - 2 * f.k)))
      rw [e1, e2]
      simp only [hf, FadingMemory.ghk, GHK.init]
      field_simp
      ring
    · show 6 * (1 - β) ^ 5 / ((1 + β) ^ 5 * dt ^ 4) = f.Pss 2 2
      show _ = 8 * f.h * f.k ^ 2
        / (f.dt ^ 4 * ((4 - 2 * f.g - f.h) * (f.g * f.h + f.g * f.k - 2 * f.k)))
      rw [e1, e2]
      simp only [hf, FadingMemory.ghk, GHK.init]
      field_simp
      ring
  rw [hPi]
  refine (hv1 i).congr fun k => ?_
  simp only [FadingMemory.after_two a b c dt β hdt h0 h1 s hs]
  fin_cases i <;> rfl

end P

/-! ### The attribute `e` (C64) -/

/-- **C64 (fading memory, order 0).** On a ramp of slope `v` the estimate lags by `e[0] v`. -/
theorem C64_fading_zero (x0 dt β : ℝ) (h0 : 0 ≤ β) (h1 : β < 1) (s : FadingMemory)
    (hs : FadingMemory.init (.array [x0]) dt 0 β = .ok s) (p v : ℝ) :
    Tendsto (fun k : ℕ => (p + v * (k * dt))
      - (s.after (fun i => p + v * ((i + 1) * dt)) k).x.getD 0 0) atTop
      (𝓝 (s.e.getD 0 0 * v)) := by
  have he : s.e.getD 0 0 = dt * β / (1 - β) := by
    unfold FadingMemory.init at hs
    split_ifs at hs
    simp only [Except.ok.injEq] at hs
    rw [← hs]; rfl
  have hb' : 1 - β ≠ 0 := by linarith
  let A : Mat 1 1 := !![β]
  have hA : Tendsto (fun k => A ^ k) atTop (𝓝 0) := by
    refine pow_tendsto_of_nilpotent (θ := β) (abs_lt.2 ⟨by linarith, h1⟩) ?_
    have : A - β • (1 : Mat 1 1) = 0 := by ext i j; fin_cases i; fin_cases j; simp [A]
    rw [this]; simp
  have key := affine_tendsto hA (p := ![dt * β / (1 - β) * v]) (c := ![β * (v * dt)])
    (e := fun k : ℕ => ![(p + v * (k * dt))
      - (s.after (fun i => p + v * ((i + 1) * dt)) k).x.getD 0 0]) (by
      ext i; fin_cases i
      simp [A]; field_simp; ring) (by
      intro k
      obtain ⟨x, e1, e2, -⟩ := FadingMemory.after_zero x0 dt β s hs
        (fun i => p + v * ((i + 1) * dt)) k
      ext i; fin_cases i
      simp [e1, e2, A]; ring)
  rw [he]
  exact tendsto_pi_nhds.1 key 0

/-- **C64 partial (fading memory, order 1).** On `p + v t + a t²` the rate lags by `e[1] a`, and
the estimate by `2 dt² (β/(1-β))² a`, which is `e[0] a` only when `dt = 2` (or the lag is 0). -/
theorem C64_fading_one_partial (x0 dx0 dt β : ℝ) (hdt : dt ≠ 0) (h0 : 0 ≤ β) (h1 : β < 1)
    (s : FadingMemory) (hs : FadingMemory.init (.array [x0, dx0]) dt 1 β = .ok s) (p v a : ℝ) :
    let z := fun i : ℕ => p + v * ((i + 1) * dt) + a * ((i + 1) * dt) ^ 2
    Tendsto (fun k : ℕ => (p + v * (k * dt) + a * (k * dt) ^ 2) - (s.after z k).x.getD 0 0) atTop
      (𝓝 (2 * dt ^ 2 * (β / (1 - β)) ^ 2 * a)) ∧
    Tendsto (fun k : ℕ => (v + 2 * a * (k * dt)) - (s.after z k).x.getD 1 0) atTop
      (𝓝 (s.e.getD 1 0 * a)) := by
  intro z
  have he : s.e.getD 1 0 = dt * ((1 + 3 * β) / (1 - β)) := by
    unfold FadingMemory.init at hs
    split_ifs at hs
    simp only [Except.ok.injEq] at hs
    rw [← hs]; rfl
  have hb' : 1 - β ≠ 0 := by linarith
  have key := gh_lag (FadingMemory.gh x0 dx0 dt β) hdt
    (FadingMemory.gh_stable x0 dx0 dt β hdt h0 h1) (by
      simp only [FadingMemory.gh, GH.init]; exact pow_ne_zero _ hb') p v (2 * a)
  simp only at key
  have hz : (fun i : ℕ => p + v * ((↑i + 1) * (FadingMemory.gh x0 dx0 dt β).dt)
      + 2 * a * ((↑i + 1) * (FadingMemory.gh x0 dx0 dt β).dt) ^ 2 / 2) = z := by
    funext i; simp only [z, FadingMemory.gh, GH.init]; ring
  rw [hz] at key
  have k2 := tendsto_pi_nhds.1 key
  simp only [FadingMemory.after_one x0 dx0 dt β hdt h0 h1 s hs, he]
  constructor
  · have := (k2 0).neg
    convert this.congr fun k => ?_ using 2
    · simp [FadingMemory.gh, GH.init]; field_simp
    · simp [FadingMemory.gh, GH.init]; ring
  · have := (k2 1).neg
    convert this.congr fun k => ?_ using 2
    · simp [FadingMemory.gh, GH.init]; field_simp; ring
    · simp [FadingMemory.gh, GH.init]

/-- **C64 refuted (fading memory, order 1).** `e[0]` is not the lag unless `dt = 2`: for every
`0 < β < 1` and `dt ∉ {0, 2}` and every start, on data `t²` the estimate does not lag by `e[0]`. -/
theorem C64_fading_one_refuted (x0 dx0 dt β : ℝ) (hdt : dt ≠ 0) (hdt2 : dt ≠ 2) (h0 : 0 < β)
    (h1 : β < 1) (s : FadingMemory)
    (hs : FadingMemory.init (.array [x0, dx0]) dt 1 β = .ok s) :
    ¬ Tendsto (fun k : ℕ => (k * dt) ^ 2
      - (s.after (fun i : ℕ => ((i + 1) * dt) ^ 2) k).x.getD 0 0) atTop (𝓝 (s.e.getD 0 0)) := by
  intro h
  have he : s.e.getD 0 0 = 2 * dt * 2 * (β / (1 - β)) ^ 2 := by
    unfold FadingMemory.init at hs
    split_ifs at hs
    simp only [Except.ok.injEq] at hs
    rw [← hs]; rfl
  have t := (C64_fading_one_partial x0 dx0 dt β hdt h0.le h1 s hs 0 0 1).1
  simp only [zero_mul, zero_add, one_mul, mul_one] at t
  have e := tendsto_nhds_unique h t
  rw [he] at e
  have hb' : 1 - β ≠ 0 := by linarith
  have hpos : (β / (1 - β)) ^ 2 ≠ 0 := pow_ne_zero _ (div_ne_zero h0.ne' hb')
  have e' : 2 * dt * 2 = 2 * dt ^ 2 := mul_right_cancel₀ hpos e
  have : dt * (dt - 2) = 0 := by linarith
  rcases mul_eq_zero.1 this with h | h
  · exact hdt h
  · exact hdt2 (by linarith)

/-- **C64 (fading memory, order 2).** On `p + v t + a t² + c t³` the three components lag by
`e[i] c`. -/
theorem C64_fading_two (x0 dx0 ddx0 dt β : ℝ) (hdt : dt ≠ 0) (h0 : 0 ≤ β) (h1 : β < 1)
    (s : FadingMemory) (hs : FadingMemory.init (.array [x0, dx0, ddx0]) dt 2 β = .ok s)
    (p v a c : ℝ) :
    let z := fun i : ℕ => p + v * ((i + 1) * dt) + a * ((i + 1) * dt) ^ 2 + c * ((i + 1) * dt) ^ 3
    Tendsto (fun k : ℕ => (p + v * (k * dt) + a * (k * dt) ^ 2 + c * (k * dt) ^ 3)
      - (s.after z k).x.getD 0 0) atTop (𝓝 (s.e.getD 0 0 * c)) ∧
    Tendsto (fun k : ℕ => (v + 2 * a * (k * dt) + 3 * c * (k * dt) ^ 2)
      - (s.after z k).x.getD 1 0) atTop (𝓝 (s.e.getD 1 0 * c)) ∧
    Tendsto (fun k : ℕ => (2 * a + 6 * c * (k * dt))
      - (s.after z k).x.getD 2 0) atTop (𝓝 (s.e.getD 2 0 * c)) := by
  intro z
  have he : s.e = FadingMemory.initE 2 dt β := by
    unfold FadingMemory.init at hs
    split_ifs at hs
    simp only [Except.ok.injEq] at hs
    rw [← hs]; rfl
  have hb' : 1 - β ≠ 0 := by linarith
  have key := ghk_lag (FadingMemory.ghk x0 dx0 ddx0 dt β) hdt
    (FadingMemory.ghk_stable x0 dx0 ddx0 dt β hdt h0 h1) (by
      simp only [FadingMemory.ghk, GHK.init]; exact mul_ne_zero (by norm_num) (pow_ne_zero _ hb')) p v (2 * a) (6 * c)
  simp only at key
  have hz : (fun i : ℕ => p + v * ((↑i + 1) * (FadingMemory.ghk x0 dx0 ddx0 dt β).dt)
      + 2 * a * ((↑i + 1) * (FadingMemory.ghk x0 dx0 ddx0 dt β).dt) ^ 2 / 2
      + 6 * c * ((↑i + 1) * (FadingMemory.ghk x0 dx0 ddx0 dt β).dt) ^ 3 / 6) = z := by
    funext i; simp only [z, FadingMemory.ghk, GHK.init]; ring
  rw [hz] at key
  have k2 := tendsto_pi_nhds.1 key
  simp only [FadingMemory.after_two x0 dx0 ddx0 dt β hdt h0 h1 s hs, he]
  refine ⟨?_, ?_, ?_⟩
  · have := (k2 0).neg
    convert this.congr fun k => ?_ using 2
    · simp [FadingMemory.ghk, FadingMemory.initE, GHK.init]; field_simp; ring
    · simp [FadingMemory.ghk, GHK.init]; ring
  · have := (k2 1).neg
    convert this.congr fun k => ?_ using 2
    · simp [FadingMemory.ghk, FadingMemory.initE, GHK.init]; field_simp; ring
    · simp [FadingMemory.ghk, GHK.init]; ring
  · have := (k2 2).neg
    convert this.congr fun k => ?_ using 2
    · simp [FadingMemory.ghk, FadingMemory.initE, GHK.init]; field_simp; ring
    · simp [FadingMemory.ghk, GHK.init]

/-- The constructor succeeds for ordinary arguments. -/
example : ∃ s, FadingMemory.init (.array [0, 1, 2]) (1/2) 2 (9/10) = .ok s := by
  refine ⟨_, by rw [FadingMemory.init, if_neg (by norm_num), if_neg (by norm_num)]⟩

end Filterpy
