import Verif.Model.GH
import Verif.Props.Discretization
import Verif.Props.Kinematic

/-!
# Results connecting several modules: C80 (split predictions), C81 (g-h filters as Kalman filters)
-/

namespace Filterpy

open Matrix Discretization Kinematic

variable {m l : ℕ}

/-- **C80.** With the kinematic transition matrices and the continuous white-noise process matrices
of the library, predicting over an interval `a + b` in one `predict` or in two gives the same state
and covariance: how an interval without measurements is cut into time steps does not matter. -/
theorem C80_split (o : ℕ) (ho : o = 1 ∨ o = 2 ∨ o = 3) (a b sd : ℝ) (s : KF (o + 1) m l)
    (halpha : s.alphaSq = 1) :
    ∃ Fa Fb Fab Qa Qb Qab : Mat (o + 1) (o + 1),
      stateTransition (.int o) a = .ok ⟨_, Fa⟩ ∧ stateTransition (.int o) b = .ok ⟨_, Fb⟩ ∧
      stateTransition (.int o) (a + b) = .ok ⟨_, Fab⟩ ∧
      qContinuous ((o : ℤ) + 1) a = .ok ⟨_, Qa⟩ ∧ qContinuous ((o : ℤ) + 1) b = .ok ⟨_, Qb⟩ ∧
      qContinuous ((o : ℤ) + 1) (a + b) = .ok ⟨_, Qab⟩ ∧
      ∃ s1 s2 t, s.predict .none none (some Fa) (.mat (sd • Qa)) = .ok s1 ∧
        s1.predict .none none (some Fb) (.mat (sd • Qb)) = .ok s2 ∧
        s.predict .none none (some Fab) (.mat (sd • Qab)) = .ok t ∧
        s2.x = t.x ∧ s2.P = t.P := by
  obtain ⟨Qab, Qa, Qb, h1, h2, h3, h4⟩ := C51_split o ho a b
  have hst : ∀ t, stateTransition (.int o) t = .ok ⟨o + 1, transitionNat o t⟩ := by
    intro t; simp [stateTransition]
  have hp : ∀ (s : KF (o + 1) m l) F Q, ∃ s', s.predict .none none (some F) (.mat Q) = .ok s' ∧
      s'.x = F *ᵥ s.x ∧ s'.P = s.alphaSq • (F * s.P * Fᵀ) + Q ∧ s'.alphaSq = s.alphaSq := by
    intro s F Q
    simp only [KF.predict, KF.control, Option.none_or]
    cases s.B <;> exact ⟨_, rfl, rfl, rfl, rfl⟩
  refine ⟨_, _, _, Qa, Qb, Qab, hst a, hst b, hst (a + b), h2, h3, h1, ?_⟩
  obtain ⟨s1, e1, x1, p1, a1⟩ := hp s (transitionNat o a) (sd • Qa)
  obtain ⟨s2, e2, x2, p2, -⟩ := hp s1 (transitionNat o b) (sd • Qb)
  obtain ⟨t, e3, x3, p3, -⟩ := hp s (transitionNat o (a + b)) (sd • Qab)
  refine ⟨s1, s2, t, e1, e2, e3, ?_, ?_⟩
  · rw [x2, x1, x3, mulVec_mulVec, add_comm a b, ← (C52_semigroup o b a).1]
  · rw [p2, p1, p3, a1, halpha, h4, add_comm a b, ← (C52_semigroup o b a).1]
    simp only [one_smul, transpose_mul, Matrix.mul_add, Matrix.add_mul, Matrix.mul_smul,
      Matrix.smul_mul, smul_add, Matrix.mul_assoc]
    abel

/-- A steady-state Kalman cycle: `predict_steadystate()` then `update_steadystate(z)`. -/
noncomputable def steadyCycle {n : ℕ} (s : KF n 1 l) (z : ℝ) : Exec (KF n 1 l) :=
  match s.predictSteadystate with
  | .ok s' => .ok (s'.updateSteadystate (some fun _ => z))
  | .error e => .error e

/-- **C81 (g-h).** A g-h filter is the Kalman filter with the constant-velocity model and the
constant gain `(g, h/dt)`: fed the same measurements, the two report the same position, velocity
and residual after every number of steps. -/
theorem C81_gh (f : GH ℝ) (s : KF 2 1 l) (hdt : f.dt ≠ 0)
    (hF : s.F = transitionNat 1 f.dt) (hH : s.H = !![1, 0]) (hK : s.K = !![f.g; f.h / f.dt])
    (hB : s.B = none) (hx : s.x = ![f.x, f.dx]) (hy : s.y = ![f.y]) (zs : List ℝ) :
    ∃ f' s', runList (fun f z => f.update z) f zs = .ok f' ∧ runList steadyCycle s zs = .ok s' ∧
      s'.x = ![f'.x, f'.dx] ∧ s'.y = ![f'.y] := by
  induction zs generalizing f s with
  | nil => exact ⟨f, s, rfl, rfl, hx, hy⟩
  | cons z zs ih =>
    have h1 : f.update z = .ok { f with
        dxPred := f.dx, xPred := f.x + f.dt * f.dx, y := z - (f.x + f.dt * f.dx)
        dx := f.dx + f.h / f.dt * (z - (f.x + f.dt * f.dx))
        x := f.x + f.dt * f.dx + f.g * (z - (f.x + f.dt * f.dx)) } := by
      simp [GH.update, hdt]
    obtain ⟨s1, h2, e1, e2, e3, e4, e5, e6⟩ : ∃ s1, steadyCycle s z = .ok s1 ∧ s1.F = s.F ∧ s1.H = s.H ∧
        s1.K = s.K ∧ s1.B = none ∧ s1.x = s.F *ᵥ s.x + s.K *ᵥ ((fun _ => z) - s.H *ᵥ (s.F *ᵥ s.x)) ∧
        s1.y = (fun _ => z) - s.H *ᵥ (s.F *ᵥ s.x) := by
      simp only [steadyCycle, KF.predictSteadystate, hB, Option.none_or, KF.steadyControl, KF.control,
        KF.updateSteadystate]
      exact ⟨_, rfl, rfl, rfl, rfl, rfl, rfl, rfl⟩
    have hyv : s1.y = ![z - (f.x + f.dt * f.dx)] := by
      rw [e6, hF, hH, hx]
      ext i; fin_cases i
      simp [transitionNat, Matrix.mulVec, dotProduct, Fin.sum_univ_two]; ring
    simp only [runList, h1, h2]
    refine ih _ s1 hdt (by rw [e1, hF]) (by rw [e2, hH]) (by rw [e3, hK]) e4 ?_ hyv
    rw [e5, ← e6, hyv, hF, hK, hx]
    ext i; fin_cases i <;>
      simp [transitionNat, Matrix.mulVec, dotProduct, Fin.sum_univ_two] <;> ring

/-- **C81 (g-h-k).** A g-h-k filter is the Kalman filter with the constant-acceleration model and
the constant gain `(g, h/dt, 2k/dt²)`. -/
theorem C81_ghk (f : GHK ℝ) (s : KF 3 1 l) (hdt : f.dt ≠ 0)
    (hF : s.F = transitionNat 2 f.dt) (hH : s.H = !![1, 0, 0])
    (hK : s.K = !![f.g; f.h / f.dt; 2 * f.k / f.dt ^ 2])
    (hB : s.B = none) (hx : s.x = ![f.x, f.dx, f.ddx]) (hy : s.y = ![f.y]) (zs : List ℝ) :
    ∃ f' s', runList (fun f z => f.update z) f zs = .ok f' ∧ runList steadyCycle s zs = .ok s' ∧
      s'.x = ![f'.x, f'.dx, f'.ddx] ∧ s'.y = ![f'.y] := by
  induction zs generalizing f s with
  | nil => exact ⟨f, s, rfl, rfl, hx, hy⟩
  | cons z zs ih =>
    obtain ⟨f1, h1, g1, g2, g3, g4, g5, g6, g7, g8⟩ : ∃ f1, f.update z = .ok f1 ∧ f1.dt = f.dt ∧
        f1.g = f.g ∧ f1.h = f.h ∧ f1.k = f.k ∧
        f1.y = z - (f.x + f.dt * f.dx + 0.5 * f.dt ^ 2 * f.ddx) ∧
        f1.x = f.x + f.dt * f.dx + 0.5 * f.dt ^ 2 * f.ddx + f.g * f1.y ∧
        f1.dx = f.dx + f.dt * f.ddx + f.h / f.dt * f1.y ∧
        f1.ddx = f.ddx + 2 * f.k / f.dt ^ 2 * f1.y := by
      simp only [GHK.update, hdt, if_false, Option.getD_none, smul_eq_mul]
      exact ⟨_, rfl, rfl, rfl, rfl, rfl, rfl, rfl, rfl, rfl⟩
    obtain ⟨s1, h2, e1, e2, e3, e4, e5, e6⟩ : ∃ s1, steadyCycle s z = .ok s1 ∧ s1.F = s.F ∧ s1.H = s.H ∧
        s1.K = s.K ∧ s1.B = none ∧ s1.x = s.F *ᵥ s.x + s.K *ᵥ ((fun _ => z) - s.H *ᵥ (s.F *ᵥ s.x)) ∧
        s1.y = (fun _ => z) - s.H *ᵥ (s.F *ᵥ s.x) := by
      simp only [steadyCycle, KF.predictSteadystate, hB, Option.none_or, KF.steadyControl, KF.control,
        KF.updateSteadystate]
      exact ⟨_, rfl, rfl, rfl, rfl, rfl, rfl, rfl⟩
    have hyv : s1.y = ![f1.y] := by
      rw [e6, hF, hH, hx, g5]
      ext i; fin_cases i
      simp [transitionNat, Matrix.mulVec, dotProduct, Fin.sum_univ_three]; ring
    simp only [runList, h1, h2]
    refine ih f1 s1 (by rw [g1]; exact hdt) (by rw [e1, hF, g1]) (by rw [e2, hH])
      (by rw [e3, hK, g1, g2, g3, g4]) e4 ?_ hyv
    rw [e5, ← e6, hyv, hF, hK, hx, g6, g7, g8]
    ext i; fin_cases i <;>
      simp [transitionNat, Matrix.mulVec, dotProduct, Fin.sum_univ_three] <;> ring

/-- A Kalman filter with the gain of a given g-h filter: the hypotheses can be met for every g-h
filter with `dt ≠ 0`, and the run moves the state. -/
example : ∃ s : KF 2 1 1, s.F = transitionNat 1 (GH.init (E := ℝ) 0 1 2 0.5 0.2).dt ∧
    s.H = !![1, 0] ∧ s.K = !![0.5; 0.2 / 2] ∧ s.B = none ∧ s.x = ![0, 1] ∧ s.y = ![0] ∧
    ∃ s', runList steadyCycle s [3, 4] = .ok s' := by
  have h := C81_gh (l := 1) (GH.init (E := ℝ) 0 1 2 0.5 0.2)
    { KF.fresh 2 1 1 with F := transitionNat 1 2, H := !![1, 0], K := !![0.5; 0.2 / 2], x := ![0, 1],
                          y := ![0] }
    (by norm_num [GH.init]) rfl rfl rfl rfl rfl rfl [3, 4]
  obtain ⟨f', s', -, h2, -⟩ := h
  exact ⟨_, rfl, rfl, rfl, rfl, rfl, rfl, s', h2⟩

end Filterpy
