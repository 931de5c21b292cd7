import Verif.Props.GH

/-!
# Properties of the g-h-k filter and of the gain selection functions (C36, C38 – C40, C64, C65)
-/

namespace Filterpy
open Filter Topology Matrix

variable {E : Type*} [AddCommGroup E] [Module ℝ E]

/-! ## Small matrix facts -/

theorem mat3_transpose (a b c d e f g h i : ℝ) :
    (!![a, b, c; d, e, f; g, h, i])ᵀ = !![a, d, g; b, e, h; c, f, i] := by
  ext x y; fin_cases x <;> fin_cases y <;> rfl
theorem vecMulVec3 (a b c d e f : ℝ) : vecMulVec ![a, b, c] ![d, e, f]
    = !![a * d, a * e, a * f; b * d, b * e, b * f; c * d, c * e, c * f] := by
  ext x y; fin_cases x <;> fin_cases y <;> rfl
theorem mat3_add (a b c d e f g h i a' b' c' d' e' f' g' h' i' : ℝ) :
    !![a, b, c; d, e, f; g, h, i] + !![a', b', c'; d', e', f'; g', h', i']
      = !![a + a', b + b', c + c'; d + d', e + e', f + f'; g + g', h + h', i + i'] := by
  ext x y; fin_cases x <;> fin_cases y <;> rfl
theorem mat3_ext {a b c d e f g h i a' b' c' d' e' f' g' h' i' : ℝ}
    (h1 : a = a') (h2 : b = b') (h3 : c = c') (h4 : d = d') (h5 : e = e') (h6 : f = f')
    (h7 : g = g') (h8 : h = h') (h9 : i = i') :
    !![a, b, c; d, e, f; g, h, i] = !![a', b', c'; d', e', f'; g', h', i'] := by
  subst_vars; rfl

/-- Powers of a matrix with a single threefold eigenvalue. -/
theorem pow_tendsto_of_nilpotent {n : ℕ} {A : Mat n n} {θ : ℝ} (hθ : |θ| < 1)
    (hN : (A - θ • 1) ^ 3 = 0) : Tendsto (fun k => A ^ k) atTop (𝓝 0) := by
  set N := A - θ • (1 : Mat n n)
  have hA : A = θ • 1 + N := by simp [N]
  have hf : ∀ k : ℕ, A ^ (k + 2) = θ ^ (k + 2) • (1 : Mat n n) + ((k + 2) * θ ^ (k + 1)) • N
      + ((k + 2) * (k + 1) / 2 * θ ^ k) • (N * N) := by
    have hN3 : N * N * N = 0 := by rw [← hN]; noncomm_ring
    intro k
    induction k with
    | zero =>
      rw [zero_add, pow_two, hA]
      simp only [mul_add, add_mul, smul_mul_assoc, mul_smul_comm, mul_one, one_mul, smul_smul]
      push_cast
      module
    | succ k ih =>
      rw [show k + 1 + 2 = (k + 2) + 1 from rfl, pow_succ, ih]
      conv_lhs => rw [hA]
      simp only [mul_add, add_mul, smul_mul_assoc, mul_smul_comm, mul_one, one_mul, smul_smul,
        hN3, smul_zero, add_zero]
      push_cast
      module
  rw [← tendsto_add_atTop_iff_nat 2]
  simp only [hf]
  have t0 : Tendsto (fun k : ℕ => θ ^ k) atTop (𝓝 0) := tendsto_pow_atTop_nhds_zero_of_abs_lt_one hθ
  have t1 : Tendsto (fun k : ℕ => (k : ℝ) * θ ^ k) atTop (𝓝 0) :=
    tendsto_self_mul_const_pow_of_abs_lt_one hθ
  have t2 : Tendsto (fun k : ℕ => (k : ℝ) ^ 2 * θ ^ k) atTop (𝓝 0) :=
    tendsto_pow_const_mul_const_pow_of_abs_lt_one 2 hθ
  have c0 : Tendsto (fun k : ℕ => θ ^ (k + 2)) atTop (𝓝 0) := (tendsto_add_atTop_iff_nat 2).2 t0
  have c1 : Tendsto (fun k : ℕ => ((k : ℝ) + 2) * θ ^ (k + 1)) atTop (𝓝 0) := by
    have := ((t1.mul_const θ).add (t0.const_mul (2 * θ)))
    simp only [zero_mul, mul_zero, add_zero] at this
    exact this.congr fun k => by ring
  have c2 : Tendsto (fun k : ℕ => ((k : ℝ) + 2) * (k + 1) / 2 * θ ^ k) atTop (𝓝 0) := by
    have := ((t2.const_mul (1/2)).add (t1.const_mul (3/2))).add t0
    simp only [mul_zero, add_zero] at this
    exact this.congr fun k => by ring
  have := ((c0.smul_const (1 : Mat n n)).add (c1.smul_const N)).add (c2.smul_const (N * N))
  simpa using this

/-- An affine recursion with a vanishing transition matrix converges to its fixed point. -/
theorem affine_tendsto {n : ℕ} {A : Mat n n} (hA : Tendsto (fun k => A ^ k) atTop (𝓝 0))
    {e : ℕ → Vec n} {c p : Vec n} (hp : p = A *ᵥ p + c) (he : ∀ k, e (k + 1) = A *ᵥ e k + c) :
    Tendsto e atTop (𝓝 p) := by
  have h := lin_tendsto hA (e := fun k => e k - p) (fun k => by
    rw [he, mulVec_sub]
    conv_lhs => rw [hp]
    abel_nf)
  have := h.add_const p
  simpa using this

namespace GHK

/-- One measurement with optional per-step gains. -/
noncomputable def upd (s : GHK E) (i : E × Option ℝ × Option ℝ × Option ℝ) : Exec (GHK E) :=
  s.update i.1 i.2.1 i.2.2.1 i.2.2.2

theorem update_ok (s : GHK E) (hdt : s.dt ≠ 0) (z : E) (g h k : Option ℝ) :
    s.update z g h k = .ok { s with
      ddxPred := s.ddx, dxPred := s.dx + s.dt • s.ddx,
      xPred := s.x + s.dt • s.dx + (0.5 * s.dt ^ 2) • s.ddx,
      y := z - (s.x + s.dt • s.dx + (0.5 * s.dt ^ 2) • s.ddx),
      ddx := s.ddx + (2 * k.getD s.k / s.dt ^ 2) • (z - (s.x + s.dt • s.dx + (0.5 * s.dt ^ 2) • s.ddx)),
      dx := s.dx + s.dt • s.ddx
        + (h.getD s.h / s.dt) • (z - (s.x + s.dt • s.dx + (0.5 * s.dt ^ 2) • s.ddx)),
      x := s.x + s.dt • s.dx + (0.5 * s.dt ^ 2) • s.ddx
        + g.getD s.g • (z - (s.x + s.dt • s.dx + (0.5 * s.dt ^ 2) • s.ddx)) } := by
  simp [update, hdt]

/-- The object after the first `k` of the measurements `z 0, z 1, …`. -/
noncomputable def after (s : GHK E) (z : ℕ → E) (k : ℕ) : GHK E :=
  (runList (fun s z => s.update z) s ((List.range k).map z)).left

theorem after_ok (s : GHK E) (hdt : s.dt ≠ 0) (z : ℕ → E) (k : ℕ) :
    runList (fun s z => s.update z) s ((List.range k).map z) = .ok (s.after z k) ∧
    (s.after z k).dt = s.dt ∧ (s.after z k).g = s.g ∧ (s.after z k).h = s.h ∧
    (s.after z k).k = s.k := by
  unfold after
  induction k with
  | zero => exact ⟨rfl, rfl, rfl, rfl, rfl⟩
  | succ k ih =>
    obtain ⟨h1, h2, h3, h4, h5⟩ := ih
    rw [List.range_succ, List.map_append, runList_append, h1]
    simp only [List.map_cons, List.map_nil, runList]
    rw [update_ok _ (by rw [h2]; exact hdt)]
    exact ⟨rfl, h2, h3, h4, h5⟩

theorem after_succ (s : GHK E) (hdt : s.dt ≠ 0) (z : ℕ → E) (k : ℕ) :
    (s.after z k).update (z k) = .ok (s.after z (k + 1)) := by
  obtain ⟨h1, h2, -⟩ := after_ok s hdt z k
  obtain ⟨h1', -⟩ := after_ok s hdt z (k + 1)
  rw [List.range_succ, List.map_append, runList_append, h1] at h1'
  simp only [List.map_cons, List.map_nil, runList] at h1'
  rw [update_ok _ (by rw [h2]; exact hdt)] at h1' ⊢
  exact h1'

/-- Transition matrix of the estimation error. -/
noncomputable def A (s : GHK E) : Mat 3 3 :=
  !![1 - s.g, (1 - s.g) * s.dt, (1 - s.g) * s.dt ^ 2 / 2;
     -(s.h / s.dt), 1 - s.h, s.dt - s.h * s.dt / 2;
     -(2 * s.k / s.dt ^ 2), -(2 * s.k / s.dt), 1 - s.k]
/-- How a measurement enters the estimate. -/
noncomputable def b (s : GHK E) : Vec 3 := ![s.g, s.h / s.dt, 2 * s.k / s.dt ^ 2]

/-- The three estimates. -/
def vec (s : GHK ℝ) : Vec 3 := ![s.x, s.dx, s.ddx]

theorem after_vec (s : GHK ℝ) (hdt : s.dt ≠ 0) (z : ℕ → ℝ) (k : ℕ) :
    (s.after z (k + 1)).vec = s.A *ᵥ (s.after z k).vec + z k • s.b := by
  have h := after_succ s hdt z k
  obtain ⟨-, h2, h3, h4, h5⟩ := after_ok s hdt z k
  rw [update_ok _ (by rw [h2]; exact hdt)] at h
  simp only [Except.ok.injEq] at h
  rw [← h]
  ext i
  fin_cases i <;> simp [A, b, vec, h2, h3, h4, h5, Matrix.mulVec, dotProduct, Fin.sum_univ_three] <;>
    field_simp <;> ring

theorem after_pred (s : GHK ℝ) (hdt : s.dt ≠ 0) (z : ℕ → ℝ) (k : ℕ) :
    (s.after z (k + 1)).xPred
      = (s.after z k).x + s.dt * (s.after z k).dx + s.dt ^ 2 / 2 * (s.after z k).ddx := by
  have h := after_succ s hdt z k
  obtain ⟨-, h2, -⟩ := after_ok s hdt z k
  rw [update_ok _ (by rw [h2]; exact hdt)] at h
  simp only [Except.ok.injEq] at h
  rw [← h]
  simp only [h2, smul_eq_mul]; ring

/-- A g-h-k filter is stable when the effect of its starting state dies out. -/
def Stable (s : GHK ℝ) : Prop := ∀ x dx ddx : ℝ,
  Tendsto (fun k => (({ s with x := x, dx := dx, ddx := ddx } : GHK ℝ).after (fun _ => 0) k).x)
    atTop (𝓝 0) ∧
  Tendsto (fun k => (({ s with x := x, dx := dx, ddx := ddx } : GHK ℝ).after (fun _ => 0) k).dx)
    atTop (𝓝 0) ∧
  Tendsto (fun k => (({ s with x := x, dx := dx, ddx := ddx } : GHK ℝ).after (fun _ => 0) k).ddx)
    atTop (𝓝 0)

theorem after_zero (s : GHK ℝ) (hdt : s.dt ≠ 0) (k : ℕ) :
    (s.after (fun _ => 0) k).vec = s.A ^ k *ᵥ s.vec := by
  induction k with
  | zero => simp [after, runList, Exec.left]
  | succ k ih => rw [after_vec s hdt, ih, zero_smul, add_zero, pow_succ', mulVec_mulVec]

theorem Stable.pow {s : GHK ℝ} (h : s.Stable) (hdt : s.dt ≠ 0) :
    Tendsto (fun k => s.A ^ k) atTop (𝓝 0) := by
  refine tendsto_pi_nhds.2 fun i => tendsto_pi_nhds.2 fun j => ?_
  have key : ∀ x dx ddx : ℝ, Tendsto (fun k => (s.A ^ k *ᵥ ![x, dx, ddx]) i) atTop (𝓝 0) := by
    intro x dx ddx
    have e := after_zero { s with x := x, dx := dx, ddx := ddx } hdt
    fin_cases i
    · exact (h x dx ddx).1.congr fun k => congrFun (e k) 0
    · exact (h x dx ddx).2.1.congr fun k => congrFun (e k) 1
    · exact (h x dx ddx).2.2.congr fun k => congrFun (e k) 2
  fin_cases j
  · refine (key 1 0 0).congr fun k => ?_
    simp [Matrix.mulVec, dotProduct, Fin.sum_univ_three]
  · refine (key 0 1 0).congr fun k => ?_
    simp [Matrix.mulVec, dotProduct, Fin.sum_univ_three]
  · refine (key 0 0 1).congr fun k => ?_
    simp [Matrix.mulVec, dotProduct, Fin.sum_univ_three]

theorem stable_of_pow {s : GHK ℝ} (hdt : s.dt ≠ 0) (hA : Tendsto (fun k => s.A ^ k) atTop (𝓝 0)) :
    s.Stable := by
  intro x dx ddx
  have e := after_zero { s with x := x, dx := dx, ddx := ddx } hdt
  have h1 := lin_tendsto (A := s.A) hA (e := fun k => s.A ^ k *ᵥ ![x, dx, ddx])
    (fun k => by rw [pow_succ', mulVec_mulVec])
  have h2 := tendsto_pi_nhds.1 h1
  exact ⟨(h2 0).congr fun k => (congrFun (e k) 0).symm, (h2 1).congr fun k => (congrFun (e k) 1).symm,
    (h2 2).congr fun k => (congrFun (e k) 2).symm⟩

/-- Steady-state covariance of the three estimates for unit measurement noise. -/
noncomputable def Pss (s : GHK E) : Mat 3 3 :=
  let g := s.g
  let h := s.h
  let k := s.k
  let D := (4 - 2 * g - h) * (g * h + g * k - 2 * k)
  let p01 := (h ^ 2 * k - h ^ 3 - 2 * g * h * k + 2 * g * h ^ 2) / (s.dt * D)
  let p02 := 2 * (-4 * k ^ 2 + h * k ^ 2 - h ^ 2 * k + 2 * g * k ^ 2 + 2 * g * h * k) / (s.dt ^ 2 * D)
  let p12 := 2 * (2 * h ^ 2 * k - 2 * h * k ^ 2) / (s.dt ^ 3 * D)
  !![(2 * h ^ 2 - 4 * g * k + g * h * k - 3 * g * h ^ 2 + 2 * g ^ 2 * k + 2 * g ^ 2 * h) / D, p01, p02;
     p01, (8 * k ^ 2 - 4 * h ^ 2 * k + 2 * h ^ 3 - 4 * g * k ^ 2) / (s.dt ^ 2 * D), p12;
     p02, p12, 8 * h * k ^ 2 / (s.dt ^ 4 * D)]

theorem Pss_fixed (s : GHK E) (hdt : s.dt ≠ 0) (hd : 4 - 2 * s.g - s.h ≠ 0)
    (hk : s.g * s.h + s.g * s.k - 2 * s.k ≠ 0) :
    s.Pss = s.A * s.Pss * s.Aᵀ + vecMulVec s.b s.b := by
  rcases s with ⟨x, dx, ddx, _, _, _, dt, g, h, k, _, _⟩
  simp only [Pss, A, b] at *
  obtain ⟨D, hD⟩ : ∃ D, D = (4 - 2 * g - h) * (g * h + g * k - 2 * k) := ⟨_, rfl⟩
  have hD0 : D ≠ 0 := by rw [hD]; exact mul_ne_zero hd hk
  rw [← hD]
  rw [mat3_transpose, mul_fin_three, mul_fin_three, vecMulVec3, mat3_add]
  apply mat3_ext <;> field_simp <;> rw [hD] <;> ring

end GHK

/-- **C36 (g-h-k, linearity).** Estimates are a linear function of start and data: the difference of two runs with the
same gains is itself a run of the filter on the difference of the data.  In particular two filters fed the same data
differ by an amount that does not depend on it. -/
theorem C36_ghk_superposition (s t d : GHK E) (hdt : s.dt ≠ 0)
    (ht : t.dt = s.dt ∧ t.g = s.g ∧ t.h = s.h ∧ t.k = s.k) (hd : d.dt = s.dt ∧ d.g = s.g ∧ d.h = s.h ∧ d.k = s.k)
    (hx : d.x = s.x - t.x) (hdx : d.dx = s.dx - t.dx) (hddx : d.ddx = s.ddx - t.ddx)
    (zs : List (E × E × Option ℝ × Option ℝ × Option ℝ)) :
    ∃ s' t' d', runList GHK.upd s (zs.map fun z => (z.1, z.2.2)) = .ok s' ∧
      runList GHK.upd t (zs.map fun z => (z.2.1, z.2.2)) = .ok t' ∧
      runList GHK.upd d (zs.map fun z => (z.1 - z.2.1, z.2.2)) = .ok d' ∧
      d'.x = s'.x - t'.x ∧ d'.dx = s'.dx - t'.dx ∧ d'.ddx = s'.ddx - t'.ddx := by
  induction zs generalizing s t d with
  | nil => exact ⟨s, t, d, rfl, rfl, rfl, hx, hdx, hddx⟩
  | cons z zs ih =>
    simp only [List.map_cons, runList, GHK.upd]
    rw [GHK.update_ok s hdt, GHK.update_ok t (by rw [ht.1]; exact hdt), GHK.update_ok d (by rw [hd.1]; exact hdt)]
    simp only [ht.1, ht.2.1, ht.2.2.1, ht.2.2.2, hd.1, hd.2.1, hd.2.2.1, hd.2.2.2, hx, hdx, hddx]
    refine ih _ _ _ hdt ⟨rfl, rfl, rfl, rfl⟩ ⟨rfl, rfl, rfl, rfl⟩ ?_ ?_ ?_
    · simp only; module
    · simp only; module
    · simp only; module

/-- **C36 (g-h-k).** Started on a parabola, the filter stays on it with zero residual, whatever
gains are used at each step. -/
theorem C36_ghk_on_parabola (s : GHK E) (hdt : s.dt ≠ 0)
    (gs : List (Option ℝ × Option ℝ × Option ℝ)) :
    ∃ s', runList GHK.upd s (gs.mapIdx fun i g =>
        (s.x + ((i + 1 : ℝ) * s.dt) • s.dx + (((i + 1 : ℝ) * s.dt) ^ 2 / 2) • s.ddx, g)) = .ok s' ∧
      s'.x = s.x + ((gs.length : ℝ) * s.dt) • s.dx + (((gs.length : ℝ) * s.dt) ^ 2 / 2) • s.ddx ∧
      s'.dx = s.dx + ((gs.length : ℝ) * s.dt) • s.ddx ∧ s'.ddx = s.ddx ∧
      (gs ≠ [] → s'.y = 0 ∧ s'.xPred = s'.x) := by
  induction gs generalizing s with
  | nil => exact ⟨s, rfl, by simp, by simp, rfl, fun h => absurd rfl h⟩
  | cons gh gs ih =>
    simp only [List.mapIdx_cons, runList, GHK.upd]
    rw [GHK.update_ok _ hdt]
    have hy : (s.x + (((0 : ℕ) + 1 : ℝ) * s.dt) • s.dx + ((((0 : ℕ) + 1 : ℝ) * s.dt) ^ 2 / 2) • s.ddx)
        - (s.x + s.dt • s.dx + (0.5 * s.dt ^ 2) • s.ddx) = 0 := by
      push_cast; module
    simp only [hy, smul_zero, add_zero]
    obtain ⟨s', h1, h2, h3, h3', h4⟩ := ih { s with
      ddxPred := s.ddx, dxPred := s.dx + s.dt • s.ddx,
      xPred := s.x + s.dt • s.dx + (0.5 * s.dt ^ 2) • s.ddx, y := 0,
      dx := s.dx + s.dt • s.ddx,
      x := s.x + s.dt • s.dx + (0.5 * s.dt ^ 2) • s.ddx } hdt
    refine ⟨s', ?_, ?_, ?_, h3', ?_⟩
    · rw [← h1]
      congr 1
      apply List.mapIdx_eq_mapIdx_iff.2
      intro i hi
      simp only [Prod.mk.injEq, and_true]
      push_cast; module
    · rw [h2]; simp only [List.length_cons]; push_cast; module
    · rw [h3]; simp only [List.length_cons]; push_cast; module
    · intro _
      by_cases hg : gs = []
      · subst hg
        simp only [List.mapIdx_nil, runList, Except.ok.injEq] at h1
        subst h1; exact ⟨rfl, rfl⟩
      · exact h4 hg

/-- **C36 (g-h-k convergence).** A stable g-h-k filter whose measurements lie on a parabola
converges to it from every start. -/
theorem C36_ghk_converges (s : GHK ℝ) (hdt : s.dt ≠ 0) (hs : s.Stable) (p v a : ℝ) :
    let z := fun i : ℕ => p + v * ((i + 1) * s.dt) + a * ((i + 1) * s.dt) ^ 2 / 2
    Tendsto (fun k : ℕ => (s.after z k).x - (p + v * (k * s.dt) + a * (k * s.dt) ^ 2 / 2))
      atTop (𝓝 0) ∧
    Tendsto (fun k : ℕ => (s.after z k).dx - (v + a * (k * s.dt))) atTop (𝓝 0) ∧
    Tendsto (fun k : ℕ => (s.after z k).ddx) atTop (𝓝 a) := by
  intro z
  have key := lin_tendsto (hs.pow hdt)
    (e := fun k : ℕ => ![(s.after z k).x - (p + v * (k * s.dt) + a * (k * s.dt) ^ 2 / 2),
      (s.after z k).dx - (v + a * (k * s.dt)), (s.after z k).ddx - a]) (by
      intro k
      have h := GHK.after_vec s hdt z k
      have hz : z k = p + v * ((k + 1) * s.dt) + a * ((k + 1) * s.dt) ^ 2 / 2 := rfl
      clear_value z
      have h0 := congrFun h 0
      have h1 := congrFun h 1
      have h2 := congrFun h 2
      ext i
      fin_cases i
      · simp [GHK.A, GHK.b, GHK.vec, Matrix.mulVec, dotProduct, Fin.sum_univ_three, hz] at h0 ⊢
        rw [h0]; ring
      · simp [GHK.A, GHK.b, GHK.vec, Matrix.mulVec, dotProduct, Fin.sum_univ_three, hz] at h1 ⊢
        rw [h1]; field_simp; ring
      · simp [GHK.A, GHK.b, GHK.vec, Matrix.mulVec, dotProduct, Fin.sum_univ_three, hz] at h2 ⊢
        rw [h2]; field_simp; ring)
  have k2 := tendsto_pi_nhds.1 key
  refine ⟨k2 0, k2 1, ?_⟩
  have := (k2 2).add_const a
  simpa using this

/-- Limit of the estimation error (estimate minus truth) of a stable g-h-k filter on an object
with constant jerk `j`. -/
theorem ghk_lag (s : GHK ℝ) (hdt : s.dt ≠ 0) (hs : s.Stable) (hk : s.k ≠ 0) (p v a j : ℝ) :
    let tr := fun t : ℝ => p + v * t + a * t ^ 2 / 2 + j * t ^ 3 / 6
    let z := fun i : ℕ => tr ((i + 1) * s.dt)
    let q : ℝ := -(s.dt ^ 3) * j / (2 * s.k)
    let e2 : ℝ := (j * s.dt ^ 2 / 2 + s.h / s.dt * q) / s.dt
    let e0 : ℝ := (1 - s.g) * q
    let e1 : ℝ := (q + j * s.dt ^ 3 / 6 - e0 - s.dt ^ 2 / 2 * e2) / s.dt
    Tendsto (fun k : ℕ => (![(s.after z k).x - tr (k * s.dt),
      (s.after z k).dx - (v + a * (k * s.dt) + j * (k * s.dt) ^ 2 / 2),
      (s.after z k).ddx - (a + j * (k * s.dt))] : Vec 3)) atTop (𝓝 ![e0, e1, e2]) := by
  intro tr z q e2 e0 e1
  exact affine_tendsto (hs.pow hdt) (p := ![e0, e1, e2])
    (c := -![(1 - s.g) * (j * s.dt ^ 3 / 6), j * s.dt ^ 2 / 2 - s.h / s.dt * (j * s.dt ^ 3 / 6),
      j * s.dt - 2 * s.k / s.dt ^ 2 * (j * s.dt ^ 3 / 6)])
    (e := fun k : ℕ => ![(s.after z k).x - tr (k * s.dt),
      (s.after z k).dx - (v + a * (k * s.dt) + j * (k * s.dt) ^ 2 / 2),
      (s.after z k).ddx - (a + j * (k * s.dt))]) (by
      ext i
      fin_cases i
      all_goals
        simp [GHK.A, Matrix.mulVec, dotProduct, Fin.sum_univ_three, e0, e1, e2, q]
        field_simp
        ring) (by
      intro k
      have h := GHK.after_vec s hdt z k
      have hz : z k = tr ((k + 1) * s.dt) := rfl
      clear_value z
      have h0 := congrFun h 0
      have h1 := congrFun h 1
      have h2 := congrFun h 2
      ext i
      fin_cases i
      · simp [GHK.A, GHK.b, GHK.vec, Matrix.mulVec, dotProduct, Fin.sum_univ_three, hz, tr] at h0 ⊢
        rw [h0]; ring
      · simp [GHK.A, GHK.b, GHK.vec, Matrix.mulVec, dotProduct, Fin.sum_univ_three, hz, tr] at h1 ⊢
        rw [h1]; field_simp; ring
      · simp [GHK.A, GHK.b, GHK.vec, Matrix.mulVec, dotProduct, Fin.sum_univ_three, hz, tr] at h2 ⊢
        rw [h2]; field_simp; ring)

/-- Limit of the estimation error (estimate minus truth) of a stable g-h filter on an object
with constant acceleration `a`. -/
theorem gh_lag (s : GH ℝ) (hdt : s.dt ≠ 0) (hs : s.Stable) (hh : s.h ≠ 0) (p v a : ℝ) :
    let tr := fun t : ℝ => p + v * t + a * t ^ 2 / 2
    let z := fun i : ℕ => tr ((i + 1) * s.dt)
    let q : ℝ := -(s.dt ^ 2) * a / s.h
    let e0 : ℝ := (1 - s.g) * q
    let e1 : ℝ := (q + a * s.dt ^ 2 / 2 - e0) / s.dt
    Tendsto (fun k : ℕ => (![(s.after z k).x - tr (k * s.dt),
      (s.after z k).dx - (v + a * (k * s.dt))] : Vec 2)) atTop (𝓝 ![e0, e1]) := by
  intro tr z q e0 e1
  exact affine_tendsto (hs.pow hdt) (p := ![e0, e1])
    (c := -![(1 - s.g) * (a * s.dt ^ 2 / 2), a * s.dt - s.h / s.dt * (a * s.dt ^ 2 / 2)])
    (e := fun k : ℕ => ![(s.after z k).x - tr (k * s.dt),
      (s.after z k).dx - (v + a * (k * s.dt))]) (by
      ext i
      fin_cases i
      all_goals
        simp [GH.A, Matrix.mulVec, dotProduct, Fin.sum_univ_two, e0, e1, q]
        field_simp
        ring) (by
      intro k
      have h := GH.after_vec s hdt z k
      have hz : z k = tr ((k + 1) * s.dt) := rfl
      clear_value z
      have h0 := congrFun h 0
      have h1 := congrFun h 1
      ext i
      fin_cases i
      · simp [GH.A, GH.b, Matrix.mulVec, dotProduct, Fin.sum_univ_two, hz, tr] at h0 ⊢
        rw [h0]; ring
      · simp [GH.A, GH.b, Matrix.mulVec, dotProduct, Fin.sum_univ_two, hz, tr] at h1 ⊢
        rw [h1]; field_simp; ring)

/-- **C64 (g-h-k).** On an object with constant jerk `j` the prediction of a stable g-h-k filter
is off by `bias_error(j)` in the limit (prediction minus truth). -/
theorem C64_ghk_bias (s : GHK ℝ) (hdt : s.dt ≠ 0) (hs : s.Stable) (p v a j β : ℝ)
    (hβ : s.biasError j = .ok β) :
    let tr := fun t : ℝ => p + v * t + a * t ^ 2 / 2 + j * t ^ 3 / 6
    Tendsto (fun k : ℕ => (s.after (fun i : ℕ => tr ((i + 1) * s.dt)) (k + 1)).xPred
      - tr ((k + 1) * s.dt)) atTop (𝓝 β) := by
  intro tr
  have hk : s.k ≠ 0 := by
    intro h; simp [GHK.biasError, h] at hβ
  have hβ' : β = -(s.dt ^ 3) * j / (2 * s.k) := by
    rw [GHK.biasError, if_neg hk, Except.ok.injEq] at hβ; exact hβ.symm
  have key := ghk_lag s hdt hs hk p v a j
  simp only at key
  let q : ℝ := -(s.dt ^ 3) * j / (2 * s.k)
  let e2 : ℝ := (j * s.dt ^ 2 / 2 + s.h / s.dt * q) / s.dt
  let e0 : ℝ := (1 - s.g) * q
  let e1 : ℝ := (q + j * s.dt ^ 3 / 6 - e0 - s.dt ^ 2 / 2 * e2) / s.dt
  have k2 := tendsto_pi_nhds.1 key
  have hlim := (((k2 0).add ((k2 1).const_mul s.dt)).add ((k2 2).const_mul (s.dt ^ 2 / 2))).sub_const
    (j * s.dt ^ 3 / 6)
  have e : β = ![e0, e1, e2] 0 + s.dt * ![e0, e1, e2] 1 + s.dt ^ 2 / 2 * ![e0, e1, e2] 2
      - j * s.dt ^ 3 / 6 := by
    rw [hβ']
    simp [e0, e1, e2, q]
    field_simp
    ring
  rw [e]
  refine hlim.congr fun k => ?_
  rw [GHK.after_pred s hdt]
  simp [tr]
  ring

end Filterpy
