import Verif.Props.HInfinity

/-!
# The worst case guarantee of the H-infinity filter: C99
-/

namespace Filterpy
open Matrix

variable {n m l : ℕ}

/-- What nature does in one step: a disturbance of the sensor, the user's control and a disturbance of the state. -/
structure Spec.Shock (n m l : ℕ) where
  v : Vec m
  u : UArg l
  w : Vec n

/-- One step of the filter against nature: the sensor reads `H X + v`, the filter takes the measurement and predicts,
and the true state moves to `F X + B u + w`. -/
noncomputable def Spec.duel (c : HInf n m l × Vec n) (d : Spec.Shock n m l) :
    Except (Err × HInf n m l) (HInf n m l × Vec n) :=
  match c.1.update (some (c.1.H *ᵥ c.2 + d.v)) with
  | .error e => .error e
  | .ok s1 =>
    match s1.predict d.u, HInf.control c.1.B d.u with
    | .ok s2, .ok b => .ok (s2, c.1.F *ᵥ c.2 + b + d.w)
    | .error e, _ => .error e
    | _, .error e => .error (e, s1)

/-- The size of a vector measured by the weight `A`. -/
noncomputable def Spec.weighed {k : ℕ} (A : Mat k k) (v : Vec k) : ℝ := v ⬝ᵥ (A *ᵥ v)

open Spec

theorem weighed_nonneg {k : ℕ} {A : Mat k k} (hA : A.PosSemidef) (v : Vec k) : 0 ≤ weighed A v := PSD.quad hA v

/-- `2 c·a ≤ c·A c + a·A⁻¹ a`. -/
theorem weighed_young {k : ℕ} {A : Mat k k} (hA : A.PosDef) (c a : Vec k) :
    2 * (c ⬝ᵥ a) ≤ weighed A c + weighed A⁻¹ a := by
  have h := weighed_nonneg hA.inv.posSemidef (A *ᵥ c - a)
  have hi : A⁻¹ *ᵥ (A *ᵥ c) = c := by
    rw [mulVec_mulVec, nonsing_inv_mul _ (PD.isUnit_det hA), one_mulVec]
  have hs : (A *ᵥ c) ⬝ᵥ (A⁻¹ *ᵥ a) = a ⬝ᵥ c := by
    rw [dotProduct_mulVec, ← mulVec_transpose, inv_symm (PD.symm hA), hi, dotProduct_comm]
  unfold weighed at h ⊢
  rw [mulVec_sub, dotProduct_sub, sub_dotProduct, sub_dotProduct, hi, hs] at h
  rw [dotProduct_comm (A *ᵥ c), dotProduct_comm a c] at h
  linarith

/-- Adding two errors with covariances `A` and `B`. -/
theorem weighed_add {k : ℕ} {A B : Mat k k} (hA : A.PosDef) (hB : B.PosDef) (a b : Vec k) :
    weighed (A + B)⁻¹ (a + b) ≤ weighed A⁻¹ a + weighed B⁻¹ b := by
  have hAB : (A + B).PosDef := hA.add hB
  set c := (A + B)⁻¹ *ᵥ (a + b) with hc
  have h1 := weighed_young hA c a
  have h2 := weighed_young hB c b
  have e : (A + B) *ᵥ c = a + b := by
    rw [hc, mulVec_mulVec, mul_nonsing_inv _ (PD.isUnit_det hAB), one_mulVec]
  have h3 : weighed A c + weighed B c = c ⬝ᵥ a + c ⬝ᵥ b := by
    unfold weighed
    rw [← dotProduct_add, ← add_mulVec, e, dotProduct_add]
  have h4 : weighed (A + B)⁻¹ (a + b) = c ⬝ᵥ a + c ⬝ᵥ b := by
    unfold weighed
    rw [← hc, dotProduct_comm, dotProduct_add]
  linarith

/-- A measurement: what the disturbance `v` costs pays for the remaining error. -/
theorem weighed_measure {N : Mat n n} {V : Mat m m} {H : Mat m n} (hN : N.PosDef) (hV : V.PosDef) (e : Vec n) (v : Vec m) :
    weighed (N + Hᵀ * V⁻¹ * H) (e - ((N + Hᵀ * V⁻¹ * H)⁻¹ * Hᵀ * V⁻¹) *ᵥ (H *ᵥ e + v))
      ≤ weighed N e + weighed V⁻¹ v := by
  have hVi := hV.inv
  have hM : (N + Hᵀ * V⁻¹ * H).PosDef := hN.add_posSemidef (by
    have := PSD.congr hVi.posSemidef Hᵀ
    rwa [transpose_transpose] at this)
  set M := N + Hᵀ * V⁻¹ * H with hMd
  set y := H *ᵥ e + v with hy
  set b := Hᵀ *ᵥ (V⁻¹ *ᵥ y) with hb
  set g := M⁻¹ *ᵥ b with hg
  have eg : (M⁻¹ * Hᵀ * V⁻¹) *ᵥ y = g := by
    rw [hg, hb, mulVec_mulVec, mulVec_mulVec, Matrix.mul_assoc]
  have hMg : M *ᵥ g = b := by rw [hg, mulVec_mulVec, mul_nonsing_inv _ (PD.isUnit_det hM), one_mulVec]
  have hVs : (V⁻¹)ᵀ = V⁻¹ := inv_symm (PD.symm hV)
  -- the cost of an error `t` together with the residual `y` it leaves
  have cost : ∀ t : Vec n, weighed N t + weighed V⁻¹ (y - H *ᵥ t) = weighed M t - 2 * (t ⬝ᵥ b) + weighed V⁻¹ y := by
    intro t
    have e1 : y ⬝ᵥ (V⁻¹ *ᵥ (H *ᵥ t)) = t ⬝ᵥ b := by
      rw [hb, dotProduct_mulVec, ← mulVec_transpose, hVs, dotProduct_comm, dotProduct_mulVec t, ← mulVec_transpose,
        transpose_transpose, ]
    have e2 : (H *ᵥ t) ⬝ᵥ (V⁻¹ *ᵥ y) = t ⬝ᵥ b := by
      rw [hb, dotProduct_mulVec t, ← mulVec_transpose, transpose_transpose]
    have e3 : (H *ᵥ t) ⬝ᵥ (V⁻¹ *ᵥ (H *ᵥ t)) = t ⬝ᵥ ((Hᵀ * V⁻¹ * H) *ᵥ t) := by
      rw [← mulVec_mulVec, ← mulVec_mulVec, dotProduct_mulVec t, ← mulVec_transpose, transpose_transpose]
    unfold weighed
    rw [mulVec_sub, dotProduct_sub, sub_dotProduct, sub_dotProduct, e1, e2, e3, hMd, add_mulVec, dotProduct_add]
    ring
  have sq : weighed M (e - g) = weighed M e - 2 * (e ⬝ᵥ b) + weighed M g := by
    have e1 : g ⬝ᵥ (M *ᵥ e) = e ⬝ᵥ b := by
      rw [dotProduct_mulVec, ← mulVec_transpose, PD.symm hM, hMg, dotProduct_comm]
    unfold weighed
    rw [mulVec_sub, dotProduct_sub, sub_dotProduct, sub_dotProduct, e1, hMg]
    ring
  have hgM : weighed M g = g ⬝ᵥ b := by unfold weighed; rw [hMg]
  have c1 := cost e
  have c2 := cost g
  have p1 := weighed_nonneg hN.posSemidef g
  have p2 := weighed_nonneg hVi.posSemidef (y - H *ᵥ g)
  have hv : y - H *ᵥ e = v := by rw [hy, add_sub_cancel_left]
  rw [hv] at c1
  rw [eg, sq]
  linarith

/-- What the guarantee asks of the filter at a step: a weight `γ Q` on the errors that the information `P⁻¹` exceeds. -/
structure Admissible (s : HInf n m l) : Prop where
  P : s.P.PosDef
  V : s.V.PosDef
  VInv : s.VInv = s.V⁻¹
  W : s.W.PosDef
  Q : s.Q.PosSemidef
  gamma : 0 ≤ s.gamma
  room : (s.P⁻¹ - s.gamma • s.Q).PosDef

/-- One step of the duel succeeds unless the control has the wrong shape, and the storage inequality holds if `F = 1`. -/
theorem duel_step {s : HInf n m l} (hs : Admissible s) (hF : s.F = 1) (X : Vec n) (d : Shock n m l) {b : Vec n}
    (hb : HInf.control s.B d.u = .ok b) :
    ∃ s', duel (s, X) d = .ok (s', X + b + d.w) ∧
      s'.F = s.F ∧ s'.H = s.H ∧ s'.Q = s.Q ∧ s'.V = s.V ∧ s'.VInv = s.VInv ∧ s'.W = s.W ∧ s'.gamma = s.gamma ∧ s'.B = s.B ∧
      s'.P = (s.P⁻¹ - s.gamma • s.Q + s.Hᵀ * s.V⁻¹ * s.H)⁻¹ + s.W ∧ s'.P.PosDef ∧
      weighed s'.P⁻¹ (X + b + d.w - s'.x) + s.gamma * weighed s.Q (X - s.x)
        ≤ weighed s.P⁻¹ (X - s.x) + weighed s.V⁻¹ d.v + weighed s.W⁻¹ d.w := by
  set N := s.P⁻¹ - s.gamma • s.Q with hN
  have hM : (N + s.Hᵀ * s.V⁻¹ * s.H).PosDef := hs.room.add_posSemidef (by
    have := PSD.congr hs.V.inv.posSemidef s.Hᵀ
    rwa [transpose_transpose] at this)
  have hVs : s.VInvᵀ = s.VInv := by rw [hs.VInv]; exact inv_symm (PD.symm hs.V)
  have hdet : (s.P⁻¹ - s.gamma • s.Q + s.Hᵀ * s.VInv * s.H).det ≠ 0 := by rw [hs.VInv]; exact PD.det_ne hM
  set z := s.H *ᵥ X + d.v with hz
  obtain ⟨s1, h1, p1, x1⟩ := C35_riccati s hs.P (PSD.symm hs.Q) (PD.symm hs.W) hVs hdet z
  obtain ⟨L, -, e1⟩ := hinf_update_ok h1
  obtain ⟨f1, m1, q1, v1, vi1, w1, g1, b1⟩ : s1.F = s.F ∧ s1.H = s.H ∧ s1.Q = s.Q ∧ s1.V = s.V ∧ s1.VInv = s.VInv ∧
      s1.W = s.W ∧ s1.gamma = s.gamma ∧ s1.B = s.B := by rw [e1]; exact ⟨rfl, rfl, rfl, rfl, rfl, rfl, rfl, rfl⟩
  have h2 : s1.predict d.u = .ok { s1 with x := s1.F *ᵥ s1.x + b } := by
    simp only [HInf.predict, b1, hb]
  rw [hs.VInv, hF, Matrix.one_mul, transpose_one, Matrix.mul_one] at p1
  rw [hs.VInv, hF, Matrix.one_mul] at x1
  have hPd : s1.P.PosDef := by rw [p1]; exact hM.inv.add hs.W
  refine ⟨{ s1 with x := s1.F *ᵥ s1.x + b }, ?_, f1, m1, q1, v1, vi1, w1, g1, b1, p1, hPd, ?_⟩
  · simp only [duel, ← hz, h1, h2, hb, hF, one_mulVec]
  · show weighed s1.P⁻¹ (X + b + d.w - (s1.F *ᵥ s1.x + b)) + _ ≤ _
    rw [f1, hF, one_mulVec, x1, p1]
    have he : X + b + d.w - (s.x + ((N + s.Hᵀ * s.V⁻¹ * s.H)⁻¹ * s.Hᵀ * s.V⁻¹) *ᵥ (z - s.H *ᵥ s.x) + b)
        = ((X - s.x) - ((N + s.Hᵀ * s.V⁻¹ * s.H)⁻¹ * s.Hᵀ * s.V⁻¹) *ᵥ (s.H *ᵥ (X - s.x) + d.v)) + d.w := by
      have : z - s.H *ᵥ s.x = s.H *ᵥ (X - s.x) + d.v := by rw [hz, mulVec_sub]; abel
      rw [this]; abel
    rw [he]
    have k1 := weighed_add hM.inv hs.W
      ((X - s.x) - ((N + s.Hᵀ * s.V⁻¹ * s.H)⁻¹ * s.Hᵀ * s.V⁻¹) *ᵥ (s.H *ᵥ (X - s.x) + d.v)) d.w
    rw [nonsing_inv_nonsing_inv _ (PD.isUnit_det hM)] at k1
    have k2 := weighed_measure (H := s.H) hs.room hs.V (X - s.x) d.v
    have k3 : weighed N (X - s.x) = weighed s.P⁻¹ (X - s.x) - s.gamma * weighed s.Q (X - s.x) := by
      unfold weighed
      rw [hN, sub_mulVec, dotProduct_sub, smul_mulVec, dotProduct_smul, smul_eq_mul]
    linarith

/-- **C99 (constant state model).** With `F = I`: whatever nature does - any initial state, any disturbances of sensor and
state, any controls, for any number of steps - the errors of the estimates, weighed by `Q` and summed over the steps, are
at most `1/γ` times the initial error weighed by `P⁻¹` plus the sizes of all disturbances weighed by `V⁻¹` and `W⁻¹`,
as long as the filter stays admissible. The full property, for every `F`, fails: `C99_worst_case_refuted`. -/
theorem C99_worst_case_partial (run : ℕ → HInf n m l) (X : ℕ → Vec n) (d : ℕ → Shock n m l) (hF : (run 0).F = 1)
    (hadm : ∀ k, Admissible (run k)) (hstep : ∀ k, duel (run k, X k) (d k) = .ok (run (k + 1), X (k + 1))) (K : ℕ) :
    (run 0).gamma * ∑ k ∈ Finset.range K, weighed (run 0).Q (X k - (run k).x)
      ≤ weighed (run 0).P⁻¹ (X 0 - (run 0).x)
        + ∑ k ∈ Finset.range K, (weighed (run 0).V⁻¹ (d k).v + weighed (run 0).W⁻¹ (d k).w) := by
  have hone : ∀ k, (run k).F = 1 → ∃ b, X (k + 1) = X k + b + (d k).w ∧ (run (k + 1)).F = 1 ∧
      (run (k + 1)).Q = (run k).Q ∧ (run (k + 1)).V = (run k).V ∧ (run (k + 1)).W = (run k).W ∧
      (run (k + 1)).gamma = (run k).gamma ∧
      weighed (run (k + 1)).P⁻¹ (X (k + 1) - (run (k + 1)).x) + (run k).gamma * weighed (run k).Q (X k - (run k).x)
        ≤ weighed (run k).P⁻¹ (X k - (run k).x) + weighed (run k).V⁻¹ (d k).v + weighed (run k).W⁻¹ (d k).w := by
    intro k hk
    have h := hstep k
    cases hb : HInf.control (run k).B (d k).u with
    | error e =>
      exfalso
      simp only [duel] at h
      split at h
      · cases h
      · rename_i s1 h1
        obtain ⟨L, -, e1⟩ := hinf_update_ok h1
        have b1 : s1.B = (run k).B := by rw [e1]
        simp only [HInf.predict, b1, hb] at h
        cases h
    | ok b =>
      obtain ⟨s', h1, f1, -, q1, v1, -, w1, g1, -, -, -, ineq⟩ := duel_step (hadm k) hk (X k) (d k) hb
      have e := Except.ok.inj (h1.symm.trans h)
      have e1 : s' = run (k + 1) := congrArg Prod.fst e
      have e2 : X k + b + (d k).w = X (k + 1) := congrArg Prod.snd e
      rw [e1, e2] at ineq
      rw [e1] at f1 q1 v1 w1 g1
      exact ⟨b, e2.symm, f1.trans hk, q1, v1, w1, g1, ineq⟩
  have inv : ∀ k, (run k).F = 1 ∧ (run k).Q = (run 0).Q ∧ (run k).V = (run 0).V ∧ (run k).W = (run 0).W ∧
      (run k).gamma = (run 0).gamma := by
    intro k
    induction k with
    | zero => exact ⟨hF, rfl, rfl, rfl, rfl⟩
    | succ k ih =>
      obtain ⟨i1, i2, i3, i4, i5⟩ := ih
      obtain ⟨b, -, f1, q1, v1, w1, g1, -⟩ := hone k i1
      exact ⟨f1, q1.trans i2, v1.trans i3, w1.trans i4, g1.trans i5⟩
  have key : ∀ K, weighed (run K).P⁻¹ (X K - (run K).x)
      + (run 0).gamma * ∑ k ∈ Finset.range K, weighed (run 0).Q (X k - (run k).x)
      ≤ weighed (run 0).P⁻¹ (X 0 - (run 0).x)
        + ∑ k ∈ Finset.range K, (weighed (run 0).V⁻¹ (d k).v + weighed (run 0).W⁻¹ (d k).w) := by
    intro K
    induction K with
    | zero => simp
    | succ K ih =>
      obtain ⟨i1, i2, i3, i4, i5⟩ := inv K
      obtain ⟨b, -, -, -, -, -, -, ineq⟩ := hone K i1
      rw [i2, i3, i4, i5] at ineq
      rw [Finset.sum_range_succ, Finset.sum_range_succ, mul_add]
      linarith
  have := key K
  have := weighed_nonneg (hadm K).P.inv.posSemidef (X K - (run K).x)
  linarith

/-! ## One state variable -/

/-- A filter for one state variable with unit weights. -/
noncomputable def hinfOne (f g p x y z : ℝ) : HInf 1 1 0 :=
  { HInf.fresh 1 1 0 g with
    F := sc f, H := sc 1, P := sc p, x := vc x, Q := sc 1, V := sc 1, VInv := sc 1, W := sc 1, y := vc y, z := vc z }

theorem hinfOne_duel (f g p x y z X v w : ℝ) (hD : 1 - g * p + p ≠ 0) :
    duel (hinfOne f g p x y z, vc X) ⟨vc v, .scalar 0, vc w⟩
      = .ok (hinfOne f g (f * f * (p / (1 - g * p + p)) + 1) (f * (x + f * (p / (1 - g * p + p)) * (X + v - x)))
          (X + v - x) (X + v), vc (f * X + w)) := by
  have h1 : npInv (1 - g • (sc 1 * sc p) + sc 1 * sc 1 * sc 1 * sc p) = some (sc (1 - g * p + p)⁻¹) := by
    simp only [sc_one, sc_mul, sc_smul, sc_add, sc_sub, one_mul]
    exact sc_npInv _ hD
  have e1 : (1/2 : ℝ) • (sc f * (sc p * sc (1 - g * p + p)⁻¹) * sc f + sc 1
      + (sc f * (sc p * sc (1 - g * p + p)⁻¹) * sc f + sc 1)ᵀ) = sc (f * f * (p / (1 - g * p + p)) + 1) := by
    simp only [sc_mul, sc_transpose, sc_add, sc_smul, sc_inj]
    ring
  have e2 : sc f *ᵥ (vc x + (sc f * (sc p * sc (1 - g * p + p)⁻¹) * (sc 1 * sc 1)) *ᵥ (sc 1 *ᵥ vc X + vc v - sc 1 *ᵥ vc x)) + 0
      = vc (f * (x + f * (p / (1 - g * p + p)) * (X + v - x))) := by
    simp only [sc_mul, sc_mulVec, vc_add, vc_sub, add_zero, vc_inj]
    ring
  have e3 : sc 1 *ᵥ vc X + vc v - sc 1 *ᵥ vc x = vc (X + v - x) := by
    simp only [sc_mulVec, vc_add, vc_sub, vc_inj]; ring
  have e4 : sc 1 *ᵥ vc X + vc v = vc (X + v) := by simp only [sc_mulVec, vc_add, vc_inj]; ring
  have e5 : sc f *ᵥ vc X + 0 + vc w = vc (f * X + w) := by simp only [sc_mulVec, vc_add, add_zero]
  simp only [duel, hinfOne, HInf.fresh, HInf.update, HInf.predict, HInf.control, sc_transpose, h1, e1, e2, e5]
  rw [e3, e4]

theorem hinfOne_admissible {f g p x y z : ℝ} (hg : 0 ≤ g) (hp : 0 < p) (h : g * p < 1) :
    Admissible (hinfOne f g p x y z) := by
  refine ⟨sc_posDef _ hp, sc_posDef _ one_pos, ?_, sc_posDef _ one_pos, sc_posSemidef _ zero_le_one, hg, ?_⟩
  · show sc 1 = (sc 1)⁻¹
    rw [sc_inv _ one_ne_zero, inv_one]
  · show ((sc p)⁻¹ - g • sc 1).PosDef
    rw [sc_inv _ hp.ne', sc_smul, sc_sub]
    refine sc_posDef _ ?_
    rw [mul_one, sub_pos, ← one_div, lt_div_iff₀ hp]
    exact h

/-- The guarantee applies to a random walk with `γ = 1/10`, against every nature, for ever. -/
example (X₀ : ℝ) (v w : ℕ → ℝ) : ∃ (run : ℕ → HInf 1 1 0) (X : ℕ → Vec 1), run 0 = hinfOne 1 (1/10) 1 0 0 0 ∧ X 0 = vc X₀ ∧
    (∀ k, Admissible (run k)) ∧
    ∀ k, duel (run k, X k) ⟨vc (v k), .scalar 0, vc (w k)⟩ = .ok (run (k + 1), X (k + 1)) := by
  -- covariance, estimate, residual, measurement, truth
  let next : ℕ → ℝ × ℝ × ℝ × ℝ × ℝ → ℝ × ℝ × ℝ × ℝ × ℝ := fun k c =>
    (1 * 1 * (c.1 / (1 - 1/10 * c.1 + c.1)) + 1, 1 * (c.2.1 + 1 * (c.1 / (1 - 1/10 * c.1 + c.1)) * (c.2.2.2.2 + v k - c.2.1)),
      c.2.2.2.2 + v k - c.2.1, c.2.2.2.2 + v k, 1 * c.2.2.2.2 + w k)
  let c : ℕ → ℝ × ℝ × ℝ × ℝ × ℝ := fun k => Nat.rec (1, 0, 0, 0, X₀) next k
  have hp : ∀ k, 0 < (c k).1 ∧ (c k).1 < 10 := by
    intro k
    induction k with
    | zero => exact ⟨one_pos, by show (1 : ℝ) < 10; norm_num⟩
    | succ k ih =>
      show 0 < 1 * 1 * ((c k).1 / (1 - 1/10 * (c k).1 + (c k).1)) + 1 ∧ 1 * 1 * ((c k).1 / (1 - 1/10 * (c k).1 + (c k).1)) + 1 < 10
      generalize (c k).1 = p at ih
      have hd : 0 < 1 - 1/10 * p + p := by linarith [ih.1]
      have h1 : 0 < p / (1 - 1/10 * p + p) := div_pos ih.1 hd
      have h2 : p / (1 - 1/10 * p + p) < 2 := by rw [div_lt_iff₀ hd]; linarith [ih.1]
      constructor <;> linarith
  refine ⟨fun k => hinfOne 1 (1/10) (c k).1 (c k).2.1 (c k).2.2.1 (c k).2.2.2.1, fun k => vc (c k).2.2.2.2, rfl, rfl, fun k => ?_,
    fun k => ?_⟩
  · exact hinfOne_admissible (by norm_num) (hp k).1 (by linarith [(hp k).2])
  · exact hinfOne_duel 1 (1/10) _ _ _ _ _ _ _ (by have := (hp k).1; intro h; linarith)

/-- **The guarantee fails for a moving state.** With `F = 3`, `γ = 1/10` and no disturbance at all, an initial error of one
(weighed by `P⁻¹ = 1`) grows to more than nine within two steps, and the weighed sum of the errors exceeds the bound, though the
filter is admissible all along: the gain is multiplied by `F` and the state is multiplied by `F` again. -/
theorem C99_worst_case_refuted :
    ∃ (s₀ s₁ s₂ : HInf 1 1 0) (X₀ X₁ X₂ : Vec 1), Admissible s₀ ∧ Admissible s₁ ∧ Admissible s₂ ∧
      duel (s₀, X₀) ⟨0, .scalar 0, 0⟩ = .ok (s₁, X₁) ∧ duel (s₁, X₁) ⟨0, .scalar 0, 0⟩ = .ok (s₂, X₂) ∧
      weighed s₀.P⁻¹ (X₀ - s₀.x) < s₀.gamma * (weighed s₀.Q (X₀ - s₀.x) + weighed s₀.Q (X₁ - s₁.x) + weighed s₀.Q (X₂ - s₂.x)) := by
  have h1 := hinfOne_duel 3 (1/10) 1 0 0 0 1 0 0 (by norm_num)
  have h2 := hinfOne_duel 3 (1/10) (3 * 3 * (1 / (1 - 1/10 * 1 + 1)) + 1) (3 * (0 + 3 * (1 / (1 - 1/10 * 1 + 1)) * (1 + 0 - 0)))
    (1 + 0 - 0) (1 + 0) (3 * 1 + 0) 0 0 (by norm_num)
  refine ⟨_, _, _, _, _, _, ?_, ?_, ?_, h1, h2, ?_⟩
  · exact hinfOne_admissible (by norm_num) (by norm_num) (by norm_num)
  · exact hinfOne_admissible (by norm_num) (by norm_num) (by norm_num)
  · exact hinfOne_admissible (by norm_num) (by norm_num) (by norm_num)
  · simp only [hinfOne, weighed, sc_inv _ (one_ne_zero), vc_sub, sc_mulVec, vc_dot, HInf.fresh]
    norm_num

end Filterpy
