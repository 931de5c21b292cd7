import Verif.Props.KalmanMonotone
import Verif.Props.KalmanStochastic
import Verif.Props.FadingKF

/-!
# The fading filter is exponentially discounted least squares: C100
-/

namespace Filterpy
open Matrix Spec

variable {n m l : ℕ}

/-- A call: the state moves without noise, a measurement arrives, or one is missed. -/
inductive Spec.Beat (n m l : ℕ)
  | move (u : Option (Vec l)) (F : Option (Mat n n))
  | sense (z : Vec m) (R : MatArg m) (H : Option (Mat m n))
  | miss

/-- The call on the filter. -/
def Spec.Beat.call : Beat n m l → KFOp n m l
  | .move u F => .predict (uArg u) none F .none
  | .sense z R H => .update (some z) R H
  | .miss => .update none .none none

/-- The number of movements. -/
def Spec.moves : List (Beat n m l) → ℕ
  | [] => 0
  | .move _ _ :: bs => moves bs + 1
  | .sense _ _ _ :: bs => moves bs
  | .miss :: bs => moves bs

/-- The state that the model leads to from `X`. -/
noncomputable def Spec.follow (s : KF n m l) : Vec n → List (Beat n m l) → Vec n
  | X, [] => X
  | X, .move u F :: bs => follow s (F.getD s.F *ᵥ X + controlEffect s.B u) bs
  | X, .sense _ _ _ :: bs => follow s X bs
  | X, .miss :: bs => follow s X bs

/-- The misfit to the measurements of the trajectory that starts in `X`.  A squared residual counts in full when it is new,
and `α²` times less with every movement since. -/
noncomputable def Spec.misfit (s : KF n m l) : Vec n → List (Beat n m l) → ℝ
  | _, [] => 0
  | X, .move u F :: bs => misfit s (F.getD s.F *ᵥ X + controlEffect s.B u) bs
  | X, .sense z R H :: bs =>
    sqLen (R.resolve s.R) (z - H.getD s.H *ᵥ X) / s.alphaSq ^ moves bs + misfit s X bs
  | X, .miss :: bs => misfit s X bs

/-- The discounted least squares cost of the trajectory that starts in `X`: its distance from the initial estimate, which is
discounted like a measurement made at the start, and its misfit to the measurements. -/
noncomputable def Spec.discounted (s : KF n m l) (bs : List (Beat n m l)) (X : Vec n) : ℝ :=
  sqLen s.P (X - s.x) / s.alphaSq ^ moves bs + misfit s X bs

/-- Every movement is invertible and every measurement has a positive definite noise. -/
def Spec.Beat.Proper (s : KF n m l) : Beat n m l → Prop
  | .move _ F => (F.getD s.F).det ≠ 0
  | .sense _ R _ => (R.resolve s.R).PosDef
  | .miss => True

theorem push_pd {A : Mat n n} (hA : A.det ≠ 0) {P : Mat n n} (hP : P.PosDef) {a : ℝ} (ha : 0 < a) :
    (a • (A * P * Aᵀ) + 0).PosDef := by
  rw [add_zero]
  refine PosDef.smul ?_ ha
  have := hP.mul_mul_conjTranspose_same (B := A) (vecMul_injective_of_isUnit ((isUnit_iff_isUnit_det A).2 (Ne.isUnit hA)))
  simpa [conjTranspose_eq_transpose_of_trivial] using this

theorem sqLen_push {A : Mat n n} (hA : A.det ≠ 0) {P : Mat n n} (hP : P.PosDef) {a : ℝ} (ha : 0 < a) (v : Vec n) :
    sqLen (a • (A * P * Aᵀ) + 0) (A *ᵥ v) = sqLen P v / a := by
  have hu : IsUnit A.det := Ne.isUnit hA
  have hAi : A⁻¹ * A = 1 := nonsing_inv_mul _ hu
  have hd : (A * P * Aᵀ).det ≠ 0 := by
    rw [det_mul, det_mul, det_transpose]
    exact mul_ne_zero (mul_ne_zero hA (PD.isUnit_det hP).ne_zero) hA
  have e : (a • (A * P * Aᵀ) + 0)⁻¹ = a⁻¹ • ((Aᵀ)⁻¹ * P⁻¹ * A⁻¹) := by
    have := invertibleOfNonzero ha.ne'
    rw [add_zero, Matrix.inv_smul _ a (Ne.isUnit hd), invOf_eq_inv, Matrix.mul_inv_rev, Matrix.mul_inv_rev, Matrix.mul_assoc]
  unfold sqLen
  rw [e, smul_mulVec, dotProduct_smul, ← mulVec_mulVec, mulVec_mulVec v A⁻¹ A, hAi, one_mulVec, ← mulVec_mulVec,
    dotProduct_mulVec (A *ᵥ v), ← mulVec_transpose, transpose_nonsing_inv, transpose_transpose, mulVec_mulVec v A⁻¹ A, hAi,
    one_mulVec, smul_eq_mul]
  ring

/-- The movement keeps the discounted distance. -/
theorem predict_beat (s : KF n m l) (u : Option (Vec l)) (F : Option (Mat n n)) (hQ : s.Q = 0) (ha : 0 < s.alphaSq)
    (hP : s.P.PosDef) (hF : (F.getD s.F).det ≠ 0) :
    ∃ s', s.predict (uArg u) none F .none = .ok s' ∧ s'.P.PosDef ∧
      (∀ X, sqLen s'.P (F.getD s.F *ᵥ X + controlEffect s.B u - s'.x) = sqLen s.P (X - s.x) / s.alphaSq) ∧
      s'.B = s.B ∧ s'.F = s.F ∧ s'.H = s.H ∧ s'.R = s.R ∧ s'.Q = s.Q ∧ s'.alphaSq = s.alphaSq ∧ s'.inv = s.inv := by
  have h : ∃ s', s.predict (uArg u) none F .none = .ok s' := by
    unfold KF.predict
    cases hB : s.B <;> cases u <;> simp [KF.control, uArg]
  obtain ⟨s', h⟩ := h
  have hx := predict_truth h
  obtain ⟨x, rfl⟩ := KF.predict_ok h
  refine ⟨_, h, ?_, ?_, rfl, rfl, rfl, rfl, rfl, rfl, rfl⟩
  · simp only [MatArg.resolve, hQ]; exact push_pd hF hP ha
  · intro X
    simp only [MatArg.resolve, hQ]
    rw [← sqLen_push hF hP ha]
    simp only [Option.none_or] at hx
    rw [hx, mulVec_sub]
    congr 1
    abel

/-- The measurement adds its residual. -/
theorem update_beat (s : KF n m l) (z : Vec m) (R : MatArg m) (H : Option (Mat m n)) (hinv : s.inv = npInv)
    (hP : s.P.PosDef) (hR : (R.resolve s.R).PosDef) :
    ∃ s', s.update (some z) R H = .ok s' ∧ s'.P.PosDef ∧
      (∃ c, ∀ X, sqLen s.P (X - s.x) + sqLen (R.resolve s.R) (z - H.getD s.H *ᵥ X) = sqLen s'.P (X - s'.x) + c) ∧
      s'.B = s.B ∧ s'.F = s.F ∧ s'.H = s.H ∧ s'.R = s.R ∧ s'.Q = s.Q ∧ s'.alphaSq = s.alphaSq ∧ s'.inv = s.inv := by
  obtain ⟨s1, h1, e0, -, -, e2, e1, -⟩ := update_pd s z R H hinv hP hR
  obtain ⟨SI, g1, g2⟩ := KF.update_ok h1
  obtain ⟨i1, -, -⟩ := info_step (H := H.getD s.H) hP hR s.x z
  have hpd : s1.P.PosDef := by
    rw [hinv] at g1
    obtain ⟨-, rfl⟩ := npInv_eq_some.1 g1
    rw [g2]; exact i1
  refine ⟨s1, h1, hpd, ⟨sqLen (H.getD s.H * (s.P * (H.getD s.H)ᵀ) + R.resolve s.R) (z - H.getD s.H *ᵥ s.x), fun X => ?_⟩, ?_⟩
  · have h := complete_square (H := H.getD s.H) hP hR (X - s.x) (z - H.getD s.H *ᵥ s.x)
    have e3 : z - H.getD s.H *ᵥ s.x - H.getD s.H *ᵥ (X - s.x) = z - H.getD s.H *ᵥ X := by rw [mulVec_sub]; abel
    have e4 : X - s1.x = X - s.x - (s.P * (H.getD s.H)ᵀ * (H.getD s.H * (s.P * (H.getD s.H)ᵀ) + R.resolve s.R)⁻¹) *ᵥ
        (z - H.getD s.H *ᵥ s.x) := by rw [e2, e0]; abel
    rw [e0] at e1
    rw [e3, ← e4, ← e1] at h
    exact h
  · rw [g2]; exact ⟨rfl, rfl, rfl, rfl, rfl, rfl, rfl⟩

theorem discounted_run (expf : ℝ → ℝ) (s0 : KF n m l) (bs : List (Beat n m l)) : ∀ s : KF n m l, s.inv = npInv → s.Q = 0 →
    0 < s0.alphaSq → s.P.PosDef → (∀ b ∈ bs, b.Proper s0) →
    s.B = s0.B → s.F = s0.F → s.H = s0.H → s.R = s0.R → s.alphaSq = s0.alphaSq →
    ∃ s', s.run expf (bs.map Beat.call) = .ok s' ∧ s'.P.PosDef ∧ ∃ c, ∀ X,
      sqLen s.P (X - s.x) / s0.alphaSq ^ moves bs + misfit s0 X bs = sqLen s'.P (follow s0 X bs - s'.x) + c := by
  induction bs with
  | nil =>
    intro s _ _ _ hP _ _ _ _ _ _
    exact ⟨s, rfl, hP, 0, fun X => by simp [moves, misfit, follow]⟩
  | cons b bs ih =>
    intro s hinv hQ ha hP hok eB eF eH eR ea
    have hb := hok b (by simp)
    have hbs : ∀ b ∈ bs, b.Proper s0 := fun b h => hok b (by simp [h])
    cases b with
    | move u F =>
      simp only [Beat.Proper, ← eF] at hb
      obtain ⟨s1, h1, p1, k1, f1, f2, f3, f4, f5, f6, f7⟩ := predict_beat s u F hQ (by rw [ea]; exact ha) hP hb
      obtain ⟨s', h2, p2, c, k2⟩ := ih s1 (f7.trans hinv) (f5.trans hQ) ha p1 hbs (f1.trans eB) (f2.trans eF) (f3.trans eH)
        (f4.trans eR) (f6.trans ea)
      refine ⟨s', ?_, p2, c, fun X => ?_⟩
      · simp only [KF.run, List.map_cons, Beat.call, KF.step, h1]; exact h2
      · simp only [moves, misfit, follow]
        rw [← eF, ← eB, ← k2, k1, ea, pow_succ']
        rw [div_div]
    | sense z R H =>
      simp only [Beat.Proper, ← eR] at hb
      obtain ⟨s1, h1, p1, ⟨c1, k1⟩, f1, f2, f3, f4, f5, f6, f7⟩ := update_beat s z R H hinv hP hb
      obtain ⟨s', h2, p2, c, k2⟩ := ih s1 (f7.trans hinv) (f5.trans hQ) ha p1 hbs (f1.trans eB) (f2.trans eF) (f3.trans eH)
        (f4.trans eR) (f6.trans ea)
      refine ⟨s', ?_, p2, c + c1 / s0.alphaSq ^ moves bs, fun X => ?_⟩
      · simp only [KF.run, List.map_cons, Beat.call, KF.step, h1]; exact h2
      · simp only [moves, misfit, follow]
        rw [← eR, ← eH, ← add_assoc, ← add_div, k1, add_div, ← add_assoc, ← k2]
        ring
    | miss =>
      obtain ⟨s', h2, p2, c, k2⟩ := ih s.updateNone hinv hQ ha hP hbs eB eF eH
        eR ea
      refine ⟨s', ?_, p2, c, fun X => ?_⟩
      · simp only [KF.run, List.map_cons, Beat.call, KF.step]; exact h2
      · simp only [moves, misfit, follow]
        exact k2 X

theorem follow_onto (s : KF n m l) (bs : List (Beat n m l)) (hok : ∀ b ∈ bs, b.Proper s) (Y : Vec n) :
    ∃ X, follow s X bs = Y := by
  induction bs with
  | nil => exact ⟨Y, rfl⟩
  | cons b bs ih =>
    obtain ⟨Z, hZ⟩ := ih fun b h => hok b (by simp [h])
    have hb := hok b (by simp)
    cases b with
    | move u F =>
      refine ⟨(F.getD s.F)⁻¹ *ᵥ (Z - controlEffect s.B u), ?_⟩
      simp only [follow]
      rw [mulVec_mulVec, mul_nonsing_inv _ (Ne.isUnit hb), one_mulVec, sub_add_cancel, hZ]
    | sense z R H => exact ⟨Z, hZ⟩
    | miss => exact ⟨Z, hZ⟩

theorem follow_inj (s : KF n m l) (bs : List (Beat n m l)) : (∀ b ∈ bs, b.Proper s) → ∀ X Y,
    follow s X bs = follow s Y bs → X = Y := by
  induction bs with
  | nil => intro _ X Y h; exact h
  | cons b bs ih =>
    intro hok X Y h
    have hb := hok b (by simp)
    have ih := ih fun b h => hok b (by simp [h])
    cases b with
    | move u F =>
      have h := add_right_cancel (ih _ _ h)
      have h := congrArg ((F.getD s.F)⁻¹ *ᵥ ·) h
      simpa [mulVec_mulVec, nonsing_inv_mul _ (Ne.isUnit hb : IsUnit (F.getD s.F).det)] using h
    | sense z R H => exact ih _ _ h
    | miss => exact ih _ _ h

/-- **C100.** A filter with a fading factor `alpha` and no process noise, after any history of `predict` (with or without a
control, with or without its own invertible `F`), `update` (with or without its own `R` and `H`) and missed measurements: `x`
is where the trajectory ends whose discounted least squares cost is the smallest.  Only one trajectory has that cost, and
`P` measures how fast the cost grows with the distance of the end point from `x`. -/
theorem C100_discounted_least_squares (expf : ℝ → ℝ) (s : KF n m l) (bs : List (Beat n m l)) (hinv : s.inv = npInv)
    (hQ : s.Q = 0) (ha : 0 < s.alphaSq) (hP : s.P.PosDef) (hok : ∀ b ∈ bs, b.Proper s) :
    ∃ s', s.run expf (bs.map Beat.call) = .ok s' ∧ s'.P.PosDef ∧ ∃ best, follow s best bs = s'.x ∧
      (∀ X, discounted s bs X = discounted s bs best + sqLen s'.P (follow s X bs - s'.x)) ∧
      ∀ X, X ≠ best → discounted s bs best < discounted s bs X := by
  obtain ⟨s', h1, h2, c, h3⟩ := discounted_run expf s bs s hinv hQ ha hP hok rfl rfl rfl rfl rfl
  obtain ⟨best, hbest⟩ := follow_onto s bs hok s'.x
  have key : ∀ X, discounted s bs X = discounted s bs best + sqLen s'.P (follow s X bs - s'.x) := by
    intro X
    have hb := h3 best
    rw [hbest] at hb
    simp only [discounted, h3 X, hb]
    simp [sqLen, add_comm]
  refine ⟨s', h1, h2, best, hbest, key, fun X hX => ?_⟩
  have : 0 < sqLen s'.P (follow s X bs - s'.x) := PD.quad h2.inv (sub_ne_zero.2 fun h =>
    hX (follow_inj s bs hok _ _ (h.trans hbest.symm)))
  rw [key X]; linarith

/-- A call on the `FadingKalmanFilter` class, which takes no `F` and no `H`. -/
def FadingOp.beat : FadingOp m l → Beat n m l
  | .predict u => .move u none
  | .update (some z) R => .sense z R none
  | .update none _ => .miss

theorem beat_call (expf : ℝ → ℝ) (s : KF n m l) (op : FadingOp m l) :
    op.onKF s = s.step expf (op.beat (n := n)).call := by
  cases op with
  | predict u => cases u <;> rfl
  | update z R => cases z <;> rfl

/-- **C100** for the `FadingKalmanFilter` class.  `b` is the `KalmanFilter` with the same attributes, in which the cost is
written. -/
theorem C100_fading_class (a : FKF n m l) (b : KF n m l) (h : FadingSame a b) (ops : List (FadingOp m l))
    (hs : ∀ op ∈ ops, op.Shaped n b.B) (hQ : a.Q = 0) (ha : 0 < a.alphaSq) (hP : a.P.PosDef) (hF : a.F.det ≠ 0)
    (hR : ∀ z R, FadingOp.update (some z) R ∈ ops → (R.resolve a.R).PosDef) :
    ∃ a', runList FadingOp.onFKF a ops = .ok a' ∧ ∃ best, follow b best (ops.map FadingOp.beat) = a'.x ∧
      (∀ X, discounted b (ops.map FadingOp.beat) X =
        discounted b (ops.map FadingOp.beat) best + sqLen a'.P (follow b X (ops.map FadingOp.beat) - a'.x)) ∧
      ∀ X, X ≠ best → discounted b (ops.map FadingOp.beat) best < discounted b (ops.map FadingOp.beat) X := by
  obtain ⟨s', h1, -, h2⟩ := C100_discounted_least_squares id b (ops.map FadingOp.beat) h.inv (h.Q ▸ hQ) (h.alphaSq ▸ ha)
    (h.P ▸ hP) (by
      intro e he
      obtain ⟨op, hop, rfl⟩ := List.mem_map.1 he
      cases op with
      | predict u => simpa [FadingOp.beat, Beat.Proper, ← h.F] using hF
      | update z R =>
        cases z with
        | none => exact trivial
        | some z => simpa [FadingOp.beat, Beat.Proper, ← h.R] using hR z R hop)
  have e : runList FadingOp.onKF b ops = .ok s' := by
    rw [← h1, List.map_map]
    clear h1 h2 hs hR h
    induction ops generalizing b with
    | nil => rfl
    | cons op ops ih =>
      simp only [runList, List.map_cons, KF.run, Function.comp]
      rw [beat_call id b op]
      split <;> simp_all
  have hA := C18_fading_equiv a b h ops hs
  rw [e] at hA
  cases hf : runList FadingOp.onFKF a ops with
  | error e => rw [hf] at hA; exact hA.elim
  | ok a' =>
    rw [hf] at hA
    refine ⟨a', rfl, ?_⟩
    rw [hA.x, hA.P]
    exact h2

/-- Non-vacuity: constant velocity with `alpha = 1.1`, a missed measurement and a more noisy one. -/
example : ∃ s', ({ cvKF with Q := 0, alphaSq := 1.21 } : KF 2 1 1).run id
    ([.move none none, .sense ![1] .none none, .move none none, .miss, .move (some ![1]) none,
      .sense ![2] (.scalar 4) none].map Beat.call) = .ok s' ∧ s'.P.PosDef := by
  obtain ⟨s', h1, h2, -⟩ := C100_discounted_least_squares id { cvKF with Q := 0, alphaSq := 1.21 }
    [.move none none, .sense ![1] .none none, .move none none, .miss, .move (some ![1]) none,
      .sense ![2] (.scalar 4) none] rfl rfl (by norm_num) PosDef.one (by
      intro b hb
      simp only [List.mem_cons, List.not_mem_nil, or_false] at hb
      rcases hb with rfl | rfl | rfl | rfl | rfl | rfl
      all_goals simp only [Beat.Proper, MatArg.resolve, Option.getD_none, cvKF, det_fin_two]
      · simp
      · exact PosDef.one
      · simp
      · simp
      · exact PosDef.smul PosDef.one (by norm_num))
  exact ⟨s', h1, h2⟩

end Filterpy
