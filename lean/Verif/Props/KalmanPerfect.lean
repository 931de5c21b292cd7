import Verif.Lemmas.Kalman

/-!
# Perfect measurements act as constraints: C83
-/

namespace Filterpy

open Matrix

variable {n m k l : ℕ}

/-- The estimate is certain that `A x = c`: its state satisfies the equation and its covariance leaves
`A x` no variance and no covariance with anything. -/
def Certain (A : Mat k n) (c : Vec k) (s : KF n m l) : Prop := A *ᵥ s.x = c ∧ A * s.P = 0

theorem certain_var {A : Mat k n} {c : Vec k} {s : KF n m l} (h : Certain A c s) : A * s.P * Aᵀ = 0 := by
  rw [h.2, Matrix.zero_mul]

/-- **C83 (a perfect measurement is believed exactly).** After `update(z, R=0)` the state reproduces the
measurement and the covariance has no uncertainty left in the measured combinations. -/
theorem C83_exact (s s' : KF n m l) (z : Vec m) (R : MatArg m) (H : Option (Mat m n))
    (hinv : s.inv = npInv) (hP : s.Pᵀ = s.P) (hR : R.resolve s.R = 0)
    (h : s.update (some z) R H = .ok s') : Certain (H.getD s.H) z s' ∧ s'.Pᵀ = s'.P := by
  obtain ⟨SI, hSI, rfl⟩ := KF.update_ok h
  rw [hinv] at hSI
  obtain ⟨hd, hSI⟩ := npInv_eq_some.1 hSI
  generalize H.getD s.H = H₁ at *
  rw [hR, add_zero] at hd hSI
  have hK : H₁ * (s.P * H₁ᵀ * SI) = 1 := by
    rw [← Matrix.mul_assoc, hSI]
    exact Matrix.mul_nonsing_inv _ (isUnit_iff_ne_zero.2 hd)
  refine ⟨⟨?_, ?_⟩, ?_⟩
  · show H₁ *ᵥ (s.x + (s.P * H₁ᵀ * SI) *ᵥ (z - H₁ *ᵥ s.x)) = z
    rw [mulVec_add, mulVec_mulVec, hK, one_mulVec]; abel
  · show H₁ * ((1 - s.P * H₁ᵀ * SI * H₁) * s.P * (1 - s.P * H₁ᵀ * SI * H₁)ᵀ + _) = 0
    rw [hR, Matrix.mul_zero, Matrix.zero_mul, add_zero, ← Matrix.mul_assoc, ← Matrix.mul_assoc,
      Matrix.mul_sub, ← Matrix.mul_assoc H₁ _ H₁, hK, Matrix.mul_one, Matrix.one_mul, sub_self,
      Matrix.zero_mul, Matrix.zero_mul]
  · show ((1 - s.P * H₁ᵀ * SI * H₁) * s.P * (1 - s.P * H₁ᵀ * SI * H₁)ᵀ
        + s.P * H₁ᵀ * SI * R.resolve s.R * (s.P * H₁ᵀ * SI)ᵀ)ᵀ
      = (1 - s.P * H₁ᵀ * SI * H₁) * s.P * (1 - s.P * H₁ᵀ * SI * H₁)ᵀ
        + s.P * H₁ᵀ * SI * R.resolve s.R * (s.P * H₁ᵀ * SI)ᵀ
    rw [hR, Matrix.mul_zero, Matrix.zero_mul, add_zero, transpose_mul, transpose_mul, transpose_transpose,
      hP]
    exact (Matrix.mul_assoc _ _ _).symm

/-- When does the perfect measurement succeed: exactly when the current uncertainty in the measured
combinations is non-singular; otherwise `numpy.linalg.inv` raises. -/
theorem C83_succeeds (s : KF n m l) (z : Vec m) (R : MatArg m) (H : Option (Mat m n))
    (hinv : s.inv = npInv) (hR : R.resolve s.R = 0) :
    (∃ s', s.update (some z) R H = .ok s') ↔ ((H.getD s.H) * (s.P * (H.getD s.H)ᵀ)).det ≠ 0 := by
  constructor
  · rintro ⟨s', h⟩
    obtain ⟨SI, hSI, -⟩ := KF.update_ok h
    rw [hinv, hR, add_zero] at hSI
    exact (npInv_eq_some.1 hSI).1
  · intro hd
    exact ⟨_, by simp only [KF.update, hinv, hR, add_zero, npInv_of_det_ne hd]; rfl⟩

/-- **C83 (measuring twice).** A second perfect measurement of the same quantities always fails, whatever
its value. -/
theorem C83_twice (s s' : KF n m l) (hm : 0 < m) (z z' : Vec m) (R : MatArg m) (H : Option (Mat m n))
    (hinv : s.inv = npInv) (hP : s.Pᵀ = s.P) (hR : R.resolve s.R = 0)
    (h : s.update (some z) R H = .ok s') :
    ∃ e, s'.update (some z') R H = .error (.linAlgError, e) := by
  obtain ⟨⟨-, hc⟩, -⟩ := C83_exact s s' z R H hinv hP hR h
  obtain ⟨SI, -, hs'⟩ := KF.update_ok h
  have e1 : s'.H = s.H := by rw [hs']
  have e2 : s'.R = s.R := by rw [hs']
  have e3 : s'.inv = npInv := by rw [hs']; exact hinv
  have : Nonempty (Fin m) := ⟨⟨0, hm⟩⟩
  have hd : npInv (H.getD s.H * (s'.P * (H.getD s.H)ᵀ) + 0) = none := by
    rw [← Matrix.mul_assoc, hc, Matrix.zero_mul, add_zero]
    exact npInv_eq_none.2 Matrix.det_zero
  exact ⟨_, by simp only [KF.update, e1, e2, e3, hR, hd]; rfl⟩

/-- Calls that respect the equation `A x = c`: measurements of any kind with a symmetric noise matrix,
missing measurements, reads of the cached statistics, changes of the fading factor, and predictions
whose dynamics keep `A x` and whose noise does not touch it. -/
def Respects (A : Mat k n) (F : Mat n n) (Q : Mat n n) (R : Mat m m) : KFOp n m l → Prop
  | .predict u _ F' Q' => u = .none ∧ A * F'.getD F = A ∧ A * Q'.resolve Q = 0 ∧ (Q'.resolve Q)ᵀ = Q'.resolve Q
  | .update (some _) R' _ => (R'.resolve R)ᵀ = R'.resolve R
  | .update none _ _ => True
  | .readLogLik => True
  | .readLik => True
  | .readMahal => True
  | .setAlpha _ => True
  | _ => False

/-- **C83 (the constraint is never forgotten).** Once certain of `A x = c`, the filter stays certain of it
through every history of calls that respect the equation. -/
theorem C83_kept (expf : ℝ → ℝ) (A : Mat k n) (c : Vec k) (s s' : KF n m l) (hinv : s.inv = npInv)
    (hP : s.Pᵀ = s.P) (hc : Certain A c s) (ops : List (KFOp n m l))
    (hops : ∀ op ∈ ops, Respects A s.F s.Q s.R op) (h : s.run expf ops = .ok s') :
    Certain A c s' ∧ s'.Pᵀ = s'.P := by
  induction ops generalizing s with
  | nil => obtain rfl := Except.ok.inj h; exact ⟨hc, hP⟩
  | cons op ops ih =>
    simp only [KF.run] at h
    cases h1 : s.step expf op with
    | error e => rw [h1] at h; cases h
    | ok s1 =>
      rw [h1] at h
      have hr := hops op (by simp)
      have key : Certain A c s1 ∧ s1.Pᵀ = s1.P ∧ s1.F = s.F ∧ s1.Q = s.Q ∧ s1.R = s.R ∧ s1.inv = s.inv := by
        cases op with
        | predict u B F' Q' =>
          obtain ⟨rfl, hF, hQ, hQs⟩ := hr
          have h2 : s.predict .none B F' Q' = .ok s1 := h1
          have hx : s1.x = F'.getD s.F *ᵥ s.x := by
            unfold KF.predict at h2
            cases hB : B.or s.B <;> simp only [KF.control, hB] at h2 <;>
              obtain rfl := Except.ok.inj h2 <;> simp
          obtain ⟨x, hs1⟩ := KF.predict_ok h2
          have hP1 : s1.P = s.alphaSq • (F'.getD s.F * s.P * (F'.getD s.F)ᵀ) + Q'.resolve s.Q := by rw [hs1]
          refine ⟨⟨?_, ?_⟩, ?_, by rw [hs1], by rw [hs1], by rw [hs1], by rw [hs1]⟩
          · rw [hx, mulVec_mulVec, hF]; exact hc.1
          · rw [hP1, Matrix.mul_add, hQ, Matrix.mul_smul, ← Matrix.mul_assoc, ← Matrix.mul_assoc, hF, hc.2]
            simp
          · rw [hP1, transpose_add, transpose_smul, hQs]
            simp only [transpose_mul, transpose_transpose, hP, Matrix.mul_assoc]
        | update z R' H' =>
          cases z with
          | none =>
            have h2 : s.update none R' H' = .ok s1 := h1
            obtain rfl := Except.ok.inj h2
            exact ⟨hc, hP, rfl, rfl, rfl, rfl⟩
          | some z =>
            have hR : (R'.resolve s.R)ᵀ = R'.resolve s.R := hr
            have h2 : s.update (some z) R' H' = .ok s1 := h1
            obtain ⟨SI, hSI, hs1⟩ := KF.update_ok h2
            generalize H'.getD s.H = H₁ at *
            generalize R'.resolve s.R = R₁ at *
            have hK : A * (s.P * H₁ᵀ * SI) = 0 := by
              rw [← Matrix.mul_assoc, ← Matrix.mul_assoc, hc.2, Matrix.zero_mul, Matrix.zero_mul]
            refine ⟨⟨?_, ?_⟩, ?_, by rw [hs1], by rw [hs1], by rw [hs1], by rw [hs1]⟩
            · rw [show s1.x = s.x + (s.P * H₁ᵀ * SI) *ᵥ (z - H₁ *ᵥ s.x) by rw [hs1], mulVec_add, mulVec_mulVec,
                hK, zero_mulVec, add_zero]
              exact hc.1
            · rw [show s1.P = (1 - s.P * H₁ᵀ * SI * H₁) * s.P * (1 - s.P * H₁ᵀ * SI * H₁)ᵀ
                + s.P * H₁ᵀ * SI * R₁ * (s.P * H₁ᵀ * SI)ᵀ by rw [hs1]]
              rw [Matrix.mul_add, ← Matrix.mul_assoc, ← Matrix.mul_assoc, Matrix.mul_sub, Matrix.mul_one,
                ← Matrix.mul_assoc A _ H₁, hK, Matrix.zero_mul, sub_zero, hc.2, Matrix.zero_mul, zero_add,
                ← Matrix.mul_assoc, ← Matrix.mul_assoc, hK, Matrix.zero_mul, Matrix.zero_mul]
            · rw [show s1.P = (1 - s.P * H₁ᵀ * SI * H₁) * s.P * (1 - s.P * H₁ᵀ * SI * H₁)ᵀ
                + s.P * H₁ᵀ * SI * R₁ * (s.P * H₁ᵀ * SI)ᵀ by rw [hs1], transpose_add]
              generalize 1 - s.P * H₁ᵀ * SI * H₁ = A₁
              generalize s.P * H₁ᵀ * SI = K₁
              simp only [transpose_mul, transpose_transpose, hP, hR, Matrix.mul_assoc]
        | readLogLik =>
          obtain rfl := Except.ok.inj h1
          unfold KF.readLogLik
          cases s.logLik <;> exact ⟨hc, hP, rfl, rfl, rfl, rfl⟩
        | readLik =>
          obtain rfl := Except.ok.inj h1
          unfold KF.readLik KF.readLogLik
          cases s.lik <;> cases s.logLik <;> exact ⟨hc, hP, rfl, rfl, rfl, rfl⟩
        | readMahal =>
          simp only [KF.step, KF.readMahal] at h1
          cases hm : s.mahal with
          | some v => simp only [hm] at h1; obtain rfl := Except.ok.inj h1; exact ⟨hc, hP, rfl, rfl, rfl, rfl⟩
          | none =>
            simp only [hm] at h1
            by_cases hd : s.y ⬝ᵥ (s.SI *ᵥ s.y) < 0
            · simp only [if_pos hd] at h1; cases h1
            · simp only [if_neg hd] at h1
              obtain rfl := Except.ok.inj h1
              exact ⟨hc, hP, rfl, rfl, rfl, rfl⟩
        | setAlpha v =>
          have h2 : s.setAlpha v = .ok s1 := h1
          unfold KF.setAlpha at h2
          split_ifs at h2
          obtain rfl := Except.ok.inj h2
          exact ⟨hc, hP, rfl, rfl, rfl, rfl⟩
        | updateSequential => exact hr.elim
        | predictSteadystate => exact hr.elim
        | updateSteadystate => exact hr.elim
        | updateCorrelated => exact hr.elim
      obtain ⟨a, b, f1, q1, r1, i1⟩ := key
      exact ih s1 (i1.trans hinv) b a (fun op ho => by rw [f1, q1, r1]; exact hops op (by simp [ho])) h

/-- Non-vacuity: of two coordinates the sum is measured perfectly, then each is measured with noise in turn;
the first coordinate estimate moves, the sum does not. -/
example (expf : ℝ → ℝ) : ∃ s1 s2 : KF 2 1 0,
    (KF.fresh 2 1 0).update (some ![3]) (.mat 0) (some !![1, 1]) = .ok s1 ∧ Certain !![1, 1] ![3] s1 ∧
    s1.run expf [.update (some ![2]) .none (some !![1, 0]), .update none .none none, .readLogLik] = .ok s2 ∧
    Certain !![1, 1] ![3] s2 := by
  have hd : ((!![1, 1] : Mat 1 2) * ((KF.fresh 2 1 0).P * (!![1, 1] : Mat 1 2)ᵀ)).det ≠ 0 := by
    show ((!![1, 1] : Mat 1 2) * ((1 : Mat 2 2) * (!![1, 1] : Mat 1 2)ᵀ)).det ≠ 0
    rw [Matrix.one_mul, Matrix.det_unique, Matrix.mul_apply, Fin.sum_univ_two]
    norm_num
  obtain ⟨s1, h1⟩ := (C83_succeeds (KF.fresh 2 1 0) ![3] (.mat 0) (some !![1, 1]) rfl rfl).2 hd
  obtain ⟨c1, p1⟩ := C83_exact _ s1 _ _ _ rfl (by exact transpose_one) rfl h1
  obtain ⟨SI, -, hs1⟩ := KF.update_ok h1
  have hpsd : s1.P.PosSemidef := by
    rw [hs1]; exact joseph_psd (H := !![1, 1]) (R := 0) PosSemidef.one PosSemidef.zero _
  have hS : ((!![1, 0] : Mat 1 2) * (s1.P * (!![1, 0] : Mat 1 2)ᵀ) + (1 : Mat 1 1)).PosDef :=
    S_pd hpsd PosDef.one
  have hrun : ∃ s2, s1.run expf [.update (some ![2]) .none (some !![1, 0]), .update none .none none, .readLogLik]
      = .ok s2 := by
    have hR : s1.R = 1 := by rw [hs1]; rfl
    have hi : s1.inv = npInv := by rw [hs1]; rfl
    have : ∃ s', s1.update (some ![2]) .none (some !![1, 0]) = .ok s' :=
      ⟨_, by simp only [KF.update, MatArg.resolve, Option.getD_some, hi, hR, npInv_of_det_ne (PD.det_ne hS)]; rfl⟩
    obtain ⟨s', h'⟩ := this
    exact ⟨_, by simp only [KF.run, KF.step, h']; rfl⟩
  obtain ⟨s2, h2⟩ := hrun
  refine ⟨s1, s2, h1, c1, h2, (C83_kept expf _ _ s1 s2 (by rw [hs1]; rfl) p1 c1 _ ?_ h2).1⟩
  intro op hop
  simp only [List.mem_cons, List.not_mem_nil, or_false] at hop
  rcases hop with rfl | rfl | rfl
  · show s1.Rᵀ = s1.R
    rw [hs1]; exact transpose_one
  · trivial
  · trivial

end Filterpy
