import Verif.Model.KalmanOps
import Verif.Lemmas.Mat

/-! # Helper lemmas about the KalmanFilter model -/

namespace Filterpy.KF

open Matrix

variable {n m l : ℕ} (expf : ℝ → ℝ)

theorem run_append (s : KF n m l) (a b : List (KFOp n m l)) :
    s.run expf (a ++ b) = match s.run expf a with
      | .ok s' => s'.run expf b
      | .error e => .error e := by
  induction a generalizing s with
  | nil => rfl
  | cons op a ih =>
    simp only [List.cons_append, run]
    cases s.step expf op with
    | ok s' => exact ih s'
    | error e => rfl

theorem run_append_ok {s s' : KF n m l} {a b : List (KFOp n m l)}
    (h : s.run expf (a ++ b) = .ok s') :
    ∃ s1, s.run expf a = .ok s1 ∧ s1.run expf b = .ok s' := by
  rw [run_append] at h
  cases h1 : s.run expf a with
  | ok s1 => rw [h1] at h; exact ⟨s1, rfl, h⟩
  | error e => rw [h1] at h; cases h

/-- Closed form of a successful `predict`. -/
theorem predict_ok {s s' : KF n m l} {u B F Q} (h : s.predict u B F Q = .ok s') :
    ∃ x : Vec n, s' = { s with
      x := x
      P := s.alphaSq • (F.getD s.F * s.P * (F.getD s.F)ᵀ) + Q.resolve s.Q
      xPrior := x
      PPrior := s.alphaSq • (F.getD s.F * s.P * (F.getD s.F)ᵀ) + Q.resolve s.Q } := by
  unfold predict at h
  cases hc : control (B.or s.B) u with
  | error e => simp [hc] at h
  | ok bu => simp only [hc, Except.ok.injEq] at h; exact ⟨_, h.symm⟩

theorem predict_err {s : KF n m l} {u B F Q e} (h : s.predict u B F Q = .error e) : e.2 = s := by
  unfold predict at h
  cases hc : control (B.or s.B) u with
  | error e => simp [hc] at h; simp [← h]
  | ok bu => simp [hc] at h

theorem steadyControl_vec (B : Option (Mat n l)) (u : Vec l) :
    steadyControl B (.vec u) = control B (.vec u) := by
  cases B <;> rfl

theorem steadyControl_of_ne (B : Option (Mat n l)) {u : UArg l} (h : u ≠ .none) :
    steadyControl B u = control B u := by
  cases B <;> cases u <;> first | rfl | exact absurd rfl h

theorem predictSteadystate_ok {s s' : KF n m l} {u B} (h : s.predictSteadystate u B = .ok s') :
    ∃ x : Vec n, s' = { s with x := x, xPrior := x, PPrior := s.P } := by
  unfold predictSteadystate at h
  cases hc : steadyControl (B.or s.B) u with
  | error e => simp [hc] at h
  | ok bu => simp only [hc, Except.ok.injEq] at h; exact ⟨_, h.symm⟩

theorem predictSteadystate_err {s : KF n m l} {u B e}
    (h : s.predictSteadystate u B = .error e) : e.2 = s := by
  unfold predictSteadystate at h
  cases hc : steadyControl (B.or s.B) u with
  | error e => simp [hc] at h; simp [← h]
  | ok bu => simp [hc] at h

/-- Closed form of a successful `update(z)`. -/
theorem update_ok {s s' : KF n m l} {z : Vec m} {R H} (h : s.update (some z) R H = .ok s') :
    ∃ SI, s.inv ((H.getD s.H) * (s.P * (H.getD s.H)ᵀ) + R.resolve s.R) = some SI ∧
      s' = { s with
        logLik := none, lik := none, mahal := none
        y := z - (H.getD s.H) *ᵥ s.x
        S := (H.getD s.H) * (s.P * (H.getD s.H)ᵀ) + R.resolve s.R
        SI := SI
        K := s.P * (H.getD s.H)ᵀ * SI
        x := s.x + (s.P * (H.getD s.H)ᵀ * SI) *ᵥ (z - (H.getD s.H) *ᵥ s.x)
        P := (1 - s.P * (H.getD s.H)ᵀ * SI * H.getD s.H) * s.P *
              (1 - s.P * (H.getD s.H)ᵀ * SI * H.getD s.H)ᵀ
              + s.P * (H.getD s.H)ᵀ * SI * R.resolve s.R * (s.P * (H.getD s.H)ᵀ * SI)ᵀ
        z := fun i => some (z i)
        xPost := s.x + (s.P * (H.getD s.H)ᵀ * SI) *ᵥ (z - (H.getD s.H) *ᵥ s.x)
        PPost := (1 - s.P * (H.getD s.H)ᵀ * SI * H.getD s.H) * s.P *
              (1 - s.P * (H.getD s.H)ᵀ * SI * H.getD s.H)ᵀ
              + s.P * (H.getD s.H)ᵀ * SI * R.resolve s.R * (s.P * (H.getD s.H)ᵀ * SI)ᵀ } := by
  unfold update at h
  simp only at h
  cases hc : s.inv ((H.getD s.H) * (s.P * (H.getD s.H)ᵀ) + R.resolve s.R) with
  | none => simp [hc] at h
  | some SI =>
    refine ⟨SI, rfl, ?_⟩
    simp only [hc, Except.ok.injEq] at h
    exact h.symm

theorem update_err {s : KF n m l} {z R H e} (h : s.update z R H = .error e) :
    ∃ y S, e = (.linAlgError,
      { s with logLik := none, lik := none, mahal := none, y := y, S := S }) := by
  unfold update at h
  cases z with
  | none => simp at h
  | some z =>
    simp only at h
    cases hc : s.inv ((H.getD s.H) * (s.P * (H.getD s.H)ᵀ) + R.resolve s.R) with
    | none => simp only [hc, Except.error.injEq] at h; exact ⟨_, _, h.symm⟩
    | some SI => simp [hc] at h

theorem updateCorrelated_ok {s s' : KF n m l} {z : Vec m} {R H}
    (h : s.updateCorrelated (some z) R H = .ok s') :
    ∃ SI, s.inv ((H.getD s.H) * (s.P * (H.getD s.H)ᵀ) + (H.getD s.H) * s.M
        + s.Mᵀ * (H.getD s.H)ᵀ + R.resolve s.R) = some SI ∧
      s' = { s with
        logLik := none, lik := none, mahal := none
        y := z - (H.getD s.H) *ᵥ s.x
        S := (H.getD s.H) * (s.P * (H.getD s.H)ᵀ) + (H.getD s.H) * s.M
          + s.Mᵀ * (H.getD s.H)ᵀ + R.resolve s.R
        SI := SI
        K := (s.P * (H.getD s.H)ᵀ + s.M) * SI
        x := s.x + ((s.P * (H.getD s.H)ᵀ + s.M) * SI) *ᵥ (z - (H.getD s.H) *ᵥ s.x)
        P := s.P - ((s.P * (H.getD s.H)ᵀ + s.M) * SI) * (H.getD s.H * s.P + s.Mᵀ)
        z := fun i => some (z i)
        xPost := s.x + ((s.P * (H.getD s.H)ᵀ + s.M) * SI) *ᵥ (z - (H.getD s.H) *ᵥ s.x)
        PPost := s.P - ((s.P * (H.getD s.H)ᵀ + s.M) * SI) * (H.getD s.H * s.P + s.Mᵀ) } := by
  unfold updateCorrelated at h
  simp only at h
  cases hc : s.inv ((H.getD s.H) * (s.P * (H.getD s.H)ᵀ) + (H.getD s.H) * s.M
        + s.Mᵀ * (H.getD s.H)ᵀ + R.resolve s.R) with
  | none => simp [hc] at h
  | some SI =>
    refine ⟨SI, rfl, ?_⟩
    simp only [hc, Except.ok.injEq] at h
    exact h.symm

theorem updateCorrelated_err {s : KF n m l} {z R H e}
    (h : s.updateCorrelated z R H = .error e) :
    ∃ y S, e = (.linAlgError,
      { s with logLik := none, lik := none, mahal := none, y := y, S := S }) := by
  unfold updateCorrelated at h
  cases z with
  | none => simp at h
  | some z =>
    simp only at h
    cases hc : s.inv ((H.getD s.H) * (s.P * (H.getD s.H)ᵀ) + (H.getD s.H) * s.M
        + s.Mᵀ * (H.getD s.H)ᵀ + R.resolve s.R) with
    | none => simp only [hc, Except.error.injEq] at h; exact ⟨_, _, h.symm⟩
    | some SI => simp [hc] at h

/-- A slice past the end never raises anything but `ValueError`. -/
theorem sliceErr_cases {len : ℕ} (Ri : MatArg len) (Hi : Option (Mat len n)) :
    sliceErr len Ri Hi = .shape ∨ sliceErr len Ri Hi = .valueError := by
  unfold sliceErr
  split <;> simp

/-- What a successful `update_sequential` does to the object. -/
theorem updateSequential_ok {s s' : KF n m l} {start len : ℕ} {zi : Vec len} {Ri Hi}
    (h : s.updateSequential start zi Ri Hi = .ok s') :
    ∃ (hb : start + len ≤ m) (Ki : Mat n len),
      let R := Ri.resolve (s.R.submatrix (sliceIdx hb) (sliceIdx hb))
      let H := Hi.getD (s.H.submatrix (sliceIdx hb) id)
      let S := H * (s.P * Hᵀ) + R
      S.det ≠ 0 ∧ Ki = s.P * Hᵀ * S⁻¹ ∧
      s' = { s with
        y := sliceSet hb s.y (zi - H *ᵥ s.x)
        K := fun i => sliceSet hb (s.K i) (Ki i)
        x := s.x + Ki *ᵥ (zi - H *ᵥ s.x)
        P := (1 - Ki * H) * s.P * (1 - Ki * H)ᵀ + Ki * R * Kiᵀ
        z := sliceSet hb s.z (fun i => some (zi i))
        xPost := s.x + Ki *ᵥ (zi - H *ᵥ s.x)
        PPost := (1 - Ki * H) * s.P * (1 - Ki * H)ᵀ + Ki * R * Kiᵀ } := by
  unfold updateSequential at h
  split at h
  · rename_i hb
    refine ⟨hb, ?_⟩
    simp only at h
    split at h
    · cases h
    · rename_i Ki hK
      simp only [Except.ok.injEq] at h
      refine ⟨Ki, ?_, ?_, h.symm⟩ <;> split at hK
      · rename_i hl; subst hl
        split at hK
        · cases hK
        · rename_i h0
          rw [Matrix.det_fin_one]; exact h0
      · split at hK
        · cases hK
        · rename_i hi; exact (npInv_eq_some.1 hi).1
      · rename_i hl; subst hl
        split at hK
        · cases hK
        · rename_i h0
          simp only [Except.ok.injEq] at hK
          rw [← hK]
          set S := (Hi.getD (s.H.submatrix (sliceIdx hb) id)) * (s.P *
            (Hi.getD (s.H.submatrix (sliceIdx hb) id))ᵀ)
            + Ri.resolve (s.R.submatrix (sliceIdx hb) (sliceIdx hb)) with hS
          have : S⁻¹ = (1.0 / S 0 0) • (1 : Mat 1 1) := by
            rw [Matrix.inv_def, Matrix.adjugate_subsingleton, Matrix.det_fin_one]
            simp [Ring.inverse_eq_inv']; norm_num
          rw [this]; simp
      · split at hK
        · cases hK
        · rename_i hi
          simp only [Except.ok.injEq] at hK
          rw [← hK, (npInv_eq_some.1 hi).2]
  · cases h

theorem updateSequential_err {s : KF n m l} {start len : ℕ} {zi : Vec len} {Ri Hi e}
    (h : s.updateSequential start zi Ri Hi = .error e) :
    ∃ y, e.2 = { s with y := y } := by
  unfold updateSequential at h
  split at h
  · simp only at h
    split at h
    · simp only [Except.error.injEq] at h; rw [← h]; exact ⟨_, rfl⟩
    · cases h
  · simp only [Except.error.injEq] at h; rw [← h]; exact ⟨s.y, rfl⟩

theorem readLogLik_state (s : KF n m l) : ∃ v, s.readLogLik.2 = { s with logLik := v } := by
  unfold readLogLik; split
  · exact ⟨s.logLik, rfl⟩
  · exact ⟨_, rfl⟩

theorem readLik_state (s : KF n m l) :
    ∃ v w, (s.readLik expf).2 = { s with logLik := v, lik := w } := by
  unfold readLik; split
  · exact ⟨s.logLik, s.lik, rfl⟩
  · obtain ⟨v, hv⟩ := readLogLik_state s
    refine ⟨v, ?_⟩
    rw [show s.readLogLik = (s.readLogLik.1, s.readLogLik.2) from rfl, hv]
    exact ⟨_, rfl⟩

theorem readMahal_state {s : KF n m l} {r} (h : s.readMahal = .ok r) :
    ∃ v, r.2 = { s with mahal := v } := by
  unfold readMahal at h; split at h
  · simp only [Except.ok.injEq] at h; rw [← h]; exact ⟨s.mahal, rfl⟩
  · simp only at h
    split at h
    · cases h
    · simp only [Except.ok.injEq] at h; rw [← h]; exact ⟨_, rfl⟩

theorem setAlpha_ok {s s' : KF n m l} {v} (h : s.setAlpha v = .ok s') :
    1 ≤ v ∧ s' = { s with alphaSq := v ^ 2 } := by
  unfold setAlpha at h; split at h
  · cases h
  · simp only [Except.ok.injEq] at h; exact ⟨by linarith, h.symm⟩

theorem setAlpha_err {s : KF n m l} {v e} (h : s.setAlpha v = .error e) :
    v < 1 ∧ e = (.valueError, s) := by
  unfold setAlpha at h; split at h
  · simp only [Except.error.injEq] at h; exact ⟨by assumption, h.symm⟩
  · cases h

/-- `update_sequential` succeeds when the block is in range and its `S` is invertible. -/
theorem updateSequential_total (s : KF n m l) {start len : ℕ} (hb : start + len ≤ m) (zi : Vec len)
    (Ri : MatArg len) (Hi : Option (Mat len n))
    (hd : (Hi.getD (s.H.submatrix (sliceIdx hb) id) *
        (s.P * (Hi.getD (s.H.submatrix (sliceIdx hb) id))ᵀ)
        + Ri.resolve (s.R.submatrix (sliceIdx hb) (sliceIdx hb))).det ≠ 0) :
    ∃ s', s.updateSequential start zi Ri Hi = .ok s' := by
  unfold updateSequential
  rw [dif_pos hb]
  dsimp only
  by_cases hl : len = 1
  · subst hl
    rw [det_fin_one] at hd
    simp only [dif_pos, Fin.mk_zero, if_neg hd]
    exact ⟨_, rfl⟩
  · simp only [dif_neg hl, npInv_of_det_ne hd]
    exact ⟨_, rfl⟩

end Filterpy.KF
