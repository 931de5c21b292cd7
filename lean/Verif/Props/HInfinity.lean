import Verif.Model.HInfinity
import Verif.Lemmas.Kalman
import Verif.Lemmas.Scalar1

/-!
# C35: the H-infinity filter
-/

namespace Filterpy

open Matrix

variable {n m l : ℕ}

theorem hinf_update_ok {s s' : HInf n m l} {z : Vec m} (h : s.update (some z) = .ok s') :
    ∃ L, npInv (1 - s.gamma • (s.Q * s.P) + s.Hᵀ * s.VInv * s.H * s.P) = some L ∧
      s' = { s with
        y := z - s.H *ᵥ s.x
        x := s.x + (s.F * (s.P * L) * (s.Hᵀ * s.VInv)) *ᵥ (z - s.H *ᵥ s.x)
        P := (1/2 : ℝ) • (s.F * (s.P * L) * s.Fᵀ + s.W + (s.F * (s.P * L) * s.Fᵀ + s.W)ᵀ)
        z := z } := by
  simp only [HInf.update] at h
  split at h
  · simp at h
  · rename_i L hL
    exact ⟨L, hL, (Except.ok.inj h).symm⟩

/-- A call on the filter. -/
inductive HInfOp (m l : ℕ)
  | predict (u : UArg l)
  | update (z : Option (Vec m))

noncomputable def HInfOp.run (s : HInf n m l) : HInfOp m l → Exec (HInf n m l)
  | .predict u => s.predict u
  | .update z => s.update z

theorem hinf_predict_ok {s s' : HInf n m l} {u : UArg l} (h : s.predict u = .ok s') :
    ∃ b, HInf.control s.B u = .ok b ∧ s' = { s with x := s.F *ᵥ s.x + b } := by
  simp only [HInf.predict] at h
  split at h
  · simp at h
  · rename_i b hb
    exact ⟨b, hb, (Except.ok.inj h).symm⟩

/-- **C35.**  The covariance is symmetric after every update with a measurement, whatever the matrices. -/
theorem C35_update_symmetric (s s' : HInf n m l) (z : Vec m) (h : s.update (some z) = .ok s') :
    s'.Pᵀ = s'.P := by
  obtain ⟨L, -, rfl⟩ := hinf_update_ok h
  show ((1/2 : ℝ) • (_ + _ᵀ))ᵀ = (1/2 : ℝ) • (_ + _ᵀ)
  rw [transpose_smul, transpose_add, transpose_transpose, add_comm]

/-- **C35.**  The covariance stays symmetric through every history. -/
theorem C35_history_symmetric (s s' : HInf n m l) (hP : s.Pᵀ = s.P) (ops : List (HInfOp m l))
    (h : runList HInfOp.run s ops = .ok s') : s'.Pᵀ = s'.P := by
  induction ops generalizing s with
  | nil => obtain rfl := Except.ok.inj h; exact hP
  | cons op ops ih =>
    simp only [runList] at h
    split at h
    swap
    · simp at h
    rename_i s1 h1
    refine ih s1 ?_ h
    match op, h1 with
    | .predict u, h1 =>
      obtain ⟨b, -, rfl⟩ := hinf_predict_ok h1
      exact hP
    | .update none, h1 =>
      obtain rfl := Except.ok.inj h1
      exact hP
    | .update (some z), h1 => exact C35_update_symmetric s s1 z h1

/-- **C35.**  `update(None)` changes nothing. -/
theorem C35_none (s : HInf n m l) : s.update none = .ok s := rfl

/-- The exact gain product: `P (I + HᵀV⁻¹H P)⁻¹ = P - P Hᵀ (H P Hᵀ + V)⁻¹ H P`, and the inverse exists. -/
theorem hinf_gain {P : Mat n n} {H : Mat m n} {V : Mat m m} (hP : P.PosSemidef) (hV : V.PosDef) :
    (1 + Hᵀ * V⁻¹ * H * P).det ≠ 0 ∧
    P * (1 + Hᵀ * V⁻¹ * H * P)⁻¹ = P - P * Hᵀ * (H * (P * Hᵀ) + V)⁻¹ * H * P := by
  set S := H * (P * Hᵀ) + V with hS
  have hSpd : S.PosDef := S_pd hP hV
  have hSi : S⁻¹ * S = 1 := nonsing_inv_mul _ (PD.isUnit_det hSpd)
  have hVi : V * V⁻¹ = 1 := mul_nonsing_inv _ (PD.isUnit_det hV)
  have hVi' : V⁻¹ * V = 1 := nonsing_inv_mul _ (PD.isUnit_det hV)
  have hdet : (1 + Hᵀ * V⁻¹ * H * P).det ≠ 0 := by
    have e1 : Hᵀ * V⁻¹ * H * P = Hᵀ * (V⁻¹ * H * P) := by simp only [Matrix.mul_assoc]
    rw [e1, det_one_add_mul_comm]
    have e2 : 1 + V⁻¹ * H * P * Hᵀ = V⁻¹ * S := by
      rw [hS, Matrix.mul_add, hVi', add_comm]
      simp only [Matrix.mul_assoc]
    rw [e2, det_mul]
    refine mul_ne_zero ?_ (PD.det_ne hSpd)
    intro h0
    have := congrArg det hVi'
    rw [det_mul, h0, zero_mul, det_one] at this
    exact zero_ne_one this
  refine ⟨hdet, ?_⟩
  set D := 1 + Hᵀ * V⁻¹ * H * P with hD
  have hDi : D * D⁻¹ = 1 := mul_nonsing_inv _ (Ne.isUnit hdet)
  have key : (P - P * Hᵀ * S⁻¹ * H * P) * D = P := by
    have h1 : P * Hᵀ * S⁻¹ * H * P * (Hᵀ * V⁻¹ * H * P)
        = P * Hᵀ * V⁻¹ * H * P - P * Hᵀ * S⁻¹ * H * P := by
      have e1 : P * Hᵀ * S⁻¹ * H * P * (Hᵀ * V⁻¹ * H * P) = P * Hᵀ * S⁻¹ * (S - V) * V⁻¹ * H * P := by
        rw [hS, add_sub_cancel_right]
        simp only [Matrix.mul_assoc]
      have e2 : P * Hᵀ * S⁻¹ * (S - V) * V⁻¹ * H * P
          = P * Hᵀ * (S⁻¹ * S) * V⁻¹ * H * P - P * Hᵀ * S⁻¹ * (V * V⁻¹) * H * P := by
        simp only [Matrix.mul_sub, Matrix.sub_mul, Matrix.mul_assoc]
      rw [e1, e2, hSi, hVi, Matrix.mul_one, Matrix.mul_one]
    rw [hD, Matrix.mul_add, Matrix.mul_one, Matrix.sub_mul, h1]
    have h2 : P * (Hᵀ * V⁻¹ * H * P) = P * Hᵀ * V⁻¹ * H * P := by simp only [Matrix.mul_assoc]
    rw [h2]
    abel
  calc P * D⁻¹ = (P - P * Hᵀ * S⁻¹ * H * P) * D * D⁻¹ := by rw [key]
    _ = _ := by rw [Matrix.mul_assoc, hDi, Matrix.mul_one]

/-- **C35 (γ = 0, one measurement).**  The update succeeds and leaves in `P` the covariance that the Kalman filter
with `R = V`, `Q = W` has after an update *and* the following prediction. -/
theorem C35_gamma_zero (s : HInf n m l) (hγ : s.gamma = 0) (hP : s.P.PosSemidef) (hV : s.V.PosDef)
    (hVi : s.VInv = s.V⁻¹) (hW : s.W.PosSemidef) (z : Vec m) (k : KF n m l) (hkP : k.P = s.P)
    (hkF : k.F = s.F) (hkH : k.H = s.H) (hkR : k.R = s.V) (hkQ : k.Q = s.W) (hka : k.alphaSq = 1)
    (hki : k.inv = npInv) :
    ∃ s' k1 k2, s.update (some z) = .ok s' ∧ k.update (some z) = .ok k1 ∧ k1.predict = .ok k2 ∧
      s'.P = k2.P ∧ s'.P.PosSemidef ∧
      k2.F = k.F ∧ k2.H = k.H ∧ k2.R = k.R ∧ k2.Q = k.Q ∧ k2.alphaSq = 1 ∧ k2.inv = npInv := by
  obtain ⟨hdet, hPL⟩ := hinf_gain (H := s.H) hP hV
  have hS : (s.H * (s.P * s.Hᵀ) + s.V).PosDef := S_pd hP hV
  set S := s.H * (s.P * s.Hᵀ) + s.V with hSd
  have hL : npInv (1 - s.gamma • (s.Q * s.P) + s.Hᵀ * s.VInv * s.H * s.P)
      = some (1 + s.Hᵀ * s.V⁻¹ * s.H * s.P)⁻¹ := by
    rw [hγ, zero_smul, sub_zero, hVi]
    exact npInv_of_det_ne hdet
  have hJ := joseph_opt (P := s.P) (H := s.H) (R := s.V) (PSD.symm hP) rfl
    (nonsing_inv_mul _ (PD.isUnit_det hS)) (inv_symm (PD.symm hS)) rfl
  rw [← hSd] at hJ
  have hk1 : k.update (some z) = .ok { k with
      logLik := none, lik := none, mahal := none
      y := z - s.H *ᵥ k.x, S := S, SI := S⁻¹, K := s.P * s.Hᵀ * S⁻¹
      x := k.x + (s.P * s.Hᵀ * S⁻¹) *ᵥ (z - s.H *ᵥ k.x)
      P := s.P - s.P * s.Hᵀ * S⁻¹ * S * (s.P * s.Hᵀ * S⁻¹)ᵀ
      z := fun i => some (z i)
      xPost := k.x + (s.P * s.Hᵀ * S⁻¹) *ᵥ (z - s.H *ᵥ k.x)
      PPost := s.P - s.P * s.Hᵀ * S⁻¹ * S * (s.P * s.Hᵀ * S⁻¹)ᵀ } := by
    simp only [KF.update, MatArg.resolve, Option.getD_none, hkH, hkP, hkR, hki, ← hSd,
      npInv_of_det_ne (PD.det_ne hS), hJ]
  have hpost : s.P - s.P * s.Hᵀ * S⁻¹ * S * (s.P * s.Hᵀ * S⁻¹)ᵀ = s.P - s.P * s.Hᵀ * S⁻¹ * s.H * s.P := by
    rw [Matrix.mul_assoc (s.P * s.Hᵀ) S⁻¹ S, nonsing_inv_mul _ (PD.isUnit_det hS), Matrix.mul_one, transpose_mul,
      transpose_mul, transpose_transpose, inv_symm (PD.symm hS), PSD.symm hP]
    simp only [Matrix.mul_assoc]
  have hpsd : (s.P - s.P * s.Hᵀ * S⁻¹ * s.H * s.P).PosSemidef := by
    rw [← hpost, ← hJ]
    exact joseph_psd hP hV.posSemidef _
  have hpred : (s.F * (s.P - s.P * s.Hᵀ * S⁻¹ * s.H * s.P) * s.Fᵀ + s.W).PosSemidef := by
    refine PosSemidef.add ?_ hW
    simpa using hpsd.mul_mul_conjTranspose_same s.F
  have hu : s.update (some z) = .ok { s with
      y := z - s.H *ᵥ s.x
      x := s.x + (s.F * (s.P - s.P * s.Hᵀ * S⁻¹ * s.H * s.P) * (s.Hᵀ * s.VInv)) *ᵥ (z - s.H *ᵥ s.x)
      P := s.F * (s.P - s.P * s.Hᵀ * S⁻¹ * s.H * s.P) * s.Fᵀ + s.W
      z := z } := by
    simp only [HInf.update, hL, hPL]
    rw [PSD.symm hpred, ← two_smul ℝ, smul_smul]
    norm_num
  have hk2 : ∀ k1 : KF n m l, ∃ k2, k1.predict = .ok k2 ∧ k2.P = k1.alphaSq • (k1.F * k1.P * k1.Fᵀ) + k1.Q ∧
      k2.F = k1.F ∧ k2.H = k1.H ∧ k2.R = k1.R ∧ k2.Q = k1.Q ∧ k2.alphaSq = k1.alphaSq ∧ k2.inv = k1.inv := by
    intro k1
    refine ⟨{ k1 with
      x := k1.F *ᵥ k1.x, P := k1.alphaSq • (k1.F * k1.P * k1.Fᵀ) + k1.Q
      xPrior := k1.F *ᵥ k1.x, PPrior := k1.alphaSq • (k1.F * k1.P * k1.Fᵀ) + k1.Q }, ?_, rfl, rfl, rfl, rfl, rfl, rfl,
      rfl⟩
    cases hB : k1.B <;>
      simp [KF.predict, KF.control, hB, MatArg.resolve]
  obtain ⟨k2, h2, h2P, h2F, h2H, h2R, h2Q, h2a, h2i⟩ := hk2 _
  refine ⟨_, _, k2, hu, hk1, h2, ?_, hpred, h2F, h2H, h2R, h2Q, h2a.trans hka, h2i.trans hki⟩
  rw [h2P]
  show _ = k.alphaSq • (k.F * (_ - _) * k.Fᵀ) + k.Q
  rw [hka, one_smul, hkF, hkQ, hpost]

/-- The Kalman filter run that an H-infinity filter with `γ = 0` mirrors: an update and the following prediction for
each measurement, nothing for a missing one. -/
noncomputable def kfCycle (k : KF n m l) (z : Option (Vec m)) : Exec (KF n m l) :=
  match z with
  | none => .ok k
  | some z =>
    match k.update (some z) with
    | .error e => .error e
    | .ok k1 => k1.predict

/-- **C35 (γ = 0, every history).**  Whatever the interleaving of predictions and updates (with or without
measurement), after every history the H-infinity covariance is the covariance of the Kalman filter that was given the
same measurements, each followed by a prediction. -/
theorem C35_gamma_zero_history (s s' : HInf n m l) (hγ : s.gamma = 0) (hP : s.P.PosSemidef) (hV : s.V.PosDef)
    (hVi : s.VInv = s.V⁻¹) (hW : s.W.PosSemidef) (k : KF n m l) (hkP : k.P = s.P)
    (hkF : k.F = s.F) (hkH : k.H = s.H) (hkR : k.R = s.V) (hkQ : k.Q = s.W) (hka : k.alphaSq = 1)
    (hki : k.inv = npInv) (ops : List (HInfOp m l)) (h : runList HInfOp.run s ops = .ok s') :
    ∃ k', runList kfCycle k (ops.filterMap fun op => match op with | .update z => some z | _ => none) = .ok k' ∧
      s'.P = k'.P ∧ s'.P.PosSemidef := by
  induction ops generalizing s k with
  | nil => obtain rfl := Except.ok.inj h; exact ⟨k, rfl, hkP.symm, hP⟩
  | cons op ops ih =>
    simp only [runList] at h
    split at h
    swap
    · simp at h
    rename_i s1 h1
    match op, h1 with
    | .predict u, h1 =>
      obtain ⟨b, -, rfl⟩ := hinf_predict_ok h1
      exact ih { s with x := s.F *ᵥ s.x + b } hγ hP hV hVi hW k hkP hkF hkH hkR hkQ hka hki h
    | .update none, h1 =>
      obtain rfl := Except.ok.inj h1
      obtain ⟨k', hk, hh⟩ := ih s hγ hP hV hVi hW k hkP hkF hkH hkR hkQ hka hki h
      exact ⟨k', by simpa [runList, kfCycle] using hk, hh⟩
    | .update (some z), h1 =>
      obtain ⟨s2, k1, k2, hs, hk1, hk2, hPP, hpsd, hF, hH, hR, hQ, ha, hi⟩ :=
        C35_gamma_zero s hγ hP hV hVi hW z k hkP hkF hkH hkR hkQ hka hki
      have hs' : s.update (some z) = .ok s1 := h1
      rw [hs] at hs'
      obtain rfl := Except.ok.inj hs'
      obtain ⟨L, -, he⟩ := hinf_update_ok hs
      have hg : s2.gamma = s.gamma ∧ s2.V = s.V ∧ s2.VInv = s.VInv ∧ s2.W = s.W ∧ s2.F = s.F ∧ s2.H = s.H := by
        rw [he]; exact ⟨rfl, rfl, rfl, rfl, rfl, rfl⟩
      obtain ⟨g1, g2, g3, g4, g5, g6⟩ := hg
      obtain ⟨k', hk, hh⟩ := ih s2 (g1.trans hγ) hpsd (g2 ▸ hV) (by rw [g3, g2, hVi]) (g4 ▸ hW) k2 hPP.symm
        (by rw [hF, g5, hkF]) (by rw [hH, g6, hkH]) (by rw [hR, g2, hkR]) (by rw [hQ, g4, hkQ]) ha hi h
      refine ⟨k', ?_, hh⟩
      simp only [List.filterMap_cons, runList, kfCycle, hk1, hk2]
      exact hk

/-- **C35 (any γ).**  When the covariance is invertible the update is the H-infinity Riccati step in information form:
`P ← F (P⁻¹ - γ Q + Hᵀ V⁻¹ H)⁻¹ Fᵀ + W`. -/
theorem C35_riccati (s : HInf n m l) (hP : s.P.PosDef) (hQ : s.Qᵀ = s.Q) (hW : s.Wᵀ = s.W) (hVs : s.VInvᵀ = s.VInv)
    (hM : (s.P⁻¹ - s.gamma • s.Q + s.Hᵀ * s.VInv * s.H).det ≠ 0) (z : Vec m) :
    ∃ s', s.update (some z) = .ok s' ∧
      s'.P = s.F * (s.P⁻¹ - s.gamma • s.Q + s.Hᵀ * s.VInv * s.H)⁻¹ * s.Fᵀ + s.W ∧
      s'.x = s.x + (s.F * (s.P⁻¹ - s.gamma • s.Q + s.Hᵀ * s.VInv * s.H)⁻¹ * s.Hᵀ * s.VInv) *ᵥ (z - s.H *ᵥ s.x) := by
  set I := s.P⁻¹ - s.gamma • s.Q + s.Hᵀ * s.VInv * s.H with hI
  have hPi : s.P⁻¹ * s.P = 1 := nonsing_inv_mul _ (PD.isUnit_det hP)
  have hPi' : s.P * s.P⁻¹ = 1 := mul_nonsing_inv _ (PD.isUnit_det hP)
  have hD : 1 - s.gamma • (s.Q * s.P) + s.Hᵀ * s.VInv * s.H * s.P = I * s.P := by
    rw [hI, Matrix.add_mul, Matrix.sub_mul, hPi, Matrix.smul_mul]
  have hdet : (I * s.P).det ≠ 0 := by
    rw [det_mul]; exact mul_ne_zero hM (PD.det_ne hP)
  have hPL : s.P * (I * s.P)⁻¹ = I⁻¹ := by
    rw [Matrix.mul_inv_rev, ← Matrix.mul_assoc, hPi', Matrix.one_mul]
  have hIs : Iᵀ = I := by
    rw [hI, transpose_add, transpose_sub, transpose_smul, hQ, inv_symm (PD.symm hP), transpose_mul, transpose_mul,
      transpose_transpose, hVs, Matrix.mul_assoc]
  have hsym : (s.F * I⁻¹ * s.Fᵀ + s.W)ᵀ = s.F * I⁻¹ * s.Fᵀ + s.W := by
    rw [transpose_add, hW, transpose_mul, transpose_mul, transpose_transpose, inv_symm hIs, Matrix.mul_assoc]
  refine ⟨{ s with
      y := z - s.H *ᵥ s.x
      x := s.x + (s.F * I⁻¹ * s.Hᵀ * s.VInv) *ᵥ (z - s.H *ᵥ s.x)
      P := s.F * I⁻¹ * s.Fᵀ + s.W
      z := z }, ?_, rfl, rfl⟩
  simp only [HInf.update, hD, npInv_of_det_ne hdet, hPL, hsym]
  rw [← two_smul ℝ, smul_smul, Matrix.mul_assoc (s.F * I⁻¹)]
  norm_num

/-- The calls a user's loop makes for one measurement. -/
def hinfRow (updateFirst : Bool) (z : Option (Vec m)) : List (HInfOp m l) :=
  if updateFirst then [.update z, .predict (.scalar 0)] else [.predict (.scalar 0), .update z]

/-- The calls after which row `z` is recorded: up to and including its update. -/
def hinfRowRec (updateFirst : Bool) (z : Option (Vec m)) : List (HInfOp m l) :=
  if updateFirst then [.update z] else [.predict (.scalar 0), .update z]

theorem hinf_batchRow (uf : Bool) (sv : HInf.SaverArg) (hsv : sv ≠ .false) (s : HInf n m l) (z : Option (Vec m)) :
    (HInf.batchRow uf sv s z).map Prod.snd = runList HInfOp.run s (hinfRow uf z) ∧
    ∀ o s', HInf.batchRow uf sv s z = .ok (o, s') →
      ∃ sk, runList HInfOp.run s (hinfRowRec uf z) = .ok sk ∧ o = (sk.x, sk.P) := by
  have hs : ∀ t : HInf n m l, sv.save t = .ok t := by
    intro t; cases sv <;> first | rfl | exact absurd rfl hsv
  cases uf
  · simp only [HInf.batchRow, hinfRow, hinfRowRec, runList, HInfOp.run, bind, Except.bind, Bool.false_eq_true, if_false]
    cases h1 : s.predict with
    | error e => exact ⟨rfl, fun o s' h => by simp at h⟩
    | ok s1 =>
      dsimp only
      cases h2 : s1.update z with
      | error e => exact ⟨rfl, fun o s' h => by simp at h⟩
      | ok s2 =>
        simp only [hs]
        refine ⟨rfl, fun o s' h => ⟨s2, rfl, ?_⟩⟩
        injection h with h
        injection h with h _
        exact h.symm
  · simp only [HInf.batchRow, hinfRow, hinfRowRec, runList, HInfOp.run, bind, Except.bind, if_true]
    cases h1 : s.update z with
    | error e => exact ⟨rfl, fun o s' h => by simp at h⟩
    | ok s1 =>
      dsimp only
      cases h2 : s1.predict with
      | error e => exact ⟨rfl, fun o s' h => by simp at h⟩
      | ok s2 =>
        simp only [hs]
        refine ⟨rfl, fun o s' h => ⟨s1, rfl, ?_⟩⟩
        injection h with h
        injection h with h _
        exact h.symm

theorem hinf_runList_append (s : HInf n m l) (a b : List (HInfOp m l)) :
    runList HInfOp.run s (a ++ b) = (runList HInfOp.run s a).bind (fun t => runList HInfOp.run t b) := by
  induction a generalizing s with
  | nil => rfl
  | cons op a ih =>
    simp only [List.cons_append, runList]
    cases HInfOp.run s op with
    | error e => rfl
    | ok t => exact ih t

/-- **C35.**  `batch_filter` with `saver=None` or with a `Saver` is the loop over its measurements, in either order:
it ends with the same object (or the same exception), ... -/
theorem C35_batch_final (uf : Bool) (sv : HInf.SaverArg) (hsv : sv ≠ .false) (s : HInf n m l)
    (zs : List (Option (Vec m))) :
    (HInf.batchFilter uf sv s zs).map Prod.snd = runList HInfOp.run s (zs.flatMap (hinfRow uf)) := by
  induction zs generalizing s with
  | nil => rfl
  | cons z zs ih =>
    rw [List.flatMap_cons, hinf_runList_append, ← (hinf_batchRow uf sv hsv s z).1]
    simp only [HInf.batchFilter, bind, Except.bind]
    cases h : HInf.batchRow uf sv s z with
    | error e => rfl
    | ok p =>
      obtain ⟨o, s1⟩ := p
      simp only [Except.map, ← ih s1]
      cases HInf.batchFilter uf sv s1 zs <;> rfl

/-- **C35.**  ... and row `k` records the estimate the loop has right after its `k`-th update. -/
theorem C35_batch_rows (uf : Bool) (sv : HInf.SaverArg) (hsv : sv ≠ .false) (s s' : HInf n m l)
    (zs : List (Option (Vec m))) (os : List (Vec n × Mat n n)) (h : HInf.batchFilter uf sv s zs = .ok (os, s')) :
    os.length = zs.length ∧ ∀ k (hk : k < zs.length), ∃ sk,
      runList HInfOp.run s ((zs.take k).flatMap (hinfRow uf) ++ hinfRowRec uf zs[k]) = .ok sk ∧
      os[k]? = some (sk.x, sk.P) := by
  induction zs generalizing s os with
  | nil =>
    injection h with h
    injection h with h1 h2
    subst h1
    exact ⟨rfl, fun k hk => absurd hk (Nat.not_lt_zero k)⟩
  | cons z zs ih =>
    simp only [HInf.batchFilter, bind, Except.bind] at h
    cases hr : HInf.batchRow uf sv s z with
    | error e => rw [hr] at h; simp at h
    | ok p =>
      obtain ⟨o, s1⟩ := p
      rw [hr] at h
      dsimp only at h
      cases hb : HInf.batchFilter uf sv s1 zs with
      | error e => rw [hb] at h; simp at h
      | ok q =>
        obtain ⟨os1, s2⟩ := q
        rw [hb] at h
        injection h with h
        injection h with h1 h2
        subst h1 h2
        obtain ⟨hlen, hrow⟩ := ih s1 os1 hb
        obtain ⟨hfin, hrec⟩ := hinf_batchRow uf sv hsv s z
        refine ⟨by simp [hlen], fun k hk => ?_⟩
        cases k with
        | zero =>
          obtain ⟨sk, h1, h2⟩ := hrec o s1 hr
          exact ⟨sk, by simpa using h1, by simp [h2]⟩
        | succ k =>
          obtain ⟨sk, h1, h2⟩ := hrow k (by simpa using hk)
          refine ⟨sk, ?_, by simpa using h2⟩
          rw [List.take_succ_cons, List.flatMap_cons, List.append_assoc, hinf_runList_append, ← hfin, hr]
          simpa [Except.map, Except.bind] using h1

/-- **C35 fails for the default arguments.**  On every filter and every nonempty list of measurements
`batch_filter(Zs)`, and `batch_filter(Zs, update_first=True)`, raise: if the first row goes through, `False.save()`
raises `AttributeError`. -/
theorem C35_default_batch_refuted (uf : Bool) (s : HInf n m l) (z : Option (Vec m)) (zs : List (Option (Vec m))) :
    (∀ r, HInf.batchFilter uf .false s (z :: zs) ≠ .ok r) ∧
    ∀ s2, runList HInfOp.run s (hinfRow uf z) = .ok s2 →
      HInf.batchFilter uf .false s (z :: zs) = .error (.attributeError, s2) := by
  have hrow : (∀ r, HInf.batchRow uf .false s z ≠ .ok r) ∧
      ∀ s2, runList HInfOp.run s (hinfRow uf z) = .ok s2 →
        HInf.batchRow uf .false s z = .error (.attributeError, s2) := by
    cases uf
    · simp only [HInf.batchRow, hinfRow, runList, HInfOp.run, bind, Except.bind, Bool.false_eq_true, if_false]
      cases s.predict with
      | error e => simp
      | ok s1 => cases h2 : s1.update z <;> simp [HInf.SaverArg.save, h2]
    · simp only [HInf.batchRow, hinfRow, runList, HInfOp.run, bind, Except.bind, if_true]
      cases s.update z with
      | error e => simp
      | ok s1 => cases h2 : s1.predict <;> simp [HInf.SaverArg.save, h2]
  simp only [HInf.batchFilter, bind, Except.bind]
  constructor
  · intro r
    cases h : HInf.batchRow uf .false s z with
    | error e => simp
    | ok p => exact absurd h (hrow.1 p)
  · intro s2 h
    rw [hrow.2 s2 h]

/-- **C35.**  `get_prediction` previews `predict`, and `residual_of` the residual of the next update. -/
theorem C35_previews (s : HInf n m l) (u : UArg l) (z : Vec m) :
    (∀ s', s.predict u = .ok s' → s.getPrediction u = .ok s'.x ∧ s'.P = s.P) ∧
    (∀ s', s.update (some z) = .ok s' → s'.y = s.residualOf z ∧
      s.residualOf z = z - s.measurementOfState s.x) := by
  constructor
  · intro s' h
    obtain ⟨b, hb, rfl⟩ := hinf_predict_ok h
    exact ⟨by simp only [HInf.getPrediction, hb], rfl⟩
  · intro s' h
    obtain ⟨L, -, rfl⟩ := hinf_update_ok h
    exact ⟨rfl, rfl⟩

/-- **C35.**  Assigning an invertible `V` stores it together with its inverse and changes nothing else; a singular
one raises, leaving the old inverse beside the new `V`. -/
theorem C35_setV (s : HInf n m l) (V : Mat m m) :
    (V.det ≠ 0 → s.setV (.mat V) = .ok { s with V := V, VInv := V⁻¹ }) ∧
    (V.det = 0 → s.setV (.mat V) = .error (.linAlgError, { s with V := V })) := by
  constructor
  · intro h; simp only [HInf.setV, npInv_of_det_ne h]
  · intro h; simp only [HInf.setV, npInv, if_pos h]

/-- **C35 (γ = 0, the state).**  The correction of the state is `F` times the correction of the Kalman filter. -/
theorem C35_gamma_zero_state (s : HInf n m l) (hγ : s.gamma = 0) (hP : s.P.PosSemidef) (hV : s.V.PosDef)
    (hVi : s.VInv = s.V⁻¹) (z : Vec m) (k k1 : KF n m l) (hkx : k.x = s.x) (hkP : k.P = s.P)
    (hkH : k.H = s.H) (hkR : k.R = s.V) (hki : k.inv = npInv) (hk : k.update (some z) = .ok k1) :
    ∃ s', s.update (some z) = .ok s' ∧ s'.x = s.x + s.F *ᵥ (k1.x - k.x) := by
  obtain ⟨hdet, hPL⟩ := hinf_gain (H := s.H) hP hV
  have hS : (s.H * (s.P * s.Hᵀ) + s.V).PosDef := S_pd hP hV
  set S := s.H * (s.P * s.Hᵀ) + s.V with hSd
  have hL : npInv (1 - s.gamma • (s.Q * s.P) + s.Hᵀ * s.VInv * s.H * s.P)
      = some (1 + s.Hᵀ * s.V⁻¹ * s.H * s.P)⁻¹ := by
    rw [hγ, zero_smul, sub_zero, hVi]
    exact npInv_of_det_ne hdet
  have hSi : S⁻¹ * S = 1 := nonsing_inv_mul _ (PD.isUnit_det hS)
  have hVV : s.V * s.V⁻¹ = 1 := mul_nonsing_inv _ (PD.isUnit_det hV)
  have hgain : (s.P - s.P * s.Hᵀ * S⁻¹ * s.H * s.P) * (s.Hᵀ * s.V⁻¹) = s.P * s.Hᵀ * S⁻¹ := by
    have e1 : (s.P - s.P * s.Hᵀ * S⁻¹ * s.H * s.P) * (s.Hᵀ * s.V⁻¹)
        = s.P * s.Hᵀ * s.V⁻¹ - s.P * s.Hᵀ * S⁻¹ * (S - s.V) * s.V⁻¹ := by
      rw [hSd, add_sub_cancel_right]
      simp only [Matrix.sub_mul, Matrix.mul_assoc]
    rw [e1, Matrix.mul_sub, Matrix.sub_mul, Matrix.mul_assoc (s.P * s.Hᵀ) S⁻¹ S, hSi, Matrix.mul_one,
      Matrix.mul_assoc (s.P * s.Hᵀ * S⁻¹) s.V, hVV, Matrix.mul_one]
    abel
  have hkx1 : k1.x = k.x + (s.P * s.Hᵀ * S⁻¹) *ᵥ (z - s.H *ᵥ k.x) := by
    simp only [KF.update, MatArg.resolve, Option.getD_none, hkH, hkP, hkR, hki, ← hSd,
      npInv_of_det_ne (PD.det_ne hS)] at hk
    exact (congrArg KF.x (Except.ok.inj hk)).symm
  refine ⟨{ s with
      y := z - s.H *ᵥ s.x
      x := s.x + (s.F * (s.P * (1 + s.Hᵀ * s.V⁻¹ * s.H * s.P)⁻¹) * (s.Hᵀ * s.VInv)) *ᵥ (z - s.H *ᵥ s.x)
      P := (1/2 : ℝ) • (s.F * (s.P * (1 + s.Hᵀ * s.V⁻¹ * s.H * s.P)⁻¹) * s.Fᵀ + s.W
        + (s.F * (s.P * (1 + s.Hᵀ * s.V⁻¹ * s.H * s.P)⁻¹) * s.Fᵀ + s.W)ᵀ)
      z := z }, by simp only [HInf.update, hL], ?_⟩
  show s.x + _ = _
  rw [hPL, hVi, Matrix.mul_assoc, hgain, hkx1, hkx, add_sub_cancel_left, mulVec_mulVec]

/-- A filter with `F = 2`, everything else `1`, `γ = 0`. -/
noncomputable def hinfTwo : HInf 1 1 0 :=
  { HInf.fresh 1 1 0 0 with P := sc 1, F := sc 2, H := sc 1, V := sc 1, VInv := sc 1, W := sc 1 }

/-- The Kalman filter with the same matrices. -/
noncomputable def hinfTwoKF : KF 1 1 0 :=
  { KF.fresh 1 1 0 with P := sc 1, F := sc 2, H := sc 1, R := sc 1, Q := sc 1 }

/-- **With `γ = 0` only the covariance follows the Kalman filter.**  The gain carries an extra factor `F`, so with
`F = 2`, a unit prior and the measurement `2` the state becomes `2` where the Kalman filter has `1`. -/
theorem C35_gamma_zero_state_refuted :
    ∃ s' k1, hinfTwo.update (some (vc 2)) = .ok s' ∧ hinfTwoKF.update (some (vc 2)) = .ok k1 ∧
      hinfTwoKF.x = hinfTwo.x ∧ s'.x = vc 2 ∧ k1.x = vc 1 := by
  have hk : ∃ k1, hinfTwoKF.update (some (vc 2)) = .ok k1 ∧ k1.x = vc 1 := by
    have hS : npInv (sc 1 * (sc 1 * (sc 1)ᵀ) + sc 1) = some (sc (1/2)) := by
      simp only [sc_mul, sc_add, sc_transpose]
      rw [sc_npInv _ (by norm_num)]
      norm_num
    have hok : ∃ k1, hinfTwoKF.update (some (vc 2)) = .ok k1 := by
      simp only [KF.update, hinfTwoKF, KF.fresh, MatArg.resolve, Option.getD_none, hS]
      exact ⟨_, rfl⟩
    obtain ⟨k1, hk1⟩ := hok
    obtain ⟨SI, h1, h2⟩ := KF.update_ok hk1
    have h1' : npInv (sc 1 * (sc 1 * (sc 1)ᵀ) + sc 1) = some SI := h1
    rw [hS] at h1'
    obtain rfl := Option.some.inj h1'
    refine ⟨k1, hk1, ?_⟩
    rw [h2]
    show vc 0 + (sc 1 * (sc 1)ᵀ * sc (1/2)) *ᵥ (vc 2 - sc 1 *ᵥ vc 0) = vc 1
    simp only [sc_transpose, sc_mul, sc_mulVec, vc_sub, vc_add, vc_inj]
    norm_num
  obtain ⟨k1, hk1, hx⟩ := hk
  obtain ⟨s', hs, hsx⟩ := C35_gamma_zero_state hinfTwo rfl (sc_posSemidef _ zero_le_one) (sc_posDef _ zero_lt_one)
    (by show sc 1 = (sc 1)⁻¹; rw [sc_inv _ one_ne_zero, inv_one]) (vc 2) hinfTwoKF k1 rfl rfl rfl rfl rfl hk1
  refine ⟨s', k1, hs, hk1, rfl, ?_, hx⟩
  rw [hsx, hx]
  show vc 0 + sc 2 *ᵥ (vc 1 - vc 0) = vc 2
  rw [vc_sub, sc_mulVec, vc_add, vc_inj]
  norm_num

/-- The hypotheses of the `γ = 0` theorems are met by a filter that moves (`F = 2`), and a run through a missing
measurement succeeds, with the covariances `1, 3, 4` of the Kalman recursion. -/
example : ∃ s', runList HInfOp.run hinfTwo
    [.predict (.scalar 0), .update (some (vc 3)), .update none, .predict (.scalar 0), .update (some (vc 1))]
      = .ok s' ∧ s'.P = sc 4 := by
  have h1 : npInv (1 - (0 : ℝ) • ((1 : Mat 1 1) * sc 1) + sc 1 * sc 1 * sc 1 * sc 1) = some (sc (1/2)) := by
    simp only [sc_one, sc_mul, sc_smul, sc_add, sc_sub]
    rw [sc_npInv _ (by norm_num)]
    norm_num
  have h3 : npInv (1 - (0 : ℝ) • ((1 : Mat 1 1) * sc 3) + sc 1 * sc 1 * sc 1 * sc 3) = some (sc (1/4)) := by
    simp only [sc_one, sc_mul, sc_smul, sc_add, sc_sub]
    rw [sc_npInv _ (by norm_num)]
    norm_num
  have e1 : (1/2 : ℝ) • (sc 2 * (sc 1 * sc (1/2)) * sc 2 + sc 1 + (sc 2 * (sc 1 * sc (1/2)) * sc 2 + sc 1)ᵀ) = sc 3 := by
    simp only [sc_mul, sc_transpose, sc_add, sc_smul, sc_inj]
    norm_num
  have e3 : (1/2 : ℝ) • (sc 2 * (sc 3 * sc (1/4)) * sc 2 + sc 1 + (sc 2 * (sc 3 * sc (1/4)) * sc 2 + sc 1)ᵀ) = sc 4 := by
    simp only [sc_mul, sc_transpose, sc_add, sc_smul, sc_inj]
    norm_num
  simp only [runList, HInfOp.run, HInf.predict, HInf.control, hinfTwo, HInf.fresh, HInf.update, sc_transpose, h1]
  simp only [e1, h3, e3]
  exact ⟨_, rfl, rfl⟩

end Filterpy
