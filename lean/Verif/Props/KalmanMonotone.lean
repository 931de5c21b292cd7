import Verif.Props.KalmanSequential

/-!
# How the filter depends on what it is told (C73, C75, C77)
-/

namespace Filterpy
open Matrix

variable {n m l : ℕ}

/-! ## C73: less uncertainty in, less uncertainty out -/

/-- `A ≤ B` for covariance matrices: `A` and `B - A` are positive semidefinite. -/
def CovLE {k : ℕ} (A B : Mat k k) : Prop := A.PosSemidef ∧ (B - A).PosSemidef

theorem CovLE.right {k : ℕ} {A B : Mat k k} (h : CovLE A B) : B.PosSemidef := by
  have := h.1.add h.2
  simpa using this

theorem CovLE.congr {k j : ℕ} {A B : Mat k k} (h : CovLE A B) (F : Mat j k) :
    CovLE (F * A * Fᵀ) (F * B * Fᵀ) := by
  refine ⟨PSD.congr h.1 F, ?_⟩
  have := PSD.congr h.2 F
  rwa [Matrix.mul_sub, Matrix.sub_mul] at this

theorem CovLE.add {k : ℕ} {A B A' B' : Mat k k} (h : CovLE A B) (h' : CovLE A' B') :
    CovLE (A + A') (B + B') := by
  refine ⟨h.1.add h'.1, ?_⟩
  have := h.2.add h'.2
  rwa [sub_add_sub_comm] at this

theorem CovLE.smul {k : ℕ} {A B : Mat k k} (h : CovLE A B) {c : ℝ} (hc : 0 ≤ c) :
    CovLE (c • A) (c • B) := by
  refine ⟨PSD.smul h.1 hc, ?_⟩
  rw [← smul_sub]; exact PSD.smul h.2 hc

theorem CovLE.trans {k : ℕ} {A B C : Mat k k} (h : CovLE A B) (h' : CovLE B C) : CovLE A C := by
  refine ⟨h.1, ?_⟩
  have := h.2.add h'.2
  rwa [add_comm, sub_add_sub_cancel] at this

/-- Noise arguments of the same call in the two runs: both absent, or comparable. -/
def ArgLE {k : ℕ} : MatArg k → MatArg k → Prop
  | .none, .none => True
  | .scalar a, .scalar b => 0 ≤ a ∧ a ≤ b
  | .mat A, .mat B => CovLE A B
  | _, _ => False

theorem ArgLE.resolve {k : ℕ} {a b : MatArg k} (h : ArgLE a b) {A B : Mat k k} (hd : CovLE A B) :
    CovLE (a.resolve A) (b.resolve B) := by
  cases a <;> cases b <;> simp only [ArgLE] at h <;> simp only [MatArg.resolve]
  · exact hd
  · refine ⟨PSD.smul PosSemidef.one h.1, ?_⟩
    rw [← sub_smul]; exact PSD.smul PosSemidef.one (sub_nonneg.2 h.2)
  · exact h

/-- The same call in two runs, with noise at most as large in the first; controls and
measurements are arbitrary (but a measurement is missing in both runs or in none). -/
def OpLE : KFOp n m l → KFOp n m l → Prop
  | .predict _ _ F Q, .predict _ _ F' Q' => F = F' ∧ ArgLE Q Q'
  | .update z R H, .update z' R' H' => (z = none ↔ z' = none) ∧ H = H' ∧ ArgLE R R'
  | _, _ => False

/-- The first filter is told at most the uncertainty of the second, and the same `F`, `H`. -/
structure FilterLE (s t : KF n m l) : Prop where
  P : CovLE s.P t.P
  Q : CovLE s.Q t.Q
  R : CovLE s.R t.R
  F : s.F = t.F
  H : s.H = t.H
  alpha : s.alphaSq = t.alphaSq
  alpha0 : 0 ≤ s.alphaSq
  inv : s.inv = npInv
  inv' : t.inv = npInv

/-- The posterior covariance is monotone in prior and noise. -/
theorem joseph_mono {k : ℕ} {P P' : Mat n n} {R R' : Mat k k} (H : Mat k n) (hP : CovLE P P')
    (hR : CovLE R R') (hd : (H * (P * Hᵀ) + R).det ≠ 0) (K' : Mat n k) :
    let K := P * Hᵀ * (H * (P * Hᵀ) + R)⁻¹
    CovLE ((1 - K * H) * P * (1 - K * H)ᵀ + K * R * Kᵀ)
      ((1 - K' * H) * P' * (1 - K' * H)ᵀ + K' * R' * K'ᵀ) := by
  intro K
  have hS := S_psd (H := H) hP.1 hR.1
  have hu := isUnit_det_of_ne hd
  refine CovLE.trans (B := (1 - K' * H) * P * (1 - K' * H)ᵀ + K' * R * K'ᵀ)
    ⟨joseph_psd hP.1 hR.1 K, ?_⟩ ((hP.congr _).add (hR.congr _))
  rw [joseph_diff (PSD.symm hP.1) rfl (nonsing_inv_mul _ hu) (inv_symm (PSD.symm hS)) rfl]
  exact PSD.congr hS _

theorem FilterLE.step {expf : ℝ → ℝ} {s t s' t' : KF n m l} (h : FilterLE s t)
    {a b : KFOp n m l} (hab : OpLE a b) (hs : s.step expf a = .ok s') (ht : t.step expf b = .ok t') :
    FilterLE s' t' := by
  cases a <;> cases b <;> simp only [OpLE] at hab <;> simp only [KF.step] at hs ht
  · obtain ⟨rfl, hQ⟩ := hab
    obtain ⟨x, rfl⟩ := KF.predict_ok hs
    obtain ⟨x', rfl⟩ := KF.predict_ok ht
    refine { h with P := ?_ }
    simp only [h.F, h.alpha]
    exact ((h.P.congr _).smul (h.alpha ▸ h.alpha0)).add (hQ.resolve h.Q)
  · rename_i z R H z' R' H'
    obtain ⟨hz, rfl, hR⟩ := hab
    cases z with
    | none =>
      obtain rfl := hz.1 rfl
      simp only [KF.update, Except.ok.injEq] at hs ht
      subst hs; subst ht
      exact { h with }
    | some z =>
      cases z' with
      | none => exact absurd (hz.2 rfl) (by simp)
      | some z' =>
        obtain ⟨SI, h1, rfl⟩ := KF.update_ok hs
        obtain ⟨SI', h2, rfl⟩ := KF.update_ok ht
        rw [h.inv] at h1
        obtain ⟨hd, rfl⟩ := npInv_eq_some.1 h1
        refine { h with P := ?_ }
        have hH : H.getD s.H = H.getD t.H := by rw [h.H]
        simp only [hH] at hd ⊢
        exact joseph_mono _ h.P (hR.resolve h.R) hd _

/-- **C73.** Two filters with the same `F` and `H`, the first with initial `P`, and `Q`, `R`
(stored or passed to the calls) at most those of the second, put through the same sequence of
`predict`, `update(z)` and `update(None)` calls: the first ends with a `P` at most that of the
second, whatever data and controls each of them sees; in particular every variance is at most as
large. -/
theorem C73_monotone (expf : ℝ → ℝ) {s t s' t' : KF n m l} (h : FilterLE s t)
    (ops ops' : List (KFOp n m l)) (hops : List.Forall₂ OpLE ops ops')
    (hs : s.run expf ops = .ok s') (ht : t.run expf ops' = .ok t') :
    (t'.P - s'.P).PosSemidef ∧ ∀ i, s'.P i i ≤ t'.P i i := by
  have key : FilterLE s' t' := by
    induction hops generalizing s t with
    | nil =>
      simp only [KF.run, Except.ok.injEq] at hs ht
      subst hs; subst ht; exact h
    | @cons a b as bs hab _ ih =>
      simp only [KF.run] at hs ht
      cases h1 : s.step expf a with
      | error e => rw [h1] at hs; cases hs
      | ok s1 =>
        cases h2 : t.step expf b with
        | error e => rw [h2] at ht; cases ht
        | ok t1 =>
          rw [h1] at hs; rw [h2] at ht
          exact ih (h.step hab h1 h2) hs ht
  refine ⟨key.P.2, fun i => ?_⟩
  have := key.P.2.diag_nonneg (i := i)
  simp only [Matrix.sub_apply] at this
  linarith

/-- Different noise settings, different data: the hypotheses of C73 are met. -/
example (z z' : Vec 1) : FilterLE cvKF { cvKF with P := (3 : ℝ) • 1, R := (2 : ℝ) • 1 } ∧
    List.Forall₂ (OpLE (n := 2) (m := 1) (l := 1))
      [.predict (.vec 1) none none (.scalar 1), .update (some z) .none none]
      [.predict (.vec 2) none none (.scalar 4), .update (some z') .none none] := by
  have h3 (k : ℕ) (c : ℝ) (hc : 1 ≤ c) : CovLE (1 : Mat k k) (c • 1) :=
    ⟨PosSemidef.one, by
      have : c • (1 : Mat k k) - 1 = (c - 1) • 1 := by rw [sub_smul, one_smul]
      rw [this]; exact PSD.smul PosSemidef.one (by linarith)⟩
  refine ⟨⟨h3 2 3 (by norm_num), ?_, h3 1 2 (by norm_num), rfl, rfl, rfl, ?_, rfl, rfl⟩, ?_⟩
  · exact ⟨PosSemidef.one, by simp [cvKF, KF.fresh, PosSemidef.zero]⟩
  · simp [cvKF, KF.fresh]
  · refine .cons ⟨rfl, ?_⟩ (.cons ⟨by simp, rfl, trivial⟩ .nil)
    simp only [ArgLE]; norm_num

/-! ## C75: measurements taken at the same time may be processed in any order -/

/-- The arguments of an `update` call. -/
abbrev Meas (n m : ℕ) := Vec m × MatArg m × Option (Mat m n)

/-- Executes a list of `update` calls. -/
noncomputable def updates (s : KF n m l) (ms : List (Meas n m)) : Exec (KF n m l) :=
  runList (fun s e => s.update (some e.1) e.2.1 e.2.2) s ms

/-- The information a measurement adds. -/
noncomputable def Meas.info (R : Mat m m) (H : Mat m n) (e : Meas n m) : Mat n n :=
  (e.2.2.getD H)ᵀ * (e.2.1.resolve R)⁻¹ * e.2.2.getD H

/-- The information vector a measurement adds. -/
noncomputable def Meas.infoVec (R : Mat m m) (H : Mat m n) (e : Meas n m) : Vec n :=
  ((e.2.2.getD H)ᵀ * (e.2.1.resolve R)⁻¹) *ᵥ e.1

theorem updates_info (ms : List (Meas n m)) (s : KF n m l) (hinv : s.inv = npInv)
    (hP : s.P.PosDef) (hR : ∀ e ∈ ms, (e.2.1.resolve s.R).PosDef) :
    ∃ s', updates s ms = .ok s' ∧ s'.P.PosDef ∧
      s'.P⁻¹ = s.P⁻¹ + (ms.map (Meas.info s.R s.H)).sum ∧
      s'.P⁻¹ *ᵥ s'.x = s.P⁻¹ *ᵥ s.x + (ms.map (Meas.infoVec s.R s.H)).sum := by
  induction ms generalizing s with
  | nil => exact ⟨s, rfl, hP, by simp, by simp⟩
  | cons e ms ih =>
    obtain ⟨s1, h1, -⟩ := update_pd s e.1 e.2.1 e.2.2 hinv hP (hR e (by simp))
    obtain ⟨SI, g1, g2⟩ := KF.update_ok h1
    rw [hinv] at g1
    obtain ⟨-, rfl⟩ := npInv_eq_some.1 g1
    obtain ⟨i1, i2, i3⟩ := info_step (H := e.2.2.getD s.H) hP (hR e (by simp)) s.x e.1
    have e1 : s1.P⁻¹ = s.P⁻¹ + Meas.info s.R s.H e := by rw [g2]; exact i2
    have e2 : s1.P⁻¹ *ᵥ s1.x = s.P⁻¹ *ᵥ s.x + Meas.infoVec s.R s.H e := by rw [g2]; exact i3
    have eR : s1.R = s.R := by rw [g2]
    have eH : s1.H = s.H := by rw [g2]
    obtain ⟨s', h2, p2, q2, r2⟩ := ih s1 (by rw [g2]; exact hinv) (by rw [g2]; exact i1)
      (fun e he => by rw [eR]; exact hR e (by simp [he]))
    refine ⟨s', ?_, p2, ?_, ?_⟩
    · simp only [updates, runList, h1]; exact h2
    · rw [q2, e1, eR, eH, List.map_cons, List.sum_cons, add_assoc]
    · rw [r2, e2, eR, eH, List.map_cons, List.sum_cons, add_assoc]

/-- **C75.** Any number of measurements processed without a `predict` in between, each with its own
`z`, `R`, `H`: every order of the `update` calls succeeds and gives the same `x` and `P`. -/
theorem C75_order (s : KF n m l) (ms ms' : List (Meas n m)) (hperm : ms.Perm ms')
    (hinv : s.inv = npInv) (hP : s.P.PosDef) (hR : ∀ e ∈ ms, (e.2.1.resolve s.R).PosDef) :
    ∃ s₁ s₂, updates s ms = .ok s₁ ∧ updates s ms' = .ok s₂ ∧ s₁.x = s₂.x ∧ s₁.P = s₂.P := by
  obtain ⟨s₁, h1, p1, q1, r1⟩ := updates_info ms s hinv hP hR
  obtain ⟨s₂, h2, p2, q2, r2⟩ := updates_info ms' s hinv hP fun e he => hR e (hperm.mem_iff.2 he)
  have hi : s₁.P⁻¹ = s₂.P⁻¹ := by rw [q1, q2, (hperm.map _).sum_eq]
  have hPP : s₁.P = s₂.P := by
    rw [← nonsing_inv_nonsing_inv _ (PD.isUnit_det p1), hi,
      nonsing_inv_nonsing_inv _ (PD.isUnit_det p2)]
  refine ⟨s₁, s₂, h1, h2, ?_, hPP⟩
  have e : s₁.P⁻¹ *ᵥ s₁.x = s₁.P⁻¹ *ᵥ s₂.x := by
    rw [r1, hi, r2, (hperm.map _).sum_eq]
  have := congrArg (s₁.P *ᵥ ·) e
  simpa only [mulVec_mulVec, mul_nonsing_inv _ (PD.isUnit_det p1), one_mulVec] using this

/-- Three measurements with different noise, in two orders. -/
example (a b c : Vec 1) : ∃ s₁ s₂,
    updates cvKF [(a, .none, none), (b, .scalar 2, none), (c, .scalar 3, some !![0, 1])] = .ok s₁ ∧
    updates cvKF [(c, .scalar 3, some !![0, 1]), (a, .none, none), (b, .scalar 2, none)] = .ok s₂ ∧
    s₁.x = s₂.x ∧ s₁.P = s₂.P := by
  refine C75_order cvKF _ _ ?_ rfl PosDef.one ?_
  · exact (List.perm_append_comm (α := Meas 2 1) (l₁ := [(a, .none, none), (b, .scalar 2, none)])
      (l₂ := [(c, .scalar 3, some !![0, 1])]))
  · have h (c : ℝ) (hc : 0 < c) : (c • (1 : Mat 1 1)).PosDef := PosDef.smul PosDef.one hc
    intro e he
    simp only [List.mem_cons, List.not_mem_nil, or_false] at he
    rcases he with rfl | rfl | rfl <;> simp only [MatArg.resolve]
    · exact PosDef.one
    · exact h _ (by norm_num)
    · exact h _ (by norm_num)

/-! ## C77: a static state is estimated by weighted least squares -/

/-- The squared Mahalanobis length `vᵀ W⁻¹ v`. -/
noncomputable def sqLen {k : ℕ} (W : Mat k k) (v : Vec k) : ℝ := v ⬝ᵥ (W⁻¹ *ᵥ v)

/-- The weighted least squares cost of a candidate state `X`: distance from the initial estimate
plus the misfit of every measurement. -/
noncomputable def wlsCost (s : KF n m l) (ms : List (Meas n m)) (X : Vec n) : ℝ :=
  sqLen s.P (X - s.x) +
    (ms.map fun e => sqLen (e.2.1.resolve s.R) (e.1 - e.2.2.getD s.H *ᵥ X)).sum

/-- **C77.** With a static state (no `predict` between the updates) the estimate after any number of
`update` calls is the weighted least squares solution for all the data: the cost of any state `X`
exceeds that of the estimate by `(X - x)ᵀ P⁻¹ (X - x)`, which is positive unless `X = x`. -/
theorem C77_least_squares (s : KF n m l) (ms : List (Meas n m)) (hinv : s.inv = npInv)
    (hP : s.P.PosDef) (hR : ∀ e ∈ ms, (e.2.1.resolve s.R).PosDef) :
    ∃ s', updates s ms = .ok s' ∧
      (∀ X, wlsCost s ms X = wlsCost s ms s'.x + sqLen s'.P (X - s'.x)) ∧
      ∀ X, X ≠ s'.x → wlsCost s ms s'.x < wlsCost s ms X := by
  suffices h : ∃ s', updates s ms = .ok s' ∧ s'.P.PosDef ∧
      (∀ X, wlsCost s ms X = wlsCost s ms s'.x + sqLen s'.P (X - s'.x)) by
    obtain ⟨s', h1, h2, h3⟩ := h
    refine ⟨s', h1, h3, fun X hX => ?_⟩
    have : 0 < sqLen s'.P (X - s'.x) := PD.quad h2.inv (sub_ne_zero.2 hX)
    rw [h3 X]; linarith
  induction ms generalizing s with
  | nil => exact ⟨s, rfl, hP, fun X => by simp [wlsCost, sqLen]⟩
  | cons e ms ih =>
    obtain ⟨s1, h1, -⟩ := update_pd s e.1 e.2.1 e.2.2 hinv hP (hR e (by simp))
    obtain ⟨SI, g1, g2⟩ := KF.update_ok h1
    rw [hinv] at g1
    obtain ⟨-, rfl⟩ := npInv_eq_some.1 g1
    have hRe := hR e (by simp)
    obtain ⟨i1, -, -⟩ := info_step (H := e.2.2.getD s.H) hP hRe s.x e.1
    have eR : s1.R = s.R := by rw [g2]
    have eH : s1.H = s.H := by rw [g2]
    obtain ⟨s', h2, p2, q2⟩ := ih s1 (by rw [g2]; exact hinv) (by rw [g2]; exact i1)
      (fun e he => by rw [eR]; exact hR e (by simp [he]))
    have hS : (e.2.2.getD s.H * (s.P * (e.2.2.getD s.H)ᵀ) + e.2.1.resolve s.R).PosDef :=
      S_pd hP.posSemidef hRe
    have e1 : s1.P = (1 - s.P * (e.2.2.getD s.H)ᵀ *
        (e.2.2.getD s.H * (s.P * (e.2.2.getD s.H)ᵀ) + e.2.1.resolve s.R)⁻¹ * e.2.2.getD s.H) * s.P := by
      rw [g2]
      exact joseph_simple (PD.symm hP) rfl (nonsing_inv_mul _ (PD.isUnit_det hS))
        (inv_symm (PD.symm hS)) rfl
    have e2 : s1.x = s.x + (s.P * (e.2.2.getD s.H)ᵀ *
        (e.2.2.getD s.H * (s.P * (e.2.2.getD s.H)ᵀ) + e.2.1.resolve s.R)⁻¹) *ᵥ
          (e.1 - e.2.2.getD s.H *ᵥ s.x) := by rw [g2]
    have key : ∃ c, ∀ X, wlsCost s (e :: ms) X = c + wlsCost s1 ms X := by
      refine ⟨sqLen (e.2.2.getD s.H * (s.P * (e.2.2.getD s.H)ᵀ) + e.2.1.resolve s.R)
        (e.1 - e.2.2.getD s.H *ᵥ s.x), fun X => ?_⟩
      have h := complete_square (H := e.2.2.getD s.H) hP hRe (X - s.x) (e.1 - e.2.2.getD s.H *ᵥ s.x)
      have e3 : e.1 - e.2.2.getD s.H *ᵥ s.x - e.2.2.getD s.H *ᵥ (X - s.x) =
          e.1 - e.2.2.getD s.H *ᵥ X := by rw [mulVec_sub]; abel
      have e4 : X - s1.x = X - s.x - (s.P * (e.2.2.getD s.H)ᵀ *
        (e.2.2.getD s.H * (s.P * (e.2.2.getD s.H)ᵀ) + e.2.1.resolve s.R)⁻¹) *ᵥ
          (e.1 - e.2.2.getD s.H *ᵥ s.x) := by rw [e2]; abel
      rw [e3, ← e4, ← e1] at h
      simp only [wlsCost, sqLen, List.map_cons, List.sum_cons, eR, eH] at h ⊢
      linarith
    obtain ⟨c, hc⟩ := key
    refine ⟨s', ?_, p2, fun X => ?_⟩
    · simp only [updates, runList, h1]; exact h2
    · rw [hc, hc, q2 X]; ring

/-- A static state with three measurements: the hypotheses hold. -/
example (a b : Vec 1) : ∃ s', updates cvKF [(a, .none, none), (b, .scalar 2, some !![0, 1])] = .ok s' ∧
    ∀ X, X ≠ s'.x → wlsCost cvKF [(a, .none, none), (b, .scalar 2, some !![0, 1])] s'.x <
      wlsCost cvKF [(a, .none, none), (b, .scalar 2, some !![0, 1])] X := by
  obtain ⟨s', h1, -, h3⟩ := C77_least_squares cvKF
    [(a, .none, none), (b, .scalar 2, some !![0, 1])] rfl PosDef.one (by
      intro e he
      simp only [List.mem_cons, List.not_mem_nil, or_false] at he
      rcases he with rfl | rfl <;> simp only [MatArg.resolve]
      · exact PosDef.one
      · exact PosDef.smul PosDef.one (by norm_num))
  exact ⟨s', h1, h3⟩

end Filterpy
