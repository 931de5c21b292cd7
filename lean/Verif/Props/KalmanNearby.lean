import Verif.Spec.Nearby
import Verif.Lemmas.Limits

/-!
# C145: nearby inputs give nearby estimates
-/

namespace Filterpy

open Matrix Filter Topology Spec

variable {ι : Type} {f : Filter ι} {n m l : ℕ}

theorem Spec.OptNear.getD {E : Type} [TopologicalSpace E] {a : ι → Option E} {b : Option E} (h : OptNear f a b)
    {d : ι → E} {d' : E} (hd : Tendsto d f (𝓝 d')) : Tendsto (fun i => (a i).getD (d i)) f (𝓝 (b.getD d')) := by
  cases h with
  | none => exact hd
  | some h => exact h

theorem Spec.OptNear.or {E : Type} [TopologicalSpace E] {a c : ι → Option E} {b d : Option E} (h : OptNear f a b)
    (hd : OptNear f c d) : OptNear f (fun i => (a i).or (c i)) (b.or d) := by
  cases h with
  | none => exact hd
  | some h => exact .some h

theorem Spec.ArgNear.resolve {a : ι → MatArg n} {b : MatArg n} (h : ArgNear f a b) {d : ι → Mat n n} {d' : Mat n n}
    (hd : Tendsto d f (𝓝 d')) : Tendsto (fun i => (a i).resolve (d i)) f (𝓝 (b.resolve d')) := by
  cases h with
  | none => exact hd
  | scalar h => exact h.smul_const _
  | mat h => exact h

theorem det_eventually {k : ℕ} {A : ι → Mat k k} {A' : Mat k k} (h : Tendsto A f (𝓝 A')) (hd : A'.det ≠ 0) :
    ∀ᶠ i in f, (A i).det ≠ 0 :=
  ((continuous_id.matrix_det.tendsto A').comp h).eventually_ne hd

/-- The control term of a prediction. -/
theorem control_near {B : ι → Option (Mat n l)} {B' : Option (Mat n l)} {u : ι → UArg l} {u' : UArg l}
    (hB : OptNear f B B') (hu : UNear f u u') {c' : Option (Vec n)} (h : KF.control B' u' = .ok c') :
    ∃ c : ι → Option (Vec n), (∀ i, KF.control (B i) (u i) = .ok (c i)) ∧ OptNear f c c' := by
  cases hB with
  | none => obtain rfl := Except.ok.inj h; exact ⟨fun _ => none, fun _ => rfl, .none⟩
  | some hB =>
    cases hu with
    | none => obtain rfl := Except.ok.inj h; exact ⟨fun _ => none, fun _ => rfl, .none⟩
    | scalar hc =>
      simp only [KF.control] at h
      split_ifs at h with hl
      obtain rfl := Except.ok.inj h
      subst hl
      rename_i c c' v v'
      refine ⟨fun i => some fun j => c i * v i j ⟨0, by omega⟩, fun i => by simp only [KF.control, dif_pos], .some ?_⟩
      refine tendsto_pi_nhds.2 fun j => ?_
      exact hc.mul ((tendsto_pi_nhds.1 ((tendsto_pi_nhds.1 hB) j)) _)
    | vec hu =>
      obtain rfl := Except.ok.inj h
      exact ⟨_, fun i => rfl, .some (tendsto_mulVec hB hu)⟩

theorem predict_near {s : ι → KF n m l} {t t' : KF n m l} (hs : KFNear f s t) {u u'} {B B'} {F F'} {Q Q'}
    (hu : UNear f u u') (hB : OptNear f B B') (hF : OptNear f F F') (hQ : ArgNear f Q Q')
    (h : t.predict u' B' F' Q' = .ok t') :
    ∃ s', (∀ i, (s i).predict (u i) (B i) (F i) (Q i) = .ok (s' i)) ∧ KFNear f s' t' := by
  simp only [KF.predict] at h
  cases hc : KF.control (B'.or t.B) u' with
  | error e => rw [hc] at h; cases h
  | ok c' =>
    rw [hc] at h
    obtain ⟨c, h1, h2⟩ := control_near (hB.or hs.B) hu hc
    obtain rfl := Except.ok.inj h
    have hF' := hF.getD hs.F
    have hP := ((hs.alpha.smul (tendsto_mmul (tendsto_mmul hF' hs.P) (tendsto_transpose hF'))).add (hQ.resolve hs.Q))
    have hx := tendsto_mulVec hF' hs.x
    let P (i : ι) := (s i).alphaSq • ((F i).getD (s i).F * (s i).P * ((F i).getD (s i).F)ᵀ) + (Q i).resolve (s i).Q
    cases h2 with
    | none =>
      let x (i : ι) := (F i).getD (s i).F *ᵥ (s i).x
      refine ⟨fun i => { s i with x := x i, P := P i, xPrior := x i, PPrior := P i }, fun i => ?_,
        { hs with x := hx, P := hP, xPrior := hx, PPrior := hP }⟩
      simp only [KF.predict, h1 i, x, P]
    | @some v v' h2 =>
      let x (i : ι) := (F i).getD (s i).F *ᵥ (s i).x + v i
      refine ⟨fun i => { s i with x := x i, P := P i, xPrior := x i, PPrior := P i }, fun i => ?_,
        { hs with x := hx.add h2, P := hP, xPrior := hx.add h2, PPrior := hP }⟩
      simp only [KF.predict, h1 i, x, P]

theorem npInv_some {k : ℕ} {A B : Mat k k} (h : npInv A = some B) : A.det ≠ 0 ∧ B = A⁻¹ := by
  simp only [npInv] at h
  split_ifs at h with hd
  exact ⟨hd, (Option.some.inj h).symm⟩

theorem npInv_eventually {k : ℕ} {A : ι → Mat k k} {A' B : Mat k k} (h : Tendsto A f (𝓝 A')) (hB : npInv A' = some B) :
    (∀ᶠ i in f, npInv (A i) = some (A i)⁻¹) ∧ Tendsto (fun i => (A i)⁻¹) f (𝓝 B) := by
  obtain ⟨hd, rfl⟩ := npInv_some hB
  refine ⟨(det_eventually h hd).mono fun i hi => ?_, tendsto_minv h hd⟩
  simp only [npInv, if_neg hi]

/-- The correction shared by the updates. -/
theorem correct_near {k : ℕ} {x : ι → Vec n} {x'} {P : ι → Mat n n} {P'} {H : ι → Mat k n} {H'} {R : ι → Mat k k} {R'}
    {K : ι → Mat n k} {K'} {y : ι → Vec k} {y'} (hx : Tendsto x f (𝓝 x')) (hP : Tendsto P f (𝓝 P'))
    (hH : Tendsto H f (𝓝 H')) (hR : Tendsto R f (𝓝 R')) (hK : Tendsto K f (𝓝 K')) (hy : Tendsto y f (𝓝 y')) :
    Tendsto (fun i => x i + K i *ᵥ y i) f (𝓝 (x' + K' *ᵥ y')) ∧
    Tendsto (fun i => (1 - K i * H i) * P i * (1 - K i * H i)ᵀ + K i * R i * (K i)ᵀ) f
      (𝓝 ((1 - K' * H') * P' * (1 - K' * H')ᵀ + K' * R' * K'ᵀ)) := by
  have h1 : Tendsto (fun i => 1 - K i * H i) f (𝓝 (1 - K' * H')) := tendsto_const_nhds.sub (tendsto_mmul hK hH)
  exact ⟨hx.add (tendsto_mulVec hK hy), (tendsto_mmul (tendsto_mmul h1 hP) (tendsto_transpose h1)).add
    (tendsto_mmul (tendsto_mmul hK hR) (tendsto_transpose hK))⟩

theorem update_near {s : ι → KF n m l} {t t' : KF n m l} (hs : KFNear f s t) {z z'} {R R'} {H H'}
    (hz : Tendsto z f (𝓝 z')) (hR : ArgNear f R R') (hH : OptNear f H H') (h : t.update (some z') R' H' = .ok t') :
    ∃ s', (∀ᶠ i in f, (s i).update (some (z i)) (R i) (H i) = .ok (s' i)) ∧ KFNear f s' t' ∧ ResidualNear f s' t' ∧
      (∀ i, (s' i).logLik = none ∧ (s' i).lik = none ∧ (s' i).mahal = none) := by
  simp only [KF.update] at h
  rw [hs.inv'] at h
  have hH' := hH.getD hs.H
  have hR' := hR.resolve hs.R
  have hPHT := tendsto_mmul hs.P (tendsto_transpose hH')
  have hS := (tendsto_mmul hH' hPHT).add hR'
  have hy := hz.sub (tendsto_mulVec hH' hs.x)
  cases hc : npInv (H'.getD t.H * (t.P * (H'.getD t.H)ᵀ) + R'.resolve t.R) with
  | none => simp only [hc] at h; cases h
  | some SI =>
    simp only [hc] at h
    obtain ⟨h1, h2⟩ := npInv_eventually hS hc
    have hK := tendsto_mmul hPHT h2
    obtain ⟨c1, c2⟩ := correct_near hs.x hs.P hH' hR' hK hy
    obtain rfl := Except.ok.inj h
    let H1 (i : ι) := (H i).getD (s i).H
    let R1 (i : ι) := (R i).resolve (s i).R
    let S (i : ι) := H1 i * ((s i).P * (H1 i)ᵀ) + R1 i
    let K (i : ι) := (s i).P * (H1 i)ᵀ * (S i)⁻¹
    let y (i : ι) := z i - H1 i *ᵥ (s i).x
    let x (i : ι) := (s i).x + K i *ᵥ y i
    let P (i : ι) := (1 - K i * H1 i) * (s i).P * (1 - K i * H1 i)ᵀ + K i * R1 i * (K i)ᵀ
    refine ⟨fun i => { s i with
      logLik := none, lik := none, mahal := none
      y := y i, S := S i, SI := (S i)⁻¹, K := K i, x := x i, P := P i
      z := fun j => some (z i j), xPost := x i, PPost := P i }, h1.mono fun i hi => ?_, ?_, ?_, ?_⟩
    · have hi' : (s i).inv ((H i).getD (s i).H * ((s i).P * ((H i).getD (s i).H)ᵀ) + (R i).resolve (s i).R) =
          some (S i)⁻¹ := by rw [hs.inv i]; exact hi
      simp only [KF.update, hi']
      rfl
    · exact { hs with x := c1, P := c2, xPost := c1, PPost := c2, inv' := rfl }
    · exact ⟨hy, hS, h2, hK⟩
    · exact fun i => ⟨rfl, rfl, rfl⟩

theorem correlated_near {s : ι → KF n m l} {t t' : KF n m l} (hs : KFNear f s t) {z z'} {R R'} {H H'}
    (hz : Tendsto z f (𝓝 z')) (hR : ArgNear f R R') (hH : OptNear f H H')
    (h : t.updateCorrelated (some z') R' H' = .ok t') :
    ∃ s', (∀ᶠ i in f, (s i).updateCorrelated (some (z i)) (R i) (H i) = .ok (s' i)) ∧ KFNear f s' t' := by
  simp only [KF.updateCorrelated] at h
  rw [hs.inv'] at h
  have hH' := hH.getD hs.H
  have hPHT := tendsto_mmul hs.P (tendsto_transpose hH')
  have hMT := tendsto_transpose hs.M
  have hS := (((tendsto_mmul hH' hPHT).add (tendsto_mmul hH' hs.M)).add
    (tendsto_mmul hMT (tendsto_transpose hH'))).add (hR.resolve hs.R)
  have hy := hz.sub (tendsto_mulVec hH' hs.x)
  cases hc : npInv (H'.getD t.H * (t.P * (H'.getD t.H)ᵀ) + H'.getD t.H * t.M + t.Mᵀ * (H'.getD t.H)ᵀ +
    R'.resolve t.R) with
  | none => simp only [hc] at h; cases h
  | some SI =>
    simp only [hc] at h
    obtain ⟨h1, h2⟩ := npInv_eventually hS hc
    have hK := tendsto_mmul (hPHT.add hs.M) h2
    have c1 := hs.x.add (tendsto_mulVec hK hy)
    have c2 := hs.P.sub (tendsto_mmul hK ((tendsto_mmul hH' hs.P).add hMT))
    obtain rfl := Except.ok.inj h
    let H1 (i : ι) := (H i).getD (s i).H
    let S (i : ι) := H1 i * ((s i).P * (H1 i)ᵀ) + H1 i * (s i).M + (s i).Mᵀ * (H1 i)ᵀ + (R i).resolve (s i).R
    let K (i : ι) := ((s i).P * (H1 i)ᵀ + (s i).M) * (S i)⁻¹
    let y (i : ι) := z i - H1 i *ᵥ (s i).x
    let x (i : ι) := (s i).x + K i *ᵥ y i
    let P (i : ι) := (s i).P - K i * (H1 i * (s i).P + (s i).Mᵀ)
    refine ⟨fun i => { s i with
      logLik := none, lik := none, mahal := none
      y := y i, S := S i, SI := (S i)⁻¹, K := K i, x := x i, P := P i
      z := fun j => some (z i j), xPost := x i, PPost := P i }, h1.mono fun i hi => ?_, ?_⟩
    · have hi' : (s i).inv ((H i).getD (s i).H * ((s i).P * ((H i).getD (s i).H)ᵀ) + (H i).getD (s i).H * (s i).M +
          (s i).Mᵀ * ((H i).getD (s i).H)ᵀ + (R i).resolve (s i).R) = some (S i)⁻¹ := by rw [hs.inv i]; exact hi
      simp only [KF.updateCorrelated, hi']
      rfl
    exact { hs with x := c1, P := c2, xPost := c1, PPost := c2, inv' := rfl }

theorem tendsto_submatrix {a b c d : ℕ} {A : ι → Mat a b} {A' : Mat a b} (h : Tendsto A f (𝓝 A')) (r : Fin c → Fin a)
    (q : Fin d → Fin b) : Tendsto (fun i => (A i).submatrix r q) f (𝓝 (A'.submatrix r q)) :=
  ((continuous_id.matrix_submatrix r q).tendsto A').comp h

/-- The gain of `update_sequential`. -/
noncomputable def seqSolve {len : ℕ} (Si : Mat len len) (PHT : Mat n len) : Except Err (Mat n len) :=
  if hl : len = 1 then
    let s00 := Si ⟨0, by omega⟩ ⟨0, by omega⟩
    if s00 = 0 then .error .nonFinite else .ok ((1.0 / s00) • PHT)
  else match npInv Si with
    | none => .error .linAlgError
    | some SIi => .ok (PHT * SIi)

theorem seqSolve_near {len : ℕ} {S : ι → Mat len len} {S'} {A : ι → Mat n len} {A' K'} (hS : Tendsto S f (𝓝 S'))
    (hA : Tendsto A f (𝓝 A')) (h : seqSolve S' A' = .ok K') :
    ∃ K, (∀ᶠ i in f, seqSolve (S i) (A i) = .ok (K i)) ∧ Tendsto K f (𝓝 K') := by
  unfold seqSolve at h ⊢
  by_cases hl : len = 1
  · subst hl
    rw [dif_pos rfl] at h
    have h00 := (tendsto_pi_nhds.1 ((tendsto_pi_nhds.1 hS) ⟨0, by omega⟩)) ⟨0, by omega⟩
    by_cases h0 : S' ⟨0, by omega⟩ ⟨0, by omega⟩ = 0
    · simp only [if_pos h0] at h; cases h
    simp only [if_neg h0] at h
    obtain rfl := Except.ok.inj h
    refine ⟨_, (h00.eventually_ne h0).mono fun i hi => ?_, ((tendsto_const_nhds (x := (1.0 : ℝ))).div h00 h0).smul hA⟩
    exact (dif_pos rfl).trans (if_neg hi)
  · rw [dif_neg hl] at h
    cases hc : npInv S' with
    | none => simp only [hc] at h; cases h
    | some SI =>
      simp only [hc] at h
      obtain ⟨h1, h2⟩ := npInv_eventually hS hc
      obtain rfl := Except.ok.inj h
      refine ⟨_, h1.mono fun i hi => ?_, tendsto_mmul hA h2⟩
      rw [dif_neg hl]
      simp only [hi]

theorem updateSequential_solve {start len : ℕ} (h : start + len ≤ m) (s : KF n m l) (zi : Vec len) (Ri : MatArg len)
    (Hi : Option (Mat len n)) :
    s.updateSequential start zi Ri Hi =
      let Ri := Ri.resolve (s.R.submatrix (KF.sliceIdx h) (KF.sliceIdx h))
      let Hi := Hi.getD (s.H.submatrix (KF.sliceIdx h) id)
      let yi := zi - Hi *ᵥ s.x
      let s1 := { s with y := KF.sliceSet h s.y yi }
      match seqSolve (Hi * (s.P * Hiᵀ) + Ri) (s.P * Hiᵀ) with
      | .error e => .error (e, s1)
      | .ok Ki =>
        .ok { s1 with
          K := fun i => KF.sliceSet h (s.K i) (Ki i)
          x := s.x + Ki *ᵥ yi, P := (1 - Ki * Hi) * s.P * (1 - Ki * Hi)ᵀ + Ki * Ri * Kiᵀ
          z := KF.sliceSet h s.z (fun i => some (zi i))
          xPost := s.x + Ki *ᵥ yi, PPost := (1 - Ki * Hi) * s.P * (1 - Ki * Hi)ᵀ + Ki * Ri * Kiᵀ } := by
  simp only [KF.updateSequential, dif_pos h]
  rfl

theorem sequential_near {s : ι → KF n m l} {t t' : KF n m l} (hs : KFNear f s t) {start len : ℕ} {z : ι → Vec len} {z'}
    {R R'} {H H'} (hz : Tendsto z f (𝓝 z')) (hR : ArgNear f R R') (hH : OptNear f H H')
    (h : t.updateSequential start z' R' H' = .ok t') :
    ∃ s', (∀ᶠ i in f, (s i).updateSequential start (z i) (R i) (H i) = .ok (s' i)) ∧ KFNear f s' t' := by
  by_cases hl : start + len ≤ m
  · rw [updateSequential_solve hl] at h
    have hH' := hH.getD (tendsto_submatrix hs.H (KF.sliceIdx hl) id)
    have hR' := hR.resolve (tendsto_submatrix hs.R (KF.sliceIdx hl) (KF.sliceIdx hl))
    have hPHT := tendsto_mmul hs.P (tendsto_transpose hH')
    have hS := (tendsto_mmul hH' hPHT).add hR'
    have hy := hz.sub (tendsto_mulVec hH' hs.x)
    simp only at h
    generalize hc : seqSolve _ _ = q at h
    cases q with
    | error e => cases h
    | ok K' =>
      obtain ⟨K, h1, hK⟩ := seqSolve_near hS hPHT hc
      obtain ⟨c1, c2⟩ := correct_near hs.x hs.P hH' hR' hK hy
      obtain rfl := Except.ok.inj h
      let H1 (i : ι) := (H i).getD ((s i).H.submatrix (KF.sliceIdx hl) id)
      let R1 (i : ι) := (R i).resolve ((s i).R.submatrix (KF.sliceIdx hl) (KF.sliceIdx hl))
      let y (i : ι) := z i - H1 i *ᵥ (s i).x
      let x (i : ι) := (s i).x + K i *ᵥ y i
      let P (i : ι) := (1 - K i * H1 i) * (s i).P * (1 - K i * H1 i)ᵀ + K i * R1 i * (K i)ᵀ
      refine ⟨fun i => { s i with
        y := KF.sliceSet hl (s i).y (y i), K := fun j => KF.sliceSet hl ((s i).K j) (K i j), x := x i, P := P i
        z := KF.sliceSet hl (s i).z (fun j => some (z i j)), xPost := x i, PPost := P i }, h1.mono fun i hi => ?_,
        { hs with x := c1, P := c2, xPost := c1, PPost := c2 }⟩
      rw [updateSequential_solve hl]
      simp only [hi]
      rfl
  · simp only [KF.updateSequential, dif_neg hl] at h; cases h

/-- A measurement drowned in noise. -/
theorem drowned_near {s : ι → KF n m l} {t : KF n m l} (hs : KFNear f s t) {r : ι → ℝ} {z : ι → Vec m} {z' : Vec m}
    {R : Mat m m} {H H'} (hr : Tendsto r f atTop) (hz : Tendsto z f (𝓝 z')) (hR : R.det ≠ 0) (hH : OptNear f H H') :
    ∃ s', (∀ᶠ i in f, (s i).update (some (z i)) (.mat (r i • R)) (H i) = .ok (s' i)) ∧ KFNear f s' t.updateNone ∧
      Tendsto (fun i => (s' i).K) f (𝓝 0) := by
  have hH' := hH.getD hs.H
  have hPHT := tendsto_mmul hs.P (tendsto_transpose hH')
  have hy := hz.sub (tendsto_mulVec hH' hs.x)
  have hri : Tendsto (fun i => (r i)⁻¹) f (𝓝 0) := tendsto_inv_atTop_zero.comp hr
  have hT : Tendsto (fun i => (r i)⁻¹ • ((H i).getD (s i).H * ((s i).P * ((H i).getD (s i).H)ᵀ)) + R) f (𝓝 R) := by
    have := (hri.smul (tendsto_mmul hH' hPHT)).add (tendsto_const_nhds (x := R))
    rwa [zero_smul, zero_add] at this
  have hTi := tendsto_minv hT hR
  have hpos : ∀ᶠ i in f, 0 < r i := hr.eventually_gt_atTop 0
  set T : ι → Mat m m := fun i => (r i)⁻¹ • ((H i).getD (s i).H * ((s i).P * ((H i).getD (s i).H)ᵀ)) + R with hTd
  have hdet : ∀ᶠ i in f, (T i).det ≠ 0 := det_eventually hT hR
  have hST : ∀ i, 0 < r i → (H i).getD (s i).H * ((s i).P * ((H i).getD (s i).H)ᵀ) + r i • R = r i • T i := by
    intro i hi
    simp only [hTd, smul_add, smul_smul, mul_inv_cancel₀ hi.ne', one_smul]
  -- the gain, and the gain times the noise
  set K : ι → Mat n m := fun i => (s i).P * ((H i).getD (s i).H)ᵀ * ((r i)⁻¹ • (T i)⁻¹) with hKd
  have hK0 : Tendsto K f (𝓝 0) := by
    have := tendsto_mmul hPHT (hri.smul hTi)
    rwa [zero_smul, Matrix.mul_zero] at this
  have hKR : Tendsto (fun i => K i * (r i • R) * (K i)ᵀ) f (𝓝 0) := by
    have h1 : Tendsto (fun i => (s i).P * ((H i).getD (s i).H)ᵀ * (T i)⁻¹ * R * (K i)ᵀ) f (𝓝 0) := by
      have := tendsto_mmul (tendsto_mmul (tendsto_mmul hPHT hTi) (tendsto_const_nhds (x := R))) (tendsto_transpose hK0)
      rwa [transpose_zero, Matrix.mul_zero] at this
    refine h1.congr' (hpos.mono fun i hi => ?_)
    simp only [hKd, Matrix.mul_smul, Matrix.smul_mul, smul_smul, inv_mul_cancel₀ hi.ne', mul_inv_cancel₀ hi.ne', one_smul]
  have hI : Tendsto (fun i => (1 : Mat n n) - K i * (H i).getD (s i).H) f (𝓝 1) := by
    have := (tendsto_const_nhds (x := (1 : Mat n n))).sub (tendsto_mmul hK0 hH')
    rwa [Matrix.zero_mul, sub_zero] at this
  have c1 : Tendsto (fun i => (s i).x + K i *ᵥ (z i - (H i).getD (s i).H *ᵥ (s i).x)) f (𝓝 t.x) := by
    have := hs.x.add (tendsto_mulVec hK0 hy)
    rwa [zero_mulVec, add_zero] at this
  have c2 : Tendsto (fun i => (1 - K i * (H i).getD (s i).H) * (s i).P * (1 - K i * (H i).getD (s i).H)ᵀ +
      K i * (r i • R) * (K i)ᵀ) f (𝓝 t.P) := by
    have := (tendsto_mmul (tendsto_mmul hI hs.P) (tendsto_transpose hI)).add hKR
    rwa [transpose_one, Matrix.one_mul, Matrix.mul_one, add_zero] at this
  let s' : ι → KF n m l := fun i => { s i with
    logLik := none, lik := none, mahal := none
    y := z i - (H i).getD (s i).H *ᵥ (s i).x
    S := (H i).getD (s i).H * ((s i).P * ((H i).getD (s i).H)ᵀ) + r i • R
    SI := (r i)⁻¹ • (T i)⁻¹, K := K i
    x := (s i).x + K i *ᵥ (z i - (H i).getD (s i).H *ᵥ (s i).x)
    P := (1 - K i * (H i).getD (s i).H) * (s i).P * (1 - K i * (H i).getD (s i).H)ᵀ + K i * (r i • R) * (K i)ᵀ
    z := fun j => some (z i j)
    xPost := (s i).x + K i *ᵥ (z i - (H i).getD (s i).H *ᵥ (s i).x)
    PPost := (1 - K i * (H i).getD (s i).H) * (s i).P * (1 - K i * (H i).getD (s i).H)ᵀ + K i * (r i • R) * (K i)ᵀ }
  refine ⟨s', (hpos.and hdet).mono fun i hi => ?_, ?_, hK0⟩
  · have hinv : (s i).inv ((H i).getD (s i).H * ((s i).P * ((H i).getD (s i).H)ᵀ) + r i • R) =
        some ((r i)⁻¹ • (T i)⁻¹) := by
      rw [hs.inv i, hST i hi.1]
      have hd : (r i • T i).det ≠ 0 := by
        rw [det_smul]
        exact mul_ne_zero (pow_ne_zero _ hi.1.ne') hi.2
      simp only [npInv, if_neg hd]
      have : IsUnit (T i).det := isUnit_iff_ne_zero.2 hi.2
      refine congrArg some (Matrix.inv_eq_left_inv ?_)
      rw [Matrix.smul_mul, Matrix.mul_smul, smul_smul, inv_mul_cancel₀ hi.1.ne', one_smul, Matrix.nonsing_inv_mul _ this]
    simp only [KF.update, MatArg.resolve, hinv]
    rfl
  · exact { hs with x := c1, P := c2, xPost := c1, PPost := c2 }

theorem Spec.OptNear.refl {E : Type} [TopologicalSpace E] (f : Filter ι) (a : Option E) : OptNear f (fun _ => a) a := by
  cases a with
  | none => exact .none
  | some A => exact .some tendsto_const_nhds

theorem Spec.ArgNear.refl (f : Filter ι) (a : MatArg n) : ArgNear f (fun _ => a) a := by
  cases a with
  | none => exact .none
  | scalar c => exact .scalar tendsto_const_nhds
  | mat A => exact .mat tendsto_const_nhds

theorem Spec.KFNear.refl (s : KF n m l) (hi : s.inv = npInv) : KFNear f (fun _ => s) s where
  x := tendsto_const_nhds
  P := tendsto_const_nhds
  F := tendsto_const_nhds
  Q := tendsto_const_nhds
  H := tendsto_const_nhds
  R := tendsto_const_nhds
  B := .refl f s.B
  M := tendsto_const_nhds
  alpha := tendsto_const_nhds
  xPrior := tendsto_const_nhds
  PPrior := tendsto_const_nhds
  xPost := tendsto_const_nhds
  PPost := tendsto_const_nhds
  inv := fun _ => hi
  inv' := hi

/-- One call. -/
theorem step_near (expf : ℝ → ℝ) {s : ι → KF n m l} {t t' : KF n m l} (hs : KFNear f s t) {o : ι → KFOp n m l} {o'}
    (ho : OpNear f o o') (h : t.step expf o' = .ok t') :
    ∃ s', (∀ᶠ i in f, (s i).step expf (o i) = .ok (s' i)) ∧ KFNear f s' t' := by
  cases ho with
  | predict hu hB hF hQ =>
    obtain ⟨s', h1, h2⟩ := predict_near hs hu hB hF hQ h
    exact ⟨s', Eventually.of_forall h1, h2⟩
  | update hz hR hH =>
    obtain ⟨s', h1, h2, -⟩ := update_near hs hz hR hH h
    exact ⟨s', h1, h2⟩
  | missing =>
    obtain rfl := Except.ok.inj h
    exact ⟨fun i => (s i).updateNone, Eventually.of_forall fun i => rfl, { hs with xPost := hs.x, PPost := hs.P }⟩
  | drowned hr hz hR hH =>
    obtain rfl := Except.ok.inj h
    obtain ⟨s', h1, h2, -⟩ := drowned_near hs hr hz hR hH
    exact ⟨s', h1, h2⟩
  | correlated hz hR hH => exact correlated_near hs hz hR hH h
  | sequential hz hR hH => exact sequential_near hs hz hR hH h
  | @setAlpha v v' hv h1 =>
    simp only [KF.step, KF.setAlpha] at h
    split_ifs at h with hlt
    obtain rfl := Except.ok.inj h
    refine ⟨fun i => { s i with alphaSq := v i ^ 2 }, Eventually.of_forall fun i => ?_, { hs with alpha := hv.pow 2 }⟩
    simp only [KF.step, KF.setAlpha, if_neg (h1 i).not_gt]

/-- **C145 (histories).** If a history of predictions, measurements and missing measurements succeeds, then so does every
history that is close enough to it, on every filter close enough, and the estimates of the two are close: as the
filters and the arguments of all calls approach each other, so do the state and the covariance, prior and posterior.
A measurement may also be replaced by none, if its noise is large enough. -/
theorem C145_history (expf : ℝ → ℝ) {s : ι → KF n m l} {t t' : KF n m l} (hs : KFNear f s t)
    {os : List (ι → KFOp n m l)} {ops : List (KFOp n m l)} (ho : List.Forall₂ (OpNear f) os ops)
    (h : t.run expf ops = .ok t') :
    ∃ s', (∀ᶠ i in f, (s i).run expf (os.map (· i)) = .ok (s' i)) ∧ KFNear f s' t' := by
  induction ho generalizing s t with
  | nil => obtain rfl := Except.ok.inj h; exact ⟨s, Eventually.of_forall fun i => rfl, hs⟩
  | @cons o o' os ops h1 _ ih =>
    simp only [KF.run] at h
    cases hc : t.step expf o' with
    | error e => rw [hc] at h; cases h
    | ok t1 =>
      rw [hc] at h
      obtain ⟨s1, g1, g2⟩ := step_near expf hs h1 hc
      obtain ⟨s', k1, k2⟩ := ih g2 h
      refine ⟨s', (g1.and k1).mono fun i hi => ?_, k2⟩
      simp only [List.map_cons, KF.run, hi.1, hi.2]

/-- **C145 (what a measurement leaves behind).** After a successful measurement the residual, its covariance, the gain,
and the log-likelihood depend continuously on the filter and the arguments as well. -/
theorem C145_residual {s : ι → KF n m l} {t t' : KF n m l} (hs : KFNear f s t) {z z'} {R R'} {H H'}
    (hz : Tendsto z f (𝓝 z')) (hR : ArgNear f R R') (hH : OptNear f H H') (h : t.update (some z') R' H' = .ok t') :
    ∃ s', (∀ᶠ i in f, (s i).update (some (z i)) (R i) (H i) = .ok (s' i)) ∧ KFNear f s' t' ∧ ResidualNear f s' t' ∧
      Tendsto (fun i => (s' i).readLogLik.1) f (𝓝 t'.readLogLik.1) := by
  obtain ⟨s', h1, h2, h3, h4⟩ := update_near hs hz hR hH h
  refine ⟨s', h1, h2, h3, ?_⟩
  have ht : t'.logLik = none ∧ t'.S.det ≠ 0 := by
    simp only [KF.update] at h
    rw [hs.inv'] at h
    cases hc : npInv (H'.getD t.H * (t.P * (H'.getD t.H)ᵀ) + R'.resolve t.R) with
    | none => simp only [hc] at h; cases h
    | some SI =>
      simp only [hc] at h
      obtain rfl := Except.ok.inj h
      exact ⟨rfl, (npInv_some hc).1⟩
  have e (i) : (s' i).readLogLik.1 = logpdf (s' i).y (s' i).S := by simp only [KF.readLogLik, (h4 i).1]
  have e' : t'.readLogLik.1 = logpdf t'.y t'.S := by simp only [KF.readLogLik, ht.1]
  simp only [e, e', logpdf]
  have hdet := (continuous_id.matrix_det.tendsto t'.S).comp h3.S
  have hq := tendsto_mulVec (tendsto_minv h3.S ht.2) h3.y
  have hdot : Tendsto (fun i => (s' i).y ⬝ᵥ ((s' i).S⁻¹ *ᵥ (s' i).y)) f (𝓝 (t'.y ⬝ᵥ (t'.S⁻¹ *ᵥ t'.y))) := by
    simp only [dotProduct]
    exact tendsto_finsetSum _ fun j _ => ((tendsto_pi_nhds.1 h3.y) j).mul ((tendsto_pi_nhds.1 hq) j)
  exact tendsto_const_nhds.mul ((tendsto_const_nhds.add (hdet.log ht.2)).add hdot)

/-- **C145 (a measurement drowned in noise).** As the noise of a measurement grows without bound, `update(z, R=r)` tends to
`update(None)`: the gain tends to zero, and state and covariance to what they were. -/
theorem C145_drowned (s : KF n m l) (hi : s.inv = npInv) (z : Vec m) (H : Option (Mat m n)) :
    ∃ s' : ℝ → KF n m l, (∀ᶠ r in atTop, s.update (some z) (.scalar r) H = .ok (s' r)) ∧
      Tendsto (fun r => (s' r).x) atTop (𝓝 s.x) ∧ Tendsto (fun r => (s' r).P) atTop (𝓝 s.P) ∧
      Tendsto (fun r => (s' r).K) atTop (𝓝 0) := by
  obtain ⟨s', h1, h2, h3⟩ := drowned_near (KFNear.refl s hi) (r := fun r : ℝ => r) (z := fun _ => z) (R := (1 : Mat m m))
    tendsto_id tendsto_const_nhds (by simp) (.refl atTop H)
  exact ⟨s', h1, h2.x, h2.P, h3⟩

/-- **C145 (an almost perfect measurement).** As the noise of a measurement tends to zero, `update(z, R=r)` tends to
`update(z, R=0)`, whenever the latter succeeds. -/
theorem C145_perfect (s s0 : KF n m l) (hi : s.inv = npInv) (z : Vec m) (H : Option (Mat m n))
    (h : s.update (some z) (.scalar 0) H = .ok s0) :
    ∃ s' : ℝ → KF n m l, (∀ᶠ r in 𝓝 0, s.update (some z) (.scalar r) H = .ok (s' r)) ∧
      Tendsto (fun r => (s' r).x) (𝓝 0) (𝓝 s0.x) ∧ Tendsto (fun r => (s' r).P) (𝓝 0) (𝓝 s0.P) ∧
      Tendsto (fun r => (s' r).K) (𝓝 0) (𝓝 s0.K) := by
  obtain ⟨s', h1, h2, h3, -⟩ := C145_residual (KFNear.refl s hi) (z := fun _ : ℝ => z) tendsto_const_nhds
    (.scalar (tendsto_id (α := ℝ))) (.refl _ H) h
  exact ⟨s', h1, h2.x, h2.P, h3.K⟩

/-- The hypotheses are met by a fresh one-dimensional filter: two predictions and two measurements, of which one is close
to `z` and the other drowned in noise. -/
example (z w : Vec 1) :
    ∃ (s' : ℕ → KF 1 1 0) (t' : KF 1 1 0),
      (∀ᶠ i : ℕ in atTop, KF.run Real.exp { KF.fresh 1 1 0 with H := 1 }
        [.predict .none none none .none, .update (some fun _ => z 0 + 1 / (i + 1 : ℝ)) .none none,
          .predict .none none none .none, .update (some w) (.mat ((i : ℝ) • 1)) none] = .ok (s' i)) ∧
      KF.run Real.exp { KF.fresh 1 1 0 with H := 1 }
        [.predict .none none none .none, .update (some fun _ => z 0) .none none,
          .predict .none none none .none, .update none .none none] = .ok t' ∧ KFNear atTop s' t' := by
  let t : KF 1 1 0 := { KF.fresh 1 1 0 with H := 1 }
  obtain ⟨t', ht⟩ : ∃ t', KF.run Real.exp t
        [.predict .none none none .none, .update (some fun _ => z 0) .none none,
          .predict .none none none .none, .update none .none none] = .ok t' := by
    have h : npInv ((1 : Mat 1 1) * (((1 : ℝ) • ((1 : Mat 1 1) * 1 * 1ᵀ) + 1) * (1 : Mat 1 1)ᵀ) + 1) =
        some ((1 : Mat 1 1) * (((1 : ℝ) • ((1 : Mat 1 1) * 1 * 1ᵀ) + 1) * (1 : Mat 1 1)ᵀ) + 1)⁻¹ := by
      have : ((1 : Mat 1 1) * (((1 : ℝ) • ((1 : Mat 1 1) * 1 * 1ᵀ) + 1) * (1 : Mat 1 1)ᵀ) + 1).det ≠ 0 := by
        simp [det_fin_one]; norm_num
      simp only [npInv, if_neg this]
    simp only [t, KF.fresh, KF.run, KF.step, KF.predict, KF.control, KF.update, Option.or, Option.getD, MatArg.resolve, h]
    exact ⟨_, rfl⟩
  obtain ⟨s', h1, h2⟩ := C145_history (f := atTop) Real.exp (KFNear.refl t rfl) (os := [
      fun _ => .predict .none none none .none, fun i : ℕ => .update (some fun _ => z 0 + 1 / (i + 1 : ℝ)) .none none,
      fun _ => .predict .none none none .none, fun i => .update (some w) (.mat ((i : ℝ) • 1)) none])
    (.cons (.predict .none .none .none .none) (.cons (.update (tendsto_pi_nhds.2 fun _ => by
      simpa using (tendsto_one_div_add_atTop_nhds_zero_nat (𝕜 := ℝ)).const_add (z 0)) .none .none)
      (.cons (.predict .none .none .none .none) (.cons (.drowned tendsto_natCast_atTop_atTop
        (tendsto_const_nhds (x := w)) (by simp) .none) .nil)))) ht
  exact ⟨s', t', h1, ht, h2⟩

end Filterpy
