import Verif.Props.EkfNearby
import Verif.Model.HInfinity

/-!
# C145 for the fading-memory and the H-infinity filter
-/

namespace Filterpy

open Matrix Filter Topology Spec

variable {ι : Type} {f : Filter ι} {n m l : ℕ}

namespace Spec

/-- The calls on a `FadingKalmanFilter`. -/
inductive FadingCall (m l : ℕ)
  | predict (u : UArg l)
  | update (z : Option (Vec m)) (R : MatArg m)

/-- What a call does. -/
noncomputable def FadingCall.run (s : FKF n m l) : FadingCall m l → Exec (FKF n m l)
  | .predict u => s.predict u
  | .update z R => s.update z R

/-- A call approaches another. -/
inductive FadingCallNear (f : Filter ι) : (ι → FadingCall m l) → FadingCall m l → Prop
  | predict {u : ι → UArg l} {u' : UArg l} (hu : UNear f u u') : FadingCallNear f (fun i => .predict (u i)) (.predict u')
  | update {z : ι → Vec m} {z' : Vec m} {R : ι → MatArg m} {R' : MatArg m} (hz : Tendsto z f (𝓝 z')) (hR : ArgNear f R R') :
      FadingCallNear f (fun i => .update (some (z i)) (R i)) (.update (some z') R')
  | missing {R : ι → MatArg m} {R' : MatArg m} : FadingCallNear f (fun i => .update none (R i)) (.update none R')

/-- A fading-memory filter approaches another in estimate, model, noises and fading factor. -/
structure FKFNear (f : Filter ι) (s : ι → FKF n m l) (t : FKF n m l) : Prop where
  alphaSq : Tendsto (fun i => (s i).alphaSq) f (𝓝 t.alphaSq)
  x : Tendsto (fun i => (s i).x) f (𝓝 t.x)
  P : Tendsto (fun i => (s i).P) f (𝓝 t.P)
  F : Tendsto (fun i => (s i).F) f (𝓝 t.F)
  H : Tendsto (fun i => (s i).H) f (𝓝 t.H)
  Q : Tendsto (fun i => (s i).Q) f (𝓝 t.Q)
  R : Tendsto (fun i => (s i).R) f (𝓝 t.R)
  B : OptNear f (fun i => (s i).B) t.B
  xPrior : Tendsto (fun i => (s i).xPrior) f (𝓝 t.xPrior)
  PPrior : Tendsto (fun i => (s i).PPrior) f (𝓝 t.PPrior)
  xPost : Tendsto (fun i => (s i).xPost) f (𝓝 t.xPost)
  PPost : Tendsto (fun i => (s i).PPost) f (𝓝 t.PPost)

/-- The calls on an `HInfinityFilter`, and assignments to its `V`. -/
inductive HInfCall (m l : ℕ)
  | predict (u : UArg l)
  | update (z : Option (Vec m))
  | setV (V : MatArg m)

/-- What a call does. -/
noncomputable def HInfCall.run (s : HInf n m l) : HInfCall m l → Exec (HInf n m l)
  | .predict u => s.predict u
  | .update z => s.update z
  | .setV V => s.setV V

/-- A call approaches another. -/
inductive HInfCallNear (f : Filter ι) : (ι → HInfCall m l) → HInfCall m l → Prop
  | predict {u : ι → UArg l} {u' : UArg l} (hu : UNear f u u') : HInfCallNear f (fun i => .predict (u i)) (.predict u')
  | update {z : ι → Vec m} {z' : Vec m} (hz : Tendsto z f (𝓝 z')) :
      HInfCallNear f (fun i => .update (some (z i))) (.update (some z'))
  | missing : HInfCallNear f (fun _ => .update none) (.update none)
  | setV {V : ι → MatArg m} {V' : MatArg m} (hV : ArgNear f V V') : HInfCallNear f (fun i => .setV (V i)) (.setV V')

/-- An H-infinity filter approaches another in estimate, model, weights and bound. -/
structure HInfNear (f : Filter ι) (s : ι → HInf n m l) (t : HInf n m l) : Prop where
  gamma : Tendsto (fun i => (s i).gamma) f (𝓝 t.gamma)
  x : Tendsto (fun i => (s i).x) f (𝓝 t.x)
  P : Tendsto (fun i => (s i).P) f (𝓝 t.P)
  F : Tendsto (fun i => (s i).F) f (𝓝 t.F)
  H : Tendsto (fun i => (s i).H) f (𝓝 t.H)
  Q : Tendsto (fun i => (s i).Q) f (𝓝 t.Q)
  V : Tendsto (fun i => (s i).V) f (𝓝 t.V)
  VInv : Tendsto (fun i => (s i).VInv) f (𝓝 t.VInv)
  W : Tendsto (fun i => (s i).W) f (𝓝 t.W)
  B : OptNear f (fun i => (s i).B) t.B
  y : Tendsto (fun i => (s i).y) f (𝓝 t.y)
  z : Tendsto (fun i => (s i).z) f (𝓝 t.z)

end Spec

theorem fading_step_near {s : ι → FKF n m l} {t t' : FKF n m l} (hs : FKFNear f s t) {c : ι → FadingCall m l} {c'}
    (hc : FadingCallNear f c c') (h : c'.run t = .ok t') :
    ∃ s', (∀ᶠ i in f, (c i).run (s i) = .ok (s' i)) ∧ FKFNear f s' t' := by
  cases hc with
  | @predict u u' hu =>
    simp only [FadingCall.run, FKF.predict] at h
    cases hc : FKF.control t.B u' with
    | error e => rw [hc] at h; cases h
    | ok b' =>
      rw [hc] at h
      obtain ⟨b, h1, h2⟩ := fkf_control_near hs.B hu hc
      obtain rfl := Except.ok.inj h
      have hP := (hs.alphaSq.smul (tendsto_mmul (tendsto_mmul hs.F hs.P) (tendsto_transpose hs.F))).add hs.Q
      have hx := (tendsto_mulVec hs.F hs.x).add h2
      let x (i : ι) := (s i).F *ᵥ (s i).x + b i
      let P (i : ι) := (s i).alphaSq • ((s i).F * (s i).P * (s i).Fᵀ) + (s i).Q
      refine ⟨fun i => { s i with x := x i, P := P i, xPrior := x i, PPrior := P i }, .of_forall fun i => ?_,
        { hs with x := hx, P := hP, xPrior := hx, PPrior := hP }⟩
      simp only [FadingCall.run, FKF.predict, h1 i, x, P]
  | @update z z' R R' hz hR =>
    simp only [FadingCall.run, FKF.update] at h
    have hR' := hR.resolve hs.R
    have hPHT := tendsto_mmul hs.P (tendsto_transpose hs.H)
    have hS := (tendsto_mmul hs.H hPHT).add hR'
    have hy := hz.sub (tendsto_mulVec hs.H hs.x)
    cases hc : npInv (t.H * (t.P * t.Hᵀ) + R'.resolve t.R) with
    | none => simp only [hc] at h; cases h
    | some SI =>
      simp only [hc] at h
      obtain ⟨h1, h2⟩ := npInv_eventually hS hc
      have hK := tendsto_mmul hPHT h2
      obtain ⟨c1, c2⟩ := correct_near hs.x hs.P hs.H hR' hK hy
      obtain rfl := Except.ok.inj h
      let R1 (i : ι) := (R i).resolve (s i).R
      let S (i : ι) := (s i).H * ((s i).P * (s i).Hᵀ) + R1 i
      let K (i : ι) := (s i).P * (s i).Hᵀ * (S i)⁻¹
      let y (i : ι) := z i - (s i).H *ᵥ (s i).x
      let x (i : ι) := (s i).x + K i *ᵥ y i
      let P (i : ι) := (1 - K i * (s i).H) * (s i).P * (1 - K i * (s i).H)ᵀ + K i * R1 i * (K i)ᵀ
      refine ⟨fun i => { s i with
        S := S i, SI := (S i)⁻¹, K := K i, y := y i, x := x i, P := P i
        logLik := none, lik := none, mahal := none
        z := fun j => some (z i j), xPost := x i, PPost := P i }, h1.mono fun i hi => ?_, ?_⟩
      · have hi' : npInv ((s i).H * ((s i).P * (s i).Hᵀ) + (R i).resolve (s i).R) = some (S i)⁻¹ := hi
        simp only [FadingCall.run, FKF.update, hi']
        rfl
      · exact { hs with x := c1, P := c2, xPost := c1, PPost := c2 }
  | missing =>
    obtain rfl := Except.ok.inj h
    exact ⟨_, .of_forall fun i => rfl, { hs with xPost := hs.x, PPost := hs.P }⟩

/-- **C145 (fading-memory Kalman filter).** -/
theorem C145_fading {s : ι → FKF n m l} {t t' : FKF n m l} (hs : FKFNear f s t) {calls : List ((ι → FadingCall m l) × FadingCall m l)}
    (hc : ∀ p ∈ calls, FadingCallNear f p.1 p.2) (h : runList FadingCall.run t (calls.map Prod.snd) = .ok t') :
    ∃ s', (∀ᶠ i in f, runList FadingCall.run (s i) (calls.map fun p => p.1 i) = .ok (s' i)) ∧ FKFNear f s' t' := by
  induction calls generalizing s t with
  | nil => obtain rfl := Except.ok.inj h; exact ⟨s, .of_forall fun i => rfl, hs⟩
  | cons p calls ih =>
    simp only [List.map_cons, runList] at h
    cases hq : p.2.run t with
    | error e => rw [hq] at h; cases h
    | ok t1 =>
      rw [hq] at h
      obtain ⟨s1, g1, g2⟩ := fading_step_near hs (hc p (List.mem_cons_self ..)) hq
      obtain ⟨s', k1, k2⟩ := ih g2 (fun q hq => hc q (List.mem_cons_of_mem _ hq)) h
      refine ⟨s', (g1.and k1).mono fun i hi => ?_, k2⟩
      simp only [List.map_cons, runList, hi.1, hi.2]

theorem hinf_control_fkf (B : Option (Mat n l)) (u : UArg l) : HInf.control B u = FKF.control B u := by
  cases B <;> cases u <;> rfl

theorem hinf_step_near {s : ι → HInf n m l} {t t' : HInf n m l} (hs : HInfNear f s t) {c : ι → HInfCall m l} {c'}
    (hc : HInfCallNear f c c') (h : c'.run t = .ok t') :
    ∃ s', (∀ᶠ i in f, (c i).run (s i) = .ok (s' i)) ∧ HInfNear f s' t' := by
  cases hc with
  | @predict u u' hu =>
    simp only [HInfCall.run, HInf.predict, hinf_control_fkf] at h
    cases hc : FKF.control t.B u' with
    | error e => rw [hc] at h; cases h
    | ok b' =>
      rw [hc] at h
      obtain ⟨b, h1, h2⟩ := fkf_control_near hs.B hu hc
      obtain rfl := Except.ok.inj h
      have hx := (tendsto_mulVec hs.F hs.x).add h2
      refine ⟨fun i => { s i with x := (s i).F *ᵥ (s i).x + b i }, .of_forall fun i => ?_, { hs with x := hx }⟩
      simp only [HInfCall.run, HInf.predict, hinf_control_fkf, h1 i]
  | @update z z' hz =>
    simp only [HInfCall.run, HInf.update] at h
    have hHV := tendsto_mmul (tendsto_transpose hs.H) hs.VInv
    have hM := ((tendsto_const_nhds (x := (1 : Mat n n))).sub (hs.gamma.smul (tendsto_mmul hs.Q hs.P))).add
      (tendsto_mmul (tendsto_mmul hHV hs.H) hs.P)
    have hy := hz.sub (tendsto_mulVec hs.H hs.x)
    cases hc : npInv (1 - t.gamma • (t.Q * t.P) + t.Hᵀ * t.VInv * t.H * t.P) with
    | none => simp only [hc] at h; cases h
    | some L =>
      simp only [hc] at h
      obtain ⟨h1, h2⟩ := npInv_eventually hM hc
      have hPL := tendsto_mmul hs.P h2
      have hFPL := tendsto_mmul hs.F hPL
      have hx := hs.x.add (tendsto_mulVec (tendsto_mmul hFPL hHV) hy)
      have hP0 := (tendsto_mmul hFPL (tendsto_transpose hs.F)).add hs.W
      have hP := (hP0.add (tendsto_transpose hP0)).const_smul (1/2 : ℝ)
      obtain rfl := Except.ok.inj h
      let L (i : ι) := (1 - (s i).gamma • ((s i).Q * (s i).P) + (s i).Hᵀ * (s i).VInv * (s i).H * (s i).P)⁻¹
      let K (i : ι) := (s i).F * ((s i).P * L i) * ((s i).Hᵀ * (s i).VInv)
      let y (i : ι) := z i - (s i).H *ᵥ (s i).x
      let P (i : ι) := (s i).F * ((s i).P * L i) * (s i).Fᵀ + (s i).W
      refine ⟨fun i => { s i with y := y i, x := (s i).x + K i *ᵥ y i, P := (1/2 : ℝ) • (P i + (P i)ᵀ), z := z i },
        h1.mono fun i hi => ?_, ?_⟩
      · simp only [HInfCall.run, HInf.update, hi]
        rfl
      · exact { hs with x := hx, P := hP, y := hy, z := hz }
  | missing =>
    obtain rfl := Except.ok.inj h
    exact ⟨_, .of_forall fun i => rfl, { hs with }⟩
  | @setV V V' hV =>
    simp only [HInfCall.run] at h ⊢
    cases hV with
    | none => cases h
    | @scalar a a' ha =>
      simp only [HInf.setV] at h
      split_ifs at h with hm
      have hA := ha.smul (tendsto_const_nhds (x := (1 : Mat m m)))
      cases hc : npInv (a' • (1 : Mat m m)) with
      | none => simp only [hc] at h; cases h
      | some Vi =>
        simp only [hc] at h
        obtain ⟨h1, h2⟩ := npInv_eventually hA hc
        obtain rfl := Except.ok.inj h
        refine ⟨fun i => { s i with V := a i • 1, VInv := (a i • (1 : Mat m m))⁻¹ }, h1.mono fun i hi => ?_, { hs with V := hA, VInv := h2 }⟩
        simp only [HInf.setV, if_pos hm, hi]
    | @mat A A' hA =>
      simp only [HInf.setV] at h
      cases hc : npInv A' with
      | none => simp only [hc] at h; cases h
      | some Vi =>
        simp only [hc] at h
        obtain ⟨h1, h2⟩ := npInv_eventually hA hc
        obtain rfl := Except.ok.inj h
        refine ⟨fun i => { s i with V := A i, VInv := (A i)⁻¹ }, h1.mono fun i hi => ?_, { hs with V := hA, VInv := h2 }⟩
        simp only [HInf.setV, hi]

/-- **C145 (H-infinity filter).** -/
theorem C145_hinf {s : ι → HInf n m l} {t t' : HInf n m l} (hs : HInfNear f s t) {calls : List ((ι → HInfCall m l) × HInfCall m l)}
    (hc : ∀ p ∈ calls, HInfCallNear f p.1 p.2) (h : runList HInfCall.run t (calls.map Prod.snd) = .ok t') :
    ∃ s', (∀ᶠ i in f, runList HInfCall.run (s i) (calls.map fun p => p.1 i) = .ok (s' i)) ∧ HInfNear f s' t' := by
  induction calls generalizing s t with
  | nil => obtain rfl := Except.ok.inj h; exact ⟨s, .of_forall fun i => rfl, hs⟩
  | cons p calls ih =>
    simp only [List.map_cons, runList] at h
    cases hq : p.2.run t with
    | error e => rw [hq] at h; cases h
    | ok t1 =>
      rw [hq] at h
      obtain ⟨s1, g1, g2⟩ := hinf_step_near hs (hc p (List.mem_cons_self ..)) hq
      obtain ⟨s', k1, k2⟩ := ih g2 (fun q hq => hc q (List.mem_cons_of_mem _ hq)) h
      refine ⟨s', (g1.and k1).mono fun i hi => ?_, k2⟩
      simp only [List.map_cons, runList, hi.1, hi.2]

/-- A prediction and a measurement succeed on a new fading-memory filter; so do all nearby ones. -/
example (z : ℕ → Vec 1) (z' : Vec 1) (hz : Tendsto z atTop (𝓝 z')) (a : ℕ → ℝ) (ha : Tendsto a atTop (𝓝 2)) : ∃ t' s',
    runList FadingCall.run (FKF.fresh 2 1 1 0) [.predict (.scalar 0), .update (some z') .none] = .ok t' ∧
    (∀ᶠ i in atTop, runList FadingCall.run (FKF.fresh (a i) 1 1 0) [.predict (.scalar 0), .update (some (z i)) .none] = .ok (s' i)) ∧
    FKFNear atTop s' t' := by
  obtain ⟨t', ht⟩ : ∃ t', runList FadingCall.run (FKF.fresh 2 1 1 0) [.predict (.scalar 0), .update (some z') .none] = .ok t' := by
    simp only [runList, FadingCall.run, FKF.predict, FKF.fresh, FKF.control, FKF.update, MatArg.resolve, Matrix.zero_mul, zero_add]
    rw [npInv, if_neg (by simp)]
    exact ⟨_, rfl⟩
  obtain ⟨s', h1, h2⟩ := C145_fading (f := atTop) (s := fun i : ℕ => FKF.fresh (a i) 1 1 0) (t := FKF.fresh 2 1 1 0)
    ⟨ha.pow 2, tendsto_const_nhds, tendsto_const_nhds, tendsto_const_nhds, tendsto_const_nhds, tendsto_const_nhds,
      tendsto_const_nhds, .none, tendsto_const_nhds, tendsto_const_nhds, tendsto_const_nhds, tendsto_const_nhds⟩
    (calls := [(fun _ => .predict (.scalar 0), .predict (.scalar 0)), (fun i => .update (some (z i)) .none, .update (some z') .none)]) (by
      intro q hq
      simp only [List.mem_cons, List.not_mem_nil, or_false] at hq
      rcases hq with rfl | rfl
      · exact .predict (.scalar tendsto_const_nhds)
      · exact .update hz .none) ht
  exact ⟨t', s', ht, h1, h2⟩

/-- An H-infinity filter given its `V` and a measurement. -/
example (z : ℕ → Vec 1) (z' : Vec 1) (hz : Tendsto z atTop (𝓝 z')) (v : ℕ → ℝ) (hv : Tendsto v atTop (𝓝 3)) : ∃ t' s',
    runList HInfCall.run (HInf.fresh 1 1 0 (1/2)) [.setV (.scalar 3), .update (some z'), .predict (.scalar 0)] = .ok t' ∧
    (∀ᶠ i in atTop, runList HInfCall.run (HInf.fresh 1 1 0 (1/2)) [.setV (.scalar (v i)), .update (some (z i)), .predict (.scalar 0)] = .ok (s' i)) ∧
    HInfNear atTop s' t' := by
  obtain ⟨t', ht⟩ : ∃ t', runList HInfCall.run (HInf.fresh 1 1 0 (1/2)) [.setV (.scalar 3), .update (some z'), .predict (.scalar 0)] = .ok t' := by
    have e1 : npInv ((3 : ℝ) • (1 : Mat 1 1)) = some ((3 : ℝ) • (1 : Mat 1 1))⁻¹ := by rw [npInv, if_neg (by simp)]
    have e2 : npInv ((1 : Mat 1 1) - (1/2 : ℝ) • (1 * 1)) = some ((1 : Mat 1 1) - (1/2 : ℝ) • (1 * 1))⁻¹ := by
      rw [npInv, if_neg (by simp; norm_num)]
    simp only [runList, HInfCall.run, HInf.setV, HInf.fresh, e1, if_true, HInf.update, Matrix.mul_zero, Matrix.zero_mul, add_zero, e2,
      HInf.predict, HInf.control]
    exact ⟨_, rfl⟩
  obtain ⟨s', h1, h2⟩ := C145_hinf (f := atTop) (s := fun _ : ℕ => HInf.fresh 1 1 0 (1/2)) (t := HInf.fresh 1 1 0 (1/2))
    ⟨tendsto_const_nhds, tendsto_const_nhds, tendsto_const_nhds, tendsto_const_nhds, tendsto_const_nhds, tendsto_const_nhds,
      tendsto_const_nhds, tendsto_const_nhds, tendsto_const_nhds, .none, tendsto_const_nhds, tendsto_const_nhds⟩
    (calls := [(fun i => .setV (.scalar (v i)), .setV (.scalar 3)), (fun i => .update (some (z i)), .update (some z')),
      (fun _ => .predict (.scalar 0), .predict (.scalar 0))]) (by
      intro q hq
      simp only [List.mem_cons, List.not_mem_nil, or_false] at hq
      rcases hq with rfl | rfl | rfl
      · exact .setV (.scalar hv)
      · exact .update hz
      · exact .predict (.scalar tendsto_const_nhds)) ht
  exact ⟨t', s', ht, h1, h2⟩

end Filterpy
