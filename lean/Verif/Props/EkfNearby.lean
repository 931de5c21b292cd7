import Verif.Props.KalmanNearby
import Verif.Model.EKF

/-!
# C145 for the extended Kalman filter
-/

namespace Filterpy

open Matrix Filter Topology Spec

variable {ι : Type} {f : Filter ι} {n m l : ℕ}

namespace Spec

/-- The calls on an `ExtendedKalmanFilter`; `predictBy g` is `predict` of a subclass whose `predict_x` sets
`self.x = g(self.x)`. -/
inductive EkfCall (n m l : ℕ)
  | predict (u : UArg l)
  | predictBy (g : Vec n → Vec n)
  | update (z : Option (Vec m)) (HJ : Vec n → Mat m n) (hx : Vec n → Vec m) (R : MatArg m)
      (residual : Vec m → Vec m → Vec m)
  | predictUpdate (z : Vec m) (HJ : Vec n → Mat m n) (hx : Vec n → Vec m) (u : UArg l)

/-- What a call does. -/
noncomputable def EkfCall.run (s : EKF n m l) : EkfCall n m l → Exec (EKF n m l)
  | .predict u => s.predict u
  | .predictBy g => s.predictBy g
  | .update z HJ hx R residual => s.update z HJ hx R residual
  | .predictUpdate z HJ hx u => s.predictUpdate (some z) HJ hx u

/-- A call approaches another: the user's functions are the same, and continuous. -/
inductive EkfCallNear (f : Filter ι) : (ι → EkfCall n m l) → EkfCall n m l → Prop
  | predict {u u'} (hu : UNear f u u') : EkfCallNear f (fun i => .predict (u i)) (.predict u')
  | predictBy {g} (hg : Continuous g) : EkfCallNear f (fun _ => .predictBy g) (.predictBy g)
  | update {z z' HJ hx R R' residual} (hz : Tendsto z f (𝓝 z')) (hJ : Continuous HJ) (hh : Continuous hx)
      (hR : ArgNear f R R') (hr : Continuous fun p : Vec m × Vec m => residual p.1 p.2) :
      EkfCallNear f (fun i => .update (some (z i)) HJ hx (R i) residual) (.update (some z') HJ hx R' residual)
  | missing {HJ hx} {R : ι → MatArg m} {R' residual} : EkfCallNear f (fun i => .update none HJ hx (R i) residual) (.update none HJ hx R' residual)
  | predictUpdate {z z' HJ hx u u'} (hz : Tendsto z f (𝓝 z')) (hJ : Continuous HJ) (hh : Continuous hx)
      (hu : UNear f u u') : EkfCallNear f (fun i => .predictUpdate (z i) HJ hx (u i)) (.predictUpdate z' HJ hx u')

/-- An extended Kalman filter approaches another in estimate, model and noises. -/
structure EKFNear (f : Filter ι) (s : ι → EKF n m l) (t : EKF n m l) : Prop where
  x : Tendsto (fun i => (s i).x) f (𝓝 t.x)
  P : Tendsto (fun i => (s i).P) f (𝓝 t.P)
  F : Tendsto (fun i => (s i).F) f (𝓝 t.F)
  Q : Tendsto (fun i => (s i).Q) f (𝓝 t.Q)
  R : Tendsto (fun i => (s i).R) f (𝓝 t.R)
  B : OptNear f (fun i => (s i).B) t.B
  xPrior : Tendsto (fun i => (s i).xPrior) f (𝓝 t.xPrior)
  PPrior : Tendsto (fun i => (s i).PPrior) f (𝓝 t.PPrior)
  xPost : Tendsto (fun i => (s i).xPost) f (𝓝 t.xPost)
  PPost : Tendsto (fun i => (s i).PPost) f (𝓝 t.PPost)

end Spec

theorem fkf_control_near {B : ι → Option (Mat n l)} {B' : Option (Mat n l)} {u : ι → UArg l} {u' : UArg l}
    (hB : OptNear f B B') (hu : UNear f u u') {c' : Vec n} (h : FKF.control B' u' = .ok c') :
    ∃ c : ι → Vec n, (∀ i, FKF.control (B i) (u i) = .ok (c i)) ∧ Tendsto c f (𝓝 c') := by
  cases hB with
  | none =>
    cases hu with
    | none => cases h
    | scalar hc => obtain rfl := Except.ok.inj h; exact ⟨fun _ => 0, fun _ => rfl, tendsto_const_nhds⟩
    | vec hu =>
      simp only [FKF.control] at h
      split_ifs at h with hl
      obtain rfl := Except.ok.inj h
      exact ⟨fun _ => 0, fun _ => by simp only [FKF.control, if_pos hl], tendsto_const_nhds⟩
  | some hB =>
    cases hu with
    | none => cases h
    | scalar hc =>
      simp only [FKF.control] at h
      split_ifs at h with hl
      obtain rfl := Except.ok.inj h
      subst hl
      rename_i c c' v v'
      refine ⟨fun i j => c i * v i j ⟨0, by omega⟩, fun i => by simp only [FKF.control, dif_pos], ?_⟩
      refine tendsto_pi_nhds.2 fun j => ?_
      exact hc.mul ((tendsto_pi_nhds.1 ((tendsto_pi_nhds.1 hB) j)) _)
    | vec hu =>
      obtain rfl := Except.ok.inj h
      exact ⟨_, fun i => rfl, tendsto_mulVec hB hu⟩

theorem ekf_step_near {s : ι → EKF n m l} {t t' : EKF n m l} (hs : EKFNear f s t) {c : ι → EkfCall n m l} {c'}
    (hc : EkfCallNear f c c') (h : c'.run t = .ok t') :
    ∃ s', (∀ᶠ i in f, (c i).run (s i) = .ok (s' i)) ∧ EKFNear f s' t' := by
  cases hc with
  | @predict u u' hu =>
    simp only [EkfCall.run, EKF.predict] at h
    cases hc : FKF.control t.B u' with
    | error e => rw [hc] at h; cases h
    | ok b' =>
      rw [hc] at h
      obtain ⟨b, h1, h2⟩ := fkf_control_near hs.B hu hc
      obtain rfl := Except.ok.inj h
      have hP := (tendsto_mmul (tendsto_mmul hs.F hs.P) (tendsto_transpose hs.F)).add hs.Q
      have hx := (tendsto_mulVec hs.F hs.x).add h2
      let x (i : ι) := (s i).F *ᵥ (s i).x + b i
      let P (i : ι) := (s i).F * (s i).P * (s i).Fᵀ + (s i).Q
      refine ⟨fun i => { s i with x := x i, P := P i, xPrior := x i, PPrior := P i }, .of_forall fun i => ?_,
        { hs with x := hx, P := hP, xPrior := hx, PPrior := hP }⟩
      simp only [EkfCall.run, EKF.predict, h1 i, x, P]
  | @predictBy g hg =>
    obtain rfl := Except.ok.inj h
    have hP := (tendsto_mmul (tendsto_mmul hs.F hs.P) (tendsto_transpose hs.F)).add hs.Q
    have hx := (hg.tendsto t.x).comp hs.x
    exact ⟨_, .of_forall fun i => rfl, { hs with x := hx, P := hP, xPrior := hx, PPrior := hP }⟩
  | @update z z' HJ hx R R' residual hz hJ hh hR hr =>
    simp only [EkfCall.run, EKF.update] at h
    have hH' := (hJ.tendsto t.x).comp hs.x
    have hR' := hR.resolve hs.R
    have hPHT := tendsto_mmul hs.P (tendsto_transpose hH')
    have hS := (tendsto_mmul hH' hPHT).add hR'
    have hy := (hr.tendsto (z', hx t.x)).comp (hz.prodMk_nhds ((hh.tendsto t.x).comp hs.x))
    cases hc : npInv (HJ t.x * (t.P * (HJ t.x)ᵀ) + R'.resolve t.R) with
    | none => simp only [hc] at h; cases h
    | some SI =>
      simp only [hc] at h
      obtain ⟨h1, h2⟩ := npInv_eventually hS hc
      have hK := tendsto_mmul hPHT h2
      obtain ⟨c1, c2⟩ := correct_near hs.x hs.P hH' hR' hK hy
      obtain rfl := Except.ok.inj h
      let H1 (i : ι) := HJ (s i).x
      let R1 (i : ι) := (R i).resolve (s i).R
      let S (i : ι) := H1 i * ((s i).P * (H1 i)ᵀ) + R1 i
      let K (i : ι) := (s i).P * (H1 i)ᵀ * (S i)⁻¹
      let y (i : ι) := residual (z i) (hx (s i).x)
      let x (i : ι) := (s i).x + K i *ᵥ y i
      let P (i : ι) := (1 - K i * H1 i) * (s i).P * (1 - K i * H1 i)ᵀ + K i * R1 i * (K i)ᵀ
      refine ⟨fun i => { s i with
        S := S i, SI := (S i)⁻¹, K := K i, y := y i, x := x i, P := P i
        logLik := none, lik := none, mahal := none
        z := fun j => some (z i j), xPost := x i, PPost := P i }, h1.mono fun i hi => ?_, ?_⟩
      · have hi' : npInv (HJ (s i).x * ((s i).P * (HJ (s i).x)ᵀ) + (R i).resolve (s i).R) = some (S i)⁻¹ := hi
        simp only [EkfCall.run, EKF.update, hi']
        rfl
      · exact { hs with x := c1, P := c2, xPost := c1, PPost := c2 }
  | missing =>
    obtain rfl := Except.ok.inj h
    exact ⟨_, .of_forall fun i => rfl, { hs with xPost := hs.x, PPost := hs.P }⟩
  | @predictUpdate z z' HJ hx u u' hz hJ hh hu =>
    simp only [EkfCall.run, EKF.predictUpdate] at h
    cases hc : FKF.control t.B u' with
    | error e => rw [hc] at h; cases h
    | ok b' =>
      rw [hc] at h
      obtain ⟨b, b1, b2⟩ := fkf_control_near hs.B hu hc
      have hPp := (tendsto_mmul (tendsto_mmul hs.F hs.P) (tendsto_transpose hs.F)).add hs.Q
      have hxp := (tendsto_mulVec hs.F hs.x).add b2
      have hH' := (hJ.tendsto t.x).comp hs.x
      have hPHT := tendsto_mmul hPp (tendsto_transpose hH')
      have hS := (tendsto_mmul hH' hPHT).add hs.R
      have hy := hz.sub ((hh.tendsto _).comp hxp)
      cases hc : npInv (HJ t.x * ((t.F * t.P * t.Fᵀ + t.Q) * (HJ t.x)ᵀ) + t.R) with
      | none => simp only [hc] at h; cases h
      | some SI =>
        simp only [hc] at h
        obtain ⟨h1, h2⟩ := npInv_eventually hS hc
        have hK := tendsto_mmul hPHT h2
        obtain ⟨c1, c2⟩ := correct_near hxp hPp hH' hs.R hK hy
        obtain rfl := Except.ok.inj h
        let H1 (i : ι) := HJ (s i).x
        let xp (i : ι) := (s i).F *ᵥ (s i).x + b i
        let Pp (i : ι) := (s i).F * (s i).P * (s i).Fᵀ + (s i).Q
        let S (i : ι) := H1 i * (Pp i * (H1 i)ᵀ) + (s i).R
        let K (i : ι) := Pp i * (H1 i)ᵀ * (S i)⁻¹
        let y (i : ι) := z i - hx (xp i)
        let x (i : ι) := xp i + K i *ᵥ y i
        let P (i : ι) := (1 - K i * H1 i) * Pp i * (1 - K i * H1 i)ᵀ + K i * (s i).R * (K i)ᵀ
        refine ⟨fun i => { s i with
          xPrior := (s i).x, PPrior := (s i).P
          S := S i, SI := (S i)⁻¹, K := K i, y := y i, x := x i, P := P i
          logLik := none, lik := none, mahal := none
          z := fun j => some (z i j), xPost := x i, PPost := P i }, h1.mono fun i hi => ?_, ?_⟩
        · have hi' : npInv (HJ (s i).x * (((s i).F * (s i).P * (s i).Fᵀ + (s i).Q) * (HJ (s i).x)ᵀ) + (s i).R) =
              some (S i)⁻¹ := hi
          simp only [EkfCall.run, EKF.predictUpdate, b1 i, hi']
          rfl
        · exact { hs with x := c1, P := c2, xPrior := hs.x, PPrior := hs.P, xPost := c1, PPost := c2 }

/-- **C145 (extended Kalman filter).** If a sequence of calls on an ExtendedKalmanFilter succeeds, with continuous user
functions (measurement function, Jacobian, residual, transition), sequences of calls that approach it, on filters that
approach the given one, succeed as well from some point on, and their estimates approach the given ones. -/
theorem C145_ekf {s : ι → EKF n m l} {t t' : EKF n m l} (hs : EKFNear f s t) {calls : List ((ι → EkfCall n m l) × EkfCall n m l)}
    (hc : ∀ p ∈ calls, EkfCallNear f p.1 p.2) (h : runList EkfCall.run t (calls.map Prod.snd) = .ok t') :
    ∃ s', (∀ᶠ i in f, runList EkfCall.run (s i) (calls.map fun p => p.1 i) = .ok (s' i)) ∧ EKFNear f s' t' := by
  induction calls generalizing s t with
  | nil => obtain rfl := Except.ok.inj h; exact ⟨s, .of_forall fun i => rfl, hs⟩
  | cons p calls ih =>
    simp only [List.map_cons, runList] at h
    cases hq : p.2.run t with
    | error e => rw [hq] at h; cases h
    | ok t1 =>
      rw [hq] at h
      obtain ⟨s1, g1, g2⟩ := ekf_step_near hs (hc p (List.mem_cons_self ..)) hq
      obtain ⟨s', k1, k2⟩ := ih g2 (fun q hq => hc q (List.mem_cons_of_mem _ hq)) h
      refine ⟨s', (g1.and k1).mono fun i hi => ?_, k2⟩
      simp only [List.map_cons, runList, hi.1, hi.2]

/-- A range measured from a fixed height: `hx(x) = sqrt(x² + 1)`, whose Jacobian is continuous too. -/
example (z : ℕ → Vec 1) (z' : Vec 1) (hz : Tendsto z atTop (𝓝 z')) : ∃ s' t',
    (EkfCall.run (EKF.fresh 1 1 0) (.update (some z') (fun x => !![x 0 / √(x 0 ^ 2 + 1)]) (fun x => ![√(x 0 ^ 2 + 1)]) .none
      (fun a b => a - b)) = .ok t' ∧ ∀ᶠ i in atTop, EkfCall.run (EKF.fresh 1 1 0) (.update (some (z i))
        (fun x => !![x 0 / √(x 0 ^ 2 + 1)]) (fun x => ![√(x 0 ^ 2 + 1)]) .none (fun a b => a - b)) = .ok (s' i)) ∧
      EKFNear atTop s' t' := by
  have hd : (!![(0 : ℝ) / √(0 ^ 2 + 1)] * ((1 : Mat 1 1) * !![(0 : ℝ) / √(0 ^ 2 + 1)]ᵀ) + 1 : Mat 1 1).det ≠ 0 := by
    have e : (!![(0 : ℝ) / √(0 ^ 2 + 1)] : Mat 1 1) = 0 := by ext i j; fin_cases i; fin_cases j; simp
    rw [e]
    simp
  obtain ⟨t', hr⟩ : ∃ t', EkfCall.run (EKF.fresh 1 1 0) (.update (some z') (fun x => !![x 0 / √(x 0 ^ 2 + 1)])
      (fun x => ![√(x 0 ^ 2 + 1)]) .none (fun a b => a - b)) = .ok t' := by
    simp only [EkfCall.run, EKF.update, EKF.fresh, MatArg.resolve, Pi.zero_apply]
    rw [npInv, if_neg hd]
    exact ⟨_, rfl⟩
  have hp : Continuous fun x : Vec 1 => √(x 0 ^ 2 + 1) := by fun_prop
  have hn : ∀ x : Vec 1, √(x 0 ^ 2 + 1) ≠ 0 := fun x => (Real.sqrt_pos.2 (by positivity)).ne'
  obtain ⟨s', h1, h2⟩ := C145_ekf (f := atTop) (s := fun _ : ℕ => EKF.fresh 1 1 0) (t := EKF.fresh 1 1 0)
    ⟨tendsto_const_nhds, tendsto_const_nhds, tendsto_const_nhds, tendsto_const_nhds, tendsto_const_nhds, .none,
      tendsto_const_nhds, tendsto_const_nhds, tendsto_const_nhds, tendsto_const_nhds⟩
    (calls := [(fun i => .update (some (z i)) (fun x => !![x 0 / √(x 0 ^ 2 + 1)])
      (fun x => ![√(x 0 ^ 2 + 1)]) .none (fun a b => a - b), .update (some z') (fun x => !![x 0 / √(x 0 ^ 2 + 1)])
      (fun x => ![√(x 0 ^ 2 + 1)]) .none (fun a b => a - b))])
    (by
      intro p hp'
      rw [List.mem_singleton.1 hp']
      refine .update hz ?_ ?_ .none (by fun_prop)
      · refine continuous_pi fun a => continuous_pi fun b => ?_
        fin_cases a
        fin_cases b
        exact (continuous_apply 0).div hp hn
      · refine continuous_pi fun a => ?_
        fin_cases a
        exact hp)
    (t' := t') (by simp only [List.map_cons, List.map_nil, runList, hr])
  refine ⟨s', _, ⟨hr, h1.mono fun i hi => ?_⟩, h2⟩
  simp only [List.map_cons, List.map_nil, runList] at hi
  generalize EkfCall.run _ _ = q at hi ⊢
  cases q with
  | error e => cases hi
  | ok a => exact hi

end Filterpy
