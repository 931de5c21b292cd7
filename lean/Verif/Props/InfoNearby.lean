import Verif.Props.EkfNearby
import Verif.Model.InformationFilter

/-!
# C147: nearby inputs in the information filter
-/

namespace Filterpy

open Matrix Filter Topology Spec

variable {ι : Type} {f : Filter ι} {n m l : ℕ}

namespace Spec

/-- The calls on an `InformationFilter`, and assignments to its `F`. -/
inductive InfoCall (n m l : ℕ)
  | predict (u : UArg l)
  | update (z : Option (Vec m)) (Rinv : MatArg m)
  | setF (F : Mat n n)

/-- What a call does. -/
noncomputable def InfoCall.run (expf : ℝ → ℝ) (s : IF n m l) : InfoCall n m l → Exec (IF n m l)
  | .predict u => s.predict u
  | .update z R => s.update expf z R
  | .setF F => s.setF F

/-- A call approaches another. -/
inductive InfoCallNear (f : Filter ι) : (ι → InfoCall n m l) → InfoCall n m l → Prop
  | predict {u : ι → UArg l} {u' : UArg l} (hu : UNear f u u') : InfoCallNear f (fun i => .predict (u i)) (.predict u')
  | update {z : ι → Vec m} {z' : Vec m} {R : ι → MatArg m} {R' : MatArg m} (hz : Tendsto z f (𝓝 z')) (hR : ArgNear f R R') :
      InfoCallNear f (fun i => .update (some (z i)) (R i)) (.update (some z') R')
  | missing {R : ι → MatArg m} {R' : MatArg m} : InfoCallNear f (fun i => .update none (R i)) (.update none R')
  | setF {F : ι → Mat n n} {F' : Mat n n} (hF : Tendsto F f (𝓝 F')) : InfoCallNear f (fun i => .setF (F i)) (.setF F')

/-- An information filter approaches another, in the same mode. -/
structure IFNear (f : Filter ι) (s : ι → IF n m l) (t : IF n m l) : Prop where
  inv : ∀ i, (s i).inv = npInv
  inv' : t.inv = npInv
  mode : ∀ i, (s i).noInformation = t.noInformation
  ll : ∀ i, (s i).computeLL = t.computeLL
  x : Tendsto (fun i => (s i).x) f (𝓝 t.x)
  Pinv : Tendsto (fun i => (s i).Pinv) f (𝓝 t.Pinv)
  Q : Tendsto (fun i => (s i).Q) f (𝓝 t.Q)
  B : OptNear f (fun i => (s i).B) t.B
  F : OptNear f (fun i => (s i).F) t.F
  Finv : OptNear f (fun i => (s i).Finv) t.Finv
  H : Tendsto (fun i => (s i).H) f (𝓝 t.H)
  Rinv : Tendsto (fun i => (s i).Rinv) f (𝓝 t.Rinv)
  xPrior : Tendsto (fun i => (s i).xPrior) f (𝓝 t.xPrior)
  PinvPrior : Tendsto (fun i => (s i).PinvPrior) f (𝓝 t.PinvPrior)
  xPost : Tendsto (fun i => (s i).xPost) f (𝓝 t.xPost)
  PinvPost : Tendsto (fun i => (s i).PinvPost) f (𝓝 t.PinvPost)

/-- The information is regular: `F⁻ᵀ P_inv F⁻¹` has an inverse. -/
def Informed (s : IF n m l) : Prop := ∀ Fi, s.Finv = some Fi → (Fiᵀ * s.Pinv * Fi).det ≠ 0

/-- Every prediction of the run finds regular information. -/
def InformedRun (expf : ℝ → ℝ) : IF n m l → List (InfoCall n m l) → Prop
  | _, [] => True
  | s, c :: cs => ((∃ u, c = .predict u) → Informed s) ∧ ∀ s', c.run expf s = .ok s' → InformedRun expf s' cs

end Spec

theorem llOf_anywhere {y y' : Vec m} {S S' : Mat n n} {v : ℝ} (h : IF.llOf y' S' = .ok v) : ∃ w, IF.llOf y S = .ok w := by
  simp only [IF.llOf] at h ⊢
  split_ifs at h ⊢ <;> exact ⟨_, rfl⟩

theorem info_predictInv_near {s : ι → IF n m l} {t t' : IF n m l} (hs : IFNear f s t) {F F' AI AI'} (hF : Tendsto F f (𝓝 F'))
    (hA : Tendsto AI f (𝓝 AI')) {u u'} (hu : UNear f u u') (h : t.predictInv F' AI' u' = .ok t') :
    ∃ s', (∀ᶠ i in f, (s i).predictInv (F i) (AI i) (u i) = .ok (s' i)) ∧ IFNear f s' t' := by
  simp only [IF.predictInv] at h
  cases hc : FKF.control t.B u' with
  | error e => rw [hc] at h; cases h
  | ok b' =>
    rw [hc] at h
    obtain ⟨b, h1, h2⟩ := fkf_control_near hs.B hu hc
    have hx := (tendsto_mulVec hF hs.x).add h2
    have hP := hA.add hs.Q
    cases hq : t.inv (AI' + t.Q) with
    | none => simp only [hq] at h; cases h
    | some P' =>
      simp only [hq] at h
      rw [hs.inv'] at hq
      obtain ⟨k1, k2⟩ := npInv_eventually hP hq
      obtain rfl := Except.ok.inj h
      let x (i : ι) := F i *ᵥ (s i).x + b i
      let P (i : ι) := (AI i + (s i).Q)⁻¹
      refine ⟨fun i => { s i with x := x i, Pinv := P i, PinvPrior := P i, xPrior := x i }, k1.mono fun i hi => ?_,
        { hs with x := hx, Pinv := k2, PinvPrior := k2, xPrior := hx }⟩
      have hi' : (s i).inv (AI i + (s i).Q) = some (P i) := by rw [hs.inv]; exact hi
      simp only [IF.predictInv, h1 i, hi', x]

theorem info_recover_near {s : ι → IF n m l} {t : IF n m l} (hs : IFNear f s t) (hd : t.Pinv.det ≠ 0) :
    ∃ s', (∀ᶠ i in f, (s i).recover = s' i) ∧ IFNear f s' t.recover := by
  cases hm : t.noInformation with
  | false =>
    refine ⟨s, .of_forall fun i => ?_, ?_⟩
    · simp only [IF.recover, hs.mode i, hm]; rfl
    · simp only [IF.recover, hm]; exact hs
  | true =>
    have e : t.inv t.Pinv = some t.Pinv⁻¹ := by rw [hs.inv', npInv, if_neg hd]
    obtain ⟨k1, k2⟩ := npInv_eventually hs.Pinv (hs.inv' ▸ e)
    refine ⟨fun i => { s i with x := (s i).Pinv⁻¹ *ᵥ (s i).x, noInformation := false }, k1.mono fun i hi => ?_, ?_⟩
    · have hi' : (s i).inv (s i).Pinv = some (s i).Pinv⁻¹ := by rw [hs.inv]; exact hi
      simp only [IF.recover, hs.mode i, hm, hi', if_true]
    · simp only [IF.recover, hm, e, if_true]
      exact { hs with mode := fun _ => rfl, x := tendsto_mulVec k2 hs.x }

theorem info_step_near (expf : ℝ → ℝ) {s : ι → IF n m l} {t t' : IF n m l} (hs : IFNear f s t) {c : ι → InfoCall n m l} {c'}
    (hc : InfoCallNear f c c') (hi : (∃ u, c' = .predict u) → Informed t) (h : c'.run expf t = .ok t') :
    ∃ s', (∀ᶠ i in f, (c i).run expf (s i) = .ok (s' i)) ∧ IFNear f s' t' := by
  cases hc with
  | @predict u u' hu =>
    have hi := hi ⟨_, rfl⟩
    simp only [InfoCall.run, IF.predict] at h ⊢
    cases hF : t.F with
    | none => rw [hF] at h; cases h
    | some F' =>
      cases hG : t.Finv with
      | none => rw [hF, hG] at h; cases h
      | some G' =>
        have d1 := hi G' hG
        have d2 : t.Pinv.det ≠ 0 := fun h0 => d1 (by rw [det_mul, det_mul, h0, mul_zero, zero_mul])
        have hFn := hs.F
        have hGn := hs.Finv
        rw [hF] at hFn
        rw [hG] at hGn
        obtain ⟨F, eF, tF⟩ : ∃ F : ι → Mat n n, (∀ i, (s i).F = some (F i)) ∧ Tendsto F f (𝓝 F') := by
          generalize hq : (fun i => (s i).F) = q at hFn
          cases hFn with
          | some h => exact ⟨_, fun i => congrFun hq i, h⟩
        obtain ⟨G, eG, tG⟩ : ∃ G : ι → Mat n n, (∀ i, (s i).Finv = some (G i)) ∧ Tendsto G f (𝓝 G') := by
          generalize hq : (fun i => (s i).Finv) = q at hGn
          cases hGn with
          | some h => exact ⟨_, fun i => congrFun hq i, h⟩
        have tA := tendsto_mmul (tendsto_mmul (tendsto_transpose tG) hs.Pinv) tG
        have e : t.inv (G'ᵀ * t.Pinv * G') = some (G'ᵀ * t.Pinv * G')⁻¹ := by rw [hs.inv', npInv, if_neg d1]
        obtain ⟨k1, k2⟩ := npInv_eventually tA (hs.inv' ▸ e)
        rw [hF, hG] at h
        simp only [e] at h
        obtain ⟨s1, g1, g2⟩ := info_recover_near hs d2
        obtain ⟨s', p1, p2⟩ := info_predictInv_near g2 tF k2 hu h
        refine ⟨s', ((k1.and g1).and p1).mono fun i hi => ?_, p2⟩
        obtain ⟨⟨a1, a2⟩, a3⟩ := hi
        have a1' : (s i).inv ((G i)ᵀ * (s i).Pinv * G i) = some ((G i)ᵀ * (s i).Pinv * G i)⁻¹ := by rw [hs.inv]; exact a1
        simp only [eF i, eG i, a1', a2]
        exact a3
  | @update z z' R R' hz hR =>
    simp only [InfoCall.run, IF.update] at h
    have hR' := hR.resolve hs.Rinv
    have hHTR := tendsto_mmul (tendsto_transpose hs.H) hR'
    have hS := hs.Pinv.add (tendsto_mmul hHTR hs.H)
    let R1 (i : ι) := (R i).resolve (s i).Rinv
    let S (i : ι) := (s i).Pinv + (s i).Hᵀ * R1 i * (s i).H
    cases hm : t.noInformation with
    | true =>
      rw [if_pos hm] at h
      have hx := (tendsto_mulVec hs.Pinv hs.x).add (tendsto_mulVec hHTR hz)
      obtain rfl := Except.ok.inj h
      let x (i : ι) := (s i).Pinv *ᵥ (s i).x + ((s i).Hᵀ * R1 i) *ᵥ z i
      refine ⟨fun i => { s i with
        x := x i, Pinv := S i, logLik := Real.log floatMin, lik := floatMin
        z := some (z i), xPost := x i, PinvPost := S i }, .of_forall fun i => ?_,
        { hs with x := hx, Pinv := hS, xPost := hx, PinvPost := hS }⟩
      simp only [InfoCall.run, IF.update, hs.mode i, hm, if_true]
      rfl
    | false =>
      rw [if_neg (by rw [hm]; exact Bool.false_ne_true)] at h
      have hy := hz.sub (tendsto_mulVec hs.H hs.x)
      cases hq : t.inv (t.Pinv + t.Hᵀ * R'.resolve t.Rinv * t.H) with
      | none => simp only [hq] at h; cases h
      | some SI =>
        simp only [hq] at h
        rw [hs.inv'] at hq
        obtain ⟨h1, h2⟩ := npInv_eventually hS hq
        have hK := tendsto_mmul (tendsto_mmul h2 (tendsto_transpose hs.H)) hR'
        have hx := hs.x.add (tendsto_mulVec hK hy)
        let y (i : ι) := z i - (s i).H *ᵥ (s i).x
        let K (i : ι) := (S i)⁻¹ * (s i).Hᵀ * R1 i
        let x (i : ι) := (s i).x + K i *ᵥ y i
        have hi' : ∀ i, npInv (S i) = some (S i)⁻¹ →
            (s i).inv ((s i).Pinv + (s i).Hᵀ * (R i).resolve (s i).Rinv * (s i).H) = some (S i)⁻¹ := fun i hi => by
          rw [hs.inv]; exact hi
        have hmi : ∀ i, (s i).noInformation = false := fun i => (hs.mode i).trans hm
        cases hl : t.computeLL with
        | false =>
          rw [if_neg (by rw [hl]; exact Bool.false_ne_true)] at h
          obtain rfl := Except.ok.inj h
          refine ⟨fun i => { s i with
            y := y i, S := S i, K := K i, x := x i, Pinv := S i, z := some (z i), xPost := x i, PinvPost := S i },
            h1.mono fun i hi => ?_, { hs with x := hx, Pinv := hS, xPost := hx, PinvPost := hS }⟩
          simp only [InfoCall.run, IF.update, hmi i, Bool.false_eq_true, if_false, hi' i hi, hs.ll i, hl]
          rfl
        | true =>
          rw [if_pos hl] at h
          cases hll : IF.llOf (z' - t.H *ᵥ t.x) (t.Pinv + t.Hᵀ * R'.resolve t.Rinv * t.H) with
          | error e => simp only [hll] at h; cases h
          | ok v =>
            simp only [hll] at h
            obtain rfl := Except.ok.inj h
            choose w hw using fun i => llOf_anywhere (y := y i) (S := S i) hll
            refine ⟨fun i => { s i with
              y := y i, S := S i, K := K i, x := x i, Pinv := S i, z := some (z i)
              logLik := w i, lik := if expf (w i) = 0 then floatMin else expf (w i)
              xPost := x i, PinvPost := S i }, h1.mono fun i hi => ?_,
              { hs with x := hx, Pinv := hS, xPost := hx, PinvPost := hS }⟩
            have hw' := hw i
            simp only [y, S, R1] at hw'
            simp only [InfoCall.run, IF.update, hmi i, Bool.false_eq_true, if_false, hi' i hi, hs.ll i, hl, if_true, hw']
            rfl
  | missing =>
    obtain rfl := Except.ok.inj h
    exact ⟨_, .of_forall fun i => rfl, { hs with xPost := hs.x, PinvPost := hs.Pinv }⟩
  | @setF F F' hF =>
    simp only [InfoCall.run, IF.setF] at h
    cases hq : t.inv F' with
    | none => simp only [hq] at h; cases h
    | some Fi =>
      simp only [hq] at h
      rw [hs.inv'] at hq
      obtain ⟨h1, h2⟩ := npInv_eventually hF hq
      obtain rfl := Except.ok.inj h
      refine ⟨fun i => { s i with F := some (F i), Finv := some (F i)⁻¹ }, h1.mono fun i hi => ?_,
        { hs with F := .some hF, Finv := .some h2 }⟩
      have hi' : (s i).inv (F i) = some (F i)⁻¹ := by rw [hs.inv]; exact hi
      simp only [InfoCall.run, IF.setF, hi']

/-- **C147.** While the information matrix is regular whenever a prediction is made, nearby calls on a nearby
InformationFilter succeed too and give nearby estimates.  Missing: predictions from singular information, where the
claim is false (`C147_singular_refuted`). -/
theorem C147_regular_partial (expf : ℝ → ℝ) {s : ι → IF n m l} {t t' : IF n m l} (hs : IFNear f s t)
    {calls : List ((ι → InfoCall n m l) × InfoCall n m l)} (hc : ∀ p ∈ calls, InfoCallNear f p.1 p.2)
    (hi : InformedRun expf t (calls.map Prod.snd)) (h : runList (InfoCall.run expf) t (calls.map Prod.snd) = .ok t') :
    ∃ s', (∀ᶠ i in f, runList (InfoCall.run expf) (s i) (calls.map fun p => p.1 i) = .ok (s' i)) ∧ IFNear f s' t' := by
  induction calls generalizing s t with
  | nil => obtain rfl := Except.ok.inj h; exact ⟨s, .of_forall fun i => rfl, hs⟩
  | cons p calls ih =>
    simp only [List.map_cons, runList] at h
    cases hq : p.2.run expf t with
    | error e => rw [hq] at h; cases h
    | ok t1 =>
      rw [hq] at h
      obtain ⟨s1, g1, g2⟩ := info_step_near expf hs (hc p (List.mem_cons_self ..)) hi.1 hq
      obtain ⟨s', k1, k2⟩ := ih g2 (fun q hq => hc q (List.mem_cons_of_mem _ hq)) (hi.2 t1 hq) h
      refine ⟨s', (g1.and k1).mono fun i hi => ?_, k2⟩
      simp only [List.map_cons, runList, hi.1, hi.2]

/-- Two quantities, the first known with variance 1, the second with information `e`. -/
noncomputable def halfKnown (e : ℝ) : IF 2 1 0 :=
  { IF.fresh 2 1 0 with Pinv := diagonal ![1, e], F := some 1, Finv := some 1 }

theorem npInv_diag2 {a b : ℝ} (ha : a ≠ 0) (hb : b ≠ 0) :
    npInv (diagonal ![a, b] : Mat 2 2) = some (diagonal ![a⁻¹, b⁻¹]) := by
  have hd : (diagonal ![a, b] : Mat 2 2).det ≠ 0 := by
    rw [det_diagonal, Fin.prod_univ_two]; exact mul_ne_zero ha hb
  rw [npInv, if_neg hd]
  refine congrArg some (inv_eq_right_inv ?_)
  rw [diagonal_mul_diagonal, ← diagonal_one]
  refine congrArg diagonal (funext fun i => ?_)
  fin_cases i
  · exact mul_inv_cancel₀ ha
  · exact mul_inv_cancel₀ hb

/-- **C147 (refuted).** The predicted information jumps where the information becomes singular: with the slightest
information on the second quantity, predicting with unit process noise halves the information on the first; with none it
leaves it alone. -/
theorem C147_singular_refuted : ∃ t' : IF 2 1 0, (halfKnown 0).predict = .ok t' ∧ t'.Pinv 0 0 = 1 ∧
    ∀ e, 0 < e → ∃ s' : IF 2 1 0, (halfKnown e).predict = .ok s' ∧ s'.Pinv 0 0 = 1/2 := by
  have one2 : (1 : Mat 2 2) = diagonal ![1, 1] := by
    rw [← diagonal_one]; refine congrArg diagonal (funext fun i => ?_); fin_cases i <;> rfl
  have hadd : ∀ a b : ℝ, (diagonal ![a, b] : Mat 2 2) + 1 = diagonal ![a + 1, b + 1] := fun a b => by
    rw [one2, diagonal_add]; refine congrArg diagonal (funext fun i => ?_); fin_cases i <;> rfl
  have i1 : npInv (1 : Mat 2 2) = some 1 := by
    have := npInv_diag2 one_ne_zero one_ne_zero
    rw [inv_one, ← one2] at this; exact this
  have i0 : npInv (diagonal ![1, 0] : Mat 2 2) = none := by
    rw [npInv, if_pos (by simp [det_diagonal])]
  have i2 : npInv ((diagonal ![1, 0] : Mat 2 2) + 1) = some (diagonal ![(1 + 1)⁻¹, (0 + 1)⁻¹]) := by
    rw [hadd]; exact npInv_diag2 (by norm_num) (by norm_num)
  obtain ⟨t', h1, h2⟩ : ∃ t' : IF 2 1 0, (halfKnown 0).predict = .ok t' ∧ t'.Pinv 0 0 = 1 := by
    simp only [halfKnown, IF.fresh, IF.predict, transpose_one, Matrix.one_mul, Matrix.mul_one, i0, IF.predictNoInfo, i1, i2]
    exact ⟨_, rfl, by simp⟩
  refine ⟨t', h1, h2, fun e he => ?_⟩
  have j1 := npInv_diag2 (a := 1) one_ne_zero he.ne'
  have j2 : npInv ((diagonal ![1⁻¹, e⁻¹] : Mat 2 2) + 1) = some (diagonal ![(1⁻¹ + 1)⁻¹, (e⁻¹ + 1)⁻¹]) := by
    rw [hadd]; exact npInv_diag2 (by norm_num) (by positivity)
  simp only [halfKnown, IF.fresh, IF.predict, transpose_one, Matrix.one_mul, Matrix.mul_one, j1, IF.recover, Bool.false_eq_true,
    if_false, IF.predictInv, FKF.control, j2]
  exact ⟨_, rfl, by norm_num⟩

/-- A regular run: assign `F`, predict, measure. -/
example (z : Vec 1) : ∃ t' : IF 1 1 0,
    runList (InfoCall.run Real.exp) (IF.fresh 1 1 0) [.setF 1, .predict (.scalar 0), .update (some z) .none] = .ok t' ∧
    InformedRun Real.exp (IF.fresh 1 1 0) [.setF 1, .predict (.scalar 0), .update (some z) .none] := by
  have e1 : npInv (1 : Mat 1 1) = some 1 := by rw [npInv, if_neg (by simp), inv_one]
  have e2 : npInv ((1 : Mat 1 1) + 1) = some ((1 : Mat 1 1) + 1)⁻¹ := by rw [npInv, if_neg (by simp)]
  have e3 : npInv ((1 : Mat 1 1) + 1)⁻¹ = some (((1 : Mat 1 1) + 1)⁻¹)⁻¹ := by
    rw [npInv, if_neg]
    simp
  simp only [InformedRun, runList, InfoCall.run, IF.setF, IF.fresh, e1, IF.predict, transpose_one, Matrix.mul_one,
    IF.recover, Bool.false_eq_true, if_false, IF.predictInv, FKF.control, e2, IF.update, MatArg.resolve, transpose_zero,
    Matrix.mul_zero, add_zero, e3, IF.llOf, dif_pos, if_true]
  refine ⟨_, rfl, ?_, ?_⟩
  · rintro ⟨u, h⟩; cases h
  · intro s' hs'
    obtain rfl := Except.ok.inj hs'
    refine ⟨fun _ Fi hFi => ?_, fun s' hs' => ⟨?_, fun _ _ => trivial⟩⟩
    · obtain rfl := Option.some.inj hFi
      simp
    · rintro ⟨u, h⟩; cases h

end Filterpy
