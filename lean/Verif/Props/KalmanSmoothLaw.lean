import Verif.Props.KalmanSmoothLinear
import Verif.Props.KalmanEvidence
import Verif.Props.KalmanSettles
import Mathlib.Probability.Distributions.Gaussian.HasGaussianLaw.Independence
import Mathlib.MeasureTheory.Function.FactorsThrough

/-!
# The smoother computes the distribution of every state given all the measurements (C140)
-/

namespace Filterpy

open MeasureTheory ProbabilityTheory Matrix Spec KF

variable {Ω : Type*} [MeasurableSpace Ω] {μ : Measure Ω} [IsProbabilityMeasure μ]
variable {n m l k : ℕ}

/-! ## Specification -/

/-- The linear combinations (with a constant) of the components of the initial state and of all the noises. -/
inductive Spec.Combination {Ω : Type*} (X : Ω → Vec n) (es : List (Leg Ω n m)) : (Ω → ℝ) → Prop
  | const (c : ℝ) : Combination X es fun _ => c
  | start (i : Fin n) : Combination X es fun ω => X ω i
  | moved (e : Leg Ω n m) (he : e ∈ es) (i : Fin n) : Combination X es fun ω => e.w ω i
  | measured (e : Leg Ω n m) (he : e ∈ es) (v : Ω → Vec m) (hv : v ∈ e.v) (i : Fin m) : Combination X es fun ω => v ω i
  | smul (c : ℝ) (Y : Ω → ℝ) (h : Combination X es Y) : Combination X es fun ω => c * Y ω
  | add (Y Y' : Ω → ℝ) (h : Combination X es Y) (h' : Combination X es Y') : Combination X es fun ω => Y ω + Y' ω

/-- The initial state and all the noises are jointly normal: every linear combination of them is normal (perhaps with
variance zero). -/
def Spec.JointlyNormal (μ : Measure Ω) (X : Ω → Vec n) (es : List (Leg Ω n m)) : Prop :=
  ∀ Y, Combination X es Y → Measurable Y ∧ ∃ a s2, μ.map Y = gaussianReal a s2

/-- The events that are decided by the measurements. -/
def Spec.decidedBy {Ω : Type*} (Z : List (Option (Ω → Vec m))) : MeasurableSpace Ω :=
  ⨆ z ∈ {z | some z ∈ Z}, MeasurableSpace.comap z inferInstance

/-- Given the measurements `Z`, the state `X` is normal with mean `x` and covariance `P`: the estimate `x` is known from
the measurements, and the probability that `X` lies in `A` while the measurements are as described by the event `E` is the
mean over `E` of the probability of `A` under the normal distribution with mean `x` and covariance `P`. -/
structure Spec.Posterior (μ : Measure Ω) (Z : List (Option (Ω → Vec m))) (X x : Ω → Vec n) (P : Mat n n) : Prop where
  known : Measurable[decidedBy Z] x
  law : ∀ A, MeasurableSet A → ∀ E, MeasurableSet[decidedBy Z] E →
    μ (X ⁻¹' A ∩ E) = ∫⁻ ω in E, normal (x ω) P A ∂μ

/-! ## Linear combinations -/

section combos
omit [MeasurableSpace Ω]

theorem Spec.Combination.sum {ι : Type*} {X : Ω → Vec n} {es : List (Leg Ω n m)} (s : Finset ι) {f : ι → Ω → ℝ}
    (h : ∀ i ∈ s, Combination X es (f i)) : Combination X es fun ω => ∑ i ∈ s, f i ω := by
  classical
  induction s using Finset.induction_on with
  | empty => simpa using Combination.const 0
  | insert a s ha ih =>
    simp only [Finset.sum_insert ha]
    exact .add _ _ (h a (by simp)) (ih fun i hi => h i (by simp [hi]))

/-- All the components are linear combinations. -/
def Combos (X : Ω → Vec n) (es : List (Leg Ω n m)) {k : ℕ} (Y : Ω → Vec k) : Prop := ∀ i, Combination X es fun ω => Y ω i

theorem Combos.add {X : Ω → Vec n} {es : List (Leg Ω n m)} {Y Y' : Ω → Vec k} (h : Combos X es Y) (h' : Combos X es Y') :
    Combos X es fun ω => Y ω + Y' ω := fun i => .add _ _ (h i) (h' i)

theorem Combos.mulVec {X : Ω → Vec n} {es : List (Leg Ω n m)} {j : ℕ} {Y : Ω → Vec j} (A : Mat k j) (h : Combos X es Y) :
    Combos X es fun ω => A *ᵥ Y ω := fun i =>
  Combination.sum Finset.univ fun q _ => .smul (A i q) _ (h q)

theorem Combos.sub {X : Ω → Vec n} {es : List (Leg Ω n m)} {Y Y' : Ω → Vec k} (h : Combos X es Y) (h' : Combos X es Y') :
    Combos X es fun ω => Y ω - Y' ω := fun i => by
  have := Combination.add _ _ (h i) (.smul (-1) _ (h' i))
  simpa [sub_eq_add_neg] using this

theorem combos_world {X0 : Ω → Vec n} {es0 : List (Leg Ω n m)} (es : List (Leg Ω n m)) (X : Ω → Vec n) (hX : Combos X0 es0 X)
    (hs : ∀ e ∈ es, e ∈ es0) :
    (∀ Y ∈ truth X es, Combos X0 es0 Y) ∧ ∀ z, some z ∈ readings X es → Combos X0 es0 z := by
  induction es generalizing X with
  | nil => simp [truth, readings]
  | cons e es ih =>
    have h1 : Combos X0 es0 fun ω => e.F *ᵥ X ω + e.w ω :=
      (hX.mulVec e.F).add fun i => .moved e (hs e (by simp)) i
    obtain ⟨g1, g2⟩ := ih _ h1 fun e' he => hs e' (by simp [he])
    refine ⟨fun Y hY => ?_, fun z hz => ?_⟩
    · simp only [truth, List.mem_cons] at hY
      rcases hY with rfl | hY
      · exact h1
      · exact g1 Y hY
    · simp only [readings, List.mem_cons] at hz
      rcases hz with hz | hz
      · obtain ⟨v, hv, rfl⟩ := Option.map_eq_some_iff.1 hz.symm
        exact (h1.mulVec e.H).add fun i => .measured e (hs e (by simp)) v hv i
      · exact g2 z hz

theorem combos_affine {X : Ω → Vec n} {es : List (Leg Ω n m)} {Z : List (Option (Ω → Vec m))}
    (hZ : ∀ z, some z ∈ Z → Combos X es z) {Y : Ω → Vec k} (h : AffineIn Z Y) : Combos X es Y := by
  induction h with
  | const c => exact fun i => .const (c i)
  | reading z h => exact hZ z h
  | mulVec A Y _ ih => exact ih.mulVec A
  | add Y Y' _ _ ih ih' => exact ih.add ih'

theorem affine_known {Z : List (Option (Ω → Vec m))} {Y : Ω → Vec k} (h : AffineIn Z Y) : Measurable[decidedBy Z] Y := by
  induction h with
  | const c => exact @measurable_const _ _ _ (decidedBy Z) _
  | reading z h =>
    intro s hs
    have : MeasurableSpace.comap z inferInstance ≤ decidedBy Z := le_iSup₂_of_le z h le_rfl
    exact this _ ⟨s, hs, rfl⟩
  | mulVec A Y _ ih =>
    have : Measurable fun v : Vec _ => A *ᵥ v := by simpa using affine_measurable A 0
    exact @Measurable.comp _ _ _ (decidedBy Z) _ _ _ _ this ih
  | add Y Y' _ _ ih ih' => exact Measurable.add (m := decidedBy Z) ih ih'

/-- The components of all the measurements in one vector. -/
def stack (Z : List (Option (Ω → Vec m))) (ω : Ω) : Fin (Z.filterMap id).length × Fin m → ℝ := fun q => (Z.filterMap id)[q.1] ω q.2

theorem stack_mem (Z : List (Option (Ω → Vec m))) (i : Fin (Z.filterMap id).length) : some (Z.filterMap id)[i] ∈ Z := by
  have := List.getElem_mem (l := Z.filterMap id) i.2
  obtain ⟨z, hz, e⟩ := List.mem_filterMap.1 this
  simp only [id] at e
  exact e ▸ hz

theorem decided_stack (Z : List (Option (Ω → Vec m))) : decidedBy Z ≤ MeasurableSpace.comap (stack Z) inferInstance := by
  refine iSup₂_le fun z hz => ?_
  have hm : z ∈ Z.filterMap id := by simpa using hz
  obtain ⟨i, hi, rfl⟩ := List.mem_iff_getElem.1 hm
  rintro _ ⟨s, hs, rfl⟩
  refine ⟨(fun q : Fin (Z.filterMap id).length × Fin m → ℝ => fun j => q (⟨i, hi⟩, j)) ⁻¹' s, ?_, rfl⟩
  exact measurableSet_preimage (measurable_pi_lambda _ fun j => measurable_pi_apply _) hs

end combos

omit [MeasurableSpace Ω] in
/-- A linear functional of finitely many linear combinations is one. -/
theorem functional_combo {X : Ω → Vec n} {es : List (Leg Ω n m)} {ι κ : Type*} [Fintype ι] [Fintype κ]
    {D : Ω → ι → ℝ} {Z : Ω → κ → ℝ} (hD : ∀ i, Combination X es fun ω => D ω i) (hZ : ∀ i, Combination X es fun ω => Z ω i)
    (L : ((ι → ℝ) × (κ → ℝ)) →L[ℝ] ℝ) : Combination X es fun ω => L (D ω, Z ω) := by
  classical
  have e : (fun ω => L (D ω, Z ω)) = fun ω => (∑ i, L (Pi.single i 1, 0) * D ω i) + ∑ i, L (0, Pi.single i 1) * Z ω i := by
    funext ω
    have h1 : (D ω, Z ω) = (∑ i, D ω i • ((Pi.single i 1, 0) : (ι → ℝ) × (κ → ℝ))) + ∑ i, Z ω i • ((0, Pi.single i 1) : (ι → ℝ) × (κ → ℝ)) := by
      ext i
      · simp [Prod.fst_sum, Finset.sum_apply, Pi.single_apply]
      · simp [Prod.snd_sum, Finset.sum_apply, Pi.single_apply]
    rw [h1, map_add, map_sum, map_sum]
    simp only [map_smul, smul_eq_mul, mul_comm]
  rw [e]
  exact .add _ _ (Combination.sum _ fun i _ => .smul _ _ (hD i)) (Combination.sum _ fun i _ => .smul _ _ (hZ i))

omit [IsProbabilityMeasure μ] in
theorem jointly_gaussian {X : Ω → Vec n} {es : List (Leg Ω n m)} (hN : JointlyNormal μ X es) {ι κ : Type*} [Fintype ι] [Fintype κ]
    {D : Ω → ι → ℝ} {Z : Ω → κ → ℝ} (hD : ∀ i, Combination X es fun ω => D ω i) (hZ : ∀ i, Combination X es fun ω => Z ω i) :
    HasGaussianLaw (fun ω => (D ω, Z ω)) μ := by
  have hm : Measurable fun ω => (D ω, Z ω) :=
    (measurable_pi_lambda _ fun i => (hN _ (hD i)).1).prodMk (measurable_pi_lambda _ fun i => (hN _ (hZ i)).1)
  refine ⟨isGaussian_of_isGaussian_map fun L => ?_⟩
  rw [Measure.map_map L.continuous.measurable hm]
  obtain ⟨-, a, s2, h⟩ := hN _ (functional_combo hD hZ L)
  have : μ.map (L ∘ fun ω => (D ω, Z ω)) = gaussianReal a s2 := h
  rw [this]
  infer_instance

/-- The law of a vector all of whose linear combinations are normal. -/
theorem law_normal {D : Ω → Vec n} (hG : HasGaussianLaw D μ) {P : Mat n n} (hD : NoiseOK D μ P) (hP : P.PosSemidef) :
    μ.map D = normal 0 P := by
  have := Measure.isProbabilityMeasure_map (μ := μ) hG.aemeasurable
  apply vec_ext
  intro t
  rw [normal_char 0 hP t]
  let A : Mat 1 n := Matrix.of fun _ => t
  let L : (Fin n → ℝ) →L[ℝ] ℝ := LinearMap.toContinuousLinearMap
    { toFun := fun v => v ⬝ᵥ t, map_add' := fun a b => add_dotProduct a b t, map_smul' := fun c a => smul_dotProduct c a t }
  have hL : ∀ v, L v = v ⬝ᵥ t := fun v => rfl
  have hA : (fun ω => L (D ω)) = fun ω => (A *ᵥ D ω) 0 := by
    funext ω
    rw [hL, dotProduct_comm]
    rfl
  have h := hG.charFunDual_map_eq_fun L
  rw [charFunDual_apply] at h
  simp only [hL] at h
  refine h.trans ?_
  have e1 : ∫ ω, D ω ⬝ᵥ t ∂μ = 0 := by
    have := congrFun (meanVec_mulVec hD.sq A) 0
    rw [hD.mean, mulVec_zero] at this
    exact (congrArg (fun f : Ω → ℝ => ∫ ω, f ω ∂μ) hA).trans this
  have e2 : Var[fun ω => D ω ⬝ᵥ t; μ] = t ⬝ᵥ (P *ᵥ t) := by
    have h1 : covMat (fun ω => A *ᵥ D ω) (fun ω => A *ᵥ D ω) μ = A * P * Aᵀ := by
      rw [covMat_mulVec_left hD.sq (hD.sq.mulVec A), covMat_mulVec_right hD.sq hD.sq, hD.cov, Matrix.mul_assoc]
    have h2 := congrFun (congrFun h1 0) 0
    simp only [covMat, Matrix.of_apply] at h2
    have h3 : (fun ω => D ω ⬝ᵥ t) = fun ω => (A *ᵥ D ω) 0 := hA
    rw [h3, ← covariance_self (by rw [← h3]; exact ((L.continuous.measurable.comp_aemeasurable hG.aemeasurable) : AEMeasurable (fun ω => L (D ω)) μ)), h2, Matrix.mul_assoc]
    rfl
  rw [e1, e2]
  simp

/-! ## The posterior -/

/-- Independence of the error from the measurements, in the form used below. -/
theorem posterior_lintegral {Z : List (Option (Ω → Vec m))} {X x : Ω → Vec n} {P : Mat n n} (hP : P.PosSemidef)
    (hx : Measurable[decidedBy Z] x) (hX : Measurable X) (hZ : Measurable (stack Z))
    (hlaw : μ.map (fun ω => X ω - x ω) = normal 0 P) (hind : IndepFun (fun ω => X ω - x ω) (stack Z) μ)
    {f : Vec n → (Fin (Z.filterMap id).length × Fin m → ℝ) → ENNReal} (hf : Measurable f.uncurry) :
    ∫⁻ ω, f (X ω) (stack Z ω) ∂μ = ∫⁻ ω, ∫⁻ v, f v (stack Z ω) ∂(normal (x ω) P) ∂μ := by
  obtain ⟨g, hg, rfl⟩ := (Measurable.mono hx (decided_stack Z) le_rfl).exists_eq_measurable_comp
  have hxm : Measurable (g ∘ stack Z) := hg.comp hZ
  have hD : Measurable fun ω => X ω - (g ∘ stack Z) ω := hX.sub hxm
  have hp := (indepFun_iff_map_prod_eq_prod_map_map hD.aemeasurable hZ.aemeasurable).1 hind
  have := Measure.isProbabilityMeasure_map (μ := μ) hZ.aemeasurable
  have hm : Measurable fun q : Vec n × (Fin (Z.filterMap id).length × Fin m → ℝ) => f (q.1 + g q.2) q.2 :=
    hf.comp ((measurable_fst.add (hg.comp measurable_snd)).prodMk measurable_snd)
  have h1 : ∫⁻ ω, f (X ω) (stack Z ω) ∂μ
      = ∫⁻ q, f (q.1 + g q.2) q.2 ∂(μ.map fun ω => (X ω - (g ∘ stack Z) ω, stack Z ω)) := by
    rw [lintegral_map hm (hD.prodMk hZ)]
    refine lintegral_congr fun ω => ?_
    simp
  rw [h1, hp, hlaw, lintegral_prod_symm _ hm.aemeasurable, lintegral_map (hm.lintegral_prod_left') hZ]
  refine lintegral_congr fun ω => ?_
  have h2 := normal_affine 0 hP 1 (g (stack Z ω))
  rw [mulVec_zero, zero_add, Matrix.one_mul, transpose_one, Matrix.mul_one] at h2
  have hc : Measurable fun v => f v (stack Z ω) := hf.comp (measurable_id.prodMk measurable_const)
  rw [Function.comp, ← h2, lintegral_map hc (affine_measurable _ _)]
  simp only [one_mulVec]

/-- No estimator that is computed from the measurements, linear or not, has a smaller mean penalty than `x`. -/
def Spec.Unbeaten (μ : Measure Ω) (Z : List (Option (Ω → Vec m))) (X x : Ω → Vec n) : Prop :=
  ∀ loss, Penalty loss → ∀ Y, Measurable[decidedBy Z] Y → ∫⁻ ω, loss (X ω - x ω) ∂μ ≤ ∫⁻ ω, loss (X ω - Y ω) ∂μ

theorem posterior_of {X0 : Ω → Vec n} {es : List (Leg Ω n m)} (hN : JointlyNormal μ X0 es) {X x : Ω → Vec n} {P : Mat n n}
    (hX : X ∈ truth X0 es) (ha : AffineIn (readings X0 es) x) (hn : NoiseOK (fun ω => X ω - x ω) μ P)
    (hu : ∀ z, some z ∈ readings X0 es → Unc μ (fun ω => X ω - x ω) z) :
    Posterior μ (readings X0 es) X x P ∧ Unbeaten μ (readings X0 es) X x := by
  obtain ⟨c1, c2⟩ := combos_world es X0 (fun i => .start i) fun e he => he
  have hP : P.PosSemidef := by rw [← hn.cov]; exact covMat_psd hn.sq
  have cX := c1 X hX
  have cx : Combos X0 es x := combos_affine c2 ha
  have cD := cX.sub cx
  have cS : ∀ i, Combination X0 es fun ω => stack (readings X0 es) ω i := fun i => c2 _ (stack_mem _ i.1) i.2
  have hG := jointly_gaussian hN cD cS
  have hlaw := law_normal hG.fst hn hP
  have hind : IndepFun (fun ω => X ω - x ω) (stack (readings X0 es)) μ := by
    refine HasGaussianLaw.indepFun_of_covariance_eval (X := fun i ω => (X ω - x ω) i) (Y := fun j ω => stack (readings X0 es) ω j) hG fun i j => ?_
    have := (hu _ (stack_mem _ j.1)).cov
    exact congrFun (congrFun this i) j.2
  have hk := affine_known ha
  have mX : Measurable X := measurable_pi_lambda _ fun i => (hN _ (cX i)).1
  have mx : Measurable x := measurable_pi_lambda _ fun i => (hN _ (cx i)).1
  have mZ : Measurable (stack (readings X0 es)) := measurable_pi_lambda _ fun i => (hN _ (cS i)).1
  refine ⟨⟨hk, fun A hA E hE => ?_⟩, fun loss hl Y hY => ?_⟩
  · obtain ⟨B, hB, rfl⟩ := decided_stack _ E hE
    have hm : Measurable (Function.uncurry fun (v : Vec n) (z : Fin ((readings X0 es).filterMap id).length × Fin m → ℝ) =>
        (A ×ˢ B).indicator (1 : Vec n × _ → ENNReal) (v, z)) := measurable_one.indicator (hA.prod hB)
    have h := posterior_lintegral hP hk mX mZ hlaw hind hm
    have e1 : ∫⁻ ω, (A ×ˢ B).indicator (1 : Vec n × _ → ENNReal) (X ω, stack (readings X0 es) ω) ∂μ
        = μ (X ⁻¹' A ∩ stack (readings X0 es) ⁻¹' B) := by
      rw [← lintegral_indicator_one ((mX hA).inter (mZ hB))]
      rfl
    rw [← e1, h, ← lintegral_indicator (mZ hB)]
    refine lintegral_congr fun ω => ?_
    by_cases hω : stack (readings X0 es) ω ∈ B
    · rw [Set.indicator_of_mem (show ω ∈ stack (readings X0 es) ⁻¹' B from hω), ← lintegral_indicator_one hA]
      refine lintegral_congr fun v => ?_
      by_cases hv : v ∈ A <;> simp [hv, hω]
    · rw [Set.indicator_of_notMem (show ω ∉ stack (readings X0 es) ⁻¹' B from hω)]
      simp [hω]
  · obtain ⟨g, hg, rfl⟩ := (Measurable.mono hY (decided_stack _) le_rfl).exists_eq_measurable_comp
    obtain ⟨gx, hgx, ex⟩ := (Measurable.mono hk (decided_stack _) le_rfl).exists_eq_measurable_comp
    have m1 : Measurable (Function.uncurry fun (v : Vec n) (z : Fin ((readings X0 es).filterMap id).length × Fin m → ℝ) => loss (v - gx z)) :=
      hl.measurable.comp (measurable_fst.sub (hgx.comp measurable_snd))
    have m2 : Measurable (Function.uncurry fun (v : Vec n) (z : Fin ((readings X0 es).filterMap id).length × Fin m → ℝ) => loss (v - g z)) :=
      hl.measurable.comp (measurable_fst.sub (hg.comp measurable_snd))
    have h1 := posterior_lintegral hP hk mX mZ hlaw hind m1
    have h2 := posterior_lintegral hP hk mX mZ hlaw hind m2
    have e1 : ∀ ω, gx (stack (readings X0 es) ω) = x ω := fun ω => (congrFun ex ω).symm
    simp only [e1] at h1
    refine h1.le.trans (le_trans (lintegral_mono fun ω => ?_) h2.ge)
    exact normal_centre hl (x ω) (g (stack (readings X0 es) ω)) hP

/-- Everything above for a run of `batch_filter` and values that satisfy the smoothing recursion. -/
theorem smoothed_law {s : KF n m l} {X : Ω → Vec n} {es : List (Leg Ω n m)} (hb : Believed μ s X es) (hN : JointlyNormal μ X es)
    {outs S} (hf : Filt X (fun _ => s.x) s.P es outs) (hs : Smoo es outs S) :
    ∀ p ∈ (truth X es).zip S, Posterior μ (readings X es) p.1 p.2.1 p.2.2 ∧ Unbeaten μ (readings X es) p.1 p.2.1 := by
  intro p hp
  have hX : SqInt X μ := by
    have := hb.start.sq.add (SqInt.const s.x)
    simpa using this
  obtain ⟨h1, h2⟩ := smoothed_ok es hf hs hX hb.start (Unc.const hb.start.sq s.x) hb.startUnc
    (fun e he => ⟨(Unc.const (hb.legs e he).w.sq s.x).symm, fun v hv => (Unc.const ((hb.legs e he).v v hv).1.sq s.x).symm⟩)
    hb.legs hb.unc p hp
  exact posterior_of hN (List.of_mem_zip hp).1
    (affine_smoo es hs (affine_filt es hf (AffineIn.const s.x) fun z hz => hz) p.2 (List.of_mem_zip hp).2) h1 h2

/-! ## The theorems -/

theorem rts_smoo (s : KF n m l) (hs : s.alphaSq = 1 ∧ s.B = none) (hi : GoodInv s.inv)
    (f : Mat n n → Option (Mat n n)) (hf : GoodInv f) (X : Ω → Vec n) (es : List (Leg Ω n m)) (hb : Believed μ s X es)
    (r : Ω → List (BatchOut n) × KF n m l) (hr : ∀ ω, s.batchFilter (seen X es ω) (legArgs es) = .ok (r ω))
    (q : Ω → List (RtsOut n)) (hq : ∀ ω, (r ω).2.rtsSmoother ((r ω).1.map (·.mean)) ((r ω).1.map (·.cov))
      (some (es.map (·.F))) (some (es.map (·.Q))) f = .ok (q ω)) :
    ∃ outs S, Filt X (fun _ => s.x) s.P es outs ∧ Smoo es outs S ∧ S.length = es.length ∧
      ∀ ω, (q ω).map (fun o => (o.x, o.P)) = S.map fun o => (o.1 ω, o.2) := by
  obtain ⟨outs, g1, g2, hl, hpsd, ho, -⟩ := believed_run s hs hi X es hb r hr
  have hne : Nonempty Ω := μ.nonempty_of_neZero
  have e1 : ∀ ω, (r ω).1.map (·.mean) = outs.map fun o => o.1 ω := by
    intro ω
    have := congrArg (List.map Prod.fst) (g2 ω)
    simpa [List.map_map, Function.comp_def] using this
  have e2 : ∀ ω, (r ω).1.map (·.cov) = outs.map fun o => o.2 := by
    intro ω
    have := congrArg (List.map Prod.snd) (g2 ω)
    simpa [List.map_map, Function.comp_def] using this
  obtain ⟨S, k1, k2⟩ := smoo_of_run hf es hpsd hl ho (r := q) (fun ω => by
    have := hq ω
    rw [e1, e2] at this
    have := rtsSmoother_loop (by simp) (by simp [hl]) (by simp [hl]) this
    rwa [List.zip_map'] at this)
  exact ⟨outs, S, g1, k1, smoo_length es hl k1, k2⟩

/-- **C140.** If the system is as the filter believes and the initial state and all noises are jointly normal (with
covariances that may be singular), then what `rts_smoother` returns for each time is the mean and the covariance of the
exact distribution of the state at that time given *all* the measurements of the batch, and that distribution is normal. -/
theorem C140_smoothed (s : KF n m l) (hs : s.alphaSq = 1 ∧ s.B = none) (hi : GoodInv s.inv)
    (f : Mat n n → Option (Mat n n)) (hf : GoodInv f) (X : Ω → Vec n) (es : List (Leg Ω n m)) (hb : Believed μ s X es)
    (hN : JointlyNormal μ X es)
    (r : Ω → List (BatchOut n) × KF n m l) (hr : ∀ ω, s.batchFilter (seen X es ω) (legArgs es) = .ok (r ω))
    (q : Ω → List (RtsOut n)) (hq : ∀ ω, (r ω).2.rtsSmoother ((r ω).1.map (·.mean)) ((r ω).1.map (·.cov))
      (some (es.map (·.F))) (some (es.map (·.Q))) f = .ok (q ω)) :
    ∃ S : List ((Ω → Vec n) × Mat n n), S.length = es.length ∧
      (∀ ω, (q ω).map (fun o => (o.x, o.P)) = S.map fun o => (o.1 ω, o.2)) ∧
      ∀ p ∈ (truth X es).zip S, Posterior μ (readings X es) p.1 p.2.1 p.2.2 := by
  obtain ⟨outs, S, g1, k1, hl, k2⟩ := rts_smoo s hs hi f hf X es hb r hr q hq
  exact ⟨S, hl, k2, fun p hp => (smoothed_law hb hN g1 k1 p hp).1⟩

/-- **C140, no better smoother.** Under the same hypotheses no other way of computing a state from all the measurements,
linear or not, has a smaller mean penalty (C95) than the smoothed state, at any time. -/
theorem C140_unbeaten (s : KF n m l) (hs : s.alphaSq = 1 ∧ s.B = none) (hi : GoodInv s.inv)
    (f : Mat n n → Option (Mat n n)) (hf : GoodInv f) (X : Ω → Vec n) (es : List (Leg Ω n m)) (hb : Believed μ s X es)
    (hN : JointlyNormal μ X es)
    (r : Ω → List (BatchOut n) × KF n m l) (hr : ∀ ω, s.batchFilter (seen X es ω) (legArgs es) = .ok (r ω))
    (q : Ω → List (RtsOut n)) (hq : ∀ ω, (r ω).2.rtsSmoother ((r ω).1.map (·.mean)) ((r ω).1.map (·.cov))
      (some (es.map (·.F))) (some (es.map (·.Q))) f = .ok (q ω)) :
    ∃ S : List (Ω → Vec n), S.length = es.length ∧ (∀ ω, (q ω).map (fun o => o.x) = S.map fun o => o ω) ∧
      ∀ p ∈ (truth X es).zip S, Unbeaten μ (readings X es) p.1 p.2 := by
  obtain ⟨outs, S, g1, k1, hl, k2⟩ := rts_smoo s hs hi f hf X es hb r hr q hq
  refine ⟨S.map (·.1), by simpa using hl, fun ω => ?_, fun p hp => ?_⟩
  · have := congrArg (List.map Prod.fst) (k2 ω)
    simpa [List.map_map, Function.comp_def] using this
  · rw [List.zip_map_right] at hp
    obtain ⟨p', hp', rfl⟩ := List.mem_map.1 hp
    exact (smoothed_law hb hN g1 k1 p' hp').2

/-- **C140, filtered.** The last state and covariance of `batch_filter` are the mean and covariance of the exact, normal
distribution of the last state given all the measurements so far; here also the measurement noise may be singular, which
C94 excludes. -/
theorem C140_filtered (s : KF n m l) (hs : s.alphaSq = 1 ∧ s.B = none) (hi : GoodInv s.inv)
    (X : Ω → Vec n) (es : List (Leg Ω n m)) (hne : es ≠ []) (hb : Believed μ s X es) (hN : JointlyNormal μ X es)
    (r : Ω → List (BatchOut n) × KF n m l) (hr : ∀ ω, s.batchFilter (seen X es ω) (legArgs es) = .ok (r ω)) :
    ∃ (x : Ω → Vec n) (P : Mat n n) (Xk : Ω → Vec n), (truth X es).getLast? = some Xk ∧
      (∀ ω, ((r ω).1.map fun o => (o.mean, o.cov)).getLast? = some (x ω, P)) ∧
      Posterior μ (readings X es) Xk x P := by
  obtain ⟨outs, g1, g2, hl, hpsd, ho, -⟩ := believed_run s hs hi X es hb r hr
  obtain ⟨S, k1, k2⟩ := smoo_exists es hpsd hl ho
  have hS := smoo_length es hl k1
  obtain ⟨o, h1⟩ : ∃ o, outs.getLast? = some o := by
    have : outs ≠ [] := by
      rintro rfl
      exact hne (List.length_eq_zero_iff.1 hl.symm)
    exact ⟨_, List.getLast?_eq_some_getLast this⟩
  obtain ⟨Xk, h2, h3⟩ := getLast?_zip_mem (as := truth X es) (by rw [truth_length, hS]) (k2.trans h1)
  refine ⟨o.1, o.2, Xk, h2, fun ω => ?_, (smoothed_law hb hN g1 k1 _ h3).1⟩
  rw [g2 ω, List.getLast?_map, h1]
  rfl

/-! ## Such systems exist, for every filter and every plan -/

/-- A sequence of independent standard normal numbers. -/
noncomputable def gaussNat : Measure (ℕ → ℝ) := Measure.infinitePi fun _ : ℕ => gaussianReal 0 1

instance : IsProbabilityMeasure gaussNat := by unfold gaussNat; infer_instance

/-- Disjoint blocks of the sequence. -/
def block (k b : ℕ) (ω : ℕ → ℝ) : Vec k := fun j => ω (Nat.pair b j)

theorem block_ok (k b : ℕ) : NoiseOK (block k b) gaussNat 1 := by
  have hw := whiteNoise_gaussian
  refine ⟨fun i => hw.memLp _, ?_, ?_⟩
  · ext p
    have h1 := integral_map (μ := Measure.infinitePi fun _ : ℕ => gaussianReal 0 1) (φ := Function.eval (Nat.pair b p))
      (measurable_pi_apply _).aemeasurable (f := fun x : ℝ => x) measurable_id.aestronglyMeasurable
    rw [(measurePreserving_eval_infinitePi (fun _ : ℕ => gaussianReal 0 1) (Nat.pair b p)).map_eq, integral_id_gaussianReal] at h1
    exact h1.symm
  · ext p q
    rw [Matrix.one_apply]
    split_ifs with h
    · subst h; exact hw.var _
    · refine hw.uncorr _ _ fun e => h ?_
      rw [Nat.pair_eq_pair] at e
      exact Fin.ext e.2

theorem block_unc {k k' b b' : ℕ} (h : b ≠ b') : Unc gaussNat (block k b) (block k' b') := by
  refine ⟨(block_ok k b).sq, (block_ok k' b').sq, ?_⟩
  ext p q
  refine whiteNoise_gaussian.uncorr _ _ fun e => h ?_
  rw [Nat.pair_eq_pair] at e
  exact e.1

theorem block_mul {b : ℕ} {C : Mat k k} {S : Mat k k} (hS : S * Sᵀ = C) : NoiseOK (fun ω => S *ᵥ block k b ω) gaussNat C := by
  have h := block_ok k b
  refine ⟨h.sq.mulVec S, ?_, ?_⟩
  · rw [meanVec_mulVec h.sq, h.mean, mulVec_zero]
  · rw [covMat_mulVec_left h.sq (h.sq.mulVec S), covMat_mulVec_right h.sq h.sq, h.cov, Matrix.one_mul, hS]

theorem block_mul_unc {k k' b b' : ℕ} (h : b ≠ b') (S : Mat k k) (S' : Mat k' k') :
    Unc gaussNat (fun ω => S *ᵥ block k b ω) (fun ω => S' *ᵥ block k' b' ω) := by
  have hu := block_unc (k := k) (k' := k') h
  refine ⟨hu.left.mulVec S, hu.right.mulVec S', ?_⟩
  rw [covMat_mulVec_left hu.left (hu.right.mulVec S'), covMat_mulVec_right hu.left hu.right, hu.cov, Matrix.zero_mul, Matrix.mul_zero]

open scoped MatrixOrder Matrix.Norms.L2Operator in
theorem psd_root {C : Mat k k} (h : C.PosSemidef) : ∃ S : Mat k k, S * Sᵀ = C := by
  obtain ⟨B, hB⟩ := CStarAlgebra.nonneg_iff_eq_star_mul_self.mp h.nonneg
  exact ⟨Bᵀ, by rw [transpose_transpose, hB, star_eq_conjTranspose, conjTranspose_eq_transpose_of_trivial]⟩

/-- A square root (any one). -/
noncomputable def root (C : Mat k k) : Mat k k := open Classical in if h : ∃ S : Mat k k, S * Sᵀ = C then h.choose else 0

theorem root_ok {C : Mat k k} (h : C.PosSemidef) : root C * (root C)ᵀ = C := by
  rw [root, dif_pos (psd_root h)]; exact (psd_root h).choose_spec

/-- What the user knows of a step: `F`, `Q`, `H`, `R` and whether there is a measurement. -/
abbrev Spec.Plan (n m : ℕ) := Mat n n × Mat n n × Mat m n × Mat m m × Bool

/-- The steps with noise from blocks `b`, `b + 1`, … -/
noncomputable def normalLegs : ℕ → List (Plan n m) → List (Leg (ℕ → ℝ) n m)
  | _, [] => []
  | b, (F, Q, H, R, z) :: ps => ⟨F, Q, H, R, fun ω => root Q *ᵥ block n b ω, if z then some fun ω => root R *ᵥ block m (b + 1) ω else none⟩ ::
      normalLegs (b + 2) ps

theorem normalLegs_mem {b : ℕ} {ps : List (Plan n m)} {e : Leg (ℕ → ℝ) n m} (h : e ∈ normalLegs b ps) :
    ∃ c, b ≤ c ∧ (e.F, e.Q, e.H, e.R, e.v.isSome) ∈ ps ∧ (e.w = fun ω => root e.Q *ᵥ block n c ω) ∧
      ∀ v ∈ e.v, v = fun ω => root e.R *ᵥ block m (c + 1) ω := by
  induction ps generalizing b with
  | nil => simp [normalLegs] at h
  | cons p ps ih =>
    obtain ⟨F, Q, H, R, z⟩ := p
    simp only [normalLegs, List.mem_cons] at h
    rcases h with rfl | h
    · refine ⟨b, le_rfl, ?_, rfl, ?_⟩
      · cases z <;> simp
      · intro v hv
        cases z with
        | false => simp at hv
        | true => simpa using hv.symm
    · obtain ⟨c, h1, h2, h3⟩ := ih h
      exact ⟨c, by omega, List.mem_cons_of_mem _ h2, h3⟩

theorem normalLegs_unc {a b : ℕ} (h : a < b) (ps : List (Plan n m)) (S : Mat k k) :
    UncAll gaussNat (fun ω => S *ᵥ block k a ω) (normalLegs b ps) := by
  intro e he
  obtain ⟨c, h1, -, h2, h3⟩ := normalLegs_mem he
  refine ⟨?_, fun v hv => ?_⟩
  · rw [h2]; exact block_mul_unc (by omega) _ _
  · rw [h3 v hv]; exact block_mul_unc (by omega) _ _

theorem normalLegs_pairwise (b : ℕ) (ps : List (Plan n m)) : (normalLegs b ps).Pairwise (LegUnc gaussNat) := by
  induction ps generalizing b with
  | nil => exact .nil
  | cons p ps ih =>
    obtain ⟨F, Q, H, R, z⟩ := p
    refine List.pairwise_cons.2 ⟨fun e he => ⟨?_, ?_⟩, ih _⟩
    · intro e' he'
      obtain rfl := List.mem_singleton.1 he'
      exact normalLegs_unc (by omega) ps _ e' he
    · intro v hv e' he'
      obtain rfl := List.mem_singleton.1 he'
      cases z with
      | false => simp at hv
      | true =>
        obtain rfl : (fun ω => root R *ᵥ block m (b + 1) ω) = v := by simpa using hv
        exact normalLegs_unc (by omega) ps _ e' he

theorem normalLegs_plan (b : ℕ) (ps : List (Plan n m)) :
    (normalLegs b ps).map (fun e => (e.F, e.Q, e.H, e.R, e.v.isSome)) = ps := by
  induction ps generalizing b with
  | nil => rfl
  | cons p ps ih =>
    obtain ⟨F, Q, H, R, z⟩ := p
    rw [normalLegs, List.map_cons, ih]
    cases z <;> rfl

/-- Linear combinations of the sequence. -/
def SeqCombo (Y : (ℕ → ℝ) → ℝ) : Prop := ∃ (a : ℕ →₀ ℝ) (c : ℝ), ∀ ω, Y ω = (a.sum fun i r => r * ω i) + c

theorem SeqCombo.add {Y Y' : (ℕ → ℝ) → ℝ} (h : SeqCombo Y) (h' : SeqCombo Y') : SeqCombo fun ω => Y ω + Y' ω := by
  obtain ⟨a, c, h⟩ := h
  obtain ⟨a', c', h'⟩ := h'
  refine ⟨a + a', c + c', fun ω => ?_⟩
  dsimp only
  rw [h, h', Finsupp.sum_add_index' (fun i => zero_mul _) (fun i r r' => add_mul _ _ _)]
  ring

theorem SeqCombo.smul {Y : (ℕ → ℝ) → ℝ} (r : ℝ) (h : SeqCombo Y) : SeqCombo fun ω => r * Y ω := by
  obtain ⟨a, c, h⟩ := h
  refine ⟨r • a, r * c, fun ω => ?_⟩
  dsimp only
  rw [h, Finsupp.sum_smul_index (fun i => zero_mul _), mul_add, Finsupp.mul_sum]
  simp only [mul_assoc]

theorem SeqCombo.sum {ι : Type*} (s : Finset ι) {f : ι → (ℕ → ℝ) → ℝ}
    (h : ∀ i ∈ s, SeqCombo (f i)) : SeqCombo fun ω => ∑ i ∈ s, f i ω := by
  classical
  induction s using Finset.induction_on with
  | empty => exact ⟨0, 0, by simp⟩
  | insert a s ha ih =>
    simp only [Finset.sum_insert ha]
    exact (h a (by simp)).add (ih fun i hi => h i (by simp [hi]))

theorem SeqCombo.block (S : Mat k k) (b : ℕ) (i : Fin k) : SeqCombo fun ω => (S *ᵥ block k b ω) i :=
  SeqCombo.sum Finset.univ fun (j : Fin k) _ => ⟨Finsupp.single (Nat.pair b j) (S i j), 0, fun ω => by
    rw [Finsupp.sum_single_index (zero_mul _), add_zero]; rfl⟩

theorem SeqCombo.normal {Y : (ℕ → ℝ) → ℝ} (h : SeqCombo Y) : Measurable Y ∧ ∃ a s2, gaussNat.map Y = gaussianReal a s2 := by
  obtain ⟨a, c, h⟩ := h
  obtain rfl : Y = fun ω => (a.sum fun i r => r * ω i) + c := funext h
  have hm : Measurable fun ω : ℕ → ℝ => a.sum fun i r => r * ω i :=
    Finset.measurable_sum _ fun i _ => (measurable_pi_apply i).const_mul _
  refine ⟨hm.add_const c, ?_⟩
  have hi : iIndepFun (fun (i : ℕ) (ω : ℕ → ℝ) => a i * ω i) gaussNat :=
    iIndepFun_infinitePi (X := fun i x => a i * x) (by fun_prop)
  have hg : ∀ i : ℕ, HasGaussianLaw (fun ω : ℕ → ℝ => a i * ω i) gaussNat := fun i => by
    have h0 : HasGaussianLaw (fun ω : ℕ → ℝ => ω i) gaussNat := by
      refine ⟨?_⟩
      have : gaussNat.map (fun ω : ℕ → ℝ => ω i) = gaussianReal 0 1 :=
        (measurePreserving_eval_infinitePi (fun _ : ℕ => gaussianReal 0 1) i).map_eq
      rw [this]; infer_instance
    exact h0.fun_smul (a i)
  have hs : HasGaussianLaw (fun ω : ℕ → ℝ => ∑ i : a.support, a i * ω i) gaussNat :=
    iIndepFun.hasGaussianLaw_fun_sum (X := fun (i : a.support) (ω : ℕ → ℝ) => a i * ω i) (fun i => hg i)
      (hi.precomp (g := fun i : a.support => (i : ℕ)) Subtype.val_injective)
  have e1 : (fun ω : ℕ → ℝ => a.sum fun i r => r * ω i) = fun ω => ∑ i : a.support, a i * ω i := by
    funext ω
    exact (Finset.sum_coe_sort a.support fun i => a i * ω i).symm
  rw [← e1] at hs
  have h2 := hs.map_eq_gaussianReal
  refine ⟨(∫ (x : ℕ → ℝ), a.sum fun i r => r * x i ∂gaussNat) + c, Var[fun ω => a.sum fun i r => r * ω i; gaussNat].toNNReal, ?_⟩
  rw [← gaussianReal_map_add_const, ← h2, Measure.map_map (measurable_add_const c) hm]
  rfl

/-- **C140, hypotheses.** For every filter object and every plan of steps (with symmetric positive semidefinite
covariances) there is a system as the filter believes whose initial state and noises are jointly normal. -/
theorem C140_exists (s : KF n m l) (hP : s.P.PosSemidef) (ps : List (Plan n m))
    (hp : ∀ p ∈ ps, p.2.1.PosSemidef ∧ p.2.2.2.1.PosSemidef) :
    ∃ (X : (ℕ → ℝ) → Vec n) (es : List (Leg (ℕ → ℝ) n m)), es.map (fun e => (e.F, e.Q, e.H, e.R, e.v.isSome)) = ps ∧
      Believed gaussNat s X es ∧ JointlyNormal gaussNat X es := by
  refine ⟨fun ω => root s.P *ᵥ block n 0 ω + s.x, normalLegs 1 ps, normalLegs_plan 1 ps, ⟨?_, ?_, ?_, ?_, normalLegs_pairwise 1 ps⟩, ?_⟩
  · simpa only [add_sub_cancel_right] using block_mul (b := 0) (root_ok hP)
  · intro e he
    have h := normalLegs_unc (a := 0) (b := 1) (by omega) ps (root s.P) e he
    exact ⟨(h.1.symm.add (Unc.const h.1.right s.x)).symm, fun v hv => ((h.2 v hv).symm.add (Unc.const (h.2 v hv).right s.x)).symm⟩
  · intro e he
    obtain ⟨c, -, h1, h2, h3⟩ := normalLegs_mem he
    obtain ⟨h4, h5⟩ := hp _ h1
    refine ⟨by rw [h2]; exact block_mul (root_ok h4), fun v hv => ?_⟩
    rw [h3 v hv, h2]
    exact ⟨block_mul (root_ok h5), block_mul_unc (by omega) _ _⟩
  · intro e he
    obtain ⟨c, -, h1, -, -⟩ := normalLegs_mem he
    exact (hp _ h1).2
  · intro Y hY
    refine SeqCombo.normal ?_
    induction hY with
    | const c => exact ⟨0, c, by simp⟩
    | start i => exact (SeqCombo.block _ 0 i).add ⟨0, s.x i, by simp⟩
    | moved e he i =>
      obtain ⟨c, -, -, h2, -⟩ := normalLegs_mem he
      rw [h2]; exact SeqCombo.block _ c i
    | measured e he v hv i =>
      obtain ⟨c, -, -, -, h3⟩ := normalLegs_mem he
      rw [h3 v hv]; exact SeqCombo.block _ (c + 1) i
    | smul c Y _ ih => exact ih.smul c
    | add Y Y' _ _ ih ih' => exact ih.add ih'

/-- A constant measured twice without process noise, with the pseudo-inverse: all hypotheses of C140 are met. -/
example : ∃ (s : KF 1 1 1) (X : (ℕ → ℝ) → Vec 1) (es : List (Leg (ℕ → ℝ) 1 1)) (f : Mat 1 1 → Option (Mat 1 1))
    (r : (ℕ → ℝ) → List (BatchOut 1) × KF 1 1 1) (q : (ℕ → ℝ) → List (RtsOut 1)), es.length = 2 ∧
    (s.alphaSq = 1 ∧ s.B = none) ∧ GoodInv s.inv ∧ GoodInv f ∧ Believed gaussNat s X es ∧ JointlyNormal gaussNat X es ∧
    (∀ ω, s.batchFilter (seen X es ω) (legArgs es) = .ok (r ω)) ∧
    ∀ ω, (r ω).2.rtsSmoother ((r ω).1.map (·.mean)) ((r ω).1.map (·.cov))
        (some (es.map (·.F))) (some (es.map (·.Q))) f = .ok (q ω) := by
  obtain ⟨f, hf⟩ := isPinv_exists (m := 1)
  obtain ⟨X, es, h1, h2, h3⟩ := C140_exists { walkKF with inv := f } (by simpa [walkKF, KF.fresh] using PosSemidef.one)
    [(1, 0, 1, 1, true), (1, 0, 1, 1, true)] (by simp [PosSemidef.one, PosSemidef.zero])
  obtain ⟨r, q, h4, h5⟩ := C11_pinv_total (l := 1) { walkKF with inv := f } rfl hf f hf X es
  exact ⟨{ walkKF with inv := f }, X, es, f, r, q, by simpa using congrArg List.length h1, ⟨rfl, rfl⟩, Or.inr hf, Or.inr hf, h2, h3, h4, h5⟩

end Filterpy
