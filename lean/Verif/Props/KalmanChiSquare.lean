import Verif.Props.KalmanSmoothLaw
import Verif.Props.KalmanConsistency
import Verif.Props.Plots

/-!
# C141: with normal noise the consistency statistics are chi-square, and independent from call to call
-/

namespace Filterpy

open MeasureTheory ProbabilityTheory Matrix Spec KF Stats

variable {Ω : Type*} [MeasurableSpace Ω] {μ : Measure Ω} [IsProbabilityMeasure μ]
variable {n m l k : ℕ}

/-! ## Specification -/

/-- The chi-square distribution with `k` degrees of freedom: the distribution of the sum of the squares of `k` independent
standard normal numbers. -/
noncomputable def Spec.chiSquare (k : ℕ) : Measure ℝ :=
  (Measure.pi fun _ : Fin k => gaussianReal 0 1).map fun g => ∑ i, g i ^ 2

/-- The linear combinations (with a constant) of the components of the initial state and of the noises of the events. -/
inductive Spec.Mix {Ω : Type*} (X : Ω → Vec n) (evs : List (Event Ω n m l)) : (Ω → ℝ) → Prop
  | const (c : ℝ) : Mix X evs fun _ => c
  | start (i : Fin n) : Mix X evs fun ω => X ω i
  | noise (e : Event Ω n m l) (he : e ∈ evs) (i : Fin e.dim) : Mix X evs fun ω => e.noise ω i
  | smul (c : ℝ) (Y : Ω → ℝ) (h : Mix X evs Y) : Mix X evs fun ω => c * Y ω
  | add (Y Y' : Ω → ℝ) (h : Mix X evs Y) (h' : Mix X evs Y') : Mix X evs fun ω => Y ω + Y' ω

/-- The initial state and the noises of all events are jointly normal: every linear combination of them is normal. -/
def Spec.NormalWorld (μ : Measure Ω) (X : Ω → Vec n) (evs : List (Event Ω n m l)) : Prop :=
  ∀ Y, Mix X evs Y → Measurable Y ∧ ∃ a s2, μ.map Y = gaussianReal a s2

/-- Is this event a measurement? -/
def Spec.Event.isMeasure {Ω : Type*} : Event Ω n m l → Prop
  | .measure .. => True
  | _ => False

/-- The indices of the measurements in a history. -/
abbrev Spec.MeasureAt {Ω : Type*} (evs : List (Event Ω n m l)) := {j : Fin evs.length // (evs[j]).isMeasure}

noncomputable instance {Ω : Type*} (evs : List (Event Ω n m l)) : Fintype (MeasureAt evs) := open Classical in inferInstance

/-! ## Linear combinations -/

section mixes
omit [MeasurableSpace Ω]

theorem Spec.Mix.sum {ι : Type*} {X : Ω → Vec n} {evs : List (Event Ω n m l)} (s : Finset ι) {f : ι → Ω → ℝ}
    (h : ∀ i ∈ s, Mix X evs (f i)) : Mix X evs fun ω => ∑ i ∈ s, f i ω := by
  classical
  induction s using Finset.induction_on with
  | empty => simpa using Mix.const 0
  | insert a s ha ih =>
    simp only [Finset.sum_insert ha]
    exact .add _ _ (h a (by simp)) (ih fun i hi => h i (by simp [hi]))

/-- All the components are linear combinations. -/
def Mixes (X : Ω → Vec n) (evs : List (Event Ω n m l)) {k : ℕ} (Y : Ω → Vec k) : Prop := ∀ i, Mix X evs fun ω => Y ω i

theorem Mixes.add {X : Ω → Vec n} {evs : List (Event Ω n m l)} {Y Y' : Ω → Vec k} (h : Mixes X evs Y) (h' : Mixes X evs Y') :
    Mixes X evs fun ω => Y ω + Y' ω := fun i => .add _ _ (h i) (h' i)

theorem Mixes.mulVec {X : Ω → Vec n} {evs : List (Event Ω n m l)} {j : ℕ} {Y : Ω → Vec j} (A : Mat k j) (h : Mixes X evs Y) :
    Mixes X evs fun ω => A *ᵥ Y ω := fun i =>
  Mix.sum Finset.univ fun q _ => .smul (A i q) _ (h q)

/-- The error after any part of the history is a linear combination of the initial error and the noises. -/
theorem err_mixes {X0 : Ω → Vec n} {evs0 : List (Event Ω n m l)} (evs : List (Event Ω n m l)) (hs : ∀ e ∈ evs, e ∈ evs0)
    {kf0 : KF n m l} {kf : Ω → KF n m l} {X : Ω → Vec n} {P : Mat n n} (hE : Ens kf P kf0)
    (hX : Mixes X0 evs0 fun ω => X ω - (kf ω).x)
    {fin : Ω → KF n m l × Vec n} (hr : ∀ ω, worldRun ω (kf ω, X ω) evs = .ok (fin ω)) :
    Mixes X0 evs0 fun ω => (fin ω).2 - (fin ω).1.x := by
  induction evs generalizing kf X P with
  | nil =>
    have : fin = fun ω => (kf ω, X ω) := by
      funext ω; have := hr ω; simp only [worldRun, Except.ok.injEq] at this; exact this.symm
    subst this
    exact hX
  | cons e evs ih =>
    have hstep : ∀ ω, ∃ c, worldStep ω (kf ω, X ω) e = .ok c ∧ worldRun ω c evs = .ok (fin ω) := by
      intro ω
      have h := hr ω
      simp only [worldRun] at h
      cases hs : worldStep ω (kf ω, X ω) e with
      | error err => rw [hs] at h; cases h
      | ok c => rw [hs] at h; exact ⟨c, rfl, h⟩
    choose c hc hcr using hstep
    obtain ⟨A, B, hE', herr⟩ := ens_step hE e hc
    refine ih (fun e he => hs e (by simp [he])) hE' ?_ hcr
    rw [funext herr]
    exact (hX.mulVec A).add (Mixes.mulVec B fun i => .noise e (hs e (by simp)) i)

theorem functional_mix {X : Ω → Vec n} {evs : List (Event Ω n m l)} {ι : Type*} [Fintype ι] {D : ι → Ω → Vec k}
    (hD : ∀ i, Mixes X evs (D i)) (L : (ι → Vec k) →L[ℝ] ℝ) : Mix X evs fun ω => L fun i => D i ω := by
  classical
  have e : (fun ω => L fun i => D i ω) = fun ω => ∑ i, ∑ j, L (Pi.single i (Pi.single j 1)) * D i ω j := by
    funext ω
    have h1 : (fun i => D i ω) = ∑ i, ∑ j, D i ω j • (Pi.single i (Pi.single j 1) : ι → Vec k) := by
      ext a b
      simp [Finset.sum_apply, Pi.single_apply, apply_ite, ite_apply, Finset.sum_ite_eq]
    rw [h1, map_sum]
    simp only [map_sum, map_smul, smul_eq_mul, mul_comm]
  rw [e]
  exact Mix.sum _ fun i _ => Mix.sum _ fun j _ => .smul _ _ (hD i j)

end mixes

omit [IsProbabilityMeasure μ] in
theorem normal_family {X : Ω → Vec n} {evs : List (Event Ω n m l)} (hN : NormalWorld μ X evs) {ι : Type*} [Fintype ι]
    {D : ι → Ω → Vec k} (hD : ∀ i, Mixes X evs (D i)) : HasGaussianLaw (fun ω i => D i ω) μ := by
  have hm : Measurable fun ω (i : ι) => D i ω :=
    measurable_pi_lambda _ fun i => measurable_pi_lambda _ fun j => (hN _ (hD i j)).1
  refine ⟨isGaussian_of_isGaussian_map fun L => ?_⟩
  rw [Measure.map_map L.continuous.measurable hm]
  obtain ⟨-, a, s2, h⟩ := hN _ (functional_mix hD L)
  have : μ.map (L ∘ fun ω i => D i ω) = gaussianReal a s2 := h
  rw [this]
  infer_instance

omit [IsProbabilityMeasure μ] in
theorem normal_one {X : Ω → Vec n} {evs : List (Event Ω n m l)} (hN : NormalWorld μ X evs)
    {D : Ω → Vec k} (hD : Mixes X evs D) : HasGaussianLaw D μ :=
  (normal_family hN (ι := Unit) (D := fun _ => D) fun _ => hD).map (ContinuousLinearMap.proj (R := ℝ) (φ := fun _ : Unit => Vec k) ())

/-! ## The law of a normalised square -/

theorem quad_measurable (A : Mat k k) : Measurable fun v : Vec k => v ⬝ᵥ (A *ᵥ v) := by
  apply Continuous.measurable
  unfold dotProduct mulVec dotProduct
  fun_prop

theorem chi_of_normal {P : Mat k k} (hP : P.PosDef) : (normal 0 P).map (fun v => v ⬝ᵥ (P⁻¹ *ᵥ v)) = chiSquare k := by
  obtain ⟨A, hA, hd⟩ := exists_sqrt hP
  have h1 := normal_affine (0 : Vec k) (P := 1) PosSemidef.one A 0
  rw [mulVec_zero, add_zero, Matrix.mul_one, hA] at h1
  rw [← h1, Measure.map_map (quad_measurable _) (affine_measurable _ _), normal_std, chiSquare]
  congr 1
  funext g
  have hu : IsUnit A.det := isUnit_iff_ne_zero.2 hd
  have e : Aᵀ * (P⁻¹ * A) = 1 := by
    rw [← hA, Matrix.mul_inv_rev, Matrix.mul_assoc, nonsing_inv_mul _ hu, Matrix.mul_one,
      mul_nonsing_inv _ (by rwa [det_transpose])]
  have e2 : (A *ᵥ g) ⬝ᵥ (P⁻¹ *ᵥ (A *ᵥ g)) = g ⬝ᵥ ((Aᵀ * (P⁻¹ * A)) *ᵥ g) := by
    rw [← mulVec_mulVec, ← mulVec_mulVec, dotProduct_mulVec g, vecMul_transpose]
  rw [Function.comp, add_zero, e2, e, one_mulVec]
  exact Finset.sum_congr rfl fun i _ => (sq _).symm

theorem chi_of_law {D : Ω → Vec k} (hG : HasGaussianLaw D μ) {P : Mat k k} (hD : NoiseOK D μ P) (hP : P.PosDef) :
    μ.map (fun ω => D ω ⬝ᵥ (P⁻¹ *ᵥ D ω)) = chiSquare k := by
  rw [← chi_of_normal hP, ← law_normal hG hD hP.posSemidef, AEMeasurable.map_map_of_aemeasurable (quad_measurable _).aemeasurable hG.aemeasurable]
  rfl

/-! ## The residuals -/

/-- What a measurement leaves behind. -/
theorem residual_at {kf0 : KF n m l} (hinv : kf0.inv = npInv) {X0 : Ω → Vec n} {evs : List (Event Ω n m l)}
    (h : ToldTruth μ kf0 X0 evs) {st : ℕ → Ω → KF n m l × Vec n}
    (hst : ∀ j < evs.length, ∀ ω, worldRun ω (kf0, X0 ω) (evs.take (j + 1)) = .ok (st j ω)) (j : MeasureAt evs) :
    ∃ S : Mat m m, S.PosDef ∧ Mixes X0 evs (fun ω => (st j.1 ω).1.y) ∧ NoiseOK (fun ω => (st j.1 ω).1.y) μ S ∧
      ∀ ω, (st j.1 ω).1.SI = S⁻¹ ∧ (st j.1 ω).1.mahal = none := by
  obtain ⟨ω0⟩ := nonempty_of_isProbabilityMeasure μ
  obtain ⟨⟨j, hj⟩, hm⟩ := j
  have ht := List.take_succ_eq_append_getElem hj
  have hr := hst j hj
  have h' := ToldTruth.take h (j + 1)
  have hmem : evs[j] ∈ evs := List.getElem_mem hj
  simp only [Fin.getElem_fin] at hm
  dsimp only
  rw [ht] at hr h'
  generalize evs[j] = e at hm hr h' hmem
  cases e with
  | move => exact hm.elim
  | miss => exact hm.elim
  | measure R H v =>
    choose c hc hm1 using fun ω => worldRun_append ω _ _ _ (hr ω)
    have hm1 := fun ω => worldRun_one (hm1 ω)
    obtain ⟨p1, -, p12⟩ := List.pairwise_append.1 h'.pair
    obtain ⟨P, hE, hN, hU⟩ := ens_run _ (ens_fresh h'.alpha) h'.init (fun e he => h'.noise e (by simp [he]))
      (fun e he => h'.uncorr e (by simp [he])) p1 hc
    have hv : NoiseOK v μ (R.resolve kf0.R) := h'.noise (.measure R H v) (by simp)
    have hcv : covMat (fun ω => (c ω).2 - (c ω).1.x) v μ = 0 :=
      hU _ _ hv.sq (h'.uncorr (.measure R H v) (by simp)) fun e he => p12 e he (.measure R H v) (by simp)
    have hq := residual_step hinv hE R H hm1
    obtain ⟨-, hy, -⟩ := innov_step hinv hE hN R H hv hcv hm1
    have hS : ∀ ω, (st j ω).1.S = (st j ω0).1.S := fun ω => (hq ω).2.1.trans (hq ω0).2.1.symm
    refine ⟨(st j ω0).1.S, ?_, ?_, hy ω0, fun ω => ⟨by rw [(hq ω).2.2.2.1, hS], (hq ω).2.2.2.2⟩⟩
    · refine PSD.posDef_of_det ?_ (hq ω0).2.2.1
      rw [← (hy ω0).cov]
      exact covMat_psd (hy ω0).sq
    · rw [show (fun ω => (st j ω).1.y) = _ from funext fun ω => (hq ω).1]
      have hX : Mixes X0 evs fun ω => X0 ω - kf0.x := by
        simp only [sub_eq_add_neg]
        exact Mixes.add (fun i => .start i) fun i => .const _
      have := err_mixes (evs.take j) (fun e he => List.mem_of_mem_take he) (ens_fresh h.alpha) hX hc
      exact (this.mulVec _).add (Mixes.mulVec _ fun i => .noise (.measure R H v) hmem i)

theorem residual_pair {kf0 : KF n m l} (hinv : kf0.inv = npInv) {X0 : Ω → Vec n} {evs : List (Event Ω n m l)}
    (h : ToldTruth μ kf0 X0 evs) {st : ℕ → Ω → KF n m l × Vec n}
    (hst : ∀ j < evs.length, ∀ ω, worldRun ω (kf0, X0 ω) (evs.take (j + 1)) = .ok (st j ω)) (i j : MeasureAt evs)
    (hij : (i.1 : ℕ) < j.1) : covMat (fun ω => (st i.1 ω).1.y) (fun ω => (st j.1 ω).1.y) μ = 0 := by
  obtain ⟨⟨i, hi⟩, hmi⟩ := i
  obtain ⟨⟨j, hj⟩, hmj⟩ := j
  simp only [Fin.getElem_fin] at hmi hmj hij
  dsimp only
  have ht : evs.take (j + 1) = evs.take (i + 1) ++ ((evs.take j).drop (i + 1) ++ [evs[j]]) := by
    rw [List.take_succ_eq_append_getElem hj, ← List.append_assoc]
    congr 1
    conv_lhs => rw [← List.take_append_drop (i + 1) (evs.take j), List.take_take, min_eq_left (by omega)]
  have hti := List.take_succ_eq_append_getElem hi
  have h' := ToldTruth.take h (j + 1)
  have hri := hst i hi
  have hrj := hst j hj
  rw [ht] at hrj h'
  have hrj : ∀ ω, worldRun ω (st i ω) ((evs.take j).drop (i + 1) ++ [evs[j]]) = .ok (st j ω) := fun ω => by
    obtain ⟨c, h1, h2⟩ := worldRun_append ω _ _ _ (hrj ω)
    rw [hri ω] at h1
    injection h1 with h1
    rwa [h1]
  rw [hti] at hri h'
  generalize evs[j] = ej at hmj hrj h'
  generalize evs[i] = ei at hmi hri h'
  cases ei with
  | move => exact hmi.elim
  | miss => exact hmi.elim
  | measure R₁ H₁ v₁ =>
  cases ej with
  | move => exact hmj.elim
  | miss => exact hmj.elim
  | measure R₂ H₂ v₂ =>
    rw [List.append_assoc, List.singleton_append] at h'
    exact (C78_innovations_white kf0 X0 (evs.take i) _ R₁ R₂ H₁ H₂ v₁ v₂ h'.alpha hinv h'.init h'.noise h'.uncorr h'.pair
      (st i) (st j) hri hrj).2.2.1

/-! ## The theorems -/

/-- **C141, `NEES`.**  If the initial state and the noises are jointly normal and the filter was told the truth, every number
`NEES` returns has the chi-square distribution with as many degrees of freedom as the state has components. -/
theorem C141_nees (kf0 : KF n m l) (X0 : Ω → Vec n) (evs : List (Event Ω n m l)) (h : ToldTruth μ kf0 X0 evs)
    (hN : NormalWorld μ X0 evs) (st : ℕ → Ω → KF n m l × Vec n)
    (hst : ∀ j < evs.length, ∀ ω, worldRun ω (kf0, X0 ω) (evs.take (j + 1)) = .ok (st j ω))
    (hdet : ∀ j < evs.length, ∀ ω, (st j ω).1.P.det ≠ 0) :
    ∃ v : ℕ → Ω → ℝ,
      (∀ ω, nees ((List.range evs.length).map fun j => (st j ω).2) ((List.range evs.length).map fun j => (st j ω).1.x)
        ((List.range evs.length).map fun j => (st j ω).1.P) = .ok ((List.range evs.length).map fun j => v j ω)) ∧
      ∀ j < evs.length, μ.map (v j) = chiSquare n := by
  obtain ⟨ω0⟩ := nonempty_of_isProbabilityMeasure μ
  have hX : Mixes X0 evs fun ω => X0 ω - kf0.x := by
    simp only [sub_eq_add_neg]
    exact Mixes.add (fun i => .start i) fun i => .const _
  have key : ∀ j < evs.length, ∃ P', P'.PosDef ∧ (∀ ω, (st j ω).1.P = P') ∧
      NoiseOK (fun ω => (st j ω).2 - (st j ω).1.x) μ P' := fun j hj => by
    have h' := ToldTruth.take h (j + 1)
    obtain ⟨P', hE, hN, -⟩ := ens_run _ (ens_fresh h'.alpha) h'.init h'.noise h'.uncorr h'.pair (hst j hj)
    have hd := hdet j hj ω0
    rw [hE.P ω0] at hd
    exact ⟨P', PSD.posDef_of_det (hN.cov ▸ covMat_psd hN.sq) hd, hE.P, hN⟩
  refine ⟨fun j ω => ((st j ω).2 - (st j ω).1.x) ⬝ᵥ ((st j ω).1.P⁻¹ *ᵥ ((st j ω).2 - (st j ω).1.x)), fun ω => ?_, fun j hj => ?_⟩
  · rw [nees_of _ _ _ (by simp)]
    · congr 1
      apply List.ext_getElem
      · simp
      · intro i h1 h2
        simp
    · intro p hp
      obtain ⟨j, hj, rfl⟩ := List.mem_map.1 hp
      obtain ⟨P', h1, h2, -⟩ := key j (List.mem_range.1 hj)
      rw [h2]; exact h1
  · obtain ⟨P', h1, h2, h3⟩ := key j hj
    simp only [h2]
    exact chi_of_law (normal_one hN (err_mixes _ (fun e he => List.mem_of_mem_take he) (ens_fresh h.alpha) hX (hst j hj))) h3 h1

/-- **C141, `mahalanobis`.**  If the initial state and the noises are jointly normal and the filter was told the truth, the
squares of the `mahalanobis` values read after the measurements of any history are independent, and each has the chi-square
distribution with as many degrees of freedom as a measurement has components. -/
theorem C141_mahalanobis (kf0 : KF n m l) (hinv : kf0.inv = npInv) (X0 : Ω → Vec n) (evs : List (Event Ω n m l))
    (h : ToldTruth μ kf0 X0 evs) (hN : NormalWorld μ X0 evs) (st : ℕ → Ω → KF n m l × Vec n)
    (hst : ∀ j < evs.length, ∀ ω, worldRun ω (kf0, X0 ω) (evs.take (j + 1)) = .ok (st j ω)) :
    ∃ d : MeasureAt evs → Ω → ℝ, (∀ j ω, 0 ≤ d j ω ∧ ∃ s', (st j.1 ω).1.readMahal = .ok (d j ω, s')) ∧
      μ.map (fun ω j => d j ω ^ 2) = Measure.pi fun _ => chiSquare m := by
  choose S hPD hmix hy hSI using residual_at hinv h hst
  have hq : ∀ j ω, 0 ≤ (st (j : MeasureAt evs).1 ω).1.y ⬝ᵥ ((S j)⁻¹ *ᵥ (st j.1 ω).1.y) := fun j ω => PSD.quad (hPD j).inv.posSemidef _
  refine ⟨fun j ω => Real.sqrt ((st j.1 ω).1.y ⬝ᵥ ((S j)⁻¹ *ᵥ (st j.1 ω).1.y)), fun j ω => ⟨Real.sqrt_nonneg _, ?_⟩, ?_⟩
  · refine ⟨{ (st j.1 ω).1 with mahal := some (Real.sqrt ((st j.1 ω).1.y ⬝ᵥ ((S j)⁻¹ *ᵥ (st j.1 ω).1.y))) }, ?_⟩
    unfold KF.readMahal
    simp only [(hSI j ω).2, (hSI j ω).1]
    rw [if_neg (not_lt.2 (hq j ω))]
  · simp only [Real.sq_sqrt (hq _ _)]
    have hG := normal_family hN hmix
    have hind : iIndepFun (fun (j : MeasureAt evs) ω => (st j.1 ω).1.y) μ := by
      refine HasGaussianLaw.iIndepFun_of_covariance_eval (X := fun (j : MeasureAt evs) a ω => (st j.1 ω).1.y a) hG fun i j hij a b => ?_
      rcases Nat.lt_or_gt_of_ne (fun e => hij (Subtype.ext (Fin.ext e)) : (i.1 : ℕ) ≠ j.1) with hlt | hlt
      · exact congrFun (congrFun (residual_pair hinv h hst i j hlt) a) b
      · rw [covariance_comm]
        exact congrFun (congrFun (residual_pair hinv h hst j i hlt) b) a
    have hi2 := hind.comp (fun j (v : Vec m) => v ⬝ᵥ ((S j)⁻¹ *ᵥ v)) fun j => quad_measurable _
    have e := iIndepFun.map_fun_eq_pi_map (fun j => (quad_measurable _).comp_aemeasurable (normal_one hN (hmix j)).aemeasurable) hi2
    refine e.trans ?_
    congr 1
    funext j
    exact chi_of_law (normal_one hN (hmix j)) (hy j) (hPD j)

/-! ## Sums of chi-square numbers, and gates -/

instance (k : ℕ) : IsProbabilityMeasure (chiSquare k) :=
  Measure.isProbabilityMeasure_map (Measurable.aemeasurable (by fun_prop))

theorem chi_fintype (κ : Type*) [Fintype κ] :
    (Measure.pi fun _ : κ => gaussianReal 0 1).map (fun g => ∑ i, g i ^ 2) = chiSquare (Fintype.card κ) := by
  have h := Measure.pi_map_piCongrLeft (Fintype.equivFin κ) (β := fun _ => ℝ) (fun _ => gaussianReal 0 1)
  rw [chiSquare, ← h, Measure.map_map (by fun_prop) (by fun_prop)]
  congr 1
  funext g
  rw [Function.comp, ← (Fintype.equivFin κ).sum_comp]
  refine Finset.sum_congr rfl fun i _ => ?_
  rw [MeasurableEquiv.coe_piCongrLeft, Equiv.piCongrLeft_apply_apply]

theorem chi_sum (ι : Type*) [Fintype ι] (m : ℕ) :
    (Measure.pi fun _ : ι => chiSquare m).map (fun s => ∑ i, s i) = chiSquare (Fintype.card ι * m) := by
  have hp := Measure.pi_map_pi (μ := fun _ : ι => Measure.pi fun _ : Fin m => gaussianReal 0 1)
    (f := fun _ g => ∑ i, g i ^ 2) (fun _ => Measurable.aemeasurable (by fun_prop))
  have hc := Measure.infinitePi_map_curry (fun (_ : ι) (_ : Fin m) => gaussianReal 0 1)
  simp only [Measure.infinitePi_eq_pi] at hc
  have h1 : (Measure.pi fun _ : ι => chiSquare m) = _ := hp.symm
  rw [h1, ← hc, Measure.map_map (by fun_prop) (MeasurableEquiv.measurable _), Measure.map_map (by fun_prop) (by fun_prop),
    ← Fintype.card_fin m, ← Fintype.card_prod, ← chi_fintype, Fintype.card_fin]
  congr 1
  funext g
  simp only [Function.comp, Fintype.sum_prod_type]
  rfl

/-- **C141, totals.**  The sum of the squared `mahalanobis` values of a run has the chi-square distribution with as many degrees
of freedom as there are measured numbers in the run. -/
theorem C141_total (kf0 : KF n m l) (hinv : kf0.inv = npInv) (X0 : Ω → Vec n) (evs : List (Event Ω n m l))
    (h : ToldTruth μ kf0 X0 evs) (hN : NormalWorld μ X0 evs) (st : ℕ → Ω → KF n m l × Vec n)
    (hst : ∀ j < evs.length, ∀ ω, worldRun ω (kf0, X0 ω) (evs.take (j + 1)) = .ok (st j ω))
    (d : MeasureAt evs → Ω → ℝ) (hd : ∀ j ω, ∃ s', (st j.1 ω).1.readMahal = .ok (d j ω, s')) :
    μ.map (fun ω => ∑ j, d j ω ^ 2) = chiSquare (Fintype.card (MeasureAt evs) * m) := by
  obtain ⟨d', h1, h2⟩ := C141_mahalanobis kf0 hinv X0 evs h hN st hst
  have e : d = d' := by
    funext j ω
    obtain ⟨s1, e1⟩ := hd j ω
    obtain ⟨-, s2, e2⟩ := h1 j ω
    rw [e1] at e2
    injection e2 with e2
    exact congrArg Prod.fst e2
  subst e
  rw [← chi_sum, ← h2, AEMeasurable.map_map_of_aemeasurable (Measurable.aemeasurable (by fun_prop))]
  · rfl
  · refine AEMeasurable.of_map_ne_zero ?_
    rw [h2]
    exact NeZero.ne _

/-- **C141, gates.**  The probability that a gate at distance `t` lets every measurement of a run through is the probability that
one chi-square number is at most `t²`, to the power of the number of measurements. -/
theorem C141_gate (kf0 : KF n m l) (hinv : kf0.inv = npInv) (X0 : Ω → Vec n) (evs : List (Event Ω n m l))
    (h : ToldTruth μ kf0 X0 evs) (hN : NormalWorld μ X0 evs) (st : ℕ → Ω → KF n m l × Vec n)
    (hst : ∀ j < evs.length, ∀ ω, worldRun ω (kf0, X0 ω) (evs.take (j + 1)) = .ok (st j ω))
    (d : MeasureAt evs → Ω → ℝ) (hd : ∀ j ω, ∃ s', (st j.1 ω).1.readMahal = .ok (d j ω, s')) (t : ℝ) (ht : 0 ≤ t) :
    μ.real {ω | ∀ j, d j ω ≤ t} = (chiSquare m).real {s | s ≤ t ^ 2} ^ Fintype.card (MeasureAt evs) := by
  obtain ⟨d', h1, h2⟩ := C141_mahalanobis kf0 hinv X0 evs h hN st hst
  have e : d = d' := by
    funext j ω
    obtain ⟨s1, e1⟩ := hd j ω
    obtain ⟨-, s2, e2⟩ := h1 j ω
    rw [e1] at e2
    injection e2 with e2
    exact congrArg Prod.fst e2
  subst e
  have hm : AEMeasurable (fun ω j => d j ω ^ 2) μ := AEMeasurable.of_map_ne_zero (by rw [h2]; exact NeZero.ne _)
  have hset : {ω | ∀ j, d j ω ≤ t} = (fun ω j => d j ω ^ 2) ⁻¹' Set.univ.pi fun _ => {s | s ≤ t ^ 2} := by
    ext ω
    simp only [Set.mem_ofPred_eq, Set.mem_preimage, Set.mem_pi, Set.mem_univ, true_imp_iff]
    exact forall_congr' fun j => (pow_le_pow_iff_left₀ (h1 j ω).1 ht two_ne_zero).symm
  have hms : MeasurableSet {s : ℝ | s ≤ t ^ 2} := measurableSet_Iic
  rw [hset, measureReal_def, ← Measure.map_apply_of_aemeasurable hm (MeasurableSet.univ_pi fun _ => hms), h2, Measure.pi_pi,
    Finset.prod_const, ENNReal.toReal_pow, measureReal_def, Finset.card_univ]

/-- **C141, gates in the plane.**  For two measured numbers the chance of passing one gate is `1 - exp (-t²/2)`. -/
theorem C141_gate_plane (t : ℝ) (ht : 0 ≤ t) : (chiSquare 2).real {s | s ≤ t ^ 2} = 1 - Real.exp (-t ^ 2 / 2) := by
  have hms : MeasurableSet {s : ℝ | s ≤ t ^ 2} := measurableSet_Iic
  rw [← disk_prob t ht, chiSquare, measureReal_def, measureReal_def, Measure.map_apply (by fun_prop) hms]
  have h := (measurePreserving_finTwoArrow (gaussianReal 0 1)).map_eq
  rw [twoNormals, ← h, MeasurableEquiv.map_apply]
  congr 2
  ext g
  simp [Fin.sum_univ_two, MeasurableEquiv.finTwoArrow]

/-! ## Such worlds exist -/

/-- Covariances for which a run goes through: process noise positive semidefinite, measurement noise positive definite. -/
def Spec.Event.proper {Ω : Type*} (Q : Mat n n) (R : Mat m m) : Event Ω n m l → Prop
  | .move _ _ _ Q' _ => (Q'.resolve Q).PosSemidef
  | .measure R' _ _ => (R'.resolve R).PosDef
  | .miss => True

/-- The arguments of the call, without the noise. -/
def Spec.Event.args {Ω : Type*} : Event Ω n m l → Event Unit n m l
  | .move u B F Q _ => .move u B F Q 0
  | .measure R H _ => .measure R H 0
  | .miss => .miss

/-- The event with normal noise from block `b`. -/
noncomputable def drawnEvent (Q : Mat n n) (R : Mat m m) (b : ℕ) : Event Unit n m l → Event (ℕ → ℝ) n m l
  | .move u B F Q' _ => .move u B F Q' fun ω => root (Q'.resolve Q) *ᵥ block n b ω
  | .measure R' H _ => .measure R' H fun ω => root (R'.resolve R) *ᵥ block m b ω
  | .miss => .miss

noncomputable def drawAll (Q : Mat n n) (R : Mat m m) : ℕ → List (Event Unit n m l) → List (Event (ℕ → ℝ) n m l)
  | _, [] => []
  | b, e :: es => drawnEvent Q R b e :: drawAll Q R (b + 1) es

theorem drawAll_args (Q : Mat n n) (R : Mat m m) (b : ℕ) (es : List (Event Unit n m l)) :
    (drawAll Q R b es).map Event.args = es.map Event.args := by
  induction es generalizing b with
  | nil => rfl
  | cons e es ih =>
    simp only [drawAll, List.map_cons, ih]
    cases e <;> rfl

theorem drawAll_mem {Q : Mat n n} {R : Mat m m} {b : ℕ} {es : List (Event Unit n m l)} {e : Event (ℕ → ℝ) n m l}
    (h : e ∈ drawAll Q R b es) : ∃ c ≥ b, ∃ e0 ∈ es, e = drawnEvent Q R c e0 := by
  induction es generalizing b with
  | nil => simp [drawAll] at h
  | cons p es ih =>
    rcases List.mem_cons.1 h with rfl | h
    · exact ⟨b, le_rfl, p, by simp, rfl⟩
    · obtain ⟨c, h1, e0, h2, h3⟩ := ih h
      exact ⟨c, by omega, e0, by simp [h2], h3⟩

theorem drawnEvent_form (Q : Mat n n) (R : Mat m m) (b : ℕ) (e0 : Event Unit n m l) :
    ∃ S : Mat (drawnEvent Q R b e0).dim (drawnEvent Q R b e0).dim,
      ((drawnEvent Q R b e0).noise = fun ω => S *ᵥ block (drawnEvent Q R b e0).dim b ω) ∧
      (e0.proper Q R → S * Sᵀ = (drawnEvent Q R b e0).noiseCov Q R) := by
  cases e0 with
  | move u B F Q' w => exact ⟨root (Q'.resolve Q), rfl, fun h => root_ok h⟩
  | measure R' H v => exact ⟨root (R'.resolve R), rfl, fun h => root_ok h.posSemidef⟩
  | miss => exact ⟨(0 : Mat 0 0), by funext ω; exact Subsingleton.elim (α := Vec 0) _ _, fun _ => Subsingleton.elim (α := Mat 0 0) _ _⟩

theorem drawAll_pairwise (Q : Mat n n) (R : Mat m m) (b : ℕ) (es : List (Event Unit n m l)) :
    (drawAll Q R b es).Pairwise fun a c => covMat a.noise c.noise gaussNat = 0 := by
  induction es generalizing b with
  | nil => exact .nil
  | cons p es ih =>
    refine List.pairwise_cons.2 ⟨fun e he => ?_, ih _⟩
    obtain ⟨c, h1, e0, -, rfl⟩ := drawAll_mem he
    obtain ⟨S, h2, -⟩ := drawnEvent_form Q R b p
    obtain ⟨S', h3, -⟩ := drawnEvent_form Q R c e0
    rw [h2, h3]
    exact (block_mul_unc (by omega) _ _).cov

omit [MeasurableSpace Ω] in
theorem world_total (evs : List (Event Ω n m l)) {kf0 : KF n m l} (hinv : kf0.inv = npInv) {kf : Ω → KF n m l} {X : Ω → Vec n}
    {P : Mat n n} (hE : Ens kf P kf0) (hP : P.PosSemidef) (hp : ∀ e ∈ evs, e.proper kf0.Q kf0.R) :
    ∃ fin : Ω → KF n m l × Vec n, ∀ ω, worldRun ω (kf ω, X ω) evs = .ok (fin ω) := by
  induction evs generalizing kf X P with
  | nil => exact ⟨_, fun ω => rfl⟩
  | cons e evs ih =>
    have hpe := hp e (by simp)
    have hs : ∀ ω, ∃ c, worldStep ω (kf ω, X ω) e = .ok c := fun ω => by
      cases e with
      | move u B F Q w =>
        have : ∃ s, (kf ω).predict (uArg u) B F Q = .ok s := by
          unfold KF.predict
          cases u <;> cases B.or (kf ω).B <;> exact ⟨_, rfl⟩
        obtain ⟨s, hs⟩ := this
        exact ⟨_, by simp only [worldStep, hs, bind, Except.bind]; rfl⟩
      | measure R H v =>
        obtain ⟨s, hs, -⟩ := update_semi (kf ω) ((H.getD (kf ω).H) *ᵥ X ω + v ω) R H ((hE.inv ω).trans hinv) (by rw [hE.P]; exact hP)
          (by rw [hE.R]; exact hpe)
        exact ⟨_, by simp only [worldStep, hs, bind, Except.bind]; rfl⟩
      | miss => exact ⟨_, rfl⟩
    choose c hc using hs
    obtain ⟨A, B, hE', -⟩ := ens_step hE e hc
    have hC : (e.noiseCov kf0.Q kf0.R).PosSemidef := by
      cases e with
      | move u B F Q w => exact hpe
      | measure R H v => exact PosDef.posSemidef hpe
      | miss => exact PosSemidef.zero
    obtain ⟨fin, hf⟩ := ih (X := fun ω => (c ω).2) hE' ((hP.mul_mul_conjTranspose_same A).add (hC.mul_mul_conjTranspose_same B)) fun e he => hp e (by simp [he])
    exact ⟨fin, fun ω => by rw [worldRun, hc]; exact hf ω⟩

/-- **C141, hypotheses.**  For every filter object and every list of calls with proper covariances there is a world that is as
the filter was told, with jointly normal noise, in which all the calls go through. -/
theorem C141_exists (kf0 : KF n m l) (ha : kf0.alphaSq = 1) (hinv : kf0.inv = npInv) (hP : kf0.P.PosSemidef)
    (plan : List (Event Unit n m l)) (hp : ∀ e ∈ plan, e.proper kf0.Q kf0.R) :
    ∃ (X0 : (ℕ → ℝ) → Vec n) (evs : List (Event (ℕ → ℝ) n m l)) (st : ℕ → (ℕ → ℝ) → KF n m l × Vec n),
      evs.map Event.args = plan.map Event.args ∧ ToldTruth gaussNat kf0 X0 evs ∧ NormalWorld gaussNat X0 evs ∧
      ∀ j < evs.length, ∀ ω, worldRun ω (kf0, X0 ω) (evs.take (j + 1)) = .ok (st j ω) := by
  have hpr : ∀ e ∈ drawAll kf0.Q kf0.R 1 plan, e.proper kf0.Q kf0.R := fun e he => by
    obtain ⟨c, -, e0, h2, rfl⟩ := drawAll_mem he
    have := hp e0 h2
    cases e0 <;> exact this
  choose st hst using fun j => world_total ((drawAll kf0.Q kf0.R 1 plan).take (j + 1)) hinv
    (X := fun ω => root kf0.P *ᵥ block n 0 ω + kf0.x) (ens_fresh ha) hP fun e he => hpr e (List.mem_of_mem_take he)
  refine ⟨fun ω => root kf0.P *ᵥ block n 0 ω + kf0.x, drawAll kf0.Q kf0.R 1 plan, st, drawAll_args _ _ _ _,
    ⟨ha, ?_, ?_, ?_, drawAll_pairwise _ _ _ _⟩, ?_, fun j _ => hst j⟩
  · simpa only [add_sub_cancel_right] using block_mul (b := 0) (root_ok hP)
  · intro e he
    obtain ⟨c, -, e0, h2, rfl⟩ := drawAll_mem he
    obtain ⟨S, h3, h4⟩ := drawnEvent_form kf0.Q kf0.R c e0
    rw [h3]
    exact block_mul (h4 (hp e0 h2))
  · intro e he
    obtain ⟨c, h1, e0, h2, rfl⟩ := drawAll_mem he
    obtain ⟨S, h3, -⟩ := drawnEvent_form kf0.Q kf0.R c e0
    simp only [add_sub_cancel_right]
    rw [h3]
    exact (block_mul_unc (by omega) _ _).cov
  · intro Y hY
    refine SeqCombo.normal ?_
    induction hY with
    | const c => exact ⟨0, c, by simp⟩
    | start i => exact (SeqCombo.block _ 0 i).add ⟨0, kf0.x i, by simp⟩
    | noise e he i =>
      obtain ⟨c, h1, e0, h2, rfl⟩ := drawAll_mem he
      obtain ⟨S, h3, -⟩ := drawnEvent_form kf0.Q kf0.R c e0
      rw [h3]; exact SeqCombo.block _ c i
    | smul c Y _ ih => exact ih.smul c
    | add Y Y' _ _ ih ih' => exact ih.add ih'

/-- A walk with a prediction, a measurement, a missed one and another measurement: two gates are passed with the square of the
probability of passing one. -/
example : ∃ (X0 : (ℕ → ℝ) → Vec 1) (evs : List (Event (ℕ → ℝ) 1 1 1)) (st : ℕ → (ℕ → ℝ) → KF 1 1 1 × Vec 1)
    (d : MeasureAt evs → (ℕ → ℝ) → ℝ), Fintype.card (MeasureAt evs) = 2 ∧
    (∀ j ω, ∃ s', (st j.1 ω).1.readMahal = .ok (d j ω, s')) ∧
    gaussNat.real {ω | ∀ j, d j ω ≤ 3} = (chiSquare 1).real {s | s ≤ 3 ^ 2} ^ 2 := by
  obtain ⟨X0, evs, st, h1, h2, h3, h4⟩ := C141_exists walkKF rfl rfl (by simpa [walkKF, KF.fresh] using PosSemidef.one)
    [.move none none none .none 0, .measure .none none 0, .miss, .measure .none none 0]
    (by simp [Event.proper, MatArg.resolve, walkKF, KF.fresh, PosSemidef.one, PosDef.one])
  have hc : Fintype.card (MeasureAt evs) = 2 := by
    obtain ⟨a, t1, rfl, ha, h1⟩ := List.map_eq_cons_iff.1 h1
    obtain ⟨b, t2, rfl, hb, h1⟩ := List.map_eq_cons_iff.1 h1
    obtain ⟨c, t3, rfl, hc, h1⟩ := List.map_eq_cons_iff.1 h1
    obtain ⟨e, t4, rfl, he, h1⟩ := List.map_eq_cons_iff.1 h1
    obtain rfl := List.map_eq_nil_iff.1 h1
    cases a <;> simp [Event.args] at ha
    cases b <;> simp [Event.args] at hb
    cases c <;> simp [Event.args] at hc
    cases e <;> simp [Event.args] at he
    classical
    rw [Fintype.card_subtype]
    refine (Finset.card_filter _ _).trans ((Fin.sum_univ_four _).trans ?_)
    exact congrArg₂ (· + ·) (congrArg₂ (· + ·) (congrArg₂ (· + ·) (if_neg fun h => h) (if_pos trivial)) (if_neg fun h => h))
      (if_pos trivial)
  obtain ⟨d, h5, -⟩ := C141_mahalanobis walkKF rfl X0 evs h2 h3 st h4
  refine ⟨X0, evs, st, d, hc, fun j ω => (h5 j ω).2, ?_⟩
  rw [C141_gate walkKF rfl X0 evs h2 h3 st h4 d (fun j ω => (h5 j ω).2) 3 (by norm_num), hc]

end Filterpy
