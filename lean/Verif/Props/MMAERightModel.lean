import Verif.Props.MMAEPosterior

/-!
# C108: a bank of filters rarely gives up the right model, and the right model explains the measurements best
-/

namespace Filterpy

open MeasureTheory ProbabilityTheory Matrix Spec KF

variable {n m l N : ℕ}

/-- The measurements taken in the first `k` calls. -/
def early (H0 : Option (Mat m n)) : (p : List (BankAct n m l)) → (k : ℕ) →
    (Fin (measurements (p.map (BankAct.forFilter H0))) → Vec m) →
    Fin (measurements ((p.take k).map (BankAct.forFilter H0))) → Vec m
  | _, 0, _ => Fin.elim0
  | [], _ + 1, _ => Fin.elim0
  | .move _ :: p, k + 1, d => early H0 p k d
  | .measure _ _ :: p, k + 1, d =>
      (Fin.cons (d (0 : Fin (measurements (p.map (BankAct.forFilter H0)) + 1))) (early H0 p k (Fin.tail d)) :
        Fin (measurements ((p.take k).map (BankAct.forFilter H0)) + 1) → Vec m)

theorem early_measurable (H0 : Option (Mat m n)) (p : List (BankAct n m l)) (k : ℕ) : Measurable (early H0 p k) := by
  induction p generalizing k with
  | nil => cases k <;> exact measurable_const
  | cons a p ih =>
    cases k with
    | zero => exact measurable_const
    | succ k =>
      cases a with
      | move u => exact ih k
      | measure R H =>
        have h1 : Measurable fun d : Fin (measurements (p.map (BankAct.forFilter H0)) + 1) → Vec m => (d 0, early H0 p k (Fin.tail d)) :=
          (measurable_pi_apply 0).prodMk ((ih k).comp (measurable_pi_iff.2 fun i => measurable_pi_apply i.succ))
        exact cons_measurable.comp h1

/-- The first `k` calls depend only on the measurements they are given. -/
theorem calls_take (H0 : Option (Mat m n)) (p : List (BankAct n m l)) (k : ℕ) (d : Fin (measurements (p.map (BankAct.forFilter H0))) → Vec m) :
    bankCalls H0 (p.take k) (early H0 p k d) = (bankCalls H0 p d).take k := by
  induction p generalizing k with
  | nil => cases k <;> rfl
  | cons a p ih =>
    cases k with
    | zero => rfl
    | succ k =>
      cases a with
      | move u => exact congrArg (MmaeOp.predict (bankInput u) :: ·) (ih k d)
      | measure R H =>
        exact congrArg (MmaeOp.update (some (d (0 : Fin (measurements (p.map (BankAct.forFilter H0)) + 1)))) R H :: ·) (ih k (Fin.tail d))

/-- The measurements of the first `k` calls are distributed as if the plan ended there. -/
theorem unfolds_early (kf : KF n m l) (H0 : Option (Mat m n)) (p : List (BankAct n m l)) (k : ℕ)
    (hp : ∀ a ∈ p.map (BankAct.forFilter H0), Sound kf a) (x : Vec n)
    {g : (Fin (measurements ((p.take k).map (BankAct.forFilter H0))) → Vec m) → ENNReal} (hg : Measurable g) :
    ∫⁻ q, g (early H0 p k q.2) ∂(unfolds kf (p.map (BankAct.forFilter H0)) x)
      = ∫⁻ q, g q.2 ∂(unfolds kf ((p.take k).map (BankAct.forFilter H0)) x) := by
  induction p generalizing k x with
  | nil =>
    have := (unfolds_ok kf [] (by simp)).2 x
    cases k
    · refine lintegral_congr fun q => congrArg g (funext fun i => i.elim0)
    · refine lintegral_congr fun q => congrArg g (funext fun i => i.elim0)
  | cons a p ih =>
    have hu := unfolds_ok kf _ hp
    cases k with
    | zero =>
      have h1 := hu.2 x
      have h2 := (unfolds_ok kf ([] : List (Act n m l)) (by simp)).2 x
      have e : ∀ d : Fin (measurements (((a :: p).take 0).map (BankAct.forFilter H0))) → Vec m, g d = g Fin.elim0 := fun d =>
        congrArg g (funext fun i => i.elim0)
      simp only [e]
      rw [lintegral_const, lintegral_const, h1.measure_univ]
      exact congrArg _ h2.measure_univ.symm
    | succ k =>
      have hp' : ∀ a ∈ p.map (BankAct.forFilter H0), Sound kf a := fun a ha => hp a (List.mem_cons_of_mem _ ha)
      have hpk : ∀ a ∈ (p.take k).map (BankAct.forFilter H0), Sound kf a := fun a ha => by
        rw [List.map_take] at ha
        exact hp' a (List.mem_of_mem_take ha)
      have hu' := unfolds_ok kf _ hp'
      have huk := unfolds_ok kf _ hpk
      have hgm : Measurable fun q : Vec n × (Fin (measurements ((a :: p).map (BankAct.forFilter H0))) → Vec m) => g (early H0 (a :: p) (k + 1) q.2) :=
        hg.comp ((early_measurable H0 (a :: p) (k + 1)).comp measurable_snd)
      cases a with
      | move u =>
        refine (Measure.lintegral_bind hu'.1.aemeasurable hgm.aemeasurable).trans ?_
        refine Eq.trans ?_ (Measure.lintegral_bind huk.1.aemeasurable (hg.comp measurable_snd).aemeasurable).symm
        exact lintegral_congr fun y => ih k hp' y hg
      | measure R H =>
        have := hu'.2 x
        have := huk.2 x
        have hc : ∀ {j : ℕ}, Measurable fun q : Vec m × Vec n × (Fin j → Vec m) => (q.2.1, (Fin.cons q.1 q.2.2 : Fin (j + 1) → Vec m)) :=
          fun {j} => (measurable_fst.comp measurable_snd).prodMk
            (cons_measurable.comp (measurable_fst.prodMk (measurable_snd.comp measurable_snd)))
        refine (lintegral_map hgm hc).trans (Eq.trans ?_ (lintegral_map (hg.comp measurable_snd) hc).symm)
        refine (lintegral_prod _ (hgm.comp hc).aemeasurable).trans
          (Eq.trans ?_ (lintegral_prod _ ((hg.comp measurable_snd).comp hc).aemeasurable).symm)
        refine lintegral_congr fun z => ?_
        exact ih k hp' x (g := fun d => g (Fin.cons z d : Fin (measurements ((p.take k).map (BankAct.forFilter H0)) + 1) → Vec m))
          (hg.comp (cons_measurable.comp (measurable_const.prodMk measurable_id)))

/-- The measurements of the first `j` calls are among those of the first `k`. -/
theorem early_factor (H0 : Option (Mat m n)) (p : List (BankAct n m l)) {j k : ℕ} (h : j ≤ k) :
    ∃ r : (Fin (measurements ((p.take k).map (BankAct.forFilter H0))) → Vec m) → (Fin (measurements ((p.take j).map (BankAct.forFilter H0))) → Vec m),
      Measurable r ∧ ∀ d, early H0 p j d = r (early H0 p k d) := by
  induction p generalizing j k with
  | nil => cases j <;> exact ⟨fun _ => Fin.elim0, measurable_const, fun _ => rfl⟩
  | cons a p ih =>
    cases j with
    | zero => exact ⟨fun _ => Fin.elim0, measurable_const, fun _ => rfl⟩
    | succ j =>
      obtain ⟨k, rfl⟩ : ∃ k', k = k' + 1 := ⟨k - 1, by omega⟩
      obtain ⟨r, h1, h2⟩ := ih (Nat.le_of_succ_le_succ h)
      cases a with
      | move u => exact ⟨r, h1, h2⟩
      | measure R H =>
        refine ⟨fun e : Fin (measurements ((p.take k).map (BankAct.forFilter H0)) + 1) → Vec m =>
          (Fin.cons (e 0) (r (Fin.tail e)) : Fin (measurements ((p.take j).map (BankAct.forFilter H0)) + 1) → Vec m), ?_, fun d => ?_⟩
        · have ht : Measurable fun e : Fin (measurements ((p.take k).map (BankAct.forFilter H0)) + 1) → Vec m => (e 0, r (Fin.tail e)) :=
            (measurable_pi_apply 0).prodMk (h1.comp (measurable_pi_iff.2 fun i => measurable_pi_apply i.succ))
          exact cons_measurable.comp ht
        · exact congrArg (fun e => (Fin.cons (d (0 : Fin (measurements (p.map (BankAct.forFilter H0)) + 1))) e :
            Fin (measurements ((p.take j).map (BankAct.forFilter H0)) + 1) → Vec m)) (h2 (Fin.tail d))

/-- The distribution of the measurements when filter `kf` describes the system correctly. -/
noncomputable def Spec.dataLaw (kf : KF n m l) (H0 : Option (Mat m n)) (p : List (BankAct n m l)) :
    Measure (Fin (measurements (p.map (BankAct.forFilter H0))) → Vec m) :=
  (world kf (p.map (BankAct.forFilter H0))).map Prod.snd

theorem dataLaw_early (kf : KF n m l) (H0 : Option (Mat m n)) (p : List (BankAct n m l)) (k : ℕ)
    (hp : ∀ a ∈ p.map (BankAct.forFilter H0), Sound kf a)
    {C : Set (Fin (measurements ((p.take k).map (BankAct.forFilter H0))) → Vec m)} (hC : MeasurableSet C) :
    dataLaw kf H0 p (early H0 p k ⁻¹' C) = dataLaw kf H0 (p.take k) C := by
  have hpk : ∀ a ∈ (p.take k).map (BankAct.forFilter H0), Sound kf a := fun a ha => by
    rw [List.map_take] at ha
    exact hp a (List.mem_of_mem_take ha)
  have hg : Measurable (C.indicator (1 : (Fin (measurements ((p.take k).map (BankAct.forFilter H0))) → Vec m) → ENNReal)) := measurable_one.indicator hC
  have hE := early_measurable H0 p k
  rw [dataLaw, dataLaw, Measure.map_apply measurable_snd (hE hC), Measure.map_apply measurable_snd hC,
    ← lintegral_indicator_one (measurable_snd (hE hC)), ← lintegral_indicator_one (measurable_snd hC), world, world]
  refine (Measure.lintegral_bind (unfolds_ok kf _ hp).1.aemeasurable (measurable_one.indicator (measurable_snd (hE hC))).aemeasurable).trans
    (Eq.trans ?_ (Measure.lintegral_bind (unfolds_ok kf _ hpk).1.aemeasurable (measurable_one.indicator (measurable_snd hC)).aemeasurable).symm)
  exact lintegral_congr fun x => unfolds_early kf H0 p k hp x hg

/-- If at every stage an event is no more probable under one model than under a mixture of others, then so is the event that it
happens at some stage. -/
theorem ever {s : Fin N → KF n m l} (H0 : Option (Mat m n)) (p : List (BankAct n m l))
    (hp : ∀ j, ∀ a ∈ p.map (BankAct.forFilter H0), Sound (s j) a) (hprob : ∀ j, IsProbabilityMeasure (dataLaw (s j) H0 p))
    (A : ∀ k, Set (Fin (measurements ((p.take k).map (BankAct.forFilter H0))) → Vec m)) (hA : ∀ k, MeasurableSet (A k))
    (i : Fin N) (a : Fin N → ENNReal)
    (h : ∀ k C, MeasurableSet C → C ⊆ A k → dataLaw (s i) H0 (p.take k) C ≤ ∑ j, a j * dataLaw (s j) H0 (p.take k) C) :
    dataLaw (s i) H0 p {d | ∃ k, early H0 p k d ∈ A k} ≤ ∑ j, a j := by
  let E : ℕ → Set (Fin (measurements (p.map (BankAct.forFilter H0))) → Vec m) := fun k => early H0 p k ⁻¹' A k
  have hE : ∀ k, MeasurableSet (E k) := fun k => early_measurable H0 p k (hA k)
  have hB : ∀ k, ∃ C, MeasurableSet C ∧ C ⊆ A k ∧ disjointed E k = early H0 p k ⁻¹' C := by
    intro k
    choose r hr hrr using fun j : Fin k => early_factor H0 p (j := j) (k := k) (le_of_lt j.2)
    refine ⟨A k \ ⋃ j : Fin k, r j ⁻¹' A j, (hA k).diff (MeasurableSet.iUnion fun j => hr j (hA j)), Set.sdiff_subset, ?_⟩
    ext d
    simp only [disjointed_eq_inter_compl, E, Set.mem_inter_iff, Set.mem_preimage, Set.mem_sdiff, Set.mem_iUnion, Set.mem_iInter,
      Set.mem_compl_iff, not_exists]
    refine and_congr_right fun _ => ⟨fun g j => ?_, fun g j hj => ?_⟩
    · rw [← hrr j]; exact g j j.2
    · have := g ⟨j, hj⟩
      rwa [← hrr ⟨j, hj⟩] at this
  have hset : {d | ∃ k, early H0 p k d ∈ A k} = ⋃ k, disjointed E k := by
    rw [iUnion_disjointed]
    ext d
    simp [E]
  rw [hset]
  calc dataLaw (s i) H0 p (⋃ k, disjointed E k) ≤ ∑' k, dataLaw (s i) H0 p (disjointed E k) := measure_iUnion_le _
    _ ≤ ∑' k, ∑ j, a j * dataLaw (s j) H0 p (disjointed E k) := by
        refine ENNReal.tsum_le_tsum fun k => ?_
        obtain ⟨C, h1, h2, h3⟩ := hB k
        rw [h3, dataLaw_early _ _ _ _ (hp i) h1]
        refine (h k C h1 h2).trans (le_of_eq (Finset.sum_congr rfl fun j _ => ?_))
        rw [dataLaw_early _ _ _ _ (hp j) h1]
    _ = ∑ j, a j * dataLaw (s j) H0 p (⋃ k, disjointed E k) := by
        rw [Summable.tsum_finsetSum fun j _ => ENNReal.summable]
        refine Finset.sum_congr rfl fun j _ => ?_
        rw [ENNReal.tsum_mul_left, measure_iUnion (disjoint_disjointed E) fun k => MeasurableSet.disjointed hE k]
    _ ≤ ∑ j, a j := Finset.sum_le_sum fun j _ => by
        have := hprob j
        exact (mul_le_mul_right prob_le_one (a j)).trans (mul_one _).le

variable {s : MMAE (KF n m l) n N (Option (Vec m)) (Mat m n)} {p : List (BankAct n m l)}

theorem BankPlanned_take (h : BankPlanned s p) (k : ℕ) : BankPlanned s (p.take k) :=
  ⟨h.dist, fun i => ⟨(h.filters i).inv, (h.filters i).alpha, (h.filters i).P, fun a ha => (h.filters i).noise a (by
    rw [List.map_take] at ha; exact List.mem_of_mem_take ha)⟩, fun i hm => h.input i (List.mem_of_mem_take hm)⟩

theorem dataLaw_prob (h : BankPlanned s p) (j : Fin N) : IsProbabilityMeasure (dataLaw (s.filters j) s.H p) := by
  have hu := unfolds_ok (s.filters j) _ (h.filters j).noise
  have h2 := hu.2
  have : IsProbabilityMeasure (world (s.filters j) (p.map (BankAct.forFilter s.H))) := by
    constructor
    rw [world, Measure.bind_apply MeasurableSet.univ hu.1.aemeasurable]
    simp
  exact Measure.isProbabilityMeasure_map measurable_snd.aemeasurable

/-- The weights after the run, and the distributions of the measurements. -/
theorem bank_weights (h : BankPlanned s p)
    {final : (Fin (measurements (p.map (BankAct.forFilter s.H))) → Vec m) → MMAE (KF n m l) n N (Option (Vec m)) (Mat m n)}
    (hrun : ∀ d, runList (MmaeOp.run (kfClass Real.exp n m l)) s (bankCalls s.H p d) = .ok (final d)) :
    ∃ v : Fin N → (Fin (measurements (p.map (BankAct.forFilter s.H))) → Vec m) → ℝ, (∀ j, Measurable (v j)) ∧
      (∀ j, dataLaw (s.filters j) s.H p = volume.withDensity fun d => ENNReal.ofReal (Real.exp (v j d))) ∧
      ∀ d, (final d).p = BayesRule s.p fun j => Real.exp (v j d) := by
  obtain ⟨alone, ha, hxP, hp⟩ := bank_parts h hrun
  exact ⟨fun j d => (alone j d).2, fun j => (world_lintegral (h.filters j) (ha j)).2.2.1,
    fun j => C94_evidence (h.filters j) (alone j) (ha j), hp⟩

/-- A pointwise bound between densities carries over to sets. -/
theorem density_bound {α : Type*} [MeasurableSpace α] {μ : Measure α} {f : α → ℝ} {g : Fin N → α → ℝ} {a : Fin N → ℝ} (ha : ∀ j, 0 ≤ a j)
    (hg0 : ∀ j x, 0 ≤ g j x) (hg : ∀ j, Measurable (g j)) {C : Set α} (hC : MeasurableSet C)
    (h : ∀ x ∈ C, f x ≤ ∑ j, a j * g j x) :
    μ.withDensity (fun x => ENNReal.ofReal (f x)) C ≤ ∑ j, ENNReal.ofReal (a j) * μ.withDensity (fun x => ENNReal.ofReal (g j x)) C := by
  simp only [withDensity_apply _ hC]
  calc ∫⁻ x in C, ENNReal.ofReal (f x) ∂μ ≤ ∫⁻ x in C, ∑ j, ENNReal.ofReal (a j) * ENNReal.ofReal (g j x) ∂μ := by
        refine setLIntegral_mono' hC fun x hx => ?_
        refine (ENNReal.ofReal_le_ofReal (h x hx)).trans ?_
        rw [ENNReal.ofReal_sum_of_nonneg fun j _ => mul_nonneg (ha j) (hg0 j x)]
        exact (Finset.sum_congr rfl fun j _ => ENNReal.ofReal_mul (ha j)).le
    _ = _ := by
        rw [lintegral_finsetSum _ fun j _ => (hg j).ennreal_ofReal.const_mul _]
        exact Finset.sum_congr rfl fun j _ => lintegral_const_mul _ (hg j).ennreal_ofReal

/-- **C108, weight.** If filter `i` describes the system correctly, the probability that its weight `bank.p[i]` falls to `ε` or
below at any time of the run is at most `ε` divided by the weight it had at the start. -/
theorem C108_right_model_kept (h : BankPlanned s p) (i : Fin N) (hi : 0 < s.p i) {ε : ℝ} (hε : 0 ≤ ε) :
    dataLaw (s.filters i) s.H p {d | ∃ k s', runList (MmaeOp.run (kfClass Real.exp n m l)) s ((bankCalls s.H p d).take k) = .ok s' ∧
      s'.p i ≤ ε} ≤ ENNReal.ofReal (ε / s.p i) := by
  choose final hfin using fun k => (fun d => C96_runs (BankPlanned_take h k) d)
  choose v hv hlaw hpost using fun k => bank_weights (BankPlanned_take h k) (hfin k)
  have hpos : ∀ k d, 0 < ∑ j, s.p j * Real.exp (v k j d) := fun k d =>
    lt_of_lt_of_le (mul_pos hi (Real.exp_pos (v k i d)))
      (Finset.single_le_sum (f := fun j => s.p j * Real.exp (v k j d)) (fun j _ => mul_nonneg (h.dist.1 j) (Real.exp_pos _).le) (Finset.mem_univ i))
  have hmp : ∀ k, Measurable fun d => (final k d).p i := fun k => by
    simp only [hpost, BayesRule]
    exact ((hv k i).exp.const_mul _).div (Finset.measurable_sum _ fun j _ => (hv k j).exp.const_mul _)
  have key := ever (s := s.filters) s.H p (fun j => (h.filters j).noise) (dataLaw_prob h)
    (fun k => {d | (final k d).p i ≤ ε}) (fun k => measurableSet_le (hmp k) measurable_const) i
    (fun j => ENNReal.ofReal (ε / s.p i * s.p j)) (fun k C hC hsub => by
      simp only [hlaw]
      refine density_bound (fun j => mul_nonneg (div_nonneg hε hi.le) (h.dist.1 j)) (fun j x => (Real.exp_pos _).le)
        (fun j => (hv k j).exp) hC fun d hd => ?_
      have hd' : (final k d).p i ≤ ε := hsub hd
      rw [hpost, BayesRule, div_le_iff₀ (hpos k d)] at hd'
      simp only [mul_assoc, ← Finset.mul_sum]
      rw [div_mul_eq_mul_div, le_div_iff₀ hi]
      linarith)
  have hsum : ∑ j, ENNReal.ofReal (ε / s.p i * s.p j) = ENNReal.ofReal (ε / s.p i) := by
    rw [← ENNReal.ofReal_sum_of_nonneg fun j _ => mul_nonneg (div_nonneg hε hi.le) (h.dist.1 j), ← Finset.mul_sum, h.dist.2, mul_one]
  rw [hsum] at key
  refine (measure_mono ?_).trans key
  rintro d ⟨k, s', hr, hp⟩
  refine ⟨k, ?_⟩
  rw [← calls_take, hfin k (early s.H p k d)] at hr
  obtain rfl : final k (early s.H p k d) = s' := by injection hr
  exact hp

/-- **C108, odds.** If filter `i` describes the system correctly, the probability that the odds of another filter `j`
against it ever rise by the factor `c` is at most `1 / c`. -/
theorem C108_odds (h : BankPlanned s p) (i j : Fin N) (hi : 0 < s.p i) (hj : 0 < s.p j) {c : ℝ} (hc : 0 < c) :
    dataLaw (s.filters i) s.H p {d | ∃ k s', runList (MmaeOp.run (kfClass Real.exp n m l)) s ((bankCalls s.H p d).take k) = .ok s' ∧
      c * (s.p j / s.p i) ≤ s'.p j / s'.p i} ≤ ENNReal.ofReal (1 / c) := by
  choose final hfin using fun k => (fun d => C96_runs (BankPlanned_take h k) d)
  choose v hv hlaw hpost using fun k => bank_weights (BankPlanned_take h k) (hfin k)
  have hpos : ∀ k d, 0 < ∑ j, s.p j * Real.exp (v k j d) := fun k d =>
    lt_of_lt_of_le (mul_pos hi (Real.exp_pos (v k i d)))
      (Finset.single_le_sum (f := fun j => s.p j * Real.exp (v k j d)) (fun j _ => mul_nonneg (h.dist.1 j) (Real.exp_pos _).le) (Finset.mem_univ i))
  have hmp : ∀ k q, Measurable fun d => (final k d).p q := fun k q => by
    simp only [hpost, BayesRule]
    exact ((hv k q).exp.const_mul _).div (Finset.measurable_sum _ fun j _ => (hv k j).exp.const_mul _)
  have key := ever (s := s.filters) s.H p (fun j => (h.filters j).noise) (dataLaw_prob h)
    (fun k => {d | c * (s.p j / s.p i) ≤ (final k d).p j / (final k d).p i})
    (fun k => measurableSet_le measurable_const ((hmp k j).div (hmp k i))) i
    (fun q => ENNReal.ofReal (if q = j then 1 / c else 0)) (fun k C hC hsub => by
      simp only [hlaw]
      refine density_bound (fun q => by split_ifs <;> positivity) (fun j x => (Real.exp_pos _).le)
        (fun j => (hv k j).exp) hC fun d hd => ?_
      have hd' : c * (s.p j / s.p i) ≤ (final k d).p j / (final k d).p i := hsub hd
      have e : (final k d).p j / (final k d).p i = (s.p j / s.p i) * (Real.exp (v k j d) / Real.exp (v k i d)) := by
        rw [hpost]
        simp only [BayesRule]
        have := (hpos k d).ne'
        have := (Real.exp_pos (v k i d)).ne'
        field_simp
      rw [e, mul_comm c, mul_le_mul_iff_right₀ (div_pos hj hi), le_div_iff₀ (Real.exp_pos _)] at hd'
      simp only [ite_mul, zero_mul, Finset.sum_ite_eq', Finset.mem_univ, if_true]
      rw [div_mul_eq_mul_div, le_div_iff₀ hc]
      linarith)
  have hsum : ∑ q, ENNReal.ofReal (if q = j then 1 / c else 0) = ENNReal.ofReal (1 / c) := by
    rw [Finset.sum_eq_single j (fun q _ hq => by simp [hq]) (by simp), if_pos rfl]
  rw [hsum] at key
  refine (measure_mono ?_).trans key
  rintro d ⟨k, s', hr, hp⟩
  refine ⟨k, ?_⟩
  rw [← calls_take, hfin k (early s.H p k d)] at hr
  obtain rfl : final k (early s.H p k d) = s' := by injection hr
  exact hp

/-- **C108, evidence.** The log-likelihoods that the correct model adds up are on average the largest: under filter `a`,
the amount by which the sum of another filter `b` exceeds its own is, on average, at most the amount by which it falls short
(so if the means exist, the mean for `a` is at least that for `b`). -/
theorem C108_evidence_best {a b : KF n m l} {q : List (Act n m l)} (ha : Planned a q) (hb : Planned b q)
    (ra rb : (Fin (measurements q) → Vec m) → KF n m l × ℝ) (hra : ∀ d, listen q d a 0 = .ok (ra d)) (hrb : ∀ d, listen q d b 0 = .ok (rb d)) :
    ∫⁻ w, ENNReal.ofReal ((rb w.2).2 - (ra w.2).2) ∂(world a q) ≤ ∫⁻ w, ENNReal.ofReal ((ra w.2).2 - (rb w.2).2) ∂(world a q) := by
  have hla : Measurable fun d => (ra d).2 := (world_lintegral ha hra).2.2.1
  have hlb : Measurable fun d => (rb d).2 := (world_lintegral hb hrb).2.2.1
  have eA := C94_evidence ha ra hra
  have eB := C94_evidence hb rb hrb
  have hpr : ∀ {k : KF n m l}, Planned k q → (world k q).map Prod.snd Set.univ = 1 := by
    intro k hk
    have hu := unfolds_ok k _ hk.noise
    have h2 := hu.2
    rw [Measure.map_apply measurable_snd MeasurableSet.univ, Set.preimage_univ, world, Measure.bind_apply MeasurableSet.univ hu.1.aemeasurable]
    simp
  have hm1 : Measurable fun d => ENNReal.ofReal ((rb d).2 - (ra d).2) := (hlb.sub hla).ennreal_ofReal
  have hm2 : Measurable fun d => ENNReal.ofReal ((ra d).2 - (rb d).2) := (hla.sub hlb).ennreal_ofReal
  have hm3 : Measurable fun d => ENNReal.ofReal (Real.exp ((rb d).2 - (ra d).2)) := (hlb.sub hla).exp.ennreal_ofReal
  rw [← lintegral_map hm1 measurable_snd, ← lintegral_map hm2 measurable_snd]
  have h1 : ∫⁻ d, ENNReal.ofReal (Real.exp ((rb d).2 - (ra d).2)) ∂((world a q).map Prod.snd) = 1 := by
    rw [eA, lintegral_withDensity_eq_lintegral_mul _ hla.exp.ennreal_ofReal hm3]
    have := hpr hb
    rw [eB, withDensity_apply _ MeasurableSet.univ, Measure.restrict_univ] at this
    rw [← this]
    refine lintegral_congr fun d => ?_
    rw [Pi.mul_apply, ← ENNReal.ofReal_mul (Real.exp_pos _).le, ← Real.exp_add]
    congr 2
    ring
  have h2 : ∫⁻ d, ENNReal.ofReal ((rb d).2 - (ra d).2) ∂((world a q).map Prod.snd) + 1 ≤
      ∫⁻ d, ENNReal.ofReal ((ra d).2 - (rb d).2) ∂((world a q).map Prod.snd) + 1 := by
    calc ∫⁻ d, ENNReal.ofReal ((rb d).2 - (ra d).2) ∂((world a q).map Prod.snd) + 1
        = ∫⁻ d, (ENNReal.ofReal ((rb d).2 - (ra d).2) + 1) ∂((world a q).map Prod.snd) := by
          rw [lintegral_add_right _ measurable_const, lintegral_const, hpr ha, mul_one]
      _ ≤ ∫⁻ d, (ENNReal.ofReal ((ra d).2 - (rb d).2) + ENNReal.ofReal (Real.exp ((rb d).2 - (ra d).2))) ∂((world a q).map Prod.snd) := by
          refine lintegral_mono fun d => ?_
          set t := (rb d).2 - (ra d).2 with ht
          have ht' : (ra d).2 - (rb d).2 = -t := by rw [ht]; ring
          have hexp := Real.add_one_le_exp t
          rw [ht']
          rcases le_total 0 t with h0 | h0
          · rw [ENNReal.ofReal_eq_zero.2 (by linarith : -t ≤ 0), zero_add, ← ENNReal.ofReal_one, ← ENNReal.ofReal_add h0 zero_le_one]
            exact ENNReal.ofReal_le_ofReal hexp
          · rw [ENNReal.ofReal_eq_zero.2 h0, zero_add, ← ENNReal.ofReal_one, ← ENNReal.ofReal_add (by linarith) (Real.exp_pos t).le]
            exact ENNReal.ofReal_le_ofReal (by linarith)
      _ = _ := by rw [lintegral_add_right _ hm3, h1]
  exact (ENNReal.add_le_add_iff_right ENNReal.one_ne_top).1 h2

/-- The bank of `manoeuvre` as constructed with weights 9/10 and 1/10. -/
noncomputable def manoeuvreBank : MMAE (KF 2 1 1) 2 2 (Option (Vec 1)) (Mat 1 2) where
  filters := manoeuvre
  p := ![9/10, 1/10]
  H := none
  z := none
  x := (manoeuvre 0).x
  P := (manoeuvre 0).P
  xPrior := (manoeuvre 0).x
  PPrior := (manoeuvre 0).P
  xPost := (manoeuvre 0).x
  PPost := (manoeuvre 0).P

/-- However long it is tracked: a target that does not manoeuvre is declared manoeuvring with 99 % certainty with probability at
most 1/90, and the odds of the other model ever rise a thousandfold with probability at most 1/1000. -/
example (K : ℕ) : MMAE.init (kfClass Real.exp 2 1 1) manoeuvre (![9/10, 1/10] : Vec 2) 2 none = .ok manoeuvreBank ∧
    dataLaw (manoeuvre 0) none (List.replicate K [BankAct.move none, .measure .none none]).flatten
      {d | ∃ k s', runList (MmaeOp.run (kfClass Real.exp 2 1 1)) manoeuvreBank ((bankCalls none _ d).take k) = .ok s' ∧ s'.p 0 ≤ 1/100} ≤
      ENNReal.ofReal (1 / 90) ∧
    dataLaw (manoeuvre 0) none (List.replicate K [BankAct.move none, .measure .none none]).flatten
      {d | ∃ k s', runList (MmaeOp.run (kfClass Real.exp 2 1 1)) manoeuvreBank ((bankCalls none _ d).take k) = .ok s' ∧
        1000 * (manoeuvreBank.p 1 / manoeuvreBank.p 0) ≤ s'.p 1 / s'.p 0} ≤ ENNReal.ofReal (1 / 1000) := by
  have h : BankPlanned manoeuvreBank (List.replicate K [BankAct.move none, .measure .none none]).flatten := by
    refine ⟨⟨fun i => by fin_cases i <;> norm_num [manoeuvreBank], by norm_num [Fin.sum_univ_two, manoeuvreBank]⟩,
      fun i => ⟨rfl, rfl, PosSemidef.one, fun a ha => ?_⟩, fun i _ => .inl rfl⟩
    have hQ : ((manoeuvre i).Q).PosSemidef := PosSemidef.one.smul (Nat.cast_nonneg _)
    simp only [List.mem_map, List.mem_flatten, List.mem_replicate] at ha
    obtain ⟨b, ⟨c, ⟨-, rfl⟩, hb⟩, rfl⟩ := ha
    simp only [List.mem_cons, List.not_mem_nil, or_false] at hb
    rcases hb with rfl | rfl
    · exact hQ
    · exact PosDef.one
  have h0 : manoeuvreBank.p 0 = 9 / 10 := rfl
  have h1 : manoeuvreBank.p 1 = 1 / 10 := rfl
  refine ⟨?_, ?_, C108_odds h 0 1 (by rw [h0]; norm_num) (by rw [h1]; norm_num) (by norm_num)⟩
  · unfold MMAE.init
    rw [dif_pos rfl, if_neg (by norm_num), dif_neg (by norm_num)]
    rfl
  · have := C108_right_model_kept h 0 (by rw [h0]; norm_num) (ε := 1 / 100) (by norm_num)
    rw [h0, show (1 / 100 / (9 / 10) : ℝ) = 1 / 90 by norm_num] at this
    exact this

end Filterpy
