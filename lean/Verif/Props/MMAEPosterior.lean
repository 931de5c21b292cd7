import Verif.Props.KalmanEvidence
import Verif.Props.MMAE

/-!
# C96: the multiple model estimator computes the posterior over models and states
-/

namespace Filterpy

open MeasureTheory ProbabilityTheory Matrix Spec KF

variable {n m l N : ℕ}

namespace Spec

/-- What the user plans to do with a bank: `bank.predict(u)` (or `bank.predict()`) and `bank.update(z, R, H)`. -/
inductive BankAct (n m l : ℕ)
  | move (u : Option (Vec l))
  | measure (R : MatArg m) (H : Option (Mat m n))

/-- What that means for each filter; `H0` is the measurement matrix of the bank. -/
def BankAct.forFilter (H0 : Option (Mat m n)) : BankAct n m l → Act n m l
  | .move u => .move u none none .none
  | .measure R H => .measure R (H.or H0)

/-- `bank.predict()` passes the number `0` on. -/
def bankInput : Option (Vec l) → UArg l
  | none => .scalar 0
  | some u => .vec u

/-- The calls when the measurements turn out to be `d`. -/
def bankCalls (H0 : Option (Mat m n)) : (p : List (BankAct n m l)) → (Fin (measurements (p.map (BankAct.forFilter H0))) → Vec m) →
    List (MmaeOp (Option (Vec m)) (MatArg m) (Mat m n) (UArg l))
  | [], _ => []
  | .move u :: p, d => .predict (bankInput u) :: bankCalls H0 p d
  | .measure R H :: p, d =>
      .update (some (d (0 : Fin (measurements (p.map (BankAct.forFilter H0)) + 1)))) R H :: bankCalls H0 p (Fin.tail d)

/-- Nature picks one of the models, model `i` with probability `p i`, and then behaves like it: the joint distribution of
the model, the true state at the end and the measurements. -/
noncomputable def chosen (s : MMAE (KF n m l) n N (Option (Vec m)) (Mat m n)) (p : List (BankAct n m l)) :
    Measure (Fin N × Vec n × (Fin (measurements (p.map (BankAct.forFilter s.H))) → Vec m)) :=
  ∑ i, ENNReal.ofReal (s.p i) • (world (s.filters i) (p.map (BankAct.forFilter s.H))).map (Prod.mk i)

/-- The bank starts with a probability distribution over filters that are as in C94; without an input the filters have no
control matrix, or one for a single input. -/
structure BankPlanned (s : MMAE (KF n m l) n N (Option (Vec m)) (Mat m n)) (p : List (BankAct n m l)) : Prop where
  dist : IsDist s.p
  filters : ∀ i, Planned (s.filters i) (p.map (BankAct.forFilter s.H))
  input : ∀ i, BankAct.move none ∈ p → (s.filters i).B = none ∨ l = 1

end Spec

theorem predict_input {kf s : KF n m l} {P : Mat n n} (hs : TunedAs kf s P) (u : Option (Vec l)) (hB : u = none → kf.B = none ∨ l = 1) :
    s.predict (bankInput u) = .ok { s with
      x := kf.F *ᵥ s.x + controlEffect kf.B u, P := kf.F * P * kf.Fᵀ + kf.Q
      xPrior := kf.F *ᵥ s.x + controlEffect kf.B u, PPrior := kf.F * P * kf.Fᵀ + kf.Q } := by
  simp only [KF.predict, hs.F, hs.Q, hs.B, hs.alpha, hs.P, one_smul, Option.getD_none, MatArg.resolve, Option.none_or]
  cases u with
  | some u => cases hB : kf.B <;> simp [KF.control, bankInput, controlEffect]
  | none =>
    cases h : kf.B with
    | none => simp [KF.control, controlEffect]
    | some B =>
      have h1 : l = 1 := by simpa [h] using hB rfl
      subst h1
      simp only [KF.control, bankInput, controlEffect, zero_mul, dite_true]
      rfl

theorem predict_move {kf s : KF n m l} {P : Mat n n} (hs : TunedAs kf s P) (u : Option (Vec l)) :
    s.predict (uArg u) = .ok { s with
      x := kf.F *ᵥ s.x + controlEffect kf.B u, P := kf.F * P * kf.Fᵀ + kf.Q
      xPrior := kf.F *ᵥ s.x + controlEffect kf.B u, PPrior := kf.F * P * kf.Fᵀ + kf.Q } := by
  simp only [KF.predict, hs.F, hs.Q, hs.B, hs.alpha, hs.P, one_smul, Option.getD_none, MatArg.resolve, Option.none_or]
  cases u <;> cases hB : kf.B <;> simp [KF.control, uArg, controlEffect]

/-- A filter in the bank and a filter whose log-likelihoods are added up. -/
theorem solo_listen (kf : KF n m l) (H0 : Option (Mat m n)) (p : List (BankAct n m l))
    (hp : ∀ a ∈ p.map (BankAct.forFilter H0), Sound kf a) (hB : BankAct.move none ∈ p → kf.B = none ∨ l = 1)
    (d : Fin (measurements (p.map (BankAct.forFilter H0))) → Vec m) {P : Mat n n} (hP : P.PosSemidef) {s t : KF n m l}
    (hs : TunedAs kf s P) (ht : TunedAs kf t P) (hx : t.x = s.x) (total L : ℝ) :
    ∃ s' t' v, listen (p.map (BankAct.forFilter H0)) d s total = .ok (s', total + v) ∧
      runList (soloStep (kfClass Real.exp n m l) H0) (t, L) (bankCalls H0 p d) = .ok (t', L * Real.exp v) ∧ t'.x = s'.x ∧ t'.P = s'.P := by
  induction p generalizing P s t total L with
  | nil => exact ⟨s, t, 0, by rw [add_zero]; rfl, by simp [bankCalls, runList], hx, by rw [hs.P, ht.P]⟩
  | cons a p ih =>
    have hp' : ∀ a ∈ p.map (BankAct.forFilter H0), Sound kf a := fun a ha => hp a (List.mem_cons_of_mem _ ha)
    have hB' : BankAct.move none ∈ p → kf.B = none ∨ l = 1 := fun h => hB (List.mem_cons_of_mem _ h)
    have ha := hp (a.forFilter H0) (by simp)
    cases a with
    | move u =>
      have e1 := predict_move hs u
      have e2 := predict_input ht u fun h => hB (by rw [h]; exact List.mem_cons_self)
      have hP' : (kf.F * P * kf.Fᵀ + kf.Q).PosSemidef := (PSD.congr hP kf.F).add ha
      obtain ⟨s', t', v, g1, g2, g3, g4⟩ := ih hp' hB' d hP'
        (s := { s with
          x := kf.F *ᵥ s.x + controlEffect kf.B u, P := kf.F * P * kf.Fᵀ + kf.Q
          xPrior := kf.F *ᵥ s.x + controlEffect kf.B u, PPrior := kf.F * P * kf.Fᵀ + kf.Q })
        (t := { t with
          x := kf.F *ᵥ t.x + controlEffect kf.B u, P := kf.F * P * kf.Fᵀ + kf.Q
          xPrior := kf.F *ᵥ t.x + controlEffect kf.B u, PPrior := kf.F * P * kf.Fᵀ + kf.Q })
        ⟨hs.F, hs.Q, hs.B, hs.H, hs.R, hs.inv, hs.alpha, rfl⟩ ⟨ht.F, ht.Q, ht.B, ht.H, ht.R, ht.inv, ht.alpha, rfl⟩ (by rw [hx]) total L
      refine ⟨s', t', v, ?_, ?_, g3, g4⟩
      · change listen (.move u none none .none :: p.map (BankAct.forFilter H0)) d s total = _
        simp only [listen, e1]
        exact g1
      · simp only [bankCalls, runList, soloStep, kfClass, e2]
        exact g2
    | measure R H =>
      have ha : (R.resolve kf.R).PosDef := ha
      let z := d (0 : Fin (measurements (p.map (BankAct.forFilter H0)) + 1))
      obtain ⟨s1, e, e1, e2, e3, epsd, e4, e5, e6, e7, e8, e9, e10⟩ := update_semi s z R (H.or H0) hs.inv (by rw [hs.P]; exact hP) (by rw [hs.R]; exact ha)
      obtain ⟨t1, f, f1, f2, f3, -, f4, f5, f6, f7, f8, f9, f10⟩ := update_semi t z R (H.or H0) ht.inv (by rw [ht.P]; exact hP) (by rw [ht.R]; exact ha)
      have hx1 : t1.x = s1.x := by rw [f2, e2, hx, ht.P, hs.P, ht.H, hs.H, ht.R, hs.R]
      have hP1 : t1.P = s1.P := by rw [f3, e3, ht.P, hs.P, ht.H, hs.H, ht.R, hs.R]
      have hl1 : t1.readLogLik.1 = s1.readLogLik.1 := by rw [f1, e1, hx, ht.P, hs.P, ht.H, hs.H, ht.R, hs.R]
      have hlik : (t1.readLik Real.exp).1 = Real.exp s1.readLogLik.1 := by
        have : t1.lik = none := by
          obtain ⟨SI, -, rfl⟩ := update_ok f
          rfl
        rw [readLik_val, this]
        simp [Real.exp_ne_zero, hl1]
      obtain ⟨c, hc, -⟩ := readLik_snd Real.exp t1
      obtain ⟨s', t', v, g1, g2, g3, g4⟩ := ih hp' hB' (Fin.tail d) epsd (s := s1.readLogLik.2) (t := (t1.readLik Real.exp).2)
        (by
          rw [readLogLik_snd]
          exact ⟨e4.trans hs.F, e5.trans hs.Q, e6.trans hs.B, e7.trans hs.H, e8.trans hs.R, e9.trans hs.inv, e10.trans hs.alpha, rfl⟩)
        (by
          rw [hc]
          exact ⟨f4.trans ht.F, f5.trans ht.Q, f6.trans ht.B, f7.trans ht.H, f8.trans ht.R, f9.trans ht.inv, f10.trans ht.alpha, hP1⟩)
        (by rw [hc, readLogLik_snd]; exact hx1) (total + s1.readLogLik.1) (L * Real.exp s1.readLogLik.1)
      refine ⟨s', t', s1.readLogLik.1 + v, ?_, ?_, g3, g4⟩
      · change listen (.measure R (H.or H0) :: p.map (BankAct.forFilter H0)) d s total = _
        rw [← add_assoc, ← g1]
        simp only [listen]
        change ((s.update (some z) R (H.or H0)).bind _) = _
        rw [e]
        rfl
      · have f' : (kfClass Real.exp n m l).update t (some z, R, H.or H0) = .ok t1 := f
        rw [Real.exp_add, ← mul_assoc, ← g2, ← hlik]
        change runList _ _ (MmaeOp.update (some z) R H :: bankCalls H0 p (Fin.tail d)) = _
        simp only [runList, soloStep, f']
        rfl

theorem bayes_const {w : Vec N} (h : IsDist w) : BayesRule w (fun _ => 1) = w := by
  funext i
  simp [BayesRule, h.2]

/-- The bank accepts the calls that all its filters accept. -/
theorem mmae_runs {σ ζ ρ η υ : Type} (c : FilterClass σ n (ζ × ρ × Option η) υ) (hL : PosLik c) (s : MMAE σ n N ζ η) (hp : IsDist s.p)
    (ops : List (MmaeOp ζ ρ η υ)) (v : Vec N) (h : ∀ i, ∃ r, runList (soloStep c s.H) (s.filters i, v i) ops = .ok r) :
    ∃ s', runList (MmaeOp.run c) s ops = .ok s' := by
  induction ops generalizing s v with
  | nil => exact ⟨s, rfl⟩
  | cons op ops ih =>
    cases op with
    | predict u =>
      have h1 : ∀ i, ∃ f, c.predict (s.filters i) u = .ok f ∧ ∃ r, runList (soloStep c s.H) (f, v i) ops = .ok r := fun i => by
        obtain ⟨r, hr⟩ := h i
        simp only [runList, soloStep] at hr
        cases hc : c.predict (s.filters i) u with
        | error e => simp [hc] at hr
        | ok f => simp only [hc] at hr; exact ⟨f, rfl, r, hr⟩
      choose f hf hr using h1
      have hb : bankMap (fun _ f => c.predict f u) s.filters = .ok f := bankMap_ok.2 hf
      have e : s.predict c u = .ok { s with filters := f, xPrior := s.x, PPrior := s.P } := by simp only [MMAE.predict, hb]
      obtain ⟨s', hs'⟩ := ih { s with filters := f, xPrior := s.x, PPrior := s.P } hp v hr
      exact ⟨s', by simp only [runList, MmaeOp.run, e]; exact hs'⟩
    | update z R H =>
      have h1 : ∀ i, ∃ f, c.update (s.filters i) (z, R, H.or s.H) = .ok f ∧
          ∃ r, runList (soloStep c s.H) ((c.likelihood f).2, v i * (c.likelihood f).1) ops = .ok r := fun i => by
        obtain ⟨r, hr⟩ := h i
        simp only [runList, soloStep] at hr
        cases hc : c.update (s.filters i) (z, R, H.or s.H) with
        | error e => simp [hc] at hr
        | ok f => simp only [hc] at hr; exact ⟨f, rfl, r, hr⟩
      choose f hf hr using h1
      obtain ⟨hpos, hdist⟩ := BayesRule.isDist hp fun i => hL _ _ _ (hf i)
      obtain ⟨s1, e⟩ := mmae_update_exists hf hpos.ne'
      obtain ⟨f', hf', -, hs1⟩ := mmae_update e
      obtain rfl : f' = f := funext fun i => Except.ok.inj ((hf' i).symm.trans (hf i))
      obtain ⟨s', hs'⟩ := ih s1 (by rw [hs1]; exact hdist) (fun i => v i * (c.likelihood (f' i)).1) (by rw [hs1]; exact hr)
      exact ⟨s', by simp only [runList, MmaeOp.run, e]; exact hs'⟩

variable {s : MMAE (KF n m l) n N (Option (Vec m)) (Mat m n)} {p : List (BankAct n m l)}

theorem solo_planned (h : BankPlanned s p) (i : Fin N) (d : Fin (measurements (p.map (BankAct.forFilter s.H))) → Vec m) :
    ∃ s' t' v, listen (p.map (BankAct.forFilter s.H)) d (s.filters i) 0 = .ok (s', v) ∧
      runList (soloStep (kfClass Real.exp n m l) s.H) (s.filters i, 1) (bankCalls s.H p d) = .ok (t', Real.exp v) ∧
      t'.x = s'.x ∧ t'.P = s'.P := by
  have hf := h.filters i
  have ht : TunedAs (s.filters i) (s.filters i) (s.filters i).P := ⟨rfl, rfl, rfl, rfl, rfl, hf.inv, hf.alpha, rfl⟩
  obtain ⟨s', t', v, g1, g2, g3, g4⟩ := solo_listen (s.filters i) s.H p hf.noise (h.input i) d hf.P ht ht rfl 0 1
  rw [zero_add] at g1
  rw [one_mul] at g2
  exact ⟨s', t', v, g1, g2, g3, g4⟩

/-- **C96.** The bank runs, whatever is measured. -/
theorem C96_runs (h : BankPlanned s p) (d : Fin (measurements (p.map (BankAct.forFilter s.H))) → Vec m) :
    ∃ s', runList (MmaeOp.run (kfClass Real.exp n m l)) s (bankCalls s.H p d) = .ok s' := by
  refine mmae_runs _ (kf_posLik3 Real.exp fun t => (Real.exp_pos t).le) s h.dist _ (fun _ => 1) fun i => ?_
  obtain ⟨s', t', v, -, g2, -⟩ := solo_planned h i d
  exact ⟨_, g2⟩

theorem bank_parts (h : BankPlanned s p)
    {final : (Fin (measurements (p.map (BankAct.forFilter s.H))) → Vec m) → MMAE (KF n m l) n N (Option (Vec m)) (Mat m n)}
    (hrun : ∀ d, runList (MmaeOp.run (kfClass Real.exp n m l)) s (bankCalls s.H p d) = .ok (final d)) :
    ∃ alone : Fin N → (Fin (measurements (p.map (BankAct.forFilter s.H))) → Vec m) → KF n m l × ℝ,
      (∀ i d, listen (p.map (BankAct.forFilter s.H)) d (s.filters i) 0 = .ok (alone i d)) ∧
      (∀ i d, ((final d).filters i).x = (alone i d).1.x ∧ ((final d).filters i).P = (alone i d).1.P) ∧
      ∀ d, (final d).p = BayesRule s.p fun i => Real.exp (alone i d).2 := by
  choose s' t' v g1 g2 g3 g4 using fun i d => solo_planned h i d
  have key : ∀ d, (∀ i, (final d).filters i = t' i d) ∧ (final d).p = BayesRule s.p fun i => Real.exp (v i d) := fun d => by
    obtain ⟨L, hL, hp, -⟩ := C33_bayes _ s (final d) _ (hrun d)
    have hL' : ∀ i, (final d).filters i = t' i d ∧ L i = Real.exp (v i d) := fun i =>
      Prod.mk.inj (Except.ok.inj ((hL i).symm.trans (g2 i d)))
    refine ⟨fun i => (hL' i).1, ?_⟩
    rw [← funext fun i => (hL' i).2]
    split_ifs at hp with hu
    · exact hp
    · rw [hp.1, hp.2, bayes_const h.dist]
  refine ⟨fun i d => (s' i d, v i d), g1, fun i d => ?_, fun d => (key d).2⟩
  rw [(key d).1]
  exact ⟨g3 i d, g4 i d⟩

/-- The distribution of the measurements. -/
theorem chosen_data (h : BankPlanned s p) {alone : Fin N → (Fin (measurements (p.map (BankAct.forFilter s.H))) → Vec m) → KF n m l × ℝ}
    (ha : ∀ i d, listen (p.map (BankAct.forFilter s.H)) d (s.filters i) 0 = .ok (alone i d)) :
    (chosen s p).map (fun q => q.2.2) = volume.withDensity fun d => ENNReal.ofReal (∑ i, s.p i * Real.exp (alone i d).2) := by
  have hm : ∀ i : Fin N, Measurable (Prod.mk i : Vec n × (Fin (measurements (p.map (BankAct.forFilter s.H))) → Vec m) → _) := fun i => measurable_prodMk_left
  have hq : Measurable fun q : Fin N × Vec n × (Fin (measurements (p.map (BankAct.forFilter s.H))) → Vec m) => q.2.2 :=
    measurable_snd.comp measurable_snd
  have hl : ∀ i, Measurable fun d => (alone i d).2 := fun i => (world_lintegral (h.filters i) (ha i)).2.2.1
  ext D hD
  rw [Measure.map_apply hq hD, chosen, Measure.finsetSum_apply, withDensity_apply _ hD]
  have e : ∀ d, ENNReal.ofReal (∑ i, s.p i * Real.exp (alone i d).2) = ∑ i, ENNReal.ofReal (s.p i) * ENNReal.ofReal (Real.exp (alone i d).2) := fun d => by
    rw [ENNReal.ofReal_sum_of_nonneg fun i _ => mul_nonneg (h.dist.1 i) (Real.exp_pos _).le]
    exact Finset.sum_congr rfl fun i _ => ENNReal.ofReal_mul (h.dist.1 i)
  simp only [e]
  rw [lintegral_finsetSum _ fun i _ => (hl i).exp.ennreal_ofReal.const_mul _]
  refine Finset.sum_congr rfl fun i _ => ?_
  rw [lintegral_const_mul' _ _ ENNReal.ofReal_ne_top, ← withDensity_apply _ hD, ← C94_evidence (h.filters i) (alone i) (ha i),
    Measure.smul_apply, smul_eq_mul, Measure.map_apply (hm i) (hq hD), Measure.map_apply measurable_snd hD]
  rfl

/-- **C96, posterior.**  Given the measurements, the probability that model `i` is the right one and the true state lies in
`A` is `bank.p[i]` times the probability of `A` under the normal distribution of filter `i`; in particular (all of the space
for `A`) `bank.p[i]` is the probability of model `i` given the measurements. -/
theorem C96_posterior (h : BankPlanned s p)
    (final : (Fin (measurements (p.map (BankAct.forFilter s.H))) → Vec m) → MMAE (KF n m l) n N (Option (Vec m)) (Mat m n))
    (hrun : ∀ d, runList (MmaeOp.run (kfClass Real.exp n m l)) s (bankCalls s.H p d) = .ok (final d))
    (i : Fin N) {A : Set (Vec n)} (hA : MeasurableSet A)
    {D : Set (Fin (measurements (p.map (BankAct.forFilter s.H))) → Vec m)} (hD : MeasurableSet D) :
    chosen s p ({i} ×ˢ A ×ˢ D)
      = ∫⁻ d in D, ENNReal.ofReal ((final d).p i) * normal ((final d).filters i).x ((final d).filters i).P A
          ∂((chosen s p).map fun q => q.2.2) := by
  obtain ⟨alone, ha, hxP, hp⟩ := bank_parts h hrun
  have hm : ∀ i : Fin N, Measurable (Prod.mk i : Vec n × (Fin (measurements (p.map (BankAct.forFilter s.H))) → Vec m) → _) := fun i => measurable_prodMk_left
  obtain ⟨⟨C, hC, hP⟩, hx, hl, -⟩ := world_lintegral (h.filters i) (ha i)
  have hl' : ∀ j, Measurable fun d => (alone j d).2 := fun j => (world_lintegral (h.filters j) (ha j)).2.2.1
  have hn : Measurable fun d => normal (alone i d).1.x (alone i d).1.P A := by
    simp only [hP]
    exact (Measure.measurable_coe hA).comp ((normal_measurable hC).comp hx)
  have hsum : Measurable fun d => ∑ j, s.p j * Real.exp (alone j d).2 := Finset.measurable_sum _ fun j _ => (hl' j).exp.const_mul _
  have hpm : Measurable fun d => (final d).p i := by
    simp only [hp, BayesRule]
    exact ((hl' i).exp.const_mul _).div hsum
  have hleft : chosen s p ({i} ×ˢ A ×ˢ D) = ENNReal.ofReal (s.p i) * world (s.filters i) (p.map (BankAct.forFilter s.H)) (A ×ˢ D) := by
    have hset : MeasurableSet ({i} ×ˢ A ×ˢ D : Set (Fin N × Vec n × (Fin (measurements (p.map (BankAct.forFilter s.H))) → Vec m))) :=
      (measurableSet_singleton i).prod (hA.prod hD)
    rw [chosen, Measure.finsetSum_apply, Finset.sum_eq_single i]
    · rw [Measure.smul_apply, smul_eq_mul, Measure.map_apply (hm i) hset]
      congr 2
      ext q
      simp
    · intro j _ hj
      rw [Measure.smul_apply, smul_eq_mul, Measure.map_apply (hm j) hset]
      have : Prod.mk j ⁻¹' ({i} ×ˢ A ×ˢ D) = (∅ : Set (Vec n × (Fin (measurements (p.map (BankAct.forFilter s.H))) → Vec m))) := by
        ext q
        simp [hj]
      rw [this, measure_empty, mul_zero]
    · simp
  have hfn : Measurable fun d => ENNReal.ofReal ((final d).p i) * normal ((final d).filters i).x ((final d).filters i).P A := by
    simp only [fun d => (hxP i d).1, fun d => (hxP i d).2]
    exact hpm.ennreal_ofReal.mul hn
  rw [hleft, C94_posterior (h.filters i) (alone i) (ha i) hA hD, C94_evidence (h.filters i) (alone i) (ha i), chosen_data h ha,
    ← lintegral_indicator hD, ← lintegral_indicator hD,
    lintegral_withDensity_eq_lintegral_mul _ hl.exp.ennreal_ofReal (hn.indicator hD),
    lintegral_withDensity_eq_lintegral_mul _ hsum.ennreal_ofReal (hfn.indicator hD), ← lintegral_const_mul' _ _ ENNReal.ofReal_ne_top]
  refine lintegral_congr fun d => ?_
  simp only [Pi.mul_apply]
  by_cases hd : d ∈ D
  · rw [Set.indicator_of_mem hd, Set.indicator_of_mem hd, (hxP i d).1, (hxP i d).2, hp d]
    have hpos := (BayesRule.isDist h.dist fun j => Real.exp_pos (alone j d).2).1
    rw [← mul_assoc, ← mul_assoc, ← ENNReal.ofReal_mul (h.dist.1 i), ← ENNReal.ofReal_mul hpos.le]
    congr 2
    rw [BayesRule, mul_div_cancel₀ _ hpos.ne']
  · rw [Set.indicator_of_notMem hd, Set.indicator_of_notMem hd]
    simp

/-! ## The state of the bank -/

/-- The mean squared distance of a normal variable from a point. -/
theorem normal_distance (x c : Vec n) {P : Mat n n} (hP : P.PosSemidef) :
    ∫⁻ v, ENNReal.ofReal ((v - c) ⬝ᵥ (v - c)) ∂(normal x P)
      = ∫⁻ v, ENNReal.ofReal ((v - x) ⬝ᵥ (v - x)) ∂(normal x P) + ENNReal.ofReal ((x - c) ⬝ᵥ (x - c)) := by
  have hsq : ∀ e : Vec n, 0 ≤ e ⬝ᵥ e := fun e => Finset.sum_nonneg fun i _ => mul_self_nonneg _
  have hm : ∀ a : Vec n, Measurable fun v : Vec n => ENNReal.ofReal ((v - a) ⬝ᵥ (v - a)) := fun a =>
    squared_penalty.measurable.comp (measurable_sub_const a)
  have h := normal_reflect x hP (hm c)
  have h2 : 2 * ∫⁻ v, ENNReal.ofReal ((v - c) ⬝ᵥ (v - c)) ∂(normal x P)
      = 2 * (∫⁻ v, ENNReal.ofReal ((v - x) ⬝ᵥ (v - x)) ∂(normal x P) + ENNReal.ofReal ((x - c) ⬝ᵥ (x - c))) := by
    calc 2 * ∫⁻ v, ENNReal.ofReal ((v - c) ⬝ᵥ (v - c)) ∂(normal x P)
        = ∫⁻ v, (ENNReal.ofReal ((v - c) ⬝ᵥ (v - c)) + ENNReal.ofReal (((2 : ℝ) • x - v - c) ⬝ᵥ ((2 : ℝ) • x - v - c))) ∂(normal x P) := by
          rw [lintegral_add_left (hm c), h, two_mul]
      _ = ∫⁻ v, (2 * ENNReal.ofReal ((v - x) ⬝ᵥ (v - x)) + 2 * ENNReal.ofReal ((x - c) ⬝ᵥ (x - c))) ∂(normal x P) := by
          refine lintegral_congr fun v => ?_
          rw [← ENNReal.ofReal_add (hsq _) (hsq _), show (2 : ENNReal) = ENNReal.ofReal 2 by simp,
            ← ENNReal.ofReal_mul (by norm_num), ← ENNReal.ofReal_mul (by norm_num), ← ENNReal.ofReal_add (by have := hsq (v - x); positivity) (by have := hsq (x - c); positivity)]
          congr 1
          simp only [sub_dotProduct, dotProduct_sub, smul_dotProduct, dotProduct_smul, smul_eq_mul, dotProduct_comm v x, dotProduct_comm c x, dotProduct_comm v c]
          ring
      _ = 2 * (∫⁻ v, ENNReal.ofReal ((v - x) ⬝ᵥ (v - x)) ∂(normal x P) + ENNReal.ofReal ((x - c) ⬝ᵥ (x - c))) := by
          rw [lintegral_add_right _ measurable_const, lintegral_const_mul _ (hm x), lintegral_const, measure_univ, mul_one, mul_add]
  exact (ENNReal.mul_right_inj two_ne_zero ENNReal.ofNat_ne_top).1 h2

/-- The weighted mean is the point with the least weighted sum of squared distances. -/
theorem mix_least {w : Vec N} (hw : IsDist w) (x : Fin N → Vec n) (c : Vec n) :
    ∑ i, w i * ((x i - MixMean w x) ⬝ᵥ (x i - MixMean w x)) ≤ ∑ i, w i * ((x i - c) ⬝ᵥ (x i - c)) := by
  have h0 : 0 ≤ (MixMean w x - c) ⬝ᵥ (MixMean w x - c) := Finset.sum_nonneg fun i _ => mul_self_nonneg _
  have h1 : ∑ i, w i * ((x i - MixMean w x) ⬝ᵥ (MixMean w x - c)) = 0 := by
    have e : ∀ i, w i * ((x i - MixMean w x) ⬝ᵥ (MixMean w x - c)) = (w i • x i) ⬝ᵥ (MixMean w x - c) - w i * (MixMean w x ⬝ᵥ (MixMean w x - c)) := fun i => by
      rw [sub_dotProduct, smul_dotProduct, smul_eq_mul]; ring
    simp only [e]
    rw [Finset.sum_sub_distrib, ← Finset.sum_mul, hw.2, one_mul, ← sum_dotProduct]
    exact sub_self _
  have e : ∀ i, w i * ((x i - c) ⬝ᵥ (x i - c)) = w i * ((x i - MixMean w x) ⬝ᵥ (x i - MixMean w x))
      + (2 * (w i * ((x i - MixMean w x) ⬝ᵥ (MixMean w x - c))) + w i * ((MixMean w x - c) ⬝ᵥ (MixMean w x - c))) := fun i => by
    have : x i - c = (x i - MixMean w x) + (MixMean w x - c) := by abel
    rw [this]
    simp only [add_dotProduct, dotProduct_add, dotProduct_comm (MixMean w x - c) (x i - MixMean w x)]
    ring
  simp only [e]
  rw [Finset.sum_add_distrib, Finset.sum_add_distrib, ← Finset.mul_sum, h1, ← Finset.sum_mul, hw.2]
  linarith

theorem bank_last (H0 : Option (Mat m n)) (p : List (BankAct n m l)) (R : MatArg m) (H : Option (Mat m n))
    (d : Fin (measurements (p.map (BankAct.forFilter H0))) → Vec m) {s s' : MMAE (KF n m l) n N (Option (Vec m)) (Mat m n)}
    (hp : p.getLast? = some (.measure R H)) (h : runList (MmaeOp.run (kfClass Real.exp n m l)) s (bankCalls H0 p d) = .ok s') :
    s'.x = MixMean s'.p fun i => (s'.filters i).x := by
  induction p generalizing s with
  | nil => simp at hp
  | cons a p ih =>
    cases p with
    | nil =>
      obtain rfl : a = .measure R H := by simpa using hp
      simp only [bankCalls, runList, MmaeOp.run] at h
      split at h
      · obtain rfl := Except.ok.inj h
        rename_i h1
        exact (C33_state _ s _ _ _ _ h1).1
      · simp at h
    | cons b q =>
      have hp' : (b :: q).getLast? = some (.measure R H) := by rw [← hp]; simp
      cases a with
      | move u =>
        simp only [bankCalls, runList] at h
        split at h
        · exact ih d hp' h
        · simp at h
      | measure R' H' =>
        rw [bankCalls, runList] at h
        split at h
        · exact ih _ hp' h
        · simp at h

/-- The mean squared error of an estimator. -/
theorem chosen_error (h : BankPlanned s p) {alone : Fin N → (Fin (measurements (p.map (BankAct.forFilter s.H))) → Vec m) → KF n m l × ℝ}
    (ha : ∀ i d, listen (p.map (BankAct.forFilter s.H)) d (s.filters i) 0 = .ok (alone i d)) :
    ∃ V : Fin N → ENNReal, ∀ guess : (Fin (measurements (p.map (BankAct.forFilter s.H))) → Vec m) → Vec n, Measurable guess →
      ∫⁻ q, ENNReal.ofReal ((q.2.1 - guess q.2.2) ⬝ᵥ (q.2.1 - guess q.2.2)) ∂(chosen s p)
        = ∫⁻ d, ((∑ i, ENNReal.ofReal (s.p i) * (ENNReal.ofReal (Real.exp (alone i d).2) * V i))
            + ENNReal.ofReal (∑ i, (s.p i * Real.exp (alone i d).2) * (((alone i d).1.x - guess d) ⬝ᵥ ((alone i d).1.x - guess d)))) := by
  have hsq : ∀ e : Vec n, 0 ≤ e ⬝ᵥ e := fun e => Finset.sum_nonneg fun i _ => mul_self_nonneg _
  choose C hC hP hx hl hw using fun i => (by
    obtain ⟨⟨C, h1, h2⟩, h3, h4, h5⟩ := world_lintegral (h.filters i) (ha i)
    exact ⟨C, h1, h2, h3, h4, h5⟩ :
      ∃ C : Mat n n, C.PosSemidef ∧ (∀ d, (alone i d).1.P = C) ∧ (Measurable fun d => (alone i d).1.x) ∧ (Measurable fun d => (alone i d).2) ∧
        ∀ f : Vec n × (Fin (measurements (p.map (BankAct.forFilter s.H))) → Vec m) → ENNReal, Measurable f →
          ∫⁻ q, f q ∂(world (s.filters i) (p.map (BankAct.forFilter s.H)))
            = ∫⁻ d, ENNReal.ofReal (Real.exp (alone i d).2) * ∫⁻ v, f (v, d) ∂(normal (alone i d).1.x (alone i d).1.P))
  refine ⟨fun i => ∫⁻ v, ENNReal.ofReal (v ⬝ᵥ v) ∂(normal 0 (C i)), fun guess hg => ?_⟩
  have hm : ∀ i : Fin N, Measurable (Prod.mk i : Vec n × (Fin (measurements (p.map (BankAct.forFilter s.H))) → Vec m) → _) := fun i => measurable_prodMk_left
  have hf : Measurable fun q : Vec n × (Fin (measurements (p.map (BankAct.forFilter s.H))) → Vec m) =>
      ENNReal.ofReal ((q.1 - guess q.2) ⬝ᵥ (q.1 - guess q.2)) :=
    squared_penalty.measurable.comp (measurable_fst.sub (hg.comp measurable_snd))
  have hf' : Measurable fun q : Fin N × Vec n × (Fin (measurements (p.map (BankAct.forFilter s.H))) → Vec m) =>
      ENNReal.ofReal ((q.2.1 - guess q.2.2) ⬝ᵥ (q.2.1 - guess q.2.2)) := hf.comp measurable_snd
  have hd : ∀ i, Measurable fun d => ENNReal.ofReal (((alone i d).1.x - guess d) ⬝ᵥ ((alone i d).1.x - guess d)) := fun i =>
    squared_penalty.measurable.comp ((hx i).sub hg)
  have hi : ∀ i d, ∫⁻ v, ENNReal.ofReal ((v - guess d) ⬝ᵥ (v - guess d)) ∂(normal (alone i d).1.x (alone i d).1.P)
      = ∫⁻ v, ENNReal.ofReal (v ⬝ᵥ v) ∂(normal 0 (C i)) + ENNReal.ofReal (((alone i d).1.x - guess d) ⬝ᵥ ((alone i d).1.x - guess d)) := fun i d => by
    have hc : Measurable fun v : Vec n => ENNReal.ofReal ((v - (alone i d).1.x) ⬝ᵥ (v - (alone i d).1.x)) :=
      squared_penalty.measurable.comp (measurable_sub_const _)
    rw [hP, normal_distance _ _ (hC i), normal_lintegral _ (hC i) hc]
    simp only [add_sub_cancel_right]
  rw [chosen, lintegral_finsetSum_measure]
  have hterm : ∀ i, ∫⁻ q, ENNReal.ofReal ((q.2.1 - guess q.2.2) ⬝ᵥ (q.2.1 - guess q.2.2))
        ∂(ENNReal.ofReal (s.p i) • (world (s.filters i) (p.map (BankAct.forFilter s.H))).map (Prod.mk i))
      = ∫⁻ d, ENNReal.ofReal (s.p i) * (ENNReal.ofReal (Real.exp (alone i d).2) * (∫⁻ v, ENNReal.ofReal (v ⬝ᵥ v) ∂(normal 0 (C i))
          + ENNReal.ofReal (((alone i d).1.x - guess d) ⬝ᵥ ((alone i d).1.x - guess d)))) := fun i => by
    rw [lintegral_smul_measure, lintegral_map hf' (hm i), hw i _ hf, smul_eq_mul, lintegral_const_mul' _ _ ENNReal.ofReal_ne_top]
    simp only [hi]
  simp only [hterm]
  have hall : ∀ i ∈ Finset.univ, Measurable fun d => ENNReal.ofReal (s.p i) * (ENNReal.ofReal (Real.exp (alone i d).2)
      * (∫⁻ v, ENNReal.ofReal (v ⬝ᵥ v) ∂(normal 0 (C i)) + ENNReal.ofReal (((alone i d).1.x - guess d) ⬝ᵥ ((alone i d).1.x - guess d)))) := fun i _ =>
    ((hl i).exp.ennreal_ofReal.mul ((hd i).const_add _)).const_mul _
  rw [← lintegral_finsetSum _ hall]
  refine lintegral_congr fun d => ?_
  simp only [mul_add]
  rw [Finset.sum_add_distrib, ENNReal.ofReal_sum_of_nonneg fun i _ => mul_nonneg (mul_nonneg (h.dist.1 i) (Real.exp_pos _).le) (hsq _)]
  congr 1
  refine Finset.sum_congr rfl fun i _ => ?_
  rw [ENNReal.ofReal_mul (mul_nonneg (h.dist.1 i) (Real.exp_pos _).le), ENNReal.ofReal_mul (h.dist.1 i), mul_assoc]

/-- **C96, estimate.**  After a history that ends with an update, no way of estimating the true state from the measurements
has a smaller mean squared error than `bank.x`. -/
theorem C96_best (h : BankPlanned s p) (R : MatArg m) (H : Option (Mat m n)) (hlast : p.getLast? = some (.measure R H))
    (final : (Fin (measurements (p.map (BankAct.forFilter s.H))) → Vec m) → MMAE (KF n m l) n N (Option (Vec m)) (Mat m n))
    (hrun : ∀ d, runList (MmaeOp.run (kfClass Real.exp n m l)) s (bankCalls s.H p d) = .ok (final d))
    (guess : (Fin (measurements (p.map (BankAct.forFilter s.H))) → Vec m) → Vec n) (hg : Measurable guess) :
    ∫⁻ q, ENNReal.ofReal ((q.2.1 - (final q.2.2).x) ⬝ᵥ (q.2.1 - (final q.2.2).x)) ∂(chosen s p)
      ≤ ∫⁻ q, ENNReal.ofReal ((q.2.1 - guess q.2.2) ⬝ᵥ (q.2.1 - guess q.2.2)) ∂(chosen s p) := by
  obtain ⟨alone, ha, hxP, hp⟩ := bank_parts h hrun
  have hl : ∀ j, Measurable fun d => (alone j d).2 := fun j => (world_lintegral (h.filters j) (ha j)).2.2.1
  have hx : ∀ j, Measurable fun d => (alone j d).1.x := fun j => (world_lintegral (h.filters j) (ha j)).2.1
  have hsum : Measurable fun d => ∑ j, s.p j * Real.exp (alone j d).2 := Finset.measurable_sum _ fun j _ => (hl j).exp.const_mul _
  have hfx : ∀ d, (final d).x = MixMean (BayesRule s.p fun i => Real.exp (alone i d).2) fun i => (alone i d).1.x := fun d => by
    rw [bank_last s.H p R H d hlast (hrun d), hp d]
    simp only [fun i => (hxP i d).1]
  have hfm : Measurable fun d => (final d).x := by
    simp only [hfx, MixMean, BayesRule]
    exact Finset.measurable_sum _ fun i _ => (((hl i).exp.const_mul _).div hsum).smul (hx i)
  obtain ⟨V, hV⟩ := chosen_error h ha
  rw [hV _ hfm, hV _ hg]
  refine lintegral_mono fun d => add_le_add le_rfl (ENNReal.ofReal_le_ofReal ?_)
  obtain ⟨hpos, hdist⟩ := BayesRule.isDist h.dist fun j => Real.exp_pos (alone j d).2
  have hmix := mix_least hdist (fun i => (alone i d).1.x) (guess d)
  rw [← hfx d] at hmix
  have e : ∀ c : Vec n, ∑ i, (s.p i * Real.exp (alone i d).2) * (((alone i d).1.x - c) ⬝ᵥ ((alone i d).1.x - c))
      = (∑ j, s.p j * Real.exp (alone j d).2) * ∑ i, BayesRule s.p (fun i => Real.exp (alone i d).2) i * (((alone i d).1.x - c) ⬝ᵥ ((alone i d).1.x - c)) := fun c => by
    rw [Finset.mul_sum]
    refine Finset.sum_congr rfl fun i _ => ?_
    rw [← mul_assoc, BayesRule, mul_div_cancel₀ _ hpos.ne']
  rw [e, e]
  exact mul_le_mul_of_nonneg_left hmix hpos.le

/-- Is the target manoeuvring?  Two constant-velocity filters with different process noise. -/
noncomputable def manoeuvre (i : Fin 2) : KF 2 1 1 := { cvKF with B := none, Q := (i : ℝ) • 1 }

/-- A bank of the two, as constructed, and two steps of tracking. -/
example : ∃ s : MMAE (KF 2 1 1) 2 2 (Option (Vec 1)) (Mat 1 2),
    MMAE.init (kfClass Real.exp 2 1 1) manoeuvre (![9/10, 1/10] : Vec 2) 2 none = .ok s ∧
    BankPlanned s [.move none, .measure .none none, .move none, .measure (.scalar 4) none] := by
  refine ⟨{ filters := manoeuvre, p := ![9/10, 1/10], H := none, z := none, x := (manoeuvre 0).x, P := (manoeuvre 0).P
            xPrior := (manoeuvre 0).x, PPrior := (manoeuvre 0).P, xPost := (manoeuvre 0).x, PPost := (manoeuvre 0).P }, ?_, ?_⟩
  · unfold MMAE.init
    rw [dif_pos rfl, if_neg (by norm_num), dif_neg (by norm_num)]
    rfl
  · refine ⟨⟨fun i => by fin_cases i <;> norm_num, by norm_num [Fin.sum_univ_two]⟩, fun i => ⟨rfl, rfl, PosSemidef.one, fun a ha => ?_⟩, fun i _ => .inl rfl⟩
    have hQ : ((manoeuvre i).Q).PosSemidef := PosSemidef.one.smul (Nat.cast_nonneg _)
    simp only [List.map_cons, List.map_nil, List.mem_cons, List.not_mem_nil, or_false, BankAct.forFilter] at ha
    rcases ha with rfl | rfl | rfl | rfl
    · exact hQ
    · exact PosDef.one
    · exact hQ
    · exact PosDef.one.smul (by norm_num : (0 : ℝ) < 4)

end Filterpy
