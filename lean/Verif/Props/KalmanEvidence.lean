import Verif.Lemmas.NormalLaw
import Verif.Props.KalmanBayes
import Mathlib.MeasureTheory.Constructions.Pi
import Mathlib.MeasureTheory.Measure.ProbabilityMeasure
import Mathlib.Probability.Kernel.Composition.Prod

/-!
# C94: the filter computes the posterior distribution, and the log-likelihoods add up to the evidence
-/

namespace Filterpy

open MeasureTheory ProbabilityTheory Matrix Spec KF

variable {n m l k : ℕ}

theorem normal_shift (x : Vec n) {P : Mat n n} (hP : P.PosSemidef) : normal x P = (normal 0 P).map fun v => v + x := by
  have h := normal_affine 0 hP 1 x
  simp only [one_mulVec, mulVec_zero, zero_add, transpose_one, Matrix.mul_one, Matrix.one_mul] at h
  exact h.symm

theorem normal_lintegral (x : Vec n) {P : Mat n n} (hP : P.PosSemidef) {f : Vec n → ENNReal} (hf : Measurable f) :
    ∫⁻ v, f v ∂(normal x P) = ∫⁻ v, f (v + x) ∂(normal 0 P) := by
  rw [normal_shift x hP, lintegral_map hf (measurable_add_const x)]

theorem normal_measurable {P : Mat n n} (hP : P.PosSemidef) : Measurable fun x : Vec n => normal x P := by
  refine Measure.measurable_of_measurable_coe _ fun s hs => ?_
  have h : ∀ x, normal x P s = ∫⁻ v, s.indicator 1 (v + x) ∂(normal 0 P) := fun x => by
    rw [← normal_lintegral x hP (measurable_one.indicator hs), lintegral_indicator_one hs]
  simp only [h]
  have h2 : Measurable fun q : Vec n × Vec n => s.indicator (1 : Vec n → ENNReal) (q.2 + q.1) :=
    (measurable_one.indicator hs).comp (measurable_snd.add measurable_fst)
  exact h2.lintegral_prod_right'

theorem density_measurable {α : Type*} [MeasurableSpace α] {f g : α → Vec n} (C : Mat n n) (hf : Measurable f) (hg : Measurable g) :
    Measurable fun a => gaussDensity (f a) C (g a) := by
  have h : Measurable fun a => (f a, g a) := hf.prodMk hg
  have h2 := (gaussDensity_measurable C).comp h
  have e : (fun a => gaussDensity (f a) C (g a)) = (fun q : Vec n × Vec n => gaussDensity q.1 C q.2) ∘ fun a => (f a, g a) := rfl
  rw [e]
  exact h2

/-- Moving. -/
theorem normal_move (x b : Vec n) (F : Mat n n) {P Q : Mat n n} (hP : P.PosSemidef) (hQ : Q.PosSemidef) {f : Vec n → ENNReal} (hf : Measurable f) :
    ∫⁻ a, ∫⁻ v, f v ∂(normal (F *ᵥ a + b) Q) ∂(normal x P) = ∫⁻ v, f v ∂(normal (F *ᵥ x + b) (F * P * Fᵀ + Q)) := by
  have h2 : Measurable fun q : Vec n × Vec n => f (q.2 + q.1) := hf.comp (measurable_snd.add measurable_fst)
  have h3 : Measurable fun a : Vec n => ∫⁻ v, f (v + a) ∂(normal 0 Q) := h2.lintegral_prod_right'
  have e : ∀ a : Vec n, ∫⁻ v, f v ∂(normal (F *ᵥ a + b) Q) = ∫⁻ v, f (v + (F *ᵥ a + b)) ∂(normal 0 Q) := fun a => normal_lintegral _ hQ hf
  simp only [e]
  rw [← lintegral_map (g := fun a : Vec n => F *ᵥ a + b) h3 (affine_measurable F b), normal_affine _ hP]
  have h4 := normal_conv 0 (F *ᵥ x + b) hQ (PSD.congr hP F)
  rw [zero_add] at h4
  rw [add_comm (F * P * Fᵀ), ← h4, Measure.conv, lintegral_map hf measurable_add, lintegral_prod_symm _ (by fun_prop)]

/-- Integrating over `k + 1` measurements. -/
theorem lintegral_cons {f : (Fin (k + 1) → Vec m) → ENNReal} (hf : Measurable f) :
    ∫⁻ d, f d = ∫⁻ z, ∫⁻ d, f (Fin.cons z d) := by
  have h := volume_preserving_piFinSuccAbove (fun _ : Fin (k + 1) => Vec m) 0
  have h2 := h.symm.lintegral_comp (f := f) hf
  rw [← h2]
  rw [Measure.volume_eq_prod, lintegral_prod _ (by fun_prop)]
  refine lintegral_congr fun z => lintegral_congr fun d => congrArg f ?_
  exact Fin.insertNth_zero' z d

theorem cons_measurable : Measurable fun q : Vec m × (Fin k → Vec m) => (Fin.cons q.1 q.2 : Fin (k + 1) → Vec m) := by
  refine measurable_pi_iff.2 fun i => ?_
  refine Fin.cases ?_ (fun j => ?_) i
  · exact measurable_fst
  · exact (measurable_pi_apply j).comp measurable_snd

/-- Everything the user may say about the noise in a plan: covariances. -/
def Spec.Sound (kf : KF n m l) : Act n m l → Prop
  | .move _ _ _ Q => (Q.resolve kf.Q).PosSemidef
  | .measure R _ => (R.resolve kf.R).PosDef
  | .miss => True

theorem unfolds_ok (kf : KF n m l) (p : List (Act n m l)) (hp : ∀ a ∈ p, Sound kf a) :
    Measurable (unfolds kf p) ∧ ∀ x, IsProbabilityMeasure (unfolds kf p x) := by
  induction p with
  | nil =>
    refine ⟨?_, fun x => by unfold unfolds; infer_instance⟩
    exact Measure.measurable_dirac.comp (measurable_id.prodMk measurable_const)
  | cons a p ih =>
    obtain ⟨ih1, ih2⟩ := ih fun a ha => hp a (List.mem_cons_of_mem _ ha)
    have ha := hp a List.mem_cons_self
    cases a with
    | miss => exact ⟨ih1, ih2⟩
    | move u B F Q =>
      refine ⟨(Measure.measurable_bind' ih1).comp ((normal_measurable ha).comp (affine_measurable _ _)), fun x => ?_⟩
      exact MeasureTheory.isProbabilityMeasure_bind ih1.aemeasurable (Filter.Eventually.of_forall ih2)
    | measure R H =>
      have hm : Measurable fun q : Vec m × Vec n × (Fin (measurements p) → Vec m) =>
          ((q.2.1, Fin.cons q.1 q.2.2) : Vec n × (Fin (measurements p + 1) → Vec m)) :=
        (measurable_fst.comp measurable_snd).prodMk (cons_measurable.comp (measurable_fst.prodMk (measurable_snd.comp measurable_snd)))
      have hh : Measurable fun x : Vec n => H.getD kf.H *ᵥ x := by simpa using affine_measurable (H.getD kf.H) 0
      let κ : Kernel (Vec n) (Vec m) := ⟨fun x => normal (H.getD kf.H *ᵥ x) (R.resolve kf.R), (normal_measurable ha.posSemidef).comp hh⟩
      let η : Kernel (Vec n) (Vec n × (Fin (measurements p) → Vec m)) := ⟨unfolds kf p, ih1⟩
      have h1 : IsMarkovKernel κ := ⟨fun x => by change IsProbabilityMeasure (normal _ _); infer_instance⟩
      have h2 : IsMarkovKernel η := ⟨ih2⟩
      have e : ∀ x, unfolds kf (.measure R H :: p) x = ((κ ×ₖ η) x).map fun q => (q.2.1, Fin.cons q.1 q.2.2) := fun x => by
        rw [Kernel.prod_apply]; rfl
      refine ⟨?_, fun x => ?_⟩
      · rw [funext e]
        exact (Measure.measurable_map _ hm).comp (Kernel.measurable _)
      · rw [e]
        exact Measure.isProbabilityMeasure_map hm.aemeasurable

/-- `update` for a possibly singular covariance, and the log-likelihood read after it. -/
theorem update_semi (s : KF n m l) (z : Vec m) (R : MatArg m) (H : Option (Mat m n)) (hinv : s.inv = npInv) (hP : s.P.PosSemidef)
    (hR : (R.resolve s.R).PosDef) :
    ∃ s', s.update (some z) R H = .ok s' ∧
      s'.readLogLik.1 = Real.log (gaussDensity (H.getD s.H *ᵥ s.x) (H.getD s.H * (s.P * (H.getD s.H)ᵀ) + R.resolve s.R) z) ∧
      s'.x = s.x + (s.P * (H.getD s.H)ᵀ * (H.getD s.H * (s.P * (H.getD s.H)ᵀ) + R.resolve s.R)⁻¹) *ᵥ (z - H.getD s.H *ᵥ s.x) ∧
      s'.P = (1 - s.P * (H.getD s.H)ᵀ * (H.getD s.H * (s.P * (H.getD s.H)ᵀ) + R.resolve s.R)⁻¹ * H.getD s.H) * s.P ∧ s'.P.PosSemidef ∧
      s'.F = s.F ∧ s'.Q = s.Q ∧ s'.B = s.B ∧ s'.H = s.H ∧ s'.R = s.R ∧ s'.inv = s.inv ∧ s'.alphaSq = s.alphaSq := by
  have hS : (H.getD s.H * (s.P * (H.getD s.H)ᵀ) + R.resolve s.R).PosDef := S_pd hP hR
  have hok : ∃ s', s.update (some z) R H = .ok s' := by
    simp only [KF.update, hinv, npInv_of_det_ne (PD.det_ne hS)]
    exact ⟨_, rfl⟩
  obtain ⟨s', hs'⟩ := hok
  refine ⟨s', hs', ?_⟩
  obtain ⟨SI, h1, rfl⟩ := update_ok hs'
  rw [hinv] at h1
  obtain ⟨_, rfl⟩ := npInv_eq_some.1 h1
  refine ⟨?_, rfl, ?_, ?_, rfl, rfl, rfl, rfl, rfl, rfl, rfl⟩
  · simp only [readLogLik, logpdf, gaussDensity]
    have hd := hS.det_pos
    rw [Real.log_mul (by positivity) (Real.exp_ne_zero _), Real.log_exp, Real.log_inv,
      Real.log_sqrt (by positivity), Real.log_mul (by positivity) hd.ne', Real.log_pow]
    ring
  · exact joseph_simple (PSD.symm hP) rfl (nonsing_inv_mul _ (PD.isUnit_det hS)) (inv_symm (PD.symm hS)) rfl
  · exact (PSD.congr hP _).add (PSD.congr hR.posSemidef _)

/-- What never changes in a filter object, and its covariance. -/
structure TunedAs (kf s : KF n m l) (P : Mat n n) : Prop where
  F : s.F = kf.F
  Q : s.Q = kf.Q
  B : s.B = kf.B
  H : s.H = kf.H
  R : s.R = kf.R
  inv : s.inv = npInv
  alpha : s.alphaSq = 1
  P : s.P = P

/-- The measurement step of the next theorem. -/
theorem measured {P C : Mat n n} {R : Mat m m} {H : Mat m n} (hP : P.PosSemidef) (hR : R.PosDef)
    {η : Vec n → Measure (Vec n × (Fin k → Vec m))} (hu : Measurable η) (hup : ∀ x, IsProbabilityMeasure (η x))
    {est : Vec n × (Fin k → Vec m) → Vec n} {L : Vec n × (Fin k → Vec m) → ℝ} (h1 : Measurable est) (h2 : Measurable L) (hC : C.PosSemidef)
    (h4 : ∀ x (f : Vec n × (Fin k → Vec m) → ENNReal), Measurable f →
      ∫⁻ a, ∫⁻ q, f q ∂(η a) ∂(normal x ((1 - P * Hᵀ * (H * (P * Hᵀ) + R)⁻¹ * H) * P))
        = ∫⁻ d, ENNReal.ofReal (Real.exp (L (x, d))) * ∫⁻ v, f (v, d) ∂(normal (est (x, d)) C))
    (x : Vec n) {f : Vec n × (Fin (k + 1) → Vec m) → ENNReal} (hf : Measurable f) :
    ∫⁻ a, ∫⁻ q, f q ∂(((normal (H *ᵥ a) R).prod (η a)).map fun q => (q.2.1, Fin.cons q.1 q.2.2)) ∂(normal x P)
      = ∫⁻ d, ENNReal.ofReal (Real.exp (Real.log (gaussDensity (H *ᵥ x) (H * (P * Hᵀ) + R) (d 0))
            + L (x + (P * Hᵀ * (H * (P * Hᵀ) + R)⁻¹) *ᵥ (d 0 - H *ᵥ x), Fin.tail d)))
          * ∫⁻ v, f (v, d) ∂(normal (est (x + (P * Hᵀ * (H * (P * Hᵀ) + R)⁻¹) *ᵥ (d 0 - H *ᵥ x), Fin.tail d)) C) := by
  have hSpd : (H * (P * Hᵀ) + R).PosDef := S_pd hP hR
  set S := H * (P * Hᵀ) + R with hS
  set K := P * Hᵀ * S⁻¹ with hK
  have hh : Measurable fun x : Vec n => H *ᵥ x := by simpa using affine_measurable H 0
  have hk : Measurable fun y : Vec m => K *ᵥ y := by simpa using affine_measurable K 0
  let G : Vec m × Vec n × (Fin k → Vec m) → ENNReal := fun q => f (q.2.1, Fin.cons q.1 q.2.2)
  have hm : Measurable fun q : Vec m × Vec n × (Fin k → Vec m) =>
      ((q.2.1, Fin.cons q.1 q.2.2) : Vec n × (Fin (k + 1) → Vec m)) :=
    (measurable_fst.comp measurable_snd).prodMk (cons_measurable.comp (measurable_fst.prodMk (measurable_snd.comp measurable_snd)))
  have hG : Measurable G := hf.comp hm
  let κ : Kernel (Vec n) (Vec n × (Fin k → Vec m)) := ⟨η, hu⟩
  have hη : IsMarkovKernel κ := ⟨hup⟩
  let I : Vec n → Vec m → ENNReal := fun a z => ∫⁻ r, G (z, r) ∂(η a)
  have hI : Measurable (Function.uncurry I) := by
    have h : Measurable fun q : ((Vec n × Vec m) × (Vec n × (Fin k → Vec m))) => G (q.1.2, q.2) :=
      hG.comp ((measurable_snd.comp measurable_fst).prodMk measurable_snd)
    exact Measurable.lintegral_kernel_prod_right (κ := κ.comap Prod.fst measurable_fst) h
  have hdens : Measurable fun q : Vec n × Vec m => ENNReal.ofReal (gaussDensity (H *ᵥ q.1) R q.2) :=
    (density_measurable R (hh.comp measurable_fst) measurable_snd).ennreal_ofReal
  have e1 : ∀ a, ∫⁻ q, f q ∂(((normal (H *ᵥ a) R).prod (η a)).map fun q => (q.2.1, Fin.cons q.1 q.2.2))
      = ∫⁻ z, ENNReal.ofReal (gaussDensity (H *ᵥ a) R z) * I a z := fun a => by
    have := hup a
    have m1 : Measurable fun z : Vec m => ENNReal.ofReal (gaussDensity (H *ᵥ a) R z) :=
      (density_measurable R measurable_const measurable_id).ennreal_ofReal
    have m2 : Measurable (I a) := hI.comp (measurable_const.prodMk measurable_id)
    rw [lintegral_map hf hm, lintegral_prod _ hG.aemeasurable, normal_density _ hR]
    exact lintegral_withDensity_eq_lintegral_mul _ m1 m2
  simp only [e1]
  rw [lintegral_lintegral_swap (hdens.mul hI).aemeasurable]
  have e2 : ∀ z, ∫⁻ a, ENNReal.ofReal (gaussDensity (H *ᵥ a) R z) * I a z ∂(normal x P)
      = ∫⁻ d, ENNReal.ofReal (gaussDensity (H *ᵥ x) S z) * (ENNReal.ofReal (Real.exp (L (x + K *ᵥ (z - H *ᵥ x), d)))
        * ∫⁻ v, G (z, v, d) ∂(normal (est (x + K *ᵥ (z - H *ᵥ x), d)) C)) := fun z => by
    rw [normal_bayes hP hR H x z (g := fun a => I a z) (hI.comp (measurable_id.prodMk measurable_const)),
      lintegral_const_mul' _ _ ENNReal.ofReal_ne_top]
    congr 1
    exact h4 _ (fun r => G (z, r)) (hG.comp (measurable_const.prodMk measurable_id))
  simp only [e2]
  have ht : Measurable fun d : Fin (k + 1) → Vec m => (Fin.tail d : Fin k → Vec m) :=
    measurable_pi_iff.2 fun i => measurable_pi_apply i.succ
  have hstep : Measurable fun d : Fin (k + 1) → Vec m => ((x + K *ᵥ (d 0 - H *ᵥ x), Fin.tail d) : Vec n × (Fin k → Vec m)) :=
    (measurable_const.add (hk.comp ((measurable_pi_apply 0).sub_const _))).prodMk ht
  have hll : Measurable fun d : Fin (k + 1) → Vec m => Real.log (gaussDensity (H *ᵥ x) S (d 0)) :=
    (density_measurable S measurable_const (measurable_pi_apply 0)).log
  have hv : Measurable fun d : Fin (k + 1) → Vec m => ∫⁻ v, f (v, d) ∂(normal (est (x + K *ᵥ (d 0 - H *ᵥ x), Fin.tail d)) C) := by
    have e : ∀ d : Fin (k + 1) → Vec m, ∫⁻ v, f (v, d) ∂(normal (est (x + K *ᵥ (d 0 - H *ᵥ x), Fin.tail d)) C)
        = ∫⁻ v, f (v + est (x + K *ᵥ (d 0 - H *ᵥ x), Fin.tail d), d) ∂(normal 0 C) := fun d =>
      normal_lintegral _ hC (hf.comp (measurable_id.prodMk measurable_const))
    simp only [e]
    have h : Measurable fun q : (Fin (k + 1) → Vec m) × Vec n => f (q.2 + est (x + K *ᵥ (q.1 0 - H *ᵥ x), Fin.tail q.1), q.1) :=
      hf.comp ((measurable_snd.add ((h1.comp hstep).comp measurable_fst)).prodMk measurable_fst)
    exact h.lintegral_prod_right'
  have hall : Measurable fun d : Fin (k + 1) → Vec m =>
      ENNReal.ofReal (Real.exp (Real.log (gaussDensity (H *ᵥ x) S (d 0)) + L (x + K *ᵥ (d 0 - H *ᵥ x), Fin.tail d))) *
        ∫⁻ v, f (v, d) ∂(normal (est (x + K *ᵥ (d 0 - H *ᵥ x), Fin.tail d)) C) :=
    (hll.add (h2.comp hstep)).exp.ennreal_ofReal.mul hv
  rw [lintegral_cons hall]
  refine lintegral_congr fun z => lintegral_congr fun d => ?_
  simp only [Fin.cons_zero, Fin.tail_cons]
  have hpos := gaussDensity_pos (H *ᵥ x) z hSpd
  rw [← mul_assoc, ← ENNReal.ofReal_mul hpos.le, Real.exp_add, Real.exp_log hpos]

theorem listen_world (kf : KF n m l) (p : List (Act n m l)) (hp : ∀ a ∈ p, Sound kf a) {P : Mat n n} (hP : P.PosSemidef) :
    ∃ (C : Mat n n) (est : Vec n × (Fin (measurements p) → Vec m) → Vec n) (L : Vec n × (Fin (measurements p) → Vec m) → ℝ),
      C.PosSemidef ∧ Measurable est ∧ Measurable L ∧
      (∀ s : KF n m l, TunedAs kf s P → ∀ total d, ∃ s', listen p d s total = .ok (s', total + L (s.x, d)) ∧ s'.x = est (s.x, d) ∧ s'.P = C) ∧
      ∀ x (f : Vec n × (Fin (measurements p) → Vec m) → ENNReal), Measurable f →
        ∫⁻ a, ∫⁻ q, f q ∂(unfolds kf p a) ∂(normal x P)
          = ∫⁻ d, ENNReal.ofReal (Real.exp (L (x, d))) * ∫⁻ v, f (v, d) ∂(normal (est (x, d)) C) := by
  induction p generalizing P with
  | nil =>
    refine ⟨P, Prod.fst, fun _ => 0, hP, measurable_fst, measurable_const, fun s hs total d => ⟨s, ?_, rfl, hs.P⟩, fun x f hf => ?_⟩
    · rw [add_zero]; rfl
    · have e : ∀ d : Fin 0 → Vec m, d = Fin.elim0 := fun d => Subsingleton.elim _ _
      have h : (volume : Measure (Fin 0 → Vec m)) = .dirac Fin.elim0 := by
        rw [volume_pi, Measure.pi_of_empty]
        exact congrArg _ (Subsingleton.elim _ _)
      change _ = ∫⁻ d : Fin 0 → Vec m, _
      rw [h]
      simp only [unfolds, measurements]
      rw [lintegral_dirac]
      simp only [Real.exp_zero, ENNReal.ofReal_one, one_mul]
      exact lintegral_congr fun a => lintegral_dirac' _ hf
  | cons a p ih =>
    have hp' : ∀ a ∈ p, Sound kf a := fun a ha => hp a (List.mem_cons_of_mem _ ha)
    have ha := hp a List.mem_cons_self
    obtain ⟨hu, hup⟩ := unfolds_ok kf p hp'
    cases a with
    | miss =>
      obtain ⟨C, est, L, hC, h1, h2, h3, h4⟩ := ih hp' hP
      refine ⟨C, est, L, hC, h1, h2, fun s hs total d => ?_, h4⟩
      exact h3 s.updateNone ⟨hs.F, hs.Q, hs.B, hs.H, hs.R, hs.inv, hs.alpha, hs.P⟩ total d
    | move u B F Q =>
      set F' := F.getD kf.F with hF
      set Q' := Q.resolve kf.Q with hQ
      set b := controlEffect (B.or kf.B) u with hb
      obtain ⟨C, est, L, hC, h1, h2, h3, h4⟩ := ih hp' ((PSD.congr hP F').add ha)
      have hm : Measurable fun q : Vec n × (Fin (measurements p) → Vec m) => (F' *ᵥ q.1 + b, q.2) :=
        ((affine_measurable F' b).comp measurable_fst).prodMk measurable_snd
      refine ⟨C, fun q => est (F' *ᵥ q.1 + b, q.2), fun q => L (F' *ᵥ q.1 + b, q.2), hC, h1.comp hm, h2.comp hm, fun s hs total d => ?_, fun x f hf => ?_⟩
      · have e : s.predict (uArg u) B F Q = .ok { s with x := F' *ᵥ s.x + b, P := F' * P * F'ᵀ + Q', xPrior := F' *ᵥ s.x + b, PPrior := F' * P * F'ᵀ + Q' } := by
          simp only [KF.predict, hs.F, hs.Q, hs.B, hs.alpha, hs.P, one_smul, ← hF, ← hQ]
          cases hB : B.or kf.B <;> cases u <;> simp [KF.control, uArg, hb, hB, controlEffect]
        simp only [listen, e]
        exact h3 { s with x := F' *ᵥ s.x + b, P := F' * P * F'ᵀ + Q', xPrior := F' *ᵥ s.x + b, PPrior := F' * P * F'ᵀ + Q' }
          ⟨hs.F, hs.Q, hs.B, hs.H, hs.R, hs.inv, hs.alpha, rfl⟩ total d
      · have hg : Measurable fun v => ∫⁻ q, f q ∂(unfolds kf p v) := (Measure.measurable_lintegral hf).comp hu
        have e : ∀ a, ∫⁻ q, f q ∂(unfolds kf (.move u B F Q :: p) a) = ∫⁻ v, ∫⁻ q, f q ∂(unfolds kf p v) ∂(normal (F' *ᵥ a + b) Q') := fun a =>
          Measure.lintegral_bind hu.aemeasurable hf.aemeasurable
        simp only [e]
        rw [normal_move x b F' hP ha hg]
        exact h4 _ f hf
    | measure R H =>
      set H' := H.getD kf.H with hH
      set R' := R.resolve kf.R with hR
      set S := H' * (P * H'ᵀ) + R' with hS
      set K := P * H'ᵀ * S⁻¹ with hK
      have ha : R'.PosDef := ha
      have hSpd : S.PosDef := S_pd hP ha
      have hP' : ((1 - K * H') * P).PosSemidef := by
        rw [← joseph_simple (PSD.symm hP) hS (nonsing_inv_mul _ (PD.isUnit_det hSpd)) (inv_symm (PD.symm hSpd)) hK]
        exact (PSD.congr hP _).add (PSD.congr ha.posSemidef _)
      obtain ⟨C, est, L, hC, h1, h2, h3, h4⟩ := ih hp' hP'
      have hh : Measurable fun x : Vec n => H' *ᵥ x := by simpa using affine_measurable H' 0
      have hk : Measurable fun y : Vec m => K *ᵥ y := by simpa using affine_measurable K 0
      have hq : Measurable fun q : Vec n × Vec m => q.1 + K *ᵥ (q.2 - H' *ᵥ q.1) :=
        measurable_fst.add (hk.comp (measurable_snd.sub (hh.comp measurable_fst)))
      have hz : Measurable fun q : Vec n × (Fin (measurements p + 1) → Vec m) => q.2 0 := (measurable_pi_apply 0).comp measurable_snd
      have ht : Measurable fun d : Fin (measurements p + 1) → Vec m => (Fin.tail d : Fin (measurements p) → Vec m) :=
        measurable_pi_iff.2 fun i => measurable_pi_apply i.succ
      have hstep : Measurable fun q : Vec n × (Fin (measurements p + 1) → Vec m) =>
          ((q.1 + K *ᵥ (q.2 0 - H' *ᵥ q.1), Fin.tail q.2) : Vec n × (Fin (measurements p) → Vec m)) :=
        (hq.comp (measurable_fst.prodMk hz)).prodMk (ht.comp measurable_snd)
      have hll : Measurable fun q : Vec n × (Fin (measurements p + 1) → Vec m) => Real.log (gaussDensity (H' *ᵥ q.1) S (q.2 0)) :=
        (density_measurable S (hh.comp measurable_fst) hz).log
      refine ⟨C, fun q => est (q.1 + K *ᵥ (q.2 (0 : Fin (measurements p + 1)) - H' *ᵥ q.1), Fin.tail q.2),
        fun q => Real.log (gaussDensity (H' *ᵥ q.1) S (q.2 (0 : Fin (measurements p + 1)))) + L (q.1 + K *ᵥ (q.2 (0 : Fin (measurements p + 1)) - H' *ᵥ q.1), Fin.tail q.2),
        hC, h1.comp hstep, hll.add (h2.comp hstep), fun s hs total d => ?_, fun x f hf => ?_⟩
      · obtain ⟨s', e, e1, e2, e3, -, e4, e5, e6, e7, e8, e9, e10⟩ := update_semi s (d (0 : Fin (measurements p + 1))) R H hs.inv (by rw [hs.P]; exact hP) (by rw [hs.R]; exact ha)
        rw [hs.P, hs.H, hs.R] at e1 e2 e3
        have hr : ∃ t : KF n m l, s'.readLogLik.2 = t ∧ t.x = s'.x ∧ TunedAs kf t ((1 - K * H') * P) := by
          refine ⟨_, rfl, ?_, ?_⟩
          · rw [readLogLik_snd]
          · rw [readLogLik_snd]
            exact ⟨e4.trans hs.F, e5.trans hs.Q, e6.trans hs.B, e7.trans hs.H, e8.trans hs.R, e9.trans hs.inv, e10.trans hs.alpha, e3⟩
        obtain ⟨t, ht1, ht2, ht3⟩ := hr
        obtain ⟨s'', g1, g2, g3⟩ := h3 t ht3 (total + s'.readLogLik.1) (Fin.tail d)
        refine ⟨s'', ?_, ?_, g3⟩
        · have : listen (.measure R H :: p) d s total = listen p (Fin.tail d) s'.readLogLik.2 (total + s'.readLogLik.1) := by
            simp only [listen, e]; rfl
          rw [this, ht1, g1, ht2, e1, e2, add_assoc]
        · rw [g2, ht2, e2]
      · exact measured hP ha hu hup h1 h2 hC (fun x f hf => h4 x f hf) x hf

/-- A filter object as constructed, with its inverse and without fading memory, in whose plan all noise covariances
are covariances. -/
structure Spec.Planned (kf : KF n m l) (p : List (Act n m l)) : Prop where
  inv : kf.inv = npInv
  alpha : kf.alphaSq = 1
  P : kf.P.PosSemidef
  noise : ∀ a ∈ p, Sound kf a

theorem world_lintegral {kf : KF n m l} {p : List (Act n m l)} (h : Planned kf p)
    {final : (Fin (measurements p) → Vec m) → KF n m l × ℝ} (hrun : ∀ d, listen p d kf 0 = .ok (final d)) :
    (∃ C : Mat n n, C.PosSemidef ∧ ∀ d, (final d).1.P = C) ∧ (Measurable fun d => (final d).1.x) ∧ (Measurable fun d => (final d).2) ∧
    ∀ f : Vec n × (Fin (measurements p) → Vec m) → ENNReal, Measurable f →
      ∫⁻ q, f q ∂(world kf p)
        = ∫⁻ d, ENNReal.ofReal (Real.exp (final d).2) * ∫⁻ v, f (v, d) ∂(normal (final d).1.x (final d).1.P) := by
  obtain ⟨C, est, L, hC, h1, h2, h3, h4⟩ := listen_world kf p h.noise h.P
  have hf : ∀ d, (final d).2 = L (kf.x, d) ∧ (final d).1.x = est (kf.x, d) ∧ (final d).1.P = C := fun d => by
    obtain ⟨s', e1, e2, e3⟩ := h3 kf ⟨rfl, rfl, rfl, rfl, rfl, h.inv, h.alpha, rfl⟩ 0 d
    rw [hrun d, zero_add] at e1
    rw [Except.ok.inj e1]
    exact ⟨rfl, e2, e3⟩
  have hm : Measurable fun d : Fin (measurements p) → Vec m => (kf.x, d) := measurable_const.prodMk measurable_id
  refine ⟨⟨C, hC, fun d => (hf d).2.2⟩, ?_, ?_, fun f hfm => ?_⟩
  · simp only [fun d => (hf d).2.1]
    exact h1.comp hm
  · simp only [fun d => (hf d).1]
    exact h2.comp hm
  · rw [world, Measure.lintegral_bind (unfolds_ok kf p h.noise).1.aemeasurable hfm.aemeasurable, h4 kf.x f hfm]
    refine lintegral_congr fun d => ?_
    rw [(hf d).1, (hf d).2.1, (hf d).2.2]

/-- **C94.** The loop never fails, whatever is measured. -/
theorem C94_runs {kf : KF n m l} {p : List (Act n m l)} (h : Planned kf p) (d : Fin (measurements p) → Vec m) :
    ∃ r, listen p d kf 0 = .ok r := by
  obtain ⟨C, est, L, -, -, -, h3, -⟩ := listen_world kf p h.noise h.P
  obtain ⟨s', e, -⟩ := h3 kf ⟨rfl, rfl, rfl, rfl, rfl, h.inv, h.alpha, rfl⟩ 0 d
  exact ⟨_, e⟩

/-- **C94, evidence.**  The sum of `log_likelihood` over the history is the logarithm of the joint probability density
of all the measurements. -/
theorem C94_evidence {kf : KF n m l} {p : List (Act n m l)} (h : Planned kf p)
    (final : (Fin (measurements p) → Vec m) → KF n m l × ℝ) (hrun : ∀ d, listen p d kf 0 = .ok (final d)) :
    (world kf p).map Prod.snd = volume.withDensity fun d => ENNReal.ofReal (Real.exp (final d).2) := by
  obtain ⟨-, -, -, hw⟩ := world_lintegral h hrun
  ext s hs
  have hi : Measurable fun q : Vec n × (Fin (measurements p) → Vec m) => s.indicator (1 : (Fin (measurements p) → Vec m) → ENNReal) q.2 :=
    (measurable_one.indicator hs).comp measurable_snd
  rw [Measure.map_apply measurable_snd hs, ← lintegral_indicator_one (measurable_snd hs), withDensity_apply _ hs, ← lintegral_indicator hs]
  refine (hw _ hi).trans (lintegral_congr fun d => ?_)
  dsimp only
  rw [lintegral_const, measure_univ, mul_one]
  by_cases hd : d ∈ s <;> simp [hd]

/-- **C94, posterior.**  Whatever has been measured, the true state is then normal with mean `kf.x` and covariance
`kf.P`: the probability that the true state lies in `A` and the measurements in `D` is the mean, over the measurements
in `D`, of the probability of `A` under that normal distribution. -/
theorem C94_posterior {kf : KF n m l} {p : List (Act n m l)} (h : Planned kf p)
    (final : (Fin (measurements p) → Vec m) → KF n m l × ℝ) (hrun : ∀ d, listen p d kf 0 = .ok (final d))
    {A : Set (Vec n)} (hA : MeasurableSet A) {D : Set (Fin (measurements p) → Vec m)} (hD : MeasurableSet D) :
    world kf p (A ×ˢ D) = ∫⁻ d in D, normal (final d).1.x (final d).1.P A ∂((world kf p).map Prod.snd) := by
  obtain ⟨⟨C, hC, hP⟩, hx, hl, hw⟩ := world_lintegral h hrun
  have hn : Measurable fun d => normal (final d).1.x (final d).1.P A := by
    simp only [hP]
    exact (Measure.measurable_coe hA).comp ((normal_measurable hC).comp hx)
  have hi : Measurable ((A ×ˢ D).indicator (1 : Vec n × (Fin (measurements p) → Vec m) → ENNReal)) := measurable_one.indicator (hA.prod hD)
  rw [C94_evidence h final hrun, ← lintegral_indicator_one (hA.prod hD), hw _ hi, ← lintegral_indicator hD,
    lintegral_withDensity_eq_lintegral_mul _ hl.exp.ennreal_ofReal (hn.indicator hD)]
  refine lintegral_congr fun d => ?_
  rw [Pi.mul_apply]
  congr 1
  by_cases hd : d ∈ D
  · rw [Set.indicator_of_mem hd, ← lintegral_indicator_one hA]
    refine lintegral_congr fun v => ?_
    by_cases hv : v ∈ A <;> simp [hv, hd]
  · rw [Set.indicator_of_notMem hd]
    simp [hd]

/-! ## The best of all estimators -/

/-- A penalty for estimation errors: measurable, the same for `e` and `-e`, and convex (it suffices that the penalty at the
midpoint of two errors is at most the mean of their penalties).  For instance the squared error, the absolute error, the
largest absolute error of a component, or `0` for tolerable errors and `∞` for others. -/
structure Spec.Penalty (loss : Vec n → ENNReal) : Prop where
  measurable : Measurable loss
  even : ∀ e, loss (-e) = loss e
  convex : ∀ a b, 2 * loss ((1 / 2 : ℝ) • (a + b)) ≤ loss a + loss b

theorem normal_reflect (x : Vec n) {P : Mat n n} (hP : P.PosSemidef) {f : Vec n → ENNReal} (hf : Measurable f) :
    ∫⁻ v, f ((2 : ℝ) • x - v) ∂(normal x P) = ∫⁻ v, f v ∂(normal x P) := by
  have h := normal_affine x hP (-1) ((2 : ℝ) • x)
  have e1 : (-1 : Mat n n) *ᵥ x + (2 : ℝ) • x = x := by
    rw [neg_mulVec, one_mulVec, two_smul]; abel
  have e2 : (-1 : Mat n n) * P * (-1 : Mat n n)ᵀ = P := by simp
  rw [e1, e2] at h
  conv_rhs => rw [← h, lintegral_map hf (affine_measurable _ _)]
  refine lintegral_congr fun v => congrArg f ?_
  rw [neg_mulVec, one_mulVec]; abel

theorem normal_centre {loss : Vec n → ENNReal} (hl : Penalty loss) (x c : Vec n) {P : Mat n n} (hP : P.PosSemidef) :
    ∫⁻ v, loss (v - x) ∂(normal x P) ≤ ∫⁻ v, loss (v - c) ∂(normal x P) := by
  have hm : ∀ a : Vec n, Measurable fun v => loss (v - a) := fun a => hl.measurable.comp (measurable_sub_const a)
  have h := normal_reflect x hP (hm c)
  have h2 : 2 * ∫⁻ v, loss (v - x) ∂(normal x P) ≤ 2 * ∫⁻ v, loss (v - c) ∂(normal x P) := by
    calc 2 * ∫⁻ v, loss (v - x) ∂(normal x P) = ∫⁻ v, 2 * loss (v - x) ∂(normal x P) := (lintegral_const_mul _ (hm x)).symm
      _ ≤ ∫⁻ v, (loss (v - c) + loss ((2 : ℝ) • x - v - c)) ∂(normal x P) := by
          refine lintegral_mono fun v => ?_
          have hc := hl.convex (v - c) (-((2 : ℝ) • x - v - c))
          rw [hl.even] at hc
          refine le_trans (le_of_eq ?_) hc
          congr 2
          rw [two_smul]
          module
      _ = 2 * ∫⁻ v, loss (v - c) ∂(normal x P) := by
          rw [lintegral_add_left (hm c), h, two_mul]
  exact (ENNReal.mul_le_mul_iff_right two_ne_zero ENNReal.ofNat_ne_top).1 h2

/-- **C95.** No way of estimating the true state from the measurements, linear or not, has a smaller mean penalty than
`kf.x`, whatever the penalty. -/
theorem C95_best {kf : KF n m l} {p : List (Act n m l)} (h : Planned kf p)
    (final : (Fin (measurements p) → Vec m) → KF n m l × ℝ) (hrun : ∀ d, listen p d kf 0 = .ok (final d))
    {loss : Vec n → ENNReal} (hl : Penalty loss) (guess : (Fin (measurements p) → Vec m) → Vec n) (hg : Measurable guess) :
    ∫⁻ q, loss (q.1 - (final q.2).1.x) ∂(world kf p) ≤ ∫⁻ q, loss (q.1 - guess q.2) ∂(world kf p) := by
  obtain ⟨⟨C, hC, hP⟩, hx, -, hw⟩ := world_lintegral h hrun
  have m1 : Measurable fun q : Vec n × (Fin (measurements p) → Vec m) => loss (q.1 - (final q.2).1.x) :=
    hl.measurable.comp (measurable_fst.sub (hx.comp measurable_snd))
  have m2 : Measurable fun q : Vec n × (Fin (measurements p) → Vec m) => loss (q.1 - guess q.2) :=
    hl.measurable.comp (measurable_fst.sub (hg.comp measurable_snd))
  rw [hw _ m1, hw _ m2]
  refine lintegral_mono fun d => mul_le_mul_right (normal_centre hl (final d).1.x (guess d) ?_) _
  rw [hP]; exact hC

/-- The squared error is a penalty. -/
theorem squared_penalty : Penalty fun e : Vec n => ENNReal.ofReal (e ⬝ᵥ e) where
  measurable := (Continuous.dotProduct continuous_id continuous_id).measurable.ennreal_ofReal
  even e := by simp
  convex a b := by
    have h : ∀ e : Vec n, 0 ≤ e ⬝ᵥ e := fun e => Finset.sum_nonneg fun i _ => mul_self_nonneg _
    rw [← ENNReal.ofReal_add (h a) (h b), show (2 : ENNReal) = ENNReal.ofReal 2 by simp, ← ENNReal.ofReal_mul (by norm_num)]
    refine ENNReal.ofReal_le_ofReal ?_
    have h2 := h (a - b)
    simp only [smul_dotProduct, dotProduct_smul, add_dotProduct, dotProduct_add, sub_dotProduct, dotProduct_sub, smul_eq_mul] at h2 ⊢
    linarith

/-- So is the sum of the absolute errors of the components. -/
theorem absolute_penalty : Penalty fun e : Vec n => ENNReal.ofReal (∑ i, |e i|) where
  measurable := (Finset.measurable_sum _ fun i _ => (measurable_pi_apply i).abs).ennreal_ofReal
  even e := by simp
  convex a b := by
    rw [← ENNReal.ofReal_add (Finset.sum_nonneg fun i _ => abs_nonneg _) (Finset.sum_nonneg fun i _ => abs_nonneg _),
      show (2 : ENNReal) = ENNReal.ofReal 2 by simp, ← ENNReal.ofReal_mul (by norm_num), ← Finset.sum_add_distrib, Finset.mul_sum]
    refine ENNReal.ofReal_le_ofReal (Finset.sum_le_sum fun i _ => ?_)
    simp only [Pi.smul_apply, Pi.add_apply, smul_eq_mul, abs_mul]
    have := abs_add_le (a i) (b i)
    norm_num
    linarith

/-- A constant-velocity filter that starts with a position and a velocity it is certain of (`P = 0`), moves, is measured
twice with different accuracies, misses a measurement and moves again. -/
def certainPlan : List (Act 2 1 1) :=
  [.move none none none .none, .measure .none none, .miss, .measure (.scalar 3) none, .move none none none (.scalar 0)]

theorem certain_planned : Planned { cvKF with P := 0 } certainPlan where
  inv := rfl
  alpha := rfl
  P := PosSemidef.zero
  noise a ha := by
    simp only [certainPlan, List.mem_cons, List.not_mem_nil, or_false] at ha
    rcases ha with rfl | rfl | rfl | rfl | rfl
    · exact PosSemidef.one
    · exact PosDef.one
    · trivial
    · exact PosDef.one.smul (by norm_num : (0 : ℝ) < 3)
    · exact PosSemidef.one.smul le_rfl

example : ∃ final : (Fin 2 → Vec 1) → KF 2 1 1 × ℝ, (∀ d, listen certainPlan d { cvKF with P := 0 } 0 = .ok (final d)) ∧
    (world { cvKF with P := 0 } certainPlan).map Prod.snd = volume.withDensity fun d => ENNReal.ofReal (Real.exp (final d).2) := by
  choose final hf using C94_runs certain_planned
  exact ⟨final, hf, C94_evidence certain_planned final hf⟩

end Filterpy
