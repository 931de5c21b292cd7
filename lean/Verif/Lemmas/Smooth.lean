import Verif.Spec.Smoothing
import Verif.Lemmas.GaussInt

/-! # Recursive filtering and smoothing of a linear Gaussian chain -/

namespace Filterpy

open Matrix Spec MeasureTheory

variable {n m : ℕ}

/-- Bayes' rule for a linear observation of a normal variable. -/
theorem bayes_identity {P : Mat n n} {R : Mat m m} (H : Mat m n) (hP : P.PosDef) (hR : R.PosDef)
    (x X : Vec n) (z : Vec m) :
    gaussDensity x P X * gaussDensity (H *ᵥ X) R z =
      gaussDensity (x + (P * Hᵀ * (H * (P * Hᵀ) + R)⁻¹) *ᵥ (z - H *ᵥ x))
        ((1 - (P * Hᵀ * (H * (P * Hᵀ) + R)⁻¹) * H) * P) X *
      gaussDensity (H *ᵥ x) (H * (P * Hᵀ) + R) z := by
  have hSpd : (H * (P * Hᵀ) + R).PosDef := S_pd hP.posSemidef hR
  have hPpd := post_pd (H := H) hP hR
  have hdet := det_balance (H := H) hP hR
  have hexp := complete_square (H := H) hP hR (X - x) (z - H *ᵥ x)
  set S := H * (P * Hᵀ) + R
  set P' := (1 - (P * Hᵀ * S⁻¹) * H) * P
  unfold gaussDensity
  have hsq : ∀ {k j : ℕ} {A : Mat k k} {B : Mat j j}, A.PosDef → B.PosDef →
      (Real.sqrt ((2 * Real.pi) ^ k * A.det))⁻¹ * (Real.sqrt ((2 * Real.pi) ^ j * B.det))⁻¹
      = (Real.sqrt ((2 * Real.pi) ^ (k + j) * (A.det * B.det)))⁻¹ := by
    intro k j A B hA hB
    have := hA.det_pos
    have := hB.det_pos
    rw [← mul_inv, ← Real.sqrt_mul (by positivity)]
    congr 2; ring
  have e1 : z - H *ᵥ x - H *ᵥ (X - x) = z - H *ᵥ X := by
    rw [mulVec_sub]; abel
  have e2 : X - x - (P * Hᵀ * S⁻¹) *ᵥ (z - H *ᵥ x)
      = X - (x + (P * Hᵀ * S⁻¹) *ᵥ (z - H *ᵥ x)) := by abel
  rw [e1, e2] at hexp
  have comm : ∀ a b c d : ℝ, a * b * (c * d) = (a * c) * (b * d) := fun _ _ _ _ => by ring
  conv_lhs => rw [comm]
  conv_rhs => rw [comm]
  rw [hsq hP hR, hsq hPpd hSpd, hdet, ← Real.exp_add, ← Real.exp_add]
  congr 2
  linarith

theorem gaussDensity_congr {a b X Y : Vec n} (C : Mat n n) (h : X - a = Y - b) :
    gaussDensity a C X = gaussDensity b C Y := by
  unfold gaussDensity; rw [h]

/-- Total probability: a linear function of a normal variable plus independent normal noise. -/
theorem total_probability {P : Mat n n} {R : Mat m m} (H : Mat m n) (hP : P.PosDef)
    (hR : R.PosDef) (x : Vec n) (z : Vec m) :
    ∫ X, gaussDensity x P X * gaussDensity (H *ᵥ X) R z
      = gaussDensity (H *ᵥ x) (H * (P * Hᵀ) + R) z := by
  simp only [bayes_identity H hP hR]
  rw [integral_mul_const, gaussDensity_integral _ (post_pd hP hR), one_mul]

/-- The peak of a normal density is attained exactly at the mean. -/
theorem gaussDensity_le_peak {C : Mat n n} (hC : C.PosDef) (a X : Vec n) :
    gaussDensity a C X ≤ gaussDensity a C a ∧
      (gaussDensity a C X = gaussDensity a C a ↔ X = a) := by
  have hd := hC.det_pos
  have hc : 0 < (Real.sqrt ((2 * Real.pi) ^ n * C.det))⁻¹ := by positivity
  have hq := PSD.quad hC.inv.posSemidef (X - a)
  unfold gaussDensity
  constructor
  · refine mul_le_mul_of_nonneg_left (Real.exp_le_exp.2 ?_) hc.le
    rw [sub_self, mulVec_zero, dotProduct_zero]; linarith
  · constructor
    · intro h
      have h := Real.exp_injective (mul_left_cancel₀ hc.ne' h)
      by_contra hne
      have := PD.quad hC.inv (sub_ne_zero.2 hne)
      rw [sub_self, mulVec_zero, dotProduct_zero] at h
      linarith
    · rintro rfl; rfl

/-! ## The filter recursion -/

/-- Predicted mean. -/
noncomputable def predX (x : Vec n) (e : Step n m) : Vec n := e.F *ᵥ x + e.b

/-- Predicted covariance. -/
noncomputable def predP (P : Mat n n) (e : Step n m) : Mat n n := e.F * (P * e.Fᵀ) + e.Q

/-- One predict/update cycle in closed form. -/
noncomputable def filtStep (x : Vec n) (P : Mat n n) (e : Step n m) : Vec n × Mat n n :=
  match e.z with
  | none => (predX x e, predP P e)
  | some z =>
    let xp := predX x e
    let Pp := predP P e
    let K := Pp * e.Hᵀ * (e.H * (Pp * e.Hᵀ) + e.R)⁻¹
    (xp + K *ᵥ (z - e.H *ᵥ xp), (1 - K * e.H) * Pp)

/-- The noise covariances of a step are positive definite. -/
def Step.PD (e : Step n m) : Prop := e.Q.PosDef ∧ e.R.PosDef

theorem predP_pd {P : Mat n n} {e : Step n m} (hP : P.PosDef) (he : Step.PD e) :
    (predP P e).PosDef := S_pd hP.posSemidef he.1

theorem filtStep_pd {P : Mat n n} {e : Step n m} (x : Vec n) (hP : P.PosDef) (he : Step.PD e) :
    (filtStep x P e).2.PosDef := by
  unfold filtStep
  cases e.z with
  | none => exact predP_pd hP he
  | some z => exact post_pd (predP_pd hP he) he.2

/-- The updated density is the predicted density times the observation density, normalised. -/
theorem filtStep_obs {P : Mat n n} {e : Step n m} (x : Vec n) (hP : P.PosDef) (he : Step.PD e) :
    ∃ c : ℝ, 0 < c ∧ ∀ Y, gaussDensity (predX x e) (predP P e) Y * e.obs Y
      = c * gaussDensity (filtStep x P e).1 (filtStep x P e).2 Y := by
  unfold filtStep Step.obs
  cases e.z with
  | none => exact ⟨1, one_pos, fun Y => by simp⟩
  | some z =>
    refine ⟨gaussDensity (e.H *ᵥ predX x e) _ z,
      gaussDensity_pos _ _ (S_pd (H := e.H) (predP_pd hP he).posSemidef he.2), fun Y => ?_⟩
    rw [bayes_identity e.H (predP_pd hP he) he.2, mul_comm]

/-- Smoother gain. -/
noncomputable def sGain (P : Mat n n) (e : Step n m) : Mat n n := P * e.Fᵀ * (predP P e)⁻¹

/-- Covariance of the state given its successor. -/
noncomputable def sCov (P : Mat n n) (e : Step n m) : Mat n n := (1 - sGain P e * e.F) * P

theorem sCov_pd {P : Mat n n} {e : Step n m} (hP : P.PosDef) (he : Step.PD e) :
    (sCov P e).PosDef := post_pd hP he.1

/-- One step of the chain, rearranged: density of the state given its successor, times the
filtered density of the successor. -/
theorem step_identity {P : Mat n n} {e : Step n m} (x : Vec n) (hP : P.PosDef) (he : Step.PD e) :
    ∃ c : ℝ, 0 < c ∧ ∀ X Y, gaussDensity x P X * (e.trans X Y * e.obs Y)
      = c * (gaussDensity (x + sGain P e *ᵥ (Y - predX x e)) (sCov P e) X *
        gaussDensity (filtStep x P e).1 (filtStep x P e).2 Y) := by
  obtain ⟨c, hc, h⟩ := filtStep_obs x hP he
  refine ⟨c, hc, fun X Y => ?_⟩
  have hb := bayes_identity e.F hP he.1 x X (Y - e.b)
  have h := h Y
  have e1 : e.trans X Y = gaussDensity (e.F *ᵥ X) e.Q (Y - e.b) := gaussDensity_congr _ (by abel)
  have e2 : gaussDensity (e.F *ᵥ x) (e.F * (P * e.Fᵀ) + e.Q) (Y - e.b)
      = gaussDensity (predX x e) (predP P e) Y :=
    gaussDensity_congr _ (by unfold predX; abel)
  rw [← mul_assoc, e1, hb, e2, mul_assoc, h,
    show Y - e.b - e.F *ᵥ x = Y - predX x e by unfold predX; abel]
  unfold sCov sGain predP
  ring

/-- The smoothed mean and covariance of the present state, and of the coming ones. -/
noncomputable def smooth : Vec n → Mat n n → List (Step n m) →
    (Vec n × Mat n n) × List (Vec n × Mat n n)
  | x, P, [] => ((x, P), [])
  | x, P, e :: es =>
    let t := smooth (filtStep x P e).1 (filtStep x P e).2 es
    let K := sGain P e
    ((x + K *ᵥ (t.1.1 - predX x e), P + K * (t.1.2 - predP P e) * Kᵀ), t.1 :: t.2)

/-- Most probable trajectory. -/
theorem smooth_map (es : List (Step n m)) (x : Vec n) (P : Mat n n) (hP : P.PosDef)
    (hes : ∀ e ∈ es, Step.PD e) :
    ∃ M : ℝ, 0 < M ∧ ∀ X Ys, Ys.length = es.length →
      gaussDensity x P X * tailDensity X es Ys ≤ M ∧
      (gaussDensity x P X * tailDensity X es Ys = M ↔
        X = (smooth x P es).1.1 ∧ Ys = (smooth x P es).2.map Prod.fst) := by
  induction es generalizing x P with
  | nil =>
    refine ⟨_, gaussDensity_pos x x hP, fun X Ys hY => ?_⟩
    have hY : Ys = [] := List.length_eq_zero_iff.1 hY
    subst hY
    simpa [tailDensity, smooth] using gaussDensity_le_peak hP x X
  | cons e es ih =>
    have he := hes e (by simp)
    obtain ⟨c, hc, hid⟩ := step_identity x hP he
    have hD := sCov_pd hP he
    obtain ⟨M, hM, ih⟩ := ih (filtStep x P e).1 (filtStep x P e).2 (filtStep_pd x hP he)
      (fun e' h' => hes e' (by simp [h']))
    have hpk : ∀ a : Vec n, gaussDensity a (sCov P e) a = gaussDensity 0 (sCov P e) 0 :=
      fun a => gaussDensity_congr _ (by simp)
    have hpos : 0 < gaussDensity 0 (sCov P e) 0 := gaussDensity_pos 0 0 hD
    refine ⟨c * (gaussDensity 0 (sCov P e) 0 * M), by positivity, fun X Ys hY => ?_⟩
    cases Ys with
    | nil => simp at hY
    | cons Y Ys =>
      simp only [List.length_cons, add_left_inj] at hY
      obtain ⟨h1, h2⟩ := ih Y Ys hY
      obtain ⟨p1, p2⟩ := gaussDensity_le_peak hD (x + sGain P e *ᵥ (Y - predX x e)) X
      rw [hpk] at p1 p2
      have hX := gaussDensity_pos (x + sGain P e *ᵥ (Y - predX x e)) X hD
      have key : gaussDensity x P X * tailDensity X (e :: es) (Y :: Ys)
          = c * (gaussDensity (x + sGain P e *ᵥ (Y - predX x e)) (sCov P e) X *
            (gaussDensity (filtStep x P e).1 (filtStep x P e).2 Y * tailDensity Y es Ys)) := by
        simp only [tailDensity]
        rw [← mul_assoc, hid]; ring
      rw [key]
      set g := gaussDensity (x + sGain P e *ᵥ (Y - predX x e)) (sCov P e) X
      set T := gaussDensity (filtStep x P e).1 (filtStep x P e).2 Y * tailDensity Y es Ys
      have hle : g * T ≤ gaussDensity 0 (sCov P e) 0 * M :=
        (mul_le_mul_of_nonneg_left h1 hX.le).trans (mul_le_mul_of_nonneg_right p1 hM.le)
      refine ⟨mul_le_mul_of_nonneg_left hle hc.le, ?_⟩
      rw [mul_right_inj' hc.ne']
      have hiff : g * T = gaussDensity 0 (sCov P e) 0 * M ↔
          g = gaussDensity 0 (sCov P e) 0 ∧ T = M := by
        constructor
        · intro h
          have hT : T = M := by
            by_contra hne
            have hlt : T < M := lt_of_le_of_ne h1 hne
            have := mul_lt_mul_of_pos_left hlt hX
            have := mul_le_mul_of_nonneg_right p1 hM.le
            linarith
          refine ⟨?_, hT⟩
          rw [hT] at h
          exact mul_right_cancel₀ hM.ne' h
        · rintro ⟨a, b⟩; rw [a, b]
      rw [hiff, p2, h2]
      simp only [smooth, List.map_cons, List.cons.injEq]
      constructor
      · rintro ⟨rfl, rfl, rfl⟩; exact ⟨rfl, rfl, rfl⟩
      · rintro ⟨rfl, rfl, rfl⟩; exact ⟨rfl, rfl, rfl⟩

/-- The smoothed covariance as a sum. -/
theorem smooth_cov_eq {P : Mat n n} {e : Step n m} (hP : P.PosDef) (he : Step.PD e)
    (C : Mat n n) : P + sGain P e * (C - predP P e) * (sGain P e)ᵀ
      = sGain P e * (C * (sGain P e)ᵀ) + sCov P e := by
  have hS := predP_pd hP he
  have h : sGain P e * predP P e * (sGain P e)ᵀ = sGain P e * e.F * P := by
    have h1 : sGain P e * predP P e = P * e.Fᵀ := by
      unfold sGain
      rw [Matrix.mul_assoc, nonsing_inv_mul _ (PD.isUnit_det hS), Matrix.mul_one]
    rw [h1]
    unfold sGain
    simp only [transpose_mul, inv_symm (PD.symm hS), PD.symm hP, transpose_transpose,
      Matrix.mul_assoc]
  rw [Matrix.mul_sub, Matrix.sub_mul, h]
  unfold sCov
  rw [Matrix.sub_mul, Matrix.one_mul, Matrix.mul_assoc (sGain P e) C]
  abel

theorem smooth_pd (es : List (Step n m)) (x : Vec n) (P : Mat n n) (hP : P.PosDef)
    (hes : ∀ e ∈ es, Step.PD e) : (smooth x P es).1.2.PosDef ∧
      ∀ o ∈ (smooth x P es).2, o.2.PosDef := by
  induction es generalizing x P with
  | nil => exact ⟨hP, by simp [smooth]⟩
  | cons e es ih =>
    have he := hes e (by simp)
    obtain ⟨h1, h2⟩ := ih (filtStep x P e).1 (filtStep x P e).2 (filtStep_pd x hP he)
      (fun e' h' => hes e' (by simp [h']))
    refine ⟨?_, ?_⟩
    · simp only [smooth]
      rw [smooth_cov_eq hP he]
      exact S_pd h1.posSemidef (sCov_pd hP he)
    · intro o ho
      simp only [smooth, List.mem_cons] at ho
      rcases ho with rfl | ho
      · exact h1
      · exact h2 o ho

/-- Marginal of the present state given all observations. -/
theorem smooth_bwd (es : List (Step n m)) (x : Vec n) (P : Mat n n) (hP : P.PosDef)
    (hes : ∀ e ∈ es, Step.PD e) :
    ∃ c : ℝ, 0 < c ∧ ∀ X, gaussDensity x P X * bwd es X
      = c * gaussDensity (smooth x P es).1.1 (smooth x P es).1.2 X := by
  induction es generalizing x P with
  | nil => exact ⟨1, one_pos, fun X => by simp [bwd, smooth]⟩
  | cons e es ih =>
    have he := hes e (by simp)
    obtain ⟨c, hc, hid⟩ := step_identity x hP he
    have hD := sCov_pd hP he
    have hes' : ∀ e' ∈ es, Step.PD e' := fun e' h' => hes e' (by simp [h'])
    obtain ⟨c', hc', ih⟩ := ih (filtStep x P e).1 (filtStep x P e).2 (filtStep_pd x hP he) hes'
    have hpd := (smooth_pd es (filtStep x P e).1 (filtStep x P e).2 (filtStep_pd x hP he) hes').1
    refine ⟨c * c', by positivity, fun X => ?_⟩
    set t := smooth (filtStep x P e).1 (filtStep x P e).2 es with ht
    simp only [bwd]
    rw [← integral_const_mul]
    have : ∀ Y, gaussDensity x P X * (e.trans X Y * e.obs Y * bwd es Y)
        = (c * c') * (gaussDensity t.1.1 t.1.2 Y *
          gaussDensity (sGain P e *ᵥ Y) (sCov P e) (X - (x - sGain P e *ᵥ (predX x e)))) := by
      intro Y
      have e1 : gaussDensity (sGain P e *ᵥ Y) (sCov P e) (X - (x - sGain P e *ᵥ (predX x e)))
          = gaussDensity (x + sGain P e *ᵥ (Y - predX x e)) (sCov P e) X :=
        gaussDensity_congr _ (by rw [mulVec_sub]; abel)
      rw [e1]
      calc _ = gaussDensity x P X * (e.trans X Y * e.obs Y) * bwd es Y := by ring
        _ = c * (gaussDensity (x + sGain P e *ᵥ (Y - predX x e)) (sCov P e) X *
          (gaussDensity (filtStep x P e).1 (filtStep x P e).2 Y * bwd es Y)) := by rw [hid]; ring
        _ = _ := by rw [ih]; ring
    simp only [this]
    rw [integral_const_mul, total_probability _ hpd hD]
    simp only [smooth, ← ht]
    rw [smooth_cov_eq hP he]
    congr 1
    exact gaussDensity_congr _ (by rw [mulVec_sub]; abel)

/-- The filtered distribution of the last state, from the forward recursion. -/
noncomputable def filtAll : Vec n → Mat n n → List (Step n m) → Vec n × Mat n n
  | x, P, [] => (x, P)
  | x, P, e :: es => filtAll (filtStep x P e).1 (filtStep x P e).2 es

theorem filtAll_pd (es : List (Step n m)) (x : Vec n) (P : Mat n n) (hP : P.PosDef)
    (hes : ∀ e ∈ es, Step.PD e) : (filtAll x P es).2.PosDef := by
  induction es generalizing x P with
  | nil => exact hP
  | cons e es ih => exact ih _ _ (filtStep_pd x hP (hes e (by simp))) (fun e' h' => hes e' (by simp [h']))

theorem fwd_smul (es : List (Step n m)) (c : ℝ) (p : Vec n → ℝ) :
    fwd (fun X => c * p X) es = fun X => c * fwd p es X := by
  induction es generalizing c p with
  | nil => rfl
  | cons e es ih =>
    simp only [fwd]
    rw [← ih]
    congr 1
    funext Y
    rw [← mul_assoc, ← integral_const_mul]
    simp only [mul_assoc]

/-- Forward recursion: filtering density. -/
theorem fwd_filtAll (es : List (Step n m)) (x : Vec n) (P : Mat n n) (hP : P.PosDef)
    (hes : ∀ e ∈ es, Step.PD e) :
    ∃ c : ℝ, 0 < c ∧ ∀ X, fwd (gaussDensity x P) es X
      = c * gaussDensity (filtAll x P es).1 (filtAll x P es).2 X := by
  induction es generalizing x P with
  | nil => exact ⟨1, one_pos, fun X => by simp [fwd, filtAll]⟩
  | cons e es ih =>
    have he := hes e (by simp)
    obtain ⟨c, hc, hid⟩ := filtStep_obs x hP he
    obtain ⟨c', hc', ih⟩ := ih (filtStep x P e).1 (filtStep x P e).2 (filtStep_pd x hP he)
      (fun e' h' => hes e' (by simp [h']))
    refine ⟨c * c', by positivity, fun X => ?_⟩
    simp only [fwd, filtAll]
    have : (fun Y => (∫ X, gaussDensity x P X * e.trans X Y) * e.obs Y)
        = fun Y => c * gaussDensity (filtStep x P e).1 (filtStep x P e).2 Y := by
      funext Y
      rw [← hid]
      congr 1
      have e1 : ∀ X, e.trans X Y = gaussDensity (e.F *ᵥ X) e.Q (Y - e.b) :=
        fun X => gaussDensity_congr _ (by abel)
      simp only [e1]
      rw [total_probability e.F hP he.1 x]
      exact gaussDensity_congr _ (by unfold predX; abel)
    rw [this, fwd_smul]
    simp only [ih]; ring

end Filterpy
