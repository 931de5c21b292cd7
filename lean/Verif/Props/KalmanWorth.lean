import Verif.Spec.KalmanWorth
import Verif.Lemmas.DetIneq
import Mathlib.LinearAlgebra.Matrix.SchurComplement

/-!
# C136: what a measurement is worth

A measurement is worth the reduction of the entropy of the estimation error by the call `update`.  The theorems say how
much that is, that it adds up, that it diminishes as the filter becomes surer, and that the sum of it is bounded by a
logarithm of the number of measurements.
-/

namespace Filterpy

open Matrix MeasureTheory ProbabilityTheory Spec

variable {n m l : ℕ}

/-- **C136, entropy.**  The differential entropy of the normal law `N(x, P)`, that is the mean of `-log` of its density,
is `logVolume P` plus a constant that depends on the number of states only.  So differences of `logVolume` are differences
of entropy. -/
theorem C136_entropy (x : Vec n) {P : Mat n n} (hP : P.PosDef) :
    ∫ X : Vec n, -Real.log (gaussDensity x P X) ∂(normal x P)
      = Spec.logVolume P + n / 2 * (1 + Real.log (2 * Real.pi)) := by
  obtain ⟨h1, h2⟩ := normal_sq x hP
  have hd := hP.det_pos
  have e : ∀ X : Vec n, -Real.log (gaussDensity x P X)
      = Real.log ((2 * Real.pi) ^ n * P.det) / 2 + (1 / 2) * ((X - x) ⬝ᵥ (P⁻¹ *ᵥ (X - x))) := by
    intro X
    rw [gaussDensity, Real.log_mul (by positivity) (Real.exp_ne_zero _), Real.log_exp, Real.log_inv, Real.log_sqrt (by positivity)]
    ring
  simp only [e]
  rw [integral_add (integrable_const _) (h1.const_mul _), integral_const_mul, h2, integral_const]
  simp only [probReal_univ, one_smul]
  rw [Real.log_mul (by positivity) hd.ne', Real.log_pow, Spec.logVolume]
  ring

/-- What `update` does to the determinant of the covariance. -/
theorem update_det (s : KF n m l) (e : Meas n m) (hinv : s.inv = npInv) (hP : s.P.PosDef)
    (hR : (e.2.1.resolve s.R).PosDef) :
    ∃ s', s.update (some e.1) e.2.1 e.2.2 = .ok s' ∧ s'.P.PosDef ∧ s'.R = s.R ∧ s'.H = s.H ∧ s'.inv = npInv ∧
      s'.S = e.2.2.getD s.H * (s.P * (e.2.2.getD s.H)ᵀ) + e.2.1.resolve s.R ∧
      s'.P.det * s'.S.det = s.P.det * (e.2.1.resolve s.R).det ∧
      s'.P⁻¹ = s.P⁻¹ + Meas.info s.R s.H e ∧ (s.P - s'.P).PosSemidef := by
  obtain ⟨s', h, hS, -, -, -, hP', -⟩ := update_pd s e.1 e.2.1 e.2.2 hinv hP hR
  obtain ⟨SI, g1, g2⟩ := KF.update_ok h
  have hpd : s'.P.PosDef := by rw [hP', hS]; exact post_pd hP hR
  have hSpd : (e.2.2.getD s.H * (s.P * (e.2.2.getD s.H)ᵀ) + e.2.1.resolve s.R).PosDef := S_pd hP.posSemidef hR
  refine ⟨s', h, hpd, by rw [g2], by rw [g2], by rw [g2]; exact hinv, hS, ?_, ?_,
    (C05_update_reduces s s' (some e.1) e.2.1 e.2.2 hinv hP.posSemidef hR.posSemidef h).1⟩
  · rw [hP', det_mul]
    rw [← hS] at hSpd
    have hu : IsUnit s'.S.det := PD.isUnit_det hSpd
    rw [det_one_sub_mul_comm]
    have e1 : (1 - e.2.2.getD s.H * (s.P * (e.2.2.getD s.H)ᵀ * s'.S⁻¹)) * s'.S = e.2.1.resolve s.R := by
      rw [Matrix.sub_mul, Matrix.one_mul, Matrix.mul_assoc, Matrix.mul_assoc (s.P * _), nonsing_inv_mul _ hu,
        Matrix.mul_one]
      rw [sub_eq_iff_eq_add, add_comm]
      exact hS
    rw [← e1, det_mul]
    ring
  · rw [hP', hS]; exact post_inv hP hR

/-- **C136, what a measurement is worth.**  For a filter with a regular covariance and a measurement with regular noise
the call `update(z, R, H)` succeeds, and it reduces the entropy of the estimate by exactly `½ log(det S / det R)`, where
`S` is the attribute `kf.S` after the call.  This is never negative, it is zero exactly when `H = 0`, and it does not
depend on the value that was measured. -/
theorem C136_worth (s : KF n m l) (e : Meas n m) (hinv : s.inv = npInv) (hP : s.P.PosDef)
    (hR : (e.2.1.resolve s.R).PosDef) :
    ∃ s', s.update (some e.1) e.2.1 e.2.2 = .ok s' ∧
      worthOf s e = Real.log (s'.S.det / (e.2.1.resolve s.R).det) / 2 ∧
      0 ≤ worthOf s e ∧ (worthOf s e = 0 ↔ e.2.2.getD s.H = 0) ∧
      ∀ z', worthOf s (z', e.2) = worthOf s e := by
  obtain ⟨s', h, hpd, -, -, -, hS, hdet, -⟩ := update_det s e hinv hP hR
  have hw : worthOf s e = Real.log (s'.S.det / (e.2.1.resolve s.R).det) / 2 := by
    simp only [worthOf, h, logVolume]
    have h1 := hP.det_pos; have h2 := hpd.det_pos; have h3 := hR.det_pos
    have h4 : 0 < s'.S.det := by rw [hS]; exact (S_pd hP.posSemidef hR).det_pos
    rw [← sub_div, ← Real.log_div h1.ne' h2.ne']
    congr 2
    rw [div_eq_div_iff h2.ne' h3.ne']
    linarith
  have hPH : (e.2.2.getD s.H * (s.P * (e.2.2.getD s.H)ᵀ)).PosSemidef := by
    rw [← Matrix.mul_assoc]; exact PSD.congr hP.posSemidef _
  refine ⟨s', h, hw, ?_, ?_, fun z' => ?_⟩
  · rw [hw, hS, add_comm]
    have := det_add_ge hR hPH
    have h3 := hR.det_pos
    have : 1 ≤ (e.2.1.resolve s.R + e.2.2.getD s.H * (s.P * (e.2.2.getD s.H)ᵀ)).det / (e.2.1.resolve s.R).det := by
      rw [le_div_iff₀ h3]; linarith
    have := Real.log_nonneg this
    linarith
  · constructor
    · intro h0
      by_contra hne
      have hne' : e.2.2.getD s.H * (s.P * (e.2.2.getD s.H)ᵀ) ≠ 0 := by
        intro hz
        apply hne
        ext i j
        have hq : ∀ w : Vec m, (e.2.2.getD s.H)ᵀ *ᵥ w = 0 := by
          intro w
          by_contra hw0
          have := hP.dotProduct_mulVec_pos hw0
          rw [star_trivial, mulVec_mulVec, ← vecMul_transpose, transpose_transpose, ← dotProduct_mulVec, mulVec_mulVec,
            hz] at this
          simp at this
        have := congrFun (hq (Pi.single i 1)) j
        simpa using this
      have hlt := det_add_gt hR hPH hne'
      have h3 := hR.det_pos
      have : 1 < (e.2.1.resolve s.R + e.2.2.getD s.H * (s.P * (e.2.2.getD s.H)ᵀ)).det / (e.2.1.resolve s.R).det := by
        rw [lt_div_iff₀ h3]; linarith
      have := Real.log_pos this
      rw [hw, hS, add_comm] at h0
      linarith
    · intro h0
      rw [hw, hS, h0]
      simp [hR.det_pos.ne']
  · obtain ⟨s'', h', -, -, -, -, hS', hdet', -⟩ := update_det s (z', e.2) hinv hP hR
    have : s'.P.det = s''.P.det := by
      have h4 : 0 < s'.S.det := by rw [hS]; exact (S_pd hP.posSemidef hR).det_pos
      have hSS : s''.S = s'.S := by rw [hS, hS']
      rw [hSS] at hdet'
      exact mul_right_cancel₀ h4.ne' (hdet.trans hdet'.symm)
    simp only [worthOf] at *
    simp only [h, h', logVolume, this]

/-- **C136, total.**  In any sequence of updates all calls succeed, each measurement is worth a nonnegative amount, and
the amounts add up to the total reduction of the entropy. -/
theorem C136_total (ms : List (Meas n m)) (s : KF n m l) (hinv : s.inv = npInv) (hP : s.P.PosDef)
    (hR : ∀ e ∈ ms, (e.2.1.resolve s.R).PosDef) :
    ∃ s', updates s ms = .ok s' ∧ (worths s ms).length = ms.length ∧ (∀ w ∈ worths s ms, 0 ≤ w) ∧
      (worths s ms).sum = logVolume s.P - logVolume s'.P := by
  induction ms generalizing s with
  | nil => exact ⟨s, rfl, rfl, by simp [worths], by simp [worths]⟩
  | cons e ms ih =>
    obtain ⟨s1, h1, p1, r1, -, i1, -⟩ := update_det s e hinv hP (hR e (by simp))
    obtain ⟨-, -, -, h0, -⟩ := C136_worth s e hinv hP (hR e (by simp))
    obtain ⟨s', h2, h3, h4, h5⟩ := ih s1 i1 p1 fun e' he' => by rw [r1]; exact hR e' (by simp [he'])
    refine ⟨s', ?_, ?_, ?_, ?_⟩
    · simp only [updates, runList, h1]; exact h2
    · simp only [worths, h1, List.length_cons, h3]
    · intro w hw
      simp only [worths, h1, List.mem_cons] at hw
      rcases hw with rfl | hw
      · exact h0
      · exact h4 w hw
    · simp only [worths, h1, List.sum_cons, h5]
      simp only [worthOf, h1]
      ring

/-- **C136, order.**  Simultaneous measurements are together worth the same in whatever order they are processed,
although what each of them is worth depends on its place. -/
theorem C136_order (s : KF n m l) (ms ms' : List (Meas n m)) (hperm : ms.Perm ms') (hinv : s.inv = npInv)
    (hP : s.P.PosDef) (hR : ∀ e ∈ ms, (e.2.1.resolve s.R).PosDef) : (worths s ms).sum = (worths s ms').sum := by
  obtain ⟨s₁, h1, -, -, e1⟩ := C136_total ms s hinv hP hR
  obtain ⟨s₂, h2, -, -, e2⟩ := C136_total ms' s hinv hP fun e he => hR e (hperm.mem_iff.2 he)
  obtain ⟨t₁, t₂, g1, g2, -, g3⟩ := C75_order s ms ms' hperm hinv hP hR
  rw [h1] at g1; rw [h2] at g2
  cases g1; cases g2
  rw [e1, e2, g3]

/-- **C136, diminishing returns.**  The surer filter learns less from the same measurement. -/
theorem C136_diminishing (s t : KF n m l) (e : Meas n m) (his : s.inv = npInv) (hit : t.inv = npInv)
    (hP : s.P.PosDef) (hle : (t.P - s.P).PosSemidef) (hRR : s.R = t.R) (hHH : s.H = t.H)
    (hR : (e.2.1.resolve s.R).PosDef) : worthOf s e ≤ worthOf t e := by
  have hPt : t.P.PosDef := by
    have := hP.add_posSemidef hle
    rwa [add_sub_cancel] at this
  obtain ⟨s', h1, w1, -⟩ := C136_worth s e his hP hR
  obtain ⟨t', h2, w2, -⟩ := C136_worth t e hit hPt (hRR ▸ hR)
  obtain ⟨s'', g1, -, -, -, -, hS, -⟩ := update_det s e his hP hR
  obtain ⟨t'', g2, -, -, -, -, hT, -⟩ := update_det t e hit hPt (hRR ▸ hR)
  rw [h1] at g1; rw [h2] at g2
  cases g1; cases g2
  have hSpd : s'.S.PosDef := by rw [hS]; exact S_pd hP.posSemidef hR
  have hD : (e.2.2.getD s.H * (t.P - s.P) * (e.2.2.getD s.H)ᵀ).PosSemidef := PSD.congr hle _
  have hTS : t'.S = s'.S + e.2.2.getD s.H * (t.P - s.P) * (e.2.2.getD s.H)ᵀ := by
    rw [hT, hS, ← hHH, ← hRR]
    simp only [Matrix.mul_sub, Matrix.sub_mul, Matrix.mul_assoc]
    abel
  have hdet : s'.S.det ≤ t'.S.det := by rw [hTS]; exact det_add_ge hSpd hD
  rw [w1, w2, ← hRR]
  have h3 := hR.det_pos
  have := Real.log_le_log (div_pos hSpd.det_pos h3) (div_le_div_of_nonneg_right hdet h3.le)
  linarith

/-- **C136, no synergy.**  Several measurements are together worth at most as much as the sum of what each of them
would have been worth alone. -/
theorem C136_together (ms : List (Meas n m)) (s : KF n m l) (hinv : s.inv = npInv) (hP : s.P.PosDef)
    (hR : ∀ e ∈ ms, (e.2.1.resolve s.R).PosDef) : (worths s ms).sum ≤ (ms.map (worthOf s)).sum := by
  induction ms generalizing s with
  | nil => simp [worths]
  | cons e ms ih =>
    obtain ⟨s1, h1, p1, r1, q1, i1, -, -, -, hle⟩ := update_det s e hinv hP (hR e (by simp))
    have := ih s1 i1 p1 fun e' he' => by rw [r1]; exact hR e' (by simp [he'])
    simp only [worths, h1, List.sum_cons, List.map_cons]
    have h2 : (ms.map (worthOf s1)).sum ≤ (ms.map (worthOf s)).sum := by
      refine List.sum_le_sum fun e' he' => ?_
      exact C136_diminishing s1 s e' i1 hinv p1 hle r1 q1 (by rw [r1]; exact hR e' (by simp [he']))
    linarith

/-- **C136, predictions.**  `predict` changes the entropy by at least `log |det F| + n/2 · log α²`, and by exactly this
much without process noise: process noise can only cost information. -/
theorem C136_predict (s s' : KF n m l) (u : UArg l) (B : Option (Mat n l)) (F : Option (Mat n n)) (Q : MatArg n)
    (hP : s.P.PosDef) (hF : (F.getD s.F).det ≠ 0) (ha : 0 < s.alphaSq) (hQ : (Q.resolve s.Q).PosSemidef)
    (h : s.predict u B F Q = .ok s') :
    logVolume s.P + Real.log |(F.getD s.F).det| + n / 2 * Real.log s.alphaSq ≤ logVolume s'.P ∧
    (Q.resolve s.Q = 0 →
      logVolume s'.P = logVolume s.P + Real.log |(F.getD s.F).det| + n / 2 * Real.log s.alphaSq) := by
  have hP' : s'.P = s.alphaSq • (F.getD s.F * s.P * (F.getD s.F)ᵀ) + Q.resolve s.Q := by
    obtain ⟨_, g⟩ := KF.predict_ok h
    rw [g]
  have hpd : (s.alphaSq • (F.getD s.F * s.P * (F.getD s.F)ᵀ)).PosDef :=
    ((posDef_congr hF s.P).2 hP).smul ha
  have hvol : logVolume (s.alphaSq • (F.getD s.F * s.P * (F.getD s.F)ᵀ))
      = logVolume s.P + Real.log |(F.getD s.F).det| + n / 2 * Real.log s.alphaSq := by
    have h1 := hP.det_pos
    have e : (s.alphaSq • (F.getD s.F * s.P * (F.getD s.F)ᵀ)).det = s.alphaSq ^ n * (s.P.det * (F.getD s.F).det ^ 2) := by
      rw [det_smul, det_mul, det_mul, det_transpose, Fintype.card_fin]; ring
    rw [logVolume, e, Real.log_mul (by positivity) (by positivity), Real.log_mul h1.ne' (by positivity), Real.log_pow,
      Real.log_pow, Real.log_abs, logVolume]
    push_cast
    ring
  constructor
  · rw [← hvol, hP']
    have := Real.log_le_log hpd.det_pos (det_add_ge hpd hQ)
    simp only [logVolume]
    linarith
  · intro h0
    rw [hP', h0, add_zero, hvol]

/-- **C136, the budget.**  Whatever their number and order, measurements are together worth at most
`n/2 · log(1 + Σ tr(R⁻¹ H P Hᵀ)/n)`, where `P` is the covariance before the first of them: the information grows no
faster than the logarithm of the number of measurements. -/
theorem C136_budget (hn : 0 < n) (ms : List (Meas n m)) (s : KF n m l) (hinv : s.inv = npInv) (hP : s.P.PosDef)
    (hR : ∀ e ∈ ms, (e.2.1.resolve s.R).PosDef) :
    (worths s ms).sum ≤ n / 2 * Real.log (1 + (ms.map fun e =>
      ((e.2.1.resolve s.R)⁻¹ * (e.2.2.getD s.H * s.P * (e.2.2.getD s.H)ᵀ)).trace).sum / n) := by
  obtain ⟨s', h1, -, -, e1⟩ := C136_total ms s hinv hP hR
  obtain ⟨s'', h2, p2, i2, -⟩ := updates_info ms s hinv hP hR
  rw [h1] at h2; cases h2
  obtain ⟨C, hC, hCd⟩ := exists_sqrt hP
  have hX : (Cᵀ * s'.P⁻¹ * C).PosSemidef := PSD.congr' p2.inv.posSemidef C
  have hn' : (0 : ℝ) < n := by exact_mod_cast hn
  have hdet : (Cᵀ * s'.P⁻¹ * C).det = s.P.det / s'.P.det := by
    rw [← hC, det_mul, det_mul, det_mul, det_nonsing_inv, Ring.inverse_eq_inv']
    field_simp
  have htr : (Cᵀ * s'.P⁻¹ * C).trace = n + (ms.map fun e =>
      ((e.2.1.resolve s.R)⁻¹ * (e.2.2.getD s.H * s.P * (e.2.2.getD s.H)ᵀ)).trace).sum := by
    rw [Matrix.trace_mul_comm, ← Matrix.mul_assoc, hC, i2, Matrix.mul_add, trace_add,
      mul_nonsing_inv _ (PD.isUnit_det hP), trace_one, Fintype.card_fin]
    congr 1
    have : ∀ L : List (Meas n m), (s.P * (L.map (Meas.info s.R s.H)).sum).trace = (L.map fun e =>
        ((e.2.1.resolve s.R)⁻¹ * (e.2.2.getD s.H * s.P * (e.2.2.getD s.H)ᵀ)).trace).sum := by
      intro L
      induction L with
      | nil => simp
      | cons e L ih =>
        simp only [List.map_cons, List.sum_cons, Matrix.mul_add, trace_add, ih]
        congr 1
        simp only [Meas.info]
        generalize e.2.2.getD s.H = H
        generalize (e.2.1.resolve s.R)⁻¹ = Ri
        calc (s.P * (Hᵀ * Ri * H)).trace = ((s.P * Hᵀ * Ri) * H).trace := by simp only [Matrix.mul_assoc]
          _ = (H * (s.P * Hᵀ * Ri)).trace := Matrix.trace_mul_comm _ _
          _ = ((H * s.P * Hᵀ) * Ri).trace := by simp only [Matrix.mul_assoc]
          _ = (Ri * (H * s.P * Hᵀ)).trace := Matrix.trace_mul_comm _ _
    exact this ms
  have hle := det_le_trace_pow hn hX
  rw [hdet, htr] at hle
  have hpos : 0 < s.P.det / s'.P.det := div_pos hP.det_pos p2.det_pos
  have := Real.log_le_log hpos hle
  rw [Real.log_pow, Real.log_div hP.det_pos.ne' p2.det_pos.ne', add_div, div_self hn'.ne'] at this
  rw [e1, logVolume, logVolume]
  linarith

/-- **C136, few measurements are worth much.**  Of `N` measurements whose signal-to-noise ratio `tr(R⁻¹ H P Hᵀ)` is at
most `c`, the number of those worth at least `w` when it was their turn is at most `n log(1 + N c / n) / (2 w)`. -/
theorem C136_surprises (hn : 0 < n) (ms : List (Meas n m)) (s : KF n m l) (hinv : s.inv = npInv) (hP : s.P.PosDef)
    (hR : ∀ e ∈ ms, (e.2.1.resolve s.R).PosDef) {c w : ℝ} (hw : 0 < w)
    (hc : ∀ e ∈ ms, ((e.2.1.resolve s.R)⁻¹ * (e.2.2.getD s.H * s.P * (e.2.2.getD s.H)ᵀ)).trace ≤ c) :
    (((worths s ms).filter fun v => w ≤ v).length : ℝ) ≤ n * Real.log (1 + ms.length * c / n) / (2 * w) := by
  obtain ⟨s', -, -, h0, -⟩ := C136_total ms s hinv hP hR
  have hb := C136_budget hn ms s hinv hP hR
  have hn' : (0 : ℝ) < n := by exact_mod_cast hn
  have hcount : ∀ L : List ℝ, (∀ v ∈ L, 0 ≤ v) → ((L.filter fun v => w ≤ v).length : ℝ) * w ≤ L.sum := by
    intro L hL
    induction L with
    | nil => simp
    | cons v L ih =>
      have h1 := ih fun v hv => hL v (by simp [hv])
      have h2 := hL v (by simp)
      by_cases hv : w ≤ v
      · rw [List.filter_cons_of_pos (by simpa using hv), List.length_cons, List.sum_cons]
        push_cast
        linarith
      · rw [List.filter_cons_of_neg (by simpa using hv), List.sum_cons]
        linarith
  have hsum : (ms.map fun e => ((e.2.1.resolve s.R)⁻¹ * (e.2.2.getD s.H * s.P * (e.2.2.getD s.H)ᵀ)).trace).sum
      ≤ ms.length * c := by
    have := List.sum_le_card_nsmul (ms.map fun e =>
      ((e.2.1.resolve s.R)⁻¹ * (e.2.2.getD s.H * s.P * (e.2.2.getD s.H)ᵀ)).trace) c (by
        intro x hx
        obtain ⟨e, he, rfl⟩ := List.mem_map.1 hx
        exact hc e he)
    simpa [nsmul_eq_mul] using this
  have hnn : 0 ≤ (ms.map fun e =>
      ((e.2.1.resolve s.R)⁻¹ * (e.2.2.getD s.H * s.P * (e.2.2.getD s.H)ᵀ)).trace).sum := by
    refine List.sum_nonneg fun x hx => ?_
    obtain ⟨e, he, rfl⟩ := List.mem_map.1 hx
    obtain ⟨C, hC, -⟩ := exists_sqrt (hR e he).inv
    rw [← hC, Matrix.mul_assoc, Matrix.trace_mul_comm, Matrix.mul_assoc]
    have := (PSD.congr' (PSD.congr hP.posSemidef (e.2.2.getD s.H)) C).trace_nonneg
    rwa [Matrix.mul_assoc] at this
  have hlog : Real.log (1 + (ms.map fun e =>
      ((e.2.1.resolve s.R)⁻¹ * (e.2.2.getD s.H * s.P * (e.2.2.getD s.H)ᵀ)).trace).sum / n)
      ≤ Real.log (1 + ms.length * c / n) := by
    refine Real.log_le_log (by positivity) ?_
    have := div_le_div_of_nonneg_right hsum hn'.le
    linarith
  rw [le_div_iff₀ (by positivity)]
  have h3 := hcount _ h0
  have h4 := mul_le_mul_of_nonneg_left hlog (by positivity : (0 : ℝ) ≤ n / 2)
  nlinarith

/-! ### The hypotheses are met -/

/-- A new one-dimensional filter: `P = 1`, `R = 1`, `H = 1`. -/
noncomputable def unitKF : KF 1 1 0 := { KF.fresh 1 1 0 with H := 1 }

example : unitKF.inv = npInv ∧ unitKF.P.PosDef ∧ (MatArg.none.resolve unitKF.R).PosDef :=
  ⟨rfl, PosDef.one, PosDef.one⟩

/-- The first reading of a sensor as good as the prior is worth `½ log 2`, whatever is read. -/
example (z : Vec 1) : worthOf unitKF (z, .none, none) = Real.log 2 / 2 := by
  obtain ⟨s', h, hw, -⟩ := C136_worth unitKF (z, .none, none) rfl PosDef.one PosDef.one
  obtain ⟨s'', h', -, -, -, -, hS, -⟩ := update_det unitKF (z, .none, none) rfl PosDef.one PosDef.one
  rw [h] at h'; cases h'
  rw [hw, hS]
  simp [unitKF, KF.fresh, MatArg.resolve]
  norm_num

/-- Two readings are worth less than twice as much as one. -/
example (z z' : Vec 1) :
    (worths unitKF [(z, .none, none), (z', .none, none)]).sum ≤ Real.log 2 := by
  have h := C136_budget (n := 1) one_pos [(z, .none, none), (z', .none, none)] unitKF rfl PosDef.one
    (by intro e he; simp at he; rcases he with rfl | rfl <;> exact PosDef.one)
  refine h.trans ?_
  simp [unitKF, KF.fresh, MatArg.resolve]
  have h2 : Real.log (1 + (1 + 1)) ≤ Real.log (2 ^ 2) := Real.log_le_log (by norm_num) (by norm_num)
  rw [Real.log_pow, Nat.cast_ofNat] at h2
  generalize Real.log (1 + (1 + 1)) = a at h2 ⊢
  linarith

end Filterpy
