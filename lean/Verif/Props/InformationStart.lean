import Verif.Props.InformationFilter
import Verif.Props.KalmanMonotone

/-!
# InformationFilter started without prior information (`P_inv = 0`): C86
-/

namespace Filterpy

open Matrix

variable {n m l : ℕ}

/-- `X` explains the single measurement `z` best: it is the unique minimiser of the weighted
misfit `(z - H X)ᵀ R⁻¹ (z - H X)`. -/
def BestFit (H : Mat m n) (R : Mat m m) (z : Vec m) (X : Vec n) : Prop :=
  ∀ Y, Y ≠ X → sqLen R (z - H *ᵥ X) < sqLen R (z - H *ᵥ Y)

/-- The measurement determines the whole state. -/
def SeesAll (H : Mat m n) : Prop := ∀ v, H *ᵥ v = 0 → v = 0

theorem gram_pd {H : Mat m n} {R : Mat m m} (hR : R.PosDef) (hH : SeesAll H) :
    (Hᵀ * R⁻¹ * H).PosDef := by
  refine PD.of_quad ?_ fun v hv => ?_
  · rw [transpose_mul, transpose_mul, transpose_transpose, PD.symm hR.inv, Matrix.mul_assoc]
  · have h : H *ᵥ v ≠ 0 := fun h => hv (hH v h)
    have := PD.quad hR.inv h
    rwa [← mulVec_mulVec, ← mulVec_mulVec, dotProduct_mulVec, vecMul_transpose]

theorem gram_sees {H : Mat m n} {R : Mat m m} (h : (Hᵀ * R⁻¹ * H).det ≠ 0) : SeesAll H := by
  intro v hv
  have : (Hᵀ * R⁻¹ * H) *ᵥ v = 0 := by rw [← mulVec_mulVec, hv, mulVec_zero]
  have e : (Hᵀ * R⁻¹ * H)⁻¹ *ᵥ ((Hᵀ * R⁻¹ * H) *ᵥ v) = v := by
    rw [mulVec_mulVec, nonsing_inv_mul _ (isUnit_iff_ne_zero.2 h), one_mulVec]
  rw [← e, this, mulVec_zero]

theorem bestFit_normal {H : Mat m n} {R : Mat m m} (hR : R.PosDef) (hH : SeesAll H) (z : Vec m) :
    BestFit H R z ((Hᵀ * R⁻¹ * H)⁻¹ *ᵥ ((Hᵀ * R⁻¹) *ᵥ z)) := by
  set J := Hᵀ * R⁻¹ * H with hJ
  have hJp : J.PosDef := gram_pd hR hH
  set X := J⁻¹ *ᵥ ((Hᵀ * R⁻¹) *ᵥ z) with hX
  have hn : (Hᵀ * R⁻¹) *ᵥ (z - H *ᵥ X) = 0 := by
    rw [mulVec_sub, mulVec_mulVec, ← hJ, hX, mulVec_mulVec _ J, mul_nonsing_inv _ (PD.isUnit_det hJp),
      one_mulVec, sub_self]
  intro Y hY
  set d := X - Y with hd
  have hdn : d ≠ 0 := sub_ne_zero.2 hY.symm
  have e1 : z - H *ᵥ Y = (z - H *ᵥ X) + H *ᵥ d := by rw [hd, mulVec_sub]; abel
  have c1 : (H *ᵥ d) ⬝ᵥ (R⁻¹ *ᵥ (z - H *ᵥ X)) = 0 := by
    rw [← vecMul_transpose, ← dotProduct_mulVec, mulVec_mulVec, hn, dotProduct_zero]
  have c2 : (z - H *ᵥ X) ⬝ᵥ (R⁻¹ *ᵥ (H *ᵥ d)) = 0 := by
    rw [dotProduct_mulVec, ← mulVec_transpose, PD.symm hR.inv, dotProduct_comm]; exact c1
  have hp : 0 < (H *ᵥ d) ⬝ᵥ (R⁻¹ *ᵥ (H *ᵥ d)) := PD.quad hR.inv fun h => hdn (hH d h)
  rw [e1]
  simp only [sqLen, mulVec_add, dotProduct_add, add_dotProduct, c1, c2]
  linarith

theorem BestFit.unique {H : Mat m n} {R : Mat m m} {z : Vec m} {X Y : Vec n} (hX : BestFit H R z X)
    (hY : BestFit H R z Y) : X = Y := by
  by_contra h
  exact lt_asymm (hX Y (Ne.symm h)) (hY X h)

/-- **C86.** `update(z)` straight away on a filter without prior information (`P_inv = 0`), when
the measurement determines the state: whatever `x` was, it becomes the weighted least squares fit
of that one measurement, and `P_inv` its information.  If the measurement does not determine the
state, `LinAlgError` is raised with `x` and `P_inv` untouched. -/
theorem C86_update_first (expf : ℝ → ℝ) (a : IF n m l) (R : Mat m m) (hinv : a.inv = npInv)
    (h0 : a.Pinv = 0) (hi : a.noInformation = false) (hR : R.PosDef) (hRi : a.Rinv = R⁻¹)
    (hll : a.computeLL = false ∨ m = n ∨ m = 1) (z : Vec m) :
    (SeesAll a.H → ∃ a', a.update expf (some z) = .ok a' ∧ BestFit a.H R z a'.x ∧
      a'.Pinv = a.Hᵀ * R⁻¹ * a.H ∧ a'.xPost = a'.x ∧ a'.PinvPost = a'.Pinv) ∧
    (¬ SeesAll a.H → ∃ s, a.update expf (some z) = .error (.linAlgError, s) ∧ s.x = a.x ∧
      s.Pinv = a.Pinv) := by
  constructor
  · intro hH
    have hJ := gram_pd hR hH
    have hb := bestFit_normal hR hH z
    have hx : a.x + ((a.Hᵀ * R⁻¹ * a.H)⁻¹ * a.Hᵀ * R⁻¹) *ᵥ (z - a.H *ᵥ a.x) =
        (a.Hᵀ * R⁻¹ * a.H)⁻¹ *ᵥ ((a.Hᵀ * R⁻¹) *ᵥ z) := by
      have : ((a.Hᵀ * R⁻¹ * a.H)⁻¹ * a.Hᵀ * R⁻¹) *ᵥ (a.H *ᵥ a.x) = a.x := by
        rw [mulVec_mulVec, Matrix.mul_assoc _ a.Hᵀ, Matrix.mul_assoc, 
          nonsing_inv_mul _ (PD.isUnit_det hJ), one_mulVec]
      rw [mulVec_sub, this, Matrix.mul_assoc, ← mulVec_mulVec]; abel
    have hS : a.inv (a.Pinv + a.Hᵀ * a.Rinv * a.H) = some (a.Hᵀ * R⁻¹ * a.H)⁻¹ := by
      rw [hinv, h0, zero_add, hRi]; exact npInv_of_det_ne (PD.det_ne hJ)
    rcases Bool.eq_false_or_eq_true a.computeLL with hc | hc
    · obtain ⟨v, hv⟩ := llOf_ok (y := z - a.H *ᵥ a.x) (S := a.Pinv + a.Hᵀ * a.Rinv * a.H)
        (by simpa [hc] using hll)
      refine ⟨_, by simp only [IF.update, hi, MatArg.resolve, hS, hc, hv]; rfl, ?_, ?_, rfl, rfl⟩
      · show BestFit _ _ _ (a.x + _ *ᵥ _)
        rw [hRi, hx]; exact hb
      · show a.Pinv + _ = _
        rw [h0, zero_add, hRi]
    · refine ⟨_, by simp only [IF.update, hi, MatArg.resolve, hS, hc]; rfl, ?_, ?_, rfl, rfl⟩
      · show BestFit _ _ _ (a.x + _ *ᵥ _)
        rw [hRi, hx]; exact hb
      · show a.Pinv + _ = _
        rw [h0, zero_add, hRi]
  · intro hH
    have hS : a.inv (a.Pinv + a.Hᵀ * a.Rinv * a.H) = none := by
      rw [hinv, h0, zero_add, hRi, npInv_eq_none]
      by_contra h
      exact hH (gram_sees h)
    exact ⟨{ a with y := z - a.H *ᵥ a.x, S := a.Pinv + a.Hᵀ * a.Rinv * a.H },
      by simp only [IF.update, hi, MatArg.resolve, hS]; rfl, rfl, rfl⟩

/-- What `predict()` does when the information matrix is singular: `P_inv` is left alone, `x` is
replaced by an expression the next `update` multiplies by `P_inv`, and the filter switches to the
mode in which `x` is the information vector. -/
theorem C86_singular_predict (a : IF n m l) (F : Mat n n) (hinv : a.inv = npInv) (hF : a.F = some F)
    (hFi : a.Finv = some F⁻¹) (hdet : F.det ≠ 0) (h0 : a.Pinv.det = 0) (u : UArg l) :
    ((F⁻¹ᵀ * a.Pinv * F⁻¹ + a.Q).det ≠ 0 → ∃ a', a.predict u = .ok a' ∧ a'.Pinv = a.Pinv ∧
      a'.noInformation = true ∧ a'.xPrior = a'.x ∧
      a'.PinvPrior = (F⁻¹ᵀ * a.Pinv * F⁻¹ + a.Q)⁻¹ ∧
      a'.x = F⁻¹ᵀ *ᵥ ((1 - a.Pinv * F⁻¹) *ᵥ ((F⁻¹ᵀ * a.Pinv * F⁻¹ + a.Q)⁻¹ *ᵥ (F⁻¹ᵀ *ᵥ a.x))) ∧
      a' = { a with x := a'.x, xPrior := a'.xPrior, PinvPrior := a'.PinvPrior, noInformation := true }) ∧
    ((F⁻¹ᵀ * a.Pinv * F⁻¹ + a.Q).det = 0 →
      a.predict u = .error (.linAlgError, { a with noInformation := true })) := by
  have hA : a.inv (F⁻¹ᵀ * a.Pinv * F⁻¹) = none := by
    rw [hinv, npInv_eq_none, det_mul, det_mul, h0, mul_zero, zero_mul]
  have hFt : a.inv Fᵀ = some F⁻¹ᵀ := by
    rw [hinv, npInv_of_det_ne (by rwa [det_transpose]), transpose_nonsing_inv]
  constructor
  · intro h
    have hAQ : a.inv (F⁻¹ᵀ * a.Pinv * F⁻¹ + a.Q) = some (F⁻¹ᵀ * a.Pinv * F⁻¹ + a.Q)⁻¹ := by
      rw [hinv]; exact npInv_of_det_ne h
    refine ⟨{ a with
      x := F⁻¹ᵀ *ᵥ (((1 - a.Pinv * F⁻¹) * (F⁻¹ᵀ * a.Pinv * F⁻¹ + a.Q)⁻¹) *ᵥ (F⁻¹ᵀ *ᵥ a.x))
      xPrior := F⁻¹ᵀ *ᵥ (((1 - a.Pinv * F⁻¹) * (F⁻¹ᵀ * a.Pinv * F⁻¹ + a.Q)⁻¹) *ᵥ (F⁻¹ᵀ *ᵥ a.x))
      PinvPrior := (F⁻¹ᵀ * a.Pinv * F⁻¹ + a.Q)⁻¹, noInformation := true },
      by simp only [IF.predict, hF, hFi, hA, IF.predictNoInfo, hFt, hAQ], rfl, rfl, rfl, rfl, ?_, rfl⟩
    simp only [mulVec_mulVec, Matrix.mul_assoc]
  · intro h
    have hAQ : a.inv (F⁻¹ᵀ * a.Pinv * F⁻¹ + a.Q) = none := by
      rw [hinv]; exact npInv_eq_none.2 h
    simp only [IF.predict, hF, hFi, hA, IF.predictNoInfo, hFt, hAQ]

/-- While the information matrix is not used up, `predict` first turns the information vector
back into a state. -/
theorem predict_recover (a : IF n m l) (F : Mat n n) (hinv : a.inv = npInv) (hF : a.F = some F)
    (hFi : a.Finv = some F⁻¹) (hdet : F.det ≠ 0) (hP : a.Pinv.det ≠ 0) (hi : a.noInformation = true)
    (u : UArg l) :
    a.predict u = ({ a with x := a.Pinv⁻¹ *ᵥ a.x, noInformation := false } : IF n m l).predict u := by
  have hA : a.inv (F⁻¹ᵀ * a.Pinv * F⁻¹) = some (F⁻¹ᵀ * a.Pinv * F⁻¹)⁻¹ := by
    rw [hinv]
    refine npInv_of_det_ne ?_
    rw [det_mul, det_mul, det_transpose]
    have : F⁻¹.det ≠ 0 := by
      rw [det_nonsing_inv, Ring.inverse_eq_inv']; exact inv_ne_zero hdet
    exact mul_ne_zero (mul_ne_zero this hP) this
  have hPi : a.inv a.Pinv = some a.Pinv⁻¹ := by rw [hinv]; exact npInv_of_det_ne hP
  simp only [IF.predict, hF, hFi, hA, IF.recover, hi, hPi]
  rfl

/-- **C86.** A filter without prior information (`P_inv = 0`, any `x`) that is taken through
`predict()`, `update(z)`, `predict(u)` and any further calls.  With an invertible `F`, a positive
definite `Q` and a measurement that determines the state, it ends with the `x` and the `P_inv` of a
`KalmanFilter` that starts at the weighted least squares fit of `z`, with its covariance, and goes
through `predict(u)` and the further calls.  (See the `_refuted` theorems for what goes wrong
between the first `update` and the `predict`, or with two updates or less informative ones.) -/
theorem C86_start_partial (expf : ℝ → ℝ) (a : IF n m l) (F : Mat n n) (R : Mat m m) (hn : 0 < n)
    (hinv : a.inv = npInv) (hF : a.F = some F) (hFi : a.Finv = some F⁻¹) (hdet : F.det ≠ 0)
    (h0 : a.Pinv = 0) (hQ : a.Q.PosDef) (hR : R.PosDef) (hRi : a.Rinv = R⁻¹) (hH : SeesAll a.H)
    (hll : a.computeLL = false ∨ m = n ∨ m = 1) (z : Vec m) :
    ∃ b : KF n m l, BestFit a.H R z b.x ∧ b.P = (a.Hᵀ * R⁻¹ * a.H)⁻¹ ∧ b.F = F ∧ b.H = a.H ∧
      b.R = R ∧ b.Q = a.Q ∧ b.B = a.B ∧ b.alphaSq = 1 ∧ b.inv = npInv ∧
      ∀ (u : Option (Vec l)) (ops : List (InfoOp m l)), CtrlShaped a.B u → (∀ op ∈ ops, op.Good n a.B) →
        ∃ a' b', runList (InfoOp.onIF expf) a
            (.predict none :: .update (some z) none :: .predict u :: ops) = .ok a' ∧
          runList InfoOp.onKF b (.predict u :: ops) = .ok b' ∧
          a'.x = b'.x ∧ a'.Pinv = b'.P⁻¹ ∧ a'.noInformation = false := by
  have hJ := gram_pd hR hH
  have hd0 : a.Pinv.det = 0 := by
    rw [h0]; have : Nonempty (Fin n) := ⟨⟨0, hn⟩⟩; exact det_zero
  have hAQ : (F⁻¹ᵀ * a.Pinv * F⁻¹ + a.Q).det ≠ 0 := by
    rw [h0, Matrix.mul_zero, Matrix.zero_mul, zero_add]; exact PD.det_ne hQ
  obtain ⟨a1, p1, q1, q2, q3, q4, q5, q6⟩ :=
    (C86_singular_predict a F hinv hF hFi hdet hd0 (.scalar 0)).1 hAQ
  have i1 : a1.inv = npInv := by rw [q6]; exact hinv
  have i2 : a1.H = a.H := by rw [q6]
  have i3 : a1.Rinv = R⁻¹ := by rw [q6]; exact hRi
  have i4 : a1.F = some F := by rw [q6]; exact hF
  have i5 : a1.Finv = some F⁻¹ := by rw [q6]; exact hFi
  have i6 : a1.Q = a.Q := by rw [q6]
  have i7 : a1.B = a.B := by rw [q6]
  have i8 : a1.computeLL = a.computeLL := by rw [q6]
  clear q6
  obtain ⟨a2, p2, r1, r2, r3, r4, r5, r6, r7, r8, r9, r10, r11, r12, r13⟩ : ∃ a2, a1.update expf (some z) = .ok a2 ∧
      a2.x = (a.Hᵀ * R⁻¹) *ᵥ z ∧ a2.Pinv = a.Hᵀ * R⁻¹ * a.H ∧ a2.noInformation = true ∧
      a2.inv = npInv ∧ a2.H = a.H ∧ a2.Rinv = R⁻¹ ∧ a2.F = some F ∧ a2.Finv = some F⁻¹ ∧
      a2.Q = a.Q ∧ a2.B = a.B ∧ a2.computeLL = a.computeLL ∧
      a2.PinvPost = a.Hᵀ * R⁻¹ * a.H ∧ a2.PinvPrior = a.Q⁻¹ := by
    refine ⟨{ a1 with
      x := a1.Pinv *ᵥ a1.x + (a1.Hᵀ * a1.Rinv) *ᵥ z, Pinv := a1.Pinv + a1.Hᵀ * a1.Rinv * a1.H
      logLik := Real.log floatMin, lik := floatMin, z := some z
      xPost := a1.Pinv *ᵥ a1.x + (a1.Hᵀ * a1.Rinv) *ᵥ z, PinvPost := a1.Pinv + a1.Hᵀ * a1.Rinv * a1.H },
      by simp only [IF.update, q2, MatArg.resolve, if_true], ?_, ?_, q2, i1, i2, i3, i4, i5, i6, i7,
      i8, ?_, ?_⟩
    · show a1.Pinv *ᵥ a1.x + _ = _
      rw [q1, h0, zero_mulVec, zero_add, i2, i3]
    · show a1.Pinv + _ = _
      rw [q1, h0, zero_add, i2, i3]
    · show a1.Pinv + _ = _
      rw [q1, h0, zero_add, i2, i3]
    · show a1.PinvPrior = _
      rw [q4, h0, Matrix.mul_zero, Matrix.zero_mul, zero_add]
  have hJd : a2.Pinv.det ≠ 0 := by rw [r2]; exact PD.det_ne hJ
  let b : KF n m l := { KF.fresh n m l with
    x := (a.Hᵀ * R⁻¹ * a.H)⁻¹ *ᵥ ((a.Hᵀ * R⁻¹) *ᵥ z), P := (a.Hᵀ * R⁻¹ * a.H)⁻¹, F := F, H := a.H,
    R := R, Q := a.Q, B := a.B, xPrior := a2.xPrior, PPrior := a.Q, xPost := a2.xPost,
    PPost := (a.Hᵀ * R⁻¹ * a.H)⁻¹, K := a2.K }
  have hrec : InfoRec ({ a2 with x := a2.Pinv⁻¹ *ᵥ a2.x, noInformation := false } : IF n m l) b := by
    have e := nonsing_inv_nonsing_inv _ (PD.isUnit_det hJ)
    refine ⟨⟨?_, ?_, hJ.inv, r7, r8, hdet, r9, hQ.posSemidef, r5, r6, hR, r10, rfl, ?_, r4, rfl, rfl⟩,
      rfl, r13, rfl, ?_, rfl⟩
    · show a2.Pinv⁻¹ *ᵥ a2.x = _
      rw [r1, r2]
    · show a2.Pinv = (a.Hᵀ * R⁻¹ * a.H)⁻¹⁻¹
      rw [r2, e]
    · show a2.computeLL = false ∨ _
      rw [r11]; exact hll
    · show a2.PinvPost = (a.Hᵀ * R⁻¹ * a.H)⁻¹⁻¹
      rw [r12, e]
  refine ⟨b, bestFit_normal hR hH z, rfl, rfl, rfl, rfl, rfl, rfl, rfl, rfl, fun u ops hu hops => ?_⟩
  obtain ⟨a', b', g1, g2, g3, g4, -, -, g5⟩ := C27_info_filter_partial expf _ b hrec (.predict u :: ops)
    (fun op hop => by
      rcases List.mem_cons.1 hop with rfl | hop
      · exact hu
      · exact hops op hop)
  refine ⟨a', b', ?_, g2, g3, g4, g5.same.info⟩
  have e1 : InfoOp.onIF expf a (.predict none) = .ok a1 := p1
  have e2 : InfoOp.onIF expf a1 (.update (some z) none) = .ok a2 := p2
  have e3 : InfoOp.onIF expf a2 (.predict u) = InfoOp.onIF expf
      ({ a2 with x := a2.Pinv⁻¹ *ᵥ a2.x, noInformation := false } : IF n m l) (.predict u) :=
    predict_recover a2 F r4 r7 r8 hdet hJd r3 _
  simp only [runList, e1, e2, e3]
  exact g1

/-- Non-vacuity of C86: two states observed separately through a sensor that mixes them; after the
start the filter goes on with a missing measurement. -/
example : ∃ b : KF 2 2 1, BestFit (!![1, 1; 0, 1] : Mat 2 2) 1 ![1, 2] b.x ∧
    ∃ a' b', runList (InfoOp.onIF Real.exp)
        ({ IF.fresh 2 2 1 with Pinv := 0, F := some 1, Finv := some 1, H := !![1, 1; 0, 1] } : IF 2 2 1)
        [.predict none, .update (some ![1, 2]) none, .predict none, .update none none] = .ok a' ∧
      runList InfoOp.onKF b [.predict none, .update none none] = .ok b' ∧ a'.x = b'.x := by
  have hH : SeesAll (!![1, 1; 0, 1] : Mat 2 2) := by
    intro v hv
    have h0 := congrFun hv 0
    have h1 := congrFun hv 1
    simp [mulVec, dotProduct, Fin.sum_univ_two] at h0 h1
    ext i; fin_cases i
    · show v 0 = 0
      linarith
    · exact h1
  obtain ⟨b, h1, -, -, -, -, -, -, -, -, h2⟩ := C86_start_partial Real.exp
    ({ IF.fresh 2 2 1 with Pinv := 0, F := some 1, Finv := some 1, H := !![1, 1; 0, 1] } : IF 2 2 1)
    1 1 (by norm_num) rfl rfl (by simp) (by simp) rfl PosDef.one PosDef.one (by simp [IF.fresh]) hH
    (Or.inr (Or.inl rfl)) ![1, 2]
  obtain ⟨a', b', g1, g2, g3, -⟩ := h2 none [.update none none] (Or.inl rfl) (by simp [InfoOp.Good])
  exact ⟨b, h1, a', b', g1, g2, g3⟩

theorem runList_step {σ ο : Type} {step : σ → ο → Exec σ} {s s1 : σ} {op : ο} {ops : List ο}
    (h : step s op = .ok s1) : runList step s (op :: ops) = runList step s1 ops := by
  simp only [runList, h]

/-- One state, `H = F = Q = 1` and measurement variance `1/2`, no prior information. -/
noncomputable def blank1 : IF 1 1 1 :=
  { IF.fresh 1 1 1 with
    x := vc 0, Pinv := sc 0, Q := sc 1, F := some (sc 1), Finv := some (sc 1), H := sc 1, Rinv := sc 2 }

theorem blank1_predict : blank1.predict =
    .ok { blank1 with noInformation := true, xPrior := vc 0, PinvPrior := sc 1 } := by
  simp only [IF.predict, blank1, IF.fresh, IF.predictNoInfo, sc_mul, sc_transpose, mul_zero, mul_one,
    sc_npInv_zero, sc_npInv 1 one_ne_zero, inv_one, sc_add, zero_add, sc_mulVec, sc_one, sc_sub, sub_zero]

/-- **C86 refuted** for the value reported after the first `update`: `x` is then the information
vector `Hᵀ R⁻¹ z`, not the estimate (a measurement of `1` with variance `1/2` makes `x = 2`). -/
theorem C86_reported_refuted :
    ∃ s, runList (InfoOp.onIF Real.exp) blank1 [.predict none, .update (some (vc 1)) none] = .ok s ∧
      s.x = vc 2 ∧ blank1.Rinv = (sc 2⁻¹)⁻¹ ∧ BestFit blank1.H (sc 2⁻¹) (vc 1) (vc 1) := by
  have e1 : blank1.predict (uZero none) = .ok _ := blank1_predict
  have e2 : (sc 2⁻¹)⁻¹ = sc 2 := by rw [sc_inv _ (by norm_num), inv_inv]
  refine ⟨_, by simp only [runList, e1, InfoOp.onIF, IF.update, if_true]; rfl, ?_, e2.symm, ?_⟩
  · simp only [blank1, IF.fresh, MatArg.resolve, sc_mulVec, sc_mul, sc_transpose, vc_add]
    norm_num
  · have h := bestFit_normal (H := sc 1) (sc_posDef 2⁻¹ (by norm_num))
      (fun v hv => by rwa [← sc_one, one_mulVec] at hv) (vc 1)
    simp only [e2, sc_transpose, sc_mul, mul_one, one_mul, sc_mulVec, sc_inv 2 two_ne_zero] at h
    rwa [inv_mul_cancel₀ (two_ne_zero (α := ℝ))] at h

/-- **C86 refuted** for two measurements taken before the next `predict`: the second `update`
multiplies the information vector by `P_inv` as if it were a state.  Two measurements of `1` end,
after `predict()`, in `x = 3/2`. -/
theorem C86_two_updates_refuted :
    ∃ s, runList (InfoOp.onIF Real.exp) blank1
        [.predict none, .update (some (vc 1)) none, .update (some (vc 1)) none, .predict none] = .ok s ∧
      s.x = vc (3 / 2) := by
  have e1 : InfoOp.onIF Real.exp blank1 (.predict none) = .ok _ := blank1_predict
  have e2 : ∀ s : IF 1 1 1, s.noInformation = true → s.H = sc 1 → s.Rinv = sc 2 →
      InfoOp.onIF Real.exp s (.update (some (vc 1)) none) = .ok { s with
        x := s.Pinv *ᵥ s.x + vc 2, Pinv := s.Pinv + sc 2, logLik := Real.log floatMin
        lik := floatMin, z := some (vc 1), xPost := s.Pinv *ᵥ s.x + vc 2, PinvPost := s.Pinv + sc 2 } := by
    intro s h1 h2 h3
    simp only [InfoOp.onIF, IF.update, MatArg.resolve, h1, h2, h3, if_true, sc_transpose, sc_mul, one_mul,
      mul_one, sc_mulVec]
  have e4 : npInv (sc 4) = some (sc 4⁻¹) := sc_npInv 4 (by norm_num)
  have e5 : npInv (sc (4⁻¹ + 1)) = some (sc (4⁻¹ + 1)⁻¹) := sc_npInv _ (by norm_num)
  have e6 : ∀ s : IF 1 1 1, s.noInformation = true → s.inv = npInv → s.F = some (sc 1) →
      s.Finv = some (sc 1) → s.Pinv = sc 4 → s.Q = sc 1 → s.B = none → s.x = vc 6 →
      ∃ s', runList (InfoOp.onIF Real.exp) s [.predict none] = .ok s' ∧ s'.x = vc (3 / 2) := by
    intro s h1 h2 h3 h4 h5 h6 h7 h8
    have e : FKF.control (none : Option (Mat 1 1)) (.scalar 0) = .ok (vc 0) := rfl
    refine ⟨_, by
      simp only [runList, InfoOp.onIF, IF.predict, h1, h2, h3, h4, h5, h6, h7, h8, sc_mul, sc_transpose, one_mul,
        mul_one, e4, IF.predictInv, IF.recover, if_true, uZero, e, sc_add, e5]; rfl, ?_⟩
    simp only [sc_mulVec, vc_add, vc_inj]
    norm_num
  have e8 : sc 0 + sc 2 + sc 2 = sc 4 := by rw [sc_add, sc_add]; norm_num
  have e9 : (sc 0 + sc 2) *ᵥ (sc 0 *ᵥ vc 0 + vc 2) + vc 2 = vc 6 := by
    simp only [sc_add, sc_mulVec, vc_add]; norm_num
  rw [runList_step e1, runList_step (e2 _ rfl rfl rfl), runList_step (e2 _ rfl rfl rfl)]
  apply e6
  · rfl
  · rfl
  · rfl
  · rfl
  · exact e8
  · rfl
  · rfl
  · exact e9

/-- **C86 refuted** without process noise: `predict()` on a filter without information inverts
`Q` and raises `LinAlgError` when `Q = 0`. -/
theorem C86_noiseless_refuted (F : Mat n n) (hn : 0 < n) (hdet : F.det ≠ 0) :
    ∃ s, ({ IF.fresh n m l with Pinv := 0, Q := 0, F := some F, Finv := some F⁻¹ } : IF n m l).predict =
      .error (.linAlgError, s) := by
  have : Nonempty (Fin n) := ⟨⟨0, hn⟩⟩
  refine ⟨_, (C86_singular_predict _ F rfl rfl rfl hdet det_zero (.scalar 0)).2 ?_⟩
  simp

/-- **C86 refuted** when the measurements so far determine only part of the state: `predict()`
leaves `P_inv` as it is, so process noise never reduces the information.  Here the first of two
components is known with variance `1`; a Kalman filter knowing it equally well, and the other one
with any variance `c`, has information `1/2` about it after `predict()`, the information filter
still `1`. -/
theorem C86_no_decay_refuted (c : ℝ) (hc : 0 < c) :
    ∃ a' b', ({ IF.fresh 2 1 1 with Pinv := diagonal ![1, 0], F := some 1, Finv := some 1 } : IF 2 1 1).predict
        = .ok a' ∧
      ({ KF.fresh 2 1 1 with P := diagonal ![1, c] } : KF 2 1 1).predict = .ok b' ∧
      a'.Pinv 0 0 = 1 ∧ b'.P⁻¹ 0 0 = 1 / 2 := by
  have hd : (diagonal ![(1 : ℝ), 0]).det = 0 := by simp
  obtain ⟨a', h1, h2, -⟩ := (C86_singular_predict
    ({ IF.fresh 2 1 1 with Pinv := diagonal ![1, 0], F := some 1, Finv := some 1 } : IF 2 1 1) 1 rfl rfl
    (by simp) (by simp) hd (.scalar 0)).1 (by simp [IF.fresh, det_fin_two])
  refine ⟨a', _, h1, rfl, by rw [h2]; rfl, ?_⟩
  have e : ((1 : ℝ) • ((1 : Mat 2 2) * diagonal ![1, c] * 1ᵀ) + 1)⁻¹ = diagonal ![1 / 2, (c + 1)⁻¹] := by
    apply inv_eq_right_inv
    have hc1 : c + 1 ≠ 0 := by positivity
    ext i j; fin_cases i <;> fin_cases j <;> simp [hc1, one_add_one_eq_two]
  have e' := congrFun (congrFun e 0) 0
  refine Eq.trans e' ?_
  simp

end Filterpy
