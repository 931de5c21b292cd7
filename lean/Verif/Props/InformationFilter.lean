import Verif.Lemmas.Sim
import Verif.Lemmas.Control
import Verif.Lemmas.Scalar1
import Verif.Lemmas.Gauss
import Verif.Lemmas.Kalman
import Verif.Model.InformationFilter
import Verif.Props.KalmanBasic

/-!
# InformationFilter: C27
-/

namespace Filterpy

open Matrix

variable {n m l : ℕ}

/-- The calls compared; the information filter receives `R⁻¹`, the Kalman filter `R`. -/
inductive InfoOp (m l : ℕ)
  | predict (u : Option (Vec l))
  | update (z : Option (Vec m)) (R : Option (Mat m m))

noncomputable def InfoOp.onIF (expf : ℝ → ℝ) (s : IF n m l) : InfoOp m l → Exec (IF n m l)
  | .predict u => s.predict (uZero u)
  | .update z none => s.update expf z
  | .update z (some R) => s.update expf z (.mat R⁻¹)

noncomputable def InfoOp.onKF (s : KF n m l) : InfoOp m l → Exec (KF n m l)
  | .predict u => s.predict (uNone u)
  | .update z none => s.update z
  | .update z (some R) => s.update z (.mat R)

/-- The calls C27 covers: control arguments of a shape numpy keeps a vector for, measurement
noises given per call positive definite. -/
def InfoOp.Good (n : ℕ) {m l : ℕ} (B : Option (Mat n l)) : InfoOp m l → Prop
  | .predict u => CtrlShaped B u
  | .update _ none => True
  | .update _ (some R) => R.PosDef

/-- An `InformationFilter` and a `KalmanFilter` describing the same system and estimate. -/
structure InfoSame (a : IF n m l) (b : KF n m l) : Prop where
  x : a.x = b.x
  Pinv : a.Pinv = b.P⁻¹
  P : b.P.PosDef
  F : a.F = some b.F
  Finv : a.Finv = some b.F⁻¹
  Fdet : b.F.det ≠ 0
  Q : a.Q = b.Q
  Qpsd : b.Q.PosSemidef
  H : a.H = b.H
  Rinv : a.Rinv = b.R⁻¹
  R : b.R.PosDef
  B : a.B = b.B
  info : a.noInformation = false
  ll : a.computeLL = false ∨ m = n ∨ m = 1
  inva : a.inv = npInv
  alphaSq : b.alphaSq = 1
  inv : b.inv = npInv

/-- What is recorded along the way. -/
structure InfoRec (a : IF n m l) (b : KF n m l) : Prop where
  same : InfoSame a b
  xPrior : a.xPrior = b.xPrior
  PinvPrior : a.PinvPrior = b.PPrior⁻¹
  xPost : a.xPost = b.xPost
  PinvPost : a.PinvPost = b.PPost⁻¹
  K : a.K = b.K

theorem llOf_ok {y : Vec m} {S : Mat n n} (h : m = n ∨ m = 1) : ∃ v, IF.llOf y S = .ok v := by
  unfold IF.llOf
  by_cases h1 : m = n
  · rw [dif_pos h1]; exact ⟨_, rfl⟩
  · have h2 : m = 1 := by tauto
    rw [dif_neg h1, dif_pos h2]; exact ⟨_, rfl⟩

theorem info_predict (a : IF n m l) (b : KF n m l) (h : InfoRec a b) (u : Option (Vec l))
    (hs : CtrlShaped b.B u) :
    ∃ a' b', a.predict (uZero u) = .ok a' ∧ b.predict (uNone u) = .ok b' ∧ InfoRec a' b' ∧
      b'.B = b.B := by
  obtain ⟨bu, h1, h2⟩ := control_agree hs
  have h := h
  obtain ⟨hh, r1, r2, r3, r4, r5⟩ := h
  have hFu : IsUnit b.F.det := isUnit_iff_ne_zero.2 hh.Fdet
  have hPu : IsUnit b.P.det := PD.isUnit_det hh.P
  set A := (b.F⁻¹)ᵀ * b.P⁻¹ * b.F⁻¹ with hA
  have hAinv : A * (b.F * b.P * b.Fᵀ) = 1 := by
    rw [hA, transpose_nonsing_inv]
    have e1 : b.F⁻¹ * b.F = 1 := nonsing_inv_mul _ hFu
    have e2 : b.P⁻¹ * b.P = 1 := nonsing_inv_mul _ hPu
    have e3 : (b.Fᵀ)⁻¹ * b.Fᵀ = 1 := nonsing_inv_mul _ (by rw [det_transpose]; exact hFu)
    calc (b.Fᵀ)⁻¹ * b.P⁻¹ * b.F⁻¹ * (b.F * b.P * b.Fᵀ)
        = (b.Fᵀ)⁻¹ * (b.P⁻¹ * ((b.F⁻¹ * b.F) * b.P)) * b.Fᵀ := by simp only [Matrix.mul_assoc]
      _ = 1 := by rw [e1, Matrix.one_mul, e2, Matrix.mul_one, e3]
  have hAd : A.det ≠ 0 := by
    intro h0
    have := congrArg Matrix.det hAinv
    rw [det_mul, h0, zero_mul, det_one] at this
    exact zero_ne_one this
  have hAi : A⁻¹ = b.F * b.P * b.Fᵀ := inv_eq_right_inv hAinv
  have hpd : (b.F * b.P * b.Fᵀ + b.Q).PosDef := by
    have : (b.F * b.P * b.Fᵀ).PosDef := by
      have := hh.P.mul_mul_conjTranspose_same (B := b.F)
        (by rw [Matrix.vecMul_injective_iff_isUnit]; exact (Matrix.isUnit_iff_isUnit_det _).2 hFu)
      rwa [conjTranspose_eq_transpose_of_trivial] at this
    exact this.add_posSemidef hh.Qpsd
  have hd := PD.det_ne hpd
  refine ⟨{ a with
      x := b.F *ᵥ b.x + bu, Pinv := (b.F * b.P * b.Fᵀ + b.Q)⁻¹
      PinvPrior := (b.F * b.P * b.Fᵀ + b.Q)⁻¹, xPrior := b.F *ᵥ b.x + bu },
    _, ?_, kf_predict_control h2, ?_, rfl⟩
  · simp only [IF.predict, hh.F, hh.Finv, hh.Pinv, hh.inva, ← hA]
    rw [npInv_of_det_ne hAd]
    simp only [IF.predictInv, IF.recover, hh.info, Bool.false_eq_true, if_false, hh.B, h1, hh.inva,
      hAi, hh.Q, hh.x]
    rw [npInv_of_det_ne hd]
    simp [hh.info, hh.B, hh.inva, hh.Q, hh.F, hh.Finv]
  · have e : b.alphaSq • (b.F * b.P * b.Fᵀ) + b.Q = b.F * b.P * b.Fᵀ + b.Q := by
      rw [hh.alphaSq, one_smul]
    rw [e]
    constructor
    · constructor
      · rfl
      · rfl
      · exact hpd
      · exact hh.F
      · exact hh.Finv
      · exact hh.Fdet
      · exact hh.Q
      · exact hh.Qpsd
      · exact hh.H
      · exact hh.Rinv
      · exact hh.R
      · exact hh.B
      · exact hh.info
      · exact hh.ll
      · exact hh.inva
      · exact hh.alphaSq
      · exact hh.inv
    · rfl
    · rfl
    · exact r3
    · exact r4
    · exact r5

theorem info_update (expf : ℝ → ℝ) (a : IF n m l) (b : KF n m l) (h : InfoRec a b) (z : Vec m)
    (Ra Rb : MatArg m) (hR : (Rb.resolve b.R).PosDef)
    (hRR : Ra.resolve a.Rinv = (Rb.resolve b.R)⁻¹) :
    ∃ a' b', a.update expf (some z) Ra = .ok a' ∧ b.update (some z) Rb = .ok b' ∧ InfoRec a' b' ∧
      b'.B = b.B := by
  obtain ⟨hh, r1, r2, r3, r4, r5⟩ := h
  have hipd := info_pd (H := b.H) hh.P hR
  have hS : (b.H * (b.P * b.Hᵀ) + Rb.resolve b.R).PosDef := S_pd hh.P.posSemidef hR
  set R := Rb.resolve b.R with hRdef
  set K := b.P * b.Hᵀ * (b.H * (b.P * b.Hᵀ) + R)⁻¹ with hK
  have hj : (1 - K * b.H) * b.P * (1 - K * b.H)ᵀ + K * R * Kᵀ = (1 - K * b.H) * b.P :=
    joseph_simple (PD.symm hh.P) rfl (nonsing_inv_mul _ (PD.isUnit_det hS))
      (inv_symm (PD.symm hS)) rfl
  have hpi := post_inv (H := b.H) hh.P hR
  have hpp := post_pd (H := b.H) hh.P hR
  have hKe : (b.P⁻¹ + b.Hᵀ * R⁻¹ * b.H)⁻¹ * b.Hᵀ * R⁻¹ = K := by
    rw [← hpi, nonsing_inv_nonsing_inv _ (PD.isUnit_det hpp), Matrix.mul_assoc]
    exact gain_info hh.P hR
  obtain ⟨v, hv⟩ : ∃ v, a.computeLL = true →
      IF.llOf (z - b.H *ᵥ b.x) (b.P⁻¹ + b.Hᵀ * R⁻¹ * b.H) = .ok v := by
    rcases hh.ll with h | h
    · exact ⟨0, fun h' => absurd h' (by simp [h])⟩
    · obtain ⟨v, hv⟩ := llOf_ok (y := z - b.H *ᵥ b.x) (S := b.P⁻¹ + b.Hᵀ * R⁻¹ * b.H) h
      exact ⟨v, fun _ => hv⟩
  have hb : b.update (some z) Rb = .ok { b with
      logLik := none, lik := none, mahal := none
      y := z - b.H *ᵥ b.x, S := b.H * (b.P * b.Hᵀ) + R, SI := (b.H * (b.P * b.Hᵀ) + R)⁻¹, K := K
      x := b.x + K *ᵥ (z - b.H *ᵥ b.x), P := (1 - K * b.H) * b.P
      z := fun i => some (z i)
      xPost := b.x + K *ᵥ (z - b.H *ᵥ b.x), PPost := (1 - K * b.H) * b.P } := by
    simp only [KF.update, hh.inv, Option.getD_none, ← hRdef]
    rw [npInv_of_det_ne (PD.det_ne hS)]
    simp only [← hK, hj]
  have ha : ∃ ll lk, a.update expf (some z) Ra = .ok { a with
      y := z - b.H *ᵥ b.x, S := b.P⁻¹ + b.Hᵀ * R⁻¹ * b.H, K := K
      x := b.x + K *ᵥ (z - b.H *ᵥ b.x), Pinv := b.P⁻¹ + b.Hᵀ * R⁻¹ * b.H, z := some z
      xPost := b.x + K *ᵥ (z - b.H *ᵥ b.x), PinvPost := b.P⁻¹ + b.Hᵀ * R⁻¹ * b.H
      logLik := ll, lik := lk } := by
    simp only [IF.update, hRR, hh.H, hh.Pinv, hh.x, hh.info, hh.inva, Bool.false_eq_true, if_false]
    rw [npInv_of_det_ne (PD.det_ne hipd)]
    simp only [hKe]
    by_cases hc : a.computeLL = true
    · rw [if_pos hc, hv hc]
      exact ⟨_, _, rfl⟩
    · rw [if_neg hc]
      exact ⟨a.logLik, a.lik, rfl⟩
  obtain ⟨ll, lk, ha⟩ := ha
  refine ⟨_, _, ha, hb, ?_, rfl⟩
  constructor
  · constructor
    · rfl
    · exact hpi.symm
    · exact hpp
    · exact hh.F
    · exact hh.Finv
    · exact hh.Fdet
    · exact hh.Q
    · exact hh.Qpsd
    · exact hh.H
    · exact hh.Rinv
    · exact hh.R
    · exact hh.B
    · exact hh.info
    · exact hh.ll
    · exact hh.inva
    · exact hh.alphaSq
    · exact hh.inv
  · exact r1
  · exact r2
  · rfl
  · exact hpi.symm
  · rfl

/-- **C27.** Invertible transition, positive definite `P` and `R`, positive semidefinite `Q`,
`P_inv = P⁻¹`, `R_inv = R⁻¹`: for every sequence of `predict`/`update` calls neither filter
raises, and the `InformationFilter` ends with the `KalmanFilter`'s `x` and `K`, with `P_inv`
equal to the inverse of its `P` (so reading `P` gives the same matrix), and with matching prior
and posterior records.  The likelihood computation must be switched off, or `dim_z` be `1` or
`dim_x`: see `C27_loglik_raises_refuted`. -/
theorem C27_info_filter_partial (expf : ℝ → ℝ) (a : IF n m l) (b : KF n m l) (h : InfoRec a b)
    (ops : List (InfoOp m l)) (hs : ∀ op ∈ ops, op.Good n b.B) :
    ∃ a' b', runList (InfoOp.onIF expf) a ops = .ok a' ∧ runList InfoOp.onKF b ops = .ok b' ∧
      a'.x = b'.x ∧ a'.Pinv = b'.P⁻¹ ∧ a'.getP = .ok b'.P ∧ b'.P.PosDef ∧ InfoRec a' b' := by
  induction ops generalizing a b with
  | nil =>
    refine ⟨a, b, rfl, rfl, h.same.x, h.same.Pinv, ?_, h.same.P, h⟩
    simp only [IF.getP, h.same.inva, h.same.Pinv]
    rw [npInv_of_det_ne (PD.det_ne h.same.P.inv),
      nonsing_inv_nonsing_inv _ (PD.isUnit_det h.same.P)]
  | cons op ops ih =>
    have hop := hs op (by simp)
    have key : ∃ a1 b1, op.onIF expf a = .ok a1 ∧ op.onKF b = .ok b1 ∧ InfoRec a1 b1 ∧
        b1.B = b.B := by
      cases op with
      | predict u => exact info_predict a b h u hop
      | update z R =>
        cases z with
        | none =>
          have hh := h
          obtain ⟨s, r1, r2, r3, r4, r5⟩ := hh
          have hrec : InfoRec { a with z := none, xPost := a.x, PinvPost := a.Pinv } b.updateNone :=
            ⟨⟨s.x, s.Pinv, s.P, s.F, s.Finv, s.Fdet, s.Q, s.Qpsd, s.H, s.Rinv, s.R, s.B, s.info,
              s.ll, s.inva, s.alphaSq, s.inv⟩, r1, r2, s.x, s.Pinv, r5⟩
          cases R with
          | none => exact ⟨_, _, rfl, rfl, hrec, rfl⟩
          | some R => exact ⟨_, _, rfl, rfl, hrec, rfl⟩
        | some z =>
          cases R with
          | none => exact info_update expf a b h z .none .none h.same.R h.same.Rinv
          | some R => exact info_update expf a b h z (.mat R⁻¹) (.mat R) hop rfl
    obtain ⟨a1, b1, k1, k2, k3, k4⟩ := key
    obtain ⟨a', b', g1, g2, g⟩ := ih a1 b1 k3 (fun o ho => by rw [k4]; exact hs o (by simp [ho]))
    exact ⟨a', b', by simp only [runList, k1]; exact g1, by simp only [runList, k2]; exact g2, g⟩

/-- **C27 refuted** with the default `compute_log_likelihood=True`: the residual (length `dim_z`)
is paired with an information matrix of size `dim_x`, so with three states and two sensors every
`update` with a measurement raises `ValueError`, although `P_inv` and `R_inv` are perfectly
good. -/
theorem C27_loglik_raises_refuted (expf : ℝ → ℝ) (z : Vec 2) :
    ∃ e, (IF.fresh 3 2 0).update expf (some z) = .error (.valueError, e) := by
  have hd : ((1 : Mat 3 3) + (0 : Mat 2 3)ᵀ * (1 : Mat 2 2) * (0 : Mat 2 3)).det ≠ 0 := by simp
  simp only [IF.update, IF.fresh, MatArg.resolve, Bool.false_eq_true, if_false]
  rw [npInv_of_det_ne hd]
  simp only [if_true, IF.llOf]
  exact ⟨_, rfl⟩

/-- **C27 refuted**: where it does not raise, the reported `log_likelihood` uses the information
matrix in place of the innovation covariance, so it differs from the Kalman filter's. -/
theorem C27_loglik_value_refuted :
    ∃ (a a' : IF 1 1 0) (b b' : KF 1 1 0), InfoRec a b ∧ a.update Real.exp (some (vc 0)) = .ok a' ∧
      b.update (some (vc 0)) = .ok b' ∧ a'.logLik ≠ b'.readLogLik.1 := by
  have e1 : (sc 2)⁻¹ = sc 2⁻¹ := sc_inv 2 (by norm_num)
  have e2 : (sc 1)⁻¹ = sc 1 := by rw [sc_inv 1 (by norm_num)]; norm_num
  refine ⟨{ IF.fresh 1 1 0 with F := some 1, Finv := some 1, H := sc 1, Rinv := sc 2⁻¹ }, ?_,
    { KF.fresh 1 1 0 with H := sc 1, R := sc 2 }, ?_, ?_, ?_, ?_, ?_⟩
  rotate_left 3
  · simp only [IF.update, IF.fresh, MatArg.resolve, Bool.false_eq_true, if_false, sc_one, sc_mul,
      sc_transpose, sc_add, sc_mulVec, vc_sub, vc_zero, vc_add]
    norm_num [sc_npInv (3 / 2), IF.llOf]
    rfl
  · simp only [KF.update, KF.fresh, MatArg.resolve, Option.getD_none, sc_one, sc_mul,
      sc_transpose, sc_add, sc_mulVec, vc_sub, vc_zero, vc_add]
    norm_num [sc_npInv 3]
    rfl
  · simp only [KF.readLogLik, logpdf, vc_zero]
    have z1 : (fun _ : Fin 1 => vc 0 0) = (0 : Vec 1) := rfl
    rw [z1, ← vc_zero, zero_dotProduct, zero_dotProduct, sc_det, sc_det]
    intro h
    have h2 : Real.log (3 / 2) = Real.log 3 := by linarith
    have := Real.log_lt_log (by norm_num : (0 : ℝ) < 3 / 2) (by norm_num : (3 / 2 : ℝ) < 3)
    linarith
  · constructor
    · constructor <;> simp [IF.fresh, KF.fresh, PosDef.one, PosSemidef.one, e1, sc_posDef]
    all_goals simp [IF.fresh, KF.fresh]

/-- **C27 refuted** for a freshly built filter: `KalmanFilter` starts with `F = I`, while
`InformationFilter.predict()` raises `AttributeError` until `F` has been assigned. -/
theorem C27_default_F_refuted :
    (IF.fresh n m l).predict = .error (.attributeError, IF.fresh n m l) ∧
      ∃ b', (KF.fresh n m l).predict = .ok b' := ⟨rfl, _, rfl⟩

/-- **C27.** `F = value` with an invertible matrix puts the transition and its inverse in place;
with a singular one it raises `LinAlgError`, after having replaced `F` but not its inverse. -/
theorem C27_setF (a : IF n m l) (F : Mat n n) (hinv : a.inv = npInv) :
    (F.det ≠ 0 → a.setF F = .ok { a with F := some F, Finv := some F⁻¹ }) ∧
    (F.det = 0 → a.setF F = .error (.linAlgError, { a with F := some F })) := by
  constructor
  · intro h; simp only [IF.setF, hinv, npInv_of_det_ne h]
  · intro h; simp only [IF.setF, hinv, npInv_eq_none.2 h]

/-- **C27.** The constructor raises `ValueError` exactly for `dim_x < 1`, `dim_z < 1` or
`dim_u < 0`; otherwise the filter has the requested size, `x = 0`, `P_inv = Q = R_inv = I`, no `F`,
and starts out as a filter with information. -/
theorem C27_init (dimX dimZ dimU : ℤ) (ll : Bool) :
    (IF.init dimX dimZ dimU ll = .error .valueError ↔ (dimX < 1 ∨ dimZ < 1 ∨ dimU < 0)) ∧
    (1 ≤ dimX → 1 ≤ dimZ → 0 ≤ dimU → ∃ s, IF.init dimX dimZ dimU ll = .ok s ∧ (s.n : ℤ) = dimX ∧
      (s.m : ℤ) = dimZ ∧ (s.l : ℤ) = dimU ∧ s.f.x = 0 ∧ s.f.Pinv = 1 ∧ s.f.Q = 1 ∧ s.f.Rinv = 1 ∧
      s.f.H = 0 ∧ s.f.B = none ∧ s.f.F = none ∧ s.f.noInformation = false ∧ s.f.computeLL = ll ∧
      s.f.xPrior = 0 ∧ s.f.xPost = 0 ∧ s.f.PinvPrior = 1 ∧ s.f.PinvPost = 1) := by
  constructor
  · unfold IF.init
    split_ifs <;> simp <;> omega
  · intro hx hz hu
    refine ⟨⟨dimX.toNat, dimZ.toNat, dimU.toNat, IF.fresh _ _ _ ll⟩, ?_, by simp; omega, by simp; omega,
      by simp; omega, rfl, rfl, rfl, rfl, rfl, rfl, rfl, rfl, rfl, rfl, rfl, rfl, rfl⟩
    unfold IF.init
    rw [if_neg (by omega), if_neg (by omega), if_neg (by omega)]

/-- **C27.** `batch_filter` is documented as not implemented and raises for every input. -/
theorem C27_batch (a : IF n m l) (zs : List (Option (Vec m))) :
    a.batchFilter zs = .error (.notImplemented, a) := rfl

/-- Non-vacuity of C27: a two-state system with two sensors. -/
example : ∃ a' b', runList (InfoOp.onIF Real.exp)
      ({ IF.fresh 2 2 1 with F := some !![1, 1; 0, 1], Finv := some !![1, -1; 0, 1], H := 1 } : IF 2 2 1)
      [.predict none, .update (some ![1, 2]) none, .update none none, .update (some ![0, 2]) (some 1)]
      = .ok a' ∧
    runList InfoOp.onKF ({ KF.fresh 2 2 1 with F := !![1, 1; 0, 1], H := 1 } : KF 2 2 1)
      [.predict none, .update (some ![1, 2]) none, .update none none, .update (some ![0, 2]) (some 1)]
      = .ok b' ∧ a'.x = b'.x ∧ a'.Pinv = b'.P⁻¹ := by
  have e : (!![1, 1; 0, 1] : Mat 2 2)⁻¹ = !![1, -1; 0, 1] := by
    apply inv_eq_right_inv
    ext i j; fin_cases i <;> fin_cases j <;> simp [Matrix.mul_apply, Fin.sum_univ_two]
  obtain ⟨a', b', h1, h2, h3, h4, -⟩ := C27_info_filter_partial Real.exp
    ({ IF.fresh 2 2 1 with F := some !![1, 1; 0, 1], Finv := some !![1, -1; 0, 1], H := 1 } : IF 2 2 1)
    ({ KF.fresh 2 2 1 with F := !![1, 1; 0, 1], H := 1 } : KF 2 2 1)
    (by
      constructor
      · constructor <;> simp [IF.fresh, KF.fresh, PosDef.one, PosSemidef.one, e, det_fin_two]
      all_goals simp [IF.fresh, KF.fresh])
    [.predict none, .update (some ![1, 2]) none, .update none none, .update (some ![0, 2]) (some 1)]
    (by
      intro op hop
      simp only [List.mem_cons, List.not_mem_nil, or_false] at hop
      rcases hop with rfl | rfl | rfl | rfl <;> simp [InfoOp.Good, CtrlShaped, KF.fresh, PosDef.one])
  exact ⟨a', b', h1, h2, h3, h4⟩

end Filterpy
