import Verif.Props.EKF
import Verif.Props.KalmanMonotone
import Mathlib.Analysis.Calculus.Deriv.Mul
import Mathlib.Analysis.Calculus.Deriv.Pi
import Mathlib.Analysis.Calculus.Deriv.Add
import Mathlib.Analysis.SpecialFunctions.Trigonometric.Deriv

/-!
# What a nonlinear `ExtendedKalmanFilter` still guarantees: C103
-/

namespace Filterpy

open Matrix

variable {n m l : ℕ}

namespace Spec

/-- Minus twice the log posterior of a candidate state `X` (up to a constant): squared distance from the
prior estimate `x` in units of `P`, plus squared misfit of the measurement in units of `R`. -/
noncomputable def mapCost (x : Vec n) (P : Mat n n) (R : Mat m m) (misfit : Vec n → Vec m) (X : Vec n) : ℝ :=
  sqLen P (X - x) + sqLen R (misfit X)

/-- `J` is the Jacobian of `h` at `x`, in the weak sense that it gives every directional derivative. -/
def IsJacobian (h : Vec n → Vec m) (J : Mat m n) (x : Vec n) : Prop :=
  ∀ d : Vec n, HasDerivAt (fun t : ℝ => h (x + t • d)) (J *ᵥ d) 0

end Spec

open Spec

/-- `update(z, HJacobian, Hx, R, residual)` with invertible innovation covariance. -/
theorem ekf_update_ok {s : EKF n m l} {z : Vec m} {HJ : Vec n → Mat m n} {hx : Vec n → Vec m}
    {R : MatArg m} {res : Vec m → Vec m → Vec m} (hP : s.P.PosSemidef) (hR : (R.resolve s.R).PosDef) :
    ∃ s', s.update (some z) HJ hx R res = .ok s' ∧
      s'.x = s.x + (s.P * (HJ s.x)ᵀ * (HJ s.x * (s.P * (HJ s.x)ᵀ) + R.resolve s.R)⁻¹) *ᵥ res z (hx s.x) ∧
      s'.P = (1 - (s.P * (HJ s.x)ᵀ * (HJ s.x * (s.P * (HJ s.x)ᵀ) + R.resolve s.R)⁻¹) * HJ s.x) * s.P := by
  have hS : (HJ s.x * (s.P * (HJ s.x)ᵀ) + R.resolve s.R).PosDef := S_pd hP hR
  have hd : (HJ s.x * (s.P * (HJ s.x)ᵀ) + R.resolve s.R).det ≠ 0 := hS.det_pos.ne'
  unfold EKF.update
  simp only [npInv_of_det_ne hd]
  refine ⟨_, rfl, rfl, ?_⟩
  exact joseph_simple hP.1 rfl (nonsing_inv_mul _ (PD.isUnit_det hS)) hS.inv.1 rfl

/-- **C103.** Whatever the measurement function, its Jacobian and the residual function, an update of a filter
with positive definite `P` and `R` succeeds and leaves the exact minimiser of the linearised log posterior; the
new `P` is its inverse Hessian. -/
theorem C103_gauss_newton (s : EKF n m l) (z : Vec m) (HJ : Vec n → Mat m n) (hx : Vec n → Vec m)
    (R : MatArg m) (res : Vec m → Vec m → Vec m) (hP : s.P.PosDef) (hR : (R.resolve s.R).PosDef) :
    ∃ s', s.update (some z) HJ hx R res = .ok s' ∧ s'.P.PosDef ∧
      s'.P⁻¹ = s.P⁻¹ + (HJ s.x)ᵀ * (R.resolve s.R)⁻¹ * HJ s.x ∧
      (∀ X, mapCost s.x s.P (R.resolve s.R) (fun X => res z (hx s.x) - HJ s.x *ᵥ (X - s.x)) X =
        sqLen s'.P (X - s'.x) +
        mapCost s.x s.P (R.resolve s.R) (fun X => res z (hx s.x) - HJ s.x *ᵥ (X - s.x)) s'.x) ∧
      ∀ X, X ≠ s'.x →
        mapCost s.x s.P (R.resolve s.R) (fun X => res z (hx s.x) - HJ s.x *ᵥ (X - s.x)) s'.x <
        mapCost s.x s.P (R.resolve s.R) (fun X => res z (hx s.x) - HJ s.x *ᵥ (X - s.x)) X := by
  obtain ⟨s', h, hx', hP'⟩ := ekf_update_ok (z := z) (HJ := HJ) (hx := hx) (res := res) hP.posSemidef hR
  have hpd : s'.P.PosDef := by rw [hP']; exact post_pd hP hR
  have key : ∀ X, mapCost s.x s.P (R.resolve s.R) (fun X => res z (hx s.x) - HJ s.x *ᵥ (X - s.x)) X =
        sqLen s'.P (X - s'.x) +
        res z (hx s.x) ⬝ᵥ ((HJ s.x * (s.P * (HJ s.x)ᵀ) + R.resolve s.R)⁻¹ *ᵥ res z (hx s.x)) := by
    intro X
    unfold mapCost sqLen
    rw [complete_square (H := HJ s.x) hP hR, ← hP', hx', sub_add_eq_sub_sub]
  have key2 : ∀ X, mapCost s.x s.P (R.resolve s.R) (fun X => res z (hx s.x) - HJ s.x *ᵥ (X - s.x)) X =
        sqLen s'.P (X - s'.x) +
        mapCost s.x s.P (R.resolve s.R) (fun X => res z (hx s.x) - HJ s.x *ᵥ (X - s.x)) s'.x := by
    intro X
    rw [key X, key s'.x, sub_self]
    simp [sqLen]
  refine ⟨s', h, hpd, by rw [hP', post_inv hP hR], key2, fun X hX => ?_⟩
  rw [key2 X]
  have : 0 < sqLen s'.P (X - s'.x) := hpd.inv.dotProduct_mulVec_pos (sub_ne_zero.2 hX)
  linarith

theorem sqLen_deriv {k : ℕ} {W : Mat k k} (hW : W.IsHermitian) {f : ℝ → Vec k} {f' : Vec k}
    (hf : HasDerivAt f f' 0) :
    HasDerivAt (fun t => sqLen W (f t)) (2 * (f' ⬝ᵥ (W⁻¹ *ᵥ f 0))) 0 := by
  have hi := hasDerivAt_pi.1 hf
  have e : (fun t => sqLen W (f t)) = fun t => ∑ i, f t i * ∑ j, W⁻¹ i j * f t j := by
    funext t; simp [sqLen, dotProduct, mulVec]
  rw [e]
  have h := HasDerivAt.fun_sum (u := Finset.univ) (fun i _ =>
    (hi i).mul (HasDerivAt.fun_sum (u := Finset.univ) (fun j _ => (hi j).const_mul (W⁻¹ i j))))
  refine h.congr_deriv ?_
  have hs : (W⁻¹)ᵀ = W⁻¹ := hW.inv
  have : ∑ i, (f' i * ∑ j, W⁻¹ i j * f 0 j + f 0 i * ∑ j, W⁻¹ i j * f' j) =
      f' ⬝ᵥ (W⁻¹ *ᵥ f 0) + f 0 ⬝ᵥ (W⁻¹ *ᵥ f') := by
    simp [dotProduct, mulVec, Finset.sum_add_distrib]
  rw [this, dot_mulVec_symm hs (f 0) f']
  ring

/-- **C103.** If `HJacobian(x)` really is the derivative of the measurement function, the step is the
Gauss-Newton step on the true posterior: its slope in any direction `d` is `-2 dᵀ P'⁻¹ (x' - x)`. -/
theorem C103_slope (s s' : EKF n m l) (z : Vec m) (HJ : Vec n → Mat m n) (hx : Vec n → Vec m)
    (R : MatArg m) (res : Vec m → Vec m → Vec m) (hP : s.P.PosDef) (hR : (R.resolve s.R).PosDef)
    (hJ : IsJacobian (fun X => res z (hx X)) (-HJ s.x) s.x)
    (h : s.update (some z) HJ hx R res = .ok s') (d : Vec n) :
    HasDerivAt (fun t : ℝ => mapCost s.x s.P (R.resolve s.R) (fun X => res z (hx X)) (s.x + t • d))
      (-2 * (d ⬝ᵥ (s'.P⁻¹ *ᵥ (s'.x - s.x)))) 0 := by
  obtain ⟨s1, h1, hx', hP'⟩ := ekf_update_ok (z := z) (HJ := HJ) (hx := hx) (res := res) hP.posSemidef hR
  rw [h] at h1
  obtain rfl := Except.ok.inj h1
  have hd : HasDerivAt (fun t : ℝ => s.x + t • d - s.x) d 0 := by
    have : HasDerivAt (fun t : ℝ => t • d) ((1 : ℝ) • d) 0 := (hasDerivAt_id (0 : ℝ)).smul_const d
    rw [one_smul] at this
    refine this.congr_of_eventuallyEq (Filter.Eventually.of_forall fun t => ?_)
    simp
  have h2 := (sqLen_deriv hP.1 hd).add (sqLen_deriv hR.1 (hJ d))
  refine h2.congr_deriv ?_
  simp only [zero_smul, add_zero, sub_self, mulVec_zero, dotProduct_zero, mul_zero, zero_add]
  have e : s'.P⁻¹ *ᵥ (s'.x - s.x) = ((HJ s.x)ᵀ * (R.resolve s.R)⁻¹) *ᵥ res z (hx s.x) := by
    rw [hx', add_sub_cancel_left, ← gain_info hP hR, mulVec_mulVec, ← Matrix.mul_assoc, ← hP']
    rw [nonsing_inv_mul _ (PD.isUnit_det (by rw [hP']; exact post_pd hP hR)), Matrix.one_mul]
  rw [e, neg_mulVec, neg_dotProduct, ← mulVec_mulVec, dot_mulVec_transpose (HJ s.x)ᵀ, transpose_transpose]
  ring

/-- **C103.** So the step always points downhill on the true posterior, and stays put only at a stationary
point of it. -/
theorem C103_descent (s s' : EKF n m l) (z : Vec m) (HJ : Vec n → Mat m n) (hx : Vec n → Vec m)
    (R : MatArg m) (res : Vec m → Vec m → Vec m) (hP : s.P.PosDef) (hR : (R.resolve s.R).PosDef)
    (hJ : IsJacobian (fun X => res z (hx X)) (-HJ s.x) s.x)
    (h : s.update (some z) HJ hx R res = .ok s') :
    (s'.x ≠ s.x → ∀ᶠ t in nhdsWithin (0 : ℝ) (Set.Ioi 0),
      mapCost s.x s.P (R.resolve s.R) (fun X => res z (hx X)) (s.x + t • (s'.x - s.x)) <
      mapCost s.x s.P (R.resolve s.R) (fun X => res z (hx X)) s.x) ∧
    (s'.x = s.x ↔ ∀ d : Vec n, HasDerivAt
      (fun t : ℝ => mapCost s.x s.P (R.resolve s.R) (fun X => res z (hx X)) (s.x + t • d)) 0 0) := by
  have hpd : s'.P.PosDef := by
    obtain ⟨s1, h1, h2, -⟩ := C103_gauss_newton s z HJ hx R res hP hR
    rw [h] at h1
    obtain rfl := Except.ok.inj h1
    exact h2
  have slope := C103_slope s s' z HJ hx R res hP hR hJ h
  refine ⟨fun hne => ?_, fun heq d => ?_, fun hst => ?_⟩
  · have hpos : 0 < (s'.x - s.x) ⬝ᵥ (s'.P⁻¹ *ᵥ (s'.x - s.x)) :=
      hpd.inv.dotProduct_mulVec_pos (sub_ne_zero.2 hne)
    have h1 := (slope (s'.x - s.x)).tendsto_slope_zero_right
    have h2 := h1.eventually (gt_mem_nhds (show -2 * ((s'.x - s.x) ⬝ᵥ (s'.P⁻¹ *ᵥ (s'.x - s.x))) < 0 by linarith))
    filter_upwards [h2, self_mem_nhdsWithin] with t ht ht0
    have ht0 : 0 < t := ht0
    simp only [zero_add, zero_smul, add_zero, smul_eq_mul] at ht
    have := mul_neg_of_pos_of_neg ht0 ht
    rw [mul_inv_cancel_left₀ ht0.ne'] at this
    linarith
  · have := slope d
    rwa [heq, sub_self, mulVec_zero, dotProduct_zero, mul_zero] at this
  · by_contra hne
    have hpos : 0 < (s'.x - s.x) ⬝ᵥ (s'.P⁻¹ *ᵥ (s'.x - s.x)) :=
      hpd.inv.dotProduct_mulVec_pos (sub_ne_zero.2 hne)
    have := (slope (s'.x - s.x)).unique (hst (s'.x - s.x))
    linarith

/-- **C103.** A nonlinear measurement never increases the reported uncertainty. -/
theorem C103_reduces (s s' : EKF n m l) (z : Option (Vec m)) (HJ : Vec n → Mat m n) (hx : Vec n → Vec m)
    (R : MatArg m) (res : Vec m → Vec m → Vec m) (hP : s.P.PosSemidef) (hR : (R.resolve s.R).PosSemidef)
    (h : s.update z HJ hx R res = .ok s') : (s.P - s'.P).PosSemidef := by
  cases z with
  | none =>
    obtain rfl := Except.ok.inj h
    simpa using PosSemidef.zero
  | some z =>
    have hS := S_psd (H := HJ s.x) hP hR
    unfold EKF.update at h
    simp only at h
    cases hi : npInv (HJ s.x * (s.P * (HJ s.x)ᵀ) + R.resolve s.R) with
    | none => simp [hi] at h
    | some SI =>
      simp only [hi] at h
      obtain rfl := Except.ok.inj h
      obtain ⟨hd, rfl⟩ := npInv_eq_some.1 hi
      have hu := isUnit_det_of_ne hd
      have hPs : s.Pᵀ = s.P := hP.1
      simp only
      rw [joseph_opt hPs rfl (nonsing_inv_mul _ hu) hS.inv.1 rfl, sub_sub_cancel]
      exact PSD.congr hS _

/-! ## Every history -/

/-- The calls of an `ExtendedKalmanFilter` that change its estimate. -/
inductive EkfCall (n m l : ℕ)
  | predict (u : UArg l)
  | update (z : Option (Vec m)) (HJ : Vec n → Mat m n) (hx : Vec n → Vec m) (R : MatArg m)
      (residual : Vec m → Vec m → Vec m)
  | predictUpdate (z : Option (Vec m)) (HJ : Vec n → Mat m n) (hx : Vec n → Vec m) (u : UArg l)

/-- What such a call does. -/
noncomputable def EkfCall.on (s : EKF n m l) : EkfCall n m l → Exec (EKF n m l)
  | .predict u => s.predict u
  | .update z HJ hx R res => s.update z HJ hx R res
  | .predictUpdate z HJ hx u => s.predictUpdate z HJ hx u

/-- The only thing asked of a call: a given `R` is a covariance. -/
def EkfCall.Good : EkfCall n m l → Prop
  | .update _ _ _ R _ => PSDArg R
  | _ => True

structure EKFPSD (s : EKF n m l) : Prop where
  P : s.P.PosSemidef
  Q : s.Q.PosSemidef
  R : s.R.PosSemidef
  PPrior : s.PPrior.PosSemidef
  PPost : s.PPost.PosSemidef

theorem ekf_call_psd {s : EKF n m l} (hs : EKFPSD s) {c : EkfCall n m l} (hc : c.Good) :
    EKFPSD (c.on s).left := by
  cases c with
  | predict u =>
    simp only [EkfCall.on, EKF.predict]
    cases FKF.control s.B u with
    | error e => exact hs
    | ok bu =>
      have h := (PSD.congr hs.P s.F).add hs.Q
      exact ⟨h, hs.Q, hs.R, h, hs.PPost⟩
  | update z HJ hx R res =>
    simp only [EkfCall.on, EKF.update]
    cases z with
    | none => exact ⟨hs.P, hs.Q, hs.R, hs.PPrior, hs.P⟩
    | some z =>
      simp only
      cases npInv (HJ s.x * (s.P * (HJ s.x)ᵀ) + R.resolve s.R) with
      | none => exact ⟨hs.P, hs.Q, hs.R, hs.PPrior, hs.PPost⟩
      | some SI =>
        have hR : (R.resolve s.R).PosSemidef := PSDArg.resolve hc hs.R
        have h := joseph_psd (H := HJ s.x) hs.P hR (s.P * (HJ s.x)ᵀ * SI)
        exact ⟨h, hs.Q, hs.R, hs.PPrior, h⟩
  | predictUpdate z HJ hx u =>
    simp only [EkfCall.on, EKF.predictUpdate]
    cases FKF.control s.B u with
    | error e => exact hs
    | ok bu =>
      simp only
      cases npInv (HJ s.x * ((s.F * s.P * s.Fᵀ + s.Q) * (HJ s.x)ᵀ) + s.R) with
      | none => exact ⟨hs.P, hs.Q, hs.R, hs.P, hs.PPost⟩
      | some SI =>
        cases z with
        | none => exact ⟨hs.P, hs.Q, hs.R, hs.P, hs.PPost⟩
        | some z =>
          have h := joseph_psd (H := HJ s.x) ((PSD.congr hs.P s.F).add hs.Q) hs.R
            ((s.F * s.P * s.Fᵀ + s.Q) * (HJ s.x)ᵀ * SI)
          exact ⟨h, hs.Q, hs.R, hs.P, h⟩

/-- **C103.** Through every history of predictions, updates with arbitrary measurement functions, Jacobians and
residuals, and `predict_update` calls, raising ones included, the covariances stay symmetric and positive
semidefinite. -/
theorem C103_psd_invariant (s : EKF n m l) (hP : s.P.PosSemidef) (hQ : s.Q.PosSemidef) (hR : s.R.PosSemidef)
    (hp : s.PPrior.PosSemidef) (hq : s.PPost.PosSemidef) (calls : List (EkfCall n m l))
    (hc : ∀ c ∈ calls, c.Good) :
    let s' := (runList EkfCall.on s calls).left
    s'.P.PosSemidef ∧ s'.PPrior.PosSemidef ∧ s'.PPost.PosSemidef := by
  have key : ∀ (calls : List (EkfCall n m l)) (s : EKF n m l), EKFPSD s → (∀ c ∈ calls, c.Good) →
      EKFPSD (runList EkfCall.on s calls).left := by
    intro calls
    induction calls with
    | nil => intro s hs _; exact hs
    | cons c cs ih =>
      intro s hs hc
      have h1 := ekf_call_psd hs (hc c (by simp))
      simp only [runList]
      cases h : c.on s with
      | error e => rw [h] at h1; exact h1
      | ok s1 => rw [h] at h1; exact ih s1 h1 fun c' h' => hc c' (by simp [h'])
  have := key calls s ⟨hP, hQ, hR, hp, hq⟩ hc
  exact ⟨this.P, this.PPrior, this.PPost⟩

theorem vc_apply (a : ℝ) : vc a 0 = a := rfl

theorem jacobian_one {g : ℝ → ℝ} {g' a : ℝ} (hg : HasDerivAt g g' a) (z : Vec 1) :
    IsJacobian (fun X : Vec 1 => z - vc (g (X 0))) (-sc g') (vc a) := by
  intro d
  rw [hasDerivAt_pi]
  intro i
  rw [Fin.fin_one_eq_zero i, eq_vc d, sc_neg, sc_mulVec]
  have h1 : HasDerivAt (fun t : ℝ => a + t * d 0) (d 0) 0 := by
    simpa using ((hasDerivAt_id (0 : ℝ)).mul_const (d 0)).const_add a
  have hg' : HasDerivAt g g' (a + 0 * d 0) := by simpa using hg
  have h2 := (HasDerivAt.comp (0 : ℝ) hg' h1).const_sub (z 0)
  refine h2.congr_deriv ?_
  simp [vc]

/-- The full step may overshoot, however: with `Hx(x) = x²` the estimate it leaves is less probable than the
one it started from.  So the guarantee above cannot be strengthened to "every update finds a better state". -/
theorem C103_full_step_refuted :
    ∃ (s s' : EKF 1 1 1) (z : Vec 1), s.P.PosDef ∧ s.R.PosDef ∧
      IsJacobian (fun X : Vec 1 => z - vc (X 0 ^ 2)) (-sc (2 * s.x 0)) s.x ∧
      s.update (some z) (fun x => sc (2 * x 0)) (fun x => vc (x 0 ^ 2)) = .ok s' ∧
      mapCost s.x s.P s.R (fun X : Vec 1 => z - vc (X 0 ^ 2)) s.x <
        mapCost s.x s.P s.R (fun X : Vec 1 => z - vc (X 0 ^ 2)) s'.x := by
  let s : EKF 1 1 1 := { EKF.fresh 1 1 1 with x := vc (1 / 2), P := sc 3, R := sc 1 }
  obtain ⟨s', h, hx, -⟩ := ekf_update_ok (s := s) (z := vc (33 / 4)) (HJ := fun x => sc (2 * x 0))
    (hx := fun x => vc (x 0 ^ 2)) (R := .none) (res := fun a b => a - b)
    (sc_posSemidef 3 (by norm_num)) (sc_posDef 1 (by norm_num))
  refine ⟨s, s', vc (33 / 4), sc_posDef 3 (by norm_num), sc_posDef 1 (by norm_num), ?_, h, ?_⟩
  · have : HasDerivAt (fun x : ℝ => x ^ 2) (2 * vc (1 / 2) 0) (1 / 2) := by
      simpa [vc] using hasDerivAt_pow 2 (1 / 2 : ℝ)
    exact jacobian_one this _
  · have e : s'.x = vc (13 / 2) := by
      rw [hx]
      simp only [s, MatArg.resolve, sc_mul, sc_add, sc_transpose, vc_sub, vc_apply]
      rw [sc_inv _ (by norm_num), sc_mul, sc_mulVec, vc_add]
      norm_num
    rw [e]
    simp only [mapCost, sqLen, s, vc_sub, vc_apply]
    rw [sc_inv _ (by norm_num), sc_inv _ (by norm_num)]
    simp only [sc_mulVec, vc_dot]
    norm_num

/-- Non-vacuity of `C103_slope` and `C103_descent`: a sensor that measures `sin x`. -/
example : ∃ s' : EKF 1 1 1, (EKF.fresh 1 1 1).update (some (vc 1)) (fun x => sc (Real.cos (x 0)))
      (fun x => vc (Real.sin (x 0))) = .ok s' ∧ s'.x ≠ (EKF.fresh 1 1 1).x ∧
    (EKF.fresh 1 1 1).P.PosDef ∧ (EKF.fresh 1 1 1).R.PosDef ∧
    IsJacobian (fun X : Vec 1 => vc 1 - vc (Real.sin (X 0))) (-sc (Real.cos ((EKF.fresh 1 1 1).x 0)))
      (EKF.fresh 1 1 1).x := by
  obtain ⟨s', h, hx, -⟩ := ekf_update_ok (s := EKF.fresh 1 1 1) (z := vc 1)
    (HJ := fun x => sc (Real.cos (x 0))) (hx := fun x => vc (Real.sin (x 0))) (R := .none)
    (res := fun a b => a - b) (PosSemidef.one) (PosDef.one)
  refine ⟨s', h, ?_, PosDef.one, PosDef.one, ?_⟩
  · rw [hx]
    simp only [EKF.fresh, MatArg.resolve, sc_one, Pi.zero_apply, Real.cos_zero, Real.sin_zero, sc_mul, sc_add,
      sc_transpose, vc_sub]
    rw [sc_inv _ (by norm_num), sc_mul, sc_mulVec, zero_add, vc_zero, Ne, vc_inj]
    norm_num
  · have := jacobian_one (Real.hasDerivAt_sin 0) (vc 1)
    simpa [EKF.fresh, vc_zero, vc_apply] using this

end Filterpy
