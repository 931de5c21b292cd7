import Verif.Props.UKF
import Verif.Props.Cubature
import Verif.Props.EnKF
import Mathlib.Algebra.Order.Chebyshev

/-!
# When the nonlinear filters cannot break down (C118)
-/

namespace Filterpy

open Matrix Spec SigmaPts

variable {n m k : ℕ}

namespace Spec

/-- Whatever values a function takes at the sigma points, the variance computed from them is not negative. -/
def VarNonneg {k : ℕ} (Wm Wc : Vec k) : Prop := ∀ y : Vec k, 0 ≤ ∑ i, Wc i * (y i - ∑ j, Wm j * y j) ^ 2

/-- The square root routine raises `LinAlgError` for a matrix that is not positive definite. -/
def RefusesOthers {n : ℕ} (sqrt : Mat n n → Except Err (Mat n n)) : Prop :=
  ∀ A : Mat n n, ¬ A.PosDef → sqrt A = .error .linAlgError

end Spec

/-! ## Weighted sums of outer products -/

theorem quad_sum (W : Vec k) (a : Fin k → Vec n) (b : Fin k → Vec m) (v : Vec n) (w : Vec m) :
    v ⬝ᵥ ((∑ i, W i • vecMulVec (a i) (b i)) *ᵥ w) = ∑ i, W i * ((v ⬝ᵥ a i) * (w ⬝ᵥ b i)) := by
  rw [sum_mulVec, dotProduct_sum]
  refine Finset.sum_congr rfl fun i _ => ?_
  rw [smul_mulVec, dotProduct_smul, vecMulVec_mulVec, smul_eq_mul]
  rw [show MulOpposite.op (b i ⬝ᵥ w) • a i = (b i ⬝ᵥ w) • a i from by ext; simp [mul_comm], dotProduct_smul, smul_eq_mul,
    dotProduct_comm (b i)]
  ring

theorem sum_outer_symm (W : Vec k) (a : Fin k → Vec n) :
    (∑ i, W i • vecMulVec (a i) (a i))ᵀ = ∑ i, W i • vecMulVec (a i) (a i) := by
  rw [transpose_sum]
  refine Finset.sum_congr rfl fun i _ => ?_
  rw [transpose_smul, transpose_vecMulVec]

/-- The unscented transform written as sums. -/
theorem ut_eq (s : Mat k n) (Wm Wc : Vec k) (N : Mat n n) (f : Option (Mat k n → Vec k → Vec n))
    (r : Option (Vec n → Vec n → Vec n)) :
    unscentedTransform s Wm Wc (some N) f r =
      ((unscentedTransform s Wm Wc none f r).1,
        (∑ i, Wc i • vecMulVec (resFn r (s i) (unscentedTransform s Wm Wc none f r).1)
          (resFn r (s i) (unscentedTransform s Wm Wc none f r).1)) + N) := by
  cases r with
  | none =>
    exact congrArg (fun A => ((unscentedTransform s Wm Wc none f none).1, A + N))
      (fast_cov (fun i => s i - (unscentedTransform s Wm Wc none f none).1) Wc)
  | some r =>
    have h : ∀ (x : Vec n) (l : List (Fin k)) (A : Mat n n), l.foldl (utStep s Wc r x) A
        = A + (l.map fun i => Wc i • vecMulVec (r (s i) x) (r (s i) x)).sum := by
      intro x l
      induction l with
      | nil => intro A; simp
      | cons a l ih =>
        intro A
        rw [List.foldl_cons, ih, List.map_cons, List.sum_cons]
        unfold utStep
        abel
    unfold unscentedTransform
    simp only
    rw [h, zero_add, ← List.ofFn_eq_map, List.sum_ofFn]
    rfl

theorem joint_core {P : Mat n n} {C : Mat n m} {Z R : Mat m m} (hP : Pᵀ = P) (hR : R.PosDef) (hZ : Zᵀ = Z)
    (hj : ∀ v w, 0 ≤ v ⬝ᵥ (P *ᵥ v) + 2 * (v ⬝ᵥ (C *ᵥ w)) + w ⬝ᵥ (Z *ᵥ w)) :
    (Z + R).PosDef ∧ (P - C * (Z + R)⁻¹ * ((Z + R) * (C * (Z + R)⁻¹)ᵀ))ᵀ =
      P - C * (Z + R)⁻¹ * ((Z + R) * (C * (Z + R)⁻¹)ᵀ) ∧
    ∀ v, ∃ w, w ⬝ᵥ (R *ᵥ w) ≤ v ⬝ᵥ ((P - C * (Z + R)⁻¹ * ((Z + R) * (C * (Z + R)⁻¹)ᵀ)) *ᵥ v) ∧
      (w = 0 → v ⬝ᵥ ((P - C * (Z + R)⁻¹ * ((Z + R) * (C * (Z + R)⁻¹)ᵀ)) *ᵥ v) = v ⬝ᵥ (P *ᵥ v)) := by
  have hS : (Z + R).PosDef := by
    refine Matrix.PosDef.posSemidef_add (PSD.of_quad hZ fun w => ?_) hR
    simpa using hj 0 w
  have hSs := PD.symm hS
  have hSi : ((Z + R)⁻¹)ᵀ = (Z + R)⁻¹ := by rw [transpose_nonsing_inv, hSs]
  have e : C * (Z + R)⁻¹ * ((Z + R) * (C * (Z + R)⁻¹)ᵀ) = C * (Z + R)⁻¹ * Cᵀ := by
    rw [transpose_mul, hSi, ← Matrix.mul_assoc (Z + R), mul_nonsing_inv _ (PD.isUnit_det hS), Matrix.one_mul]
  rw [e]
  refine ⟨hS, ?_, fun v => ?_⟩
  · rw [transpose_sub, hP, transpose_mul, transpose_mul, hSi, transpose_transpose, Matrix.mul_assoc]
  · set w : Vec m := (Z + R)⁻¹ *ᵥ (Cᵀ *ᵥ v) with hw
    have h1 : (Z + R) *ᵥ w = Cᵀ *ᵥ v := by
      rw [hw, mulVec_mulVec, mul_nonsing_inv _ (PD.isUnit_det hS), one_mulVec]
    have h2 : v ⬝ᵥ (C *ᵥ w) = w ⬝ᵥ ((Z + R) *ᵥ w) := by
      rw [h1, dotProduct_mulVec, ← mulVec_transpose, dotProduct_comm]
    have h3 : v ⬝ᵥ ((P - C * (Z + R)⁻¹ * Cᵀ) *ᵥ v) = v ⬝ᵥ (P *ᵥ v) - w ⬝ᵥ ((Z + R) *ᵥ w) := by
      rw [sub_mulVec, dotProduct_sub, ← h2, hw, mulVec_mulVec, mulVec_mulVec, Matrix.mul_assoc]
    have h4 := hj v (-w)
    rw [mulVec_neg, dotProduct_neg, mulVec_neg, dotProduct_neg, neg_dotProduct, neg_neg, h2] at h4
    have h5 : w ⬝ᵥ ((Z + R) *ᵥ w) = w ⬝ᵥ (Z *ᵥ w) + w ⬝ᵥ (R *ᵥ w) := by rw [add_mulVec, dotProduct_add]
    rw [h3]
    exact ⟨w, by linarith, fun h0 => by rw [h0]; simp⟩

/-- The measurement step: if the joint second moments are nonnegative and the measurement noise is positive definite,
the matrix to be inverted is positive definite and so is the new covariance. -/
theorem joint_post {P : Mat n n} {C : Mat n m} {Z R : Mat m m} (hP : P.PosDef) (hR : R.PosDef) (hZ : Zᵀ = Z)
    (hj : ∀ v w, 0 ≤ v ⬝ᵥ (P *ᵥ v) + 2 * (v ⬝ᵥ (C *ᵥ w)) + w ⬝ᵥ (Z *ᵥ w)) :
    (Z + R).PosDef ∧ (P - C * (Z + R)⁻¹ * ((Z + R) * (C * (Z + R)⁻¹)ᵀ)).PosDef := by
  obtain ⟨h1, h2, h3⟩ := joint_core (PD.symm hP) hR hZ hj
  refine ⟨h1, PD.of_quad h2 fun v hv => ?_⟩
  obtain ⟨w, h4, h5⟩ := h3 v
  by_cases h0 : w = 0
  · rw [h5 h0]; exact PD.quad hP hv
  · exact lt_of_lt_of_le (PD.quad hR h0) h4

theorem joint_post_semi {P : Mat n n} {C : Mat n m} {Z R : Mat m m} (hP : P.PosSemidef) (hR : R.PosDef) (hZ : Zᵀ = Z)
    (hj : ∀ v w, 0 ≤ v ⬝ᵥ (P *ᵥ v) + 2 * (v ⬝ᵥ (C *ᵥ w)) + w ⬝ᵥ (Z *ᵥ w)) :
    (Z + R).PosDef ∧ (P - C * (Z + R)⁻¹ * ((Z + R) * (C * (Z + R)⁻¹)ᵀ)).PosSemidef := by
  obtain ⟨h1, h2, h3⟩ := joint_core (PSD.symm hP) hR hZ hj
  refine ⟨h1, PSD.of_quad h2 fun v => ?_⟩
  obtain ⟨w, h4, -⟩ := h3 v
  exact (PSD.quad hR.posSemidef w).trans h4

/-! ## The unscented filter -/

/-- What the update uses of the points drawn for `(x, P)`. -/
theorem joint_default {Wm Wc : Vec k} (hV : VarNonneg Wm Wc) {sf : Mat k n} {sh : Mat k m} {x : Vec n} {z : Vec m}
    (hx : WMean Wm sf = x) (hz : WMean Wm sh = z) (v : Vec n) (w : Vec m) :
    0 ≤ v ⬝ᵥ ((∑ i, Wc i • vecMulVec (sf i - x) (sf i - x)) *ᵥ v) +
      2 * (v ⬝ᵥ ((∑ i, Wc i • vecMulVec (sf i - x) (sh i - z)) *ᵥ w)) +
      w ⬝ᵥ ((∑ i, Wc i • vecMulVec (sh i - z) (sh i - z)) *ᵥ w) := by
  have h := hV fun i => v ⬝ᵥ sf i + w ⬝ᵥ sh i
  have hm : ∑ j, Wm j * (v ⬝ᵥ sf j + w ⬝ᵥ sh j) = v ⬝ᵥ x + w ⬝ᵥ z := by
    rw [← hx, ← hz, WMean, WMean, dotProduct_sum, dotProduct_sum, ← Finset.sum_add_distrib]
    refine Finset.sum_congr rfl fun i _ => ?_
    rw [dotProduct_smul, dotProduct_smul, smul_eq_mul, smul_eq_mul]
    ring
  rw [hm] at h
  rw [quad_sum, quad_sum, quad_sum, Finset.mul_sum, ← Finset.sum_add_distrib, ← Finset.sum_add_distrib]
  convert h using 1
  refine Finset.sum_congr rfl fun i _ => ?_
  rw [dotProduct_sub, dotProduct_sub]
  ring

theorem joint_positive {Wc : Vec k} (hW : ∀ i, 0 ≤ Wc i) (a : Fin k → Vec n) (b : Fin k → Vec m) (v : Vec n)
    (w : Vec m) :
    0 ≤ v ⬝ᵥ ((∑ i, Wc i • vecMulVec (a i) (a i)) *ᵥ v) + 2 * (v ⬝ᵥ ((∑ i, Wc i • vecMulVec (a i) (b i)) *ᵥ w)) +
      w ⬝ᵥ ((∑ i, Wc i • vecMulVec (b i) (b i)) *ᵥ w) := by
  rw [quad_sum, quad_sum, quad_sum, Finset.mul_sum, ← Finset.sum_add_distrib, ← Finset.sum_add_distrib]
  refine Finset.sum_nonneg fun i _ => ?_
  have := mul_nonneg (hW i) (sq_nonneg (v ⬝ᵥ a i + w ⬝ᵥ b i))
  linarith [this]

theorem positive_psd {Wc : Vec k} (hW : ∀ i, 0 ≤ Wc i) (a : Fin k → Vec n) :
    (∑ i, Wc i • vecMulVec (a i) (a i)).PosSemidef := by
  refine PSD.of_quad (sum_outer_symm _ _) fun v => ?_
  simpa using joint_positive hW a (fun _ => (0 : Vec 0)) v 0

theorem default_psd {Wm Wc : Vec k} (hV : VarNonneg Wm Wc) (s : Mat k n) {x : Vec n} (hx : WMean Wm s = x) :
    (∑ i, Wc i • vecMulVec (s i - x) (s i - x)).PosSemidef := by
  refine PSD.of_quad (sum_outer_symm _ _) fun v => ?_
  simpa using joint_default hV hx (sh := (0 : Mat k 0)) rfl v 0

theorem affine_mean {W : Vec k} (hW : ∑ i, W i = 1) (s : Mat k n) (F : Mat n n) (b : Vec n) :
    WMean W (fun i => F *ᵥ s i + b) = F *ᵥ WMean W s + b := by
  simp only [WMean, smul_add, Finset.sum_add_distrib, ← Finset.sum_smul, hW, one_smul, mulVec_sum, mulVec_smul]

theorem affine_cov (W : Vec k) (s : Mat k n) (c : Vec n) (F : Mat n n) (b : Vec n) :
    (∑ i, W i • vecMulVec ((F *ᵥ s i + b) - (F *ᵥ c + b)) ((F *ᵥ s i + b) - (F *ᵥ c + b))) =
      F * WCov W s c * Fᵀ := by
  rw [wcov_eq, Matrix.mul_sum, Matrix.sum_mul]
  refine Finset.sum_congr rfl fun i _ => ?_
  rw [add_sub_add_right_eq_sub, ← mulVec_sub, Matrix.mul_smul, Matrix.smul_mul, mul_vecMulVec, vecMulVec_mul,
    vecMul_transpose]

theorem conj_pd {P F : Mat n n} (hP : P.PosDef) (hF : F.det ≠ 0) : (F * P * Fᵀ).PosDef := by
  refine PD.of_quad (by rw [transpose_mul, transpose_mul, transpose_transpose, PD.symm hP, Matrix.mul_assoc]) fun v hv => ?_
  have h0 : Fᵀ *ᵥ v ≠ 0 := by
    intro h
    apply hv
    have := congrArg (fun w => (Fᵀ)⁻¹ *ᵥ w) h
    simpa only [mulVec_mulVec, nonsing_inv_mul _ (isUnit_iff_ne_zero.2 (by rwa [det_transpose] : (Fᵀ).det ≠ 0)), one_mulVec,
      mulVec_zero] using this
  have := PD.quad hP h0
  rwa [mulVec_transpose, ← dotProduct_mulVec, mulVec_mulVec, ← mulVec_transpose, mulVec_mulVec] at this

namespace Spec

/-- An affine function with an invertible matrix. -/
def AffineInvertible (f : Vec n → Vec n) : Prop := ∃ (F : Mat n n) (b : Vec n), F.det ≠ 0 ∧ ∀ v, f v = F *ᵥ v + b

/-- A call of an `UnscentedKalmanFilter`, with every optional argument. -/
inductive UkfCall (n m : ℕ)
  | predict (dt : Option ℝ) (fx : Option (Vec n → ℝ → Vec n))
  | update (z : Option (Vec m)) (R : MatArg m) (hx : Option (Vec n → Vec m))

/-- Making the call. -/
noncomputable def UkfCall.on {p : SigmaPts n} (s : UKF n m p) : UkfCall n m → Exec (UKF n m p)
  | .predict dt fx => s.predict dt fx
  | .update z R hx => s.update z R hx

/-- At most one measurement between two predictions and a prediction before the first measurement, unless `ready`;
missing measurements may occur anywhere. -/
def UkfCall.Alternating : Bool → List (UkfCall n m) → Prop
  | _, [] => True
  | _, .predict _ _ :: ops => Alternating true ops
  | b, .update none _ _ :: ops => Alternating b ops
  | b, .update (some _) _ _ :: ops => b = true ∧ Alternating false ops

/-- The measurement noise of a call is positive definite. -/
def UkfCall.GoodR (R0 : Mat m m) : UkfCall n m → Prop
  | .update (some _) R _ => (R.resolve R0).PosDef
  | _ => True

/-- Means and residuals of the filter are the defaults and variances cannot become negative, or else the weights are
positive and only the residual of the state is the default. -/
def UkfSafe {p : SigmaPts n} (u : UKF n m p) : Prop :=
  u.residualX = none ∧
    ((VarNonneg p.Wm p.Wc ∧ u.xMean = none ∧ u.zMean = none ∧ u.residualZ = none) ∨ ∀ i, 0 ≤ p.Wc i)

/-- What a prediction needs of the process noise: it is positive definite, or the process function is affine and
invertible (with the default mean), and then singular noise such as that of `Q_discrete_white_noise` will do. -/
def UkfCall.GoodF {p : SigmaPts n} (u : UKF n m p) : UkfCall n m → Prop
  | .predict dt fx => u.Q.PosDef ∨ (u.xMean = none ∧ AffineInvertible fun v => fx.getD u.fx v (dt.getD u.dt))
  | _ => True

end Spec

variable {p : SigmaPts n}

structure RunInv (u0 : UKF n m p) (b : Bool) (u : UKF n m p) : Prop where
  safe : UkfSafe u
  inv : ∀ {j : ℕ} (A : Mat j j), u.inv A = npInv A
  R : u.R = u0.R
  Q : u.Q = u0.Q
  fx : u.fx = u0.fx
  dt : u.dt = u0.dt
  xMean : u.xMean = u0.xMean
  psd : u.Q.PosSemidef
  P : u.P.PosDef
  prior : u.PPrior.PosDef
  post : u.PPost.PosDef
  ready : b = true → p.points u.x u.P = .ok u.sigmasF

theorem ut_mean_default (s : Mat k n) (Wm Wc : Vec k) (r : Option (Vec n → Vec n → Vec n)) :
    (unscentedTransform s Wm Wc none none r).1 = WMean Wm s := weighted_mean s Wm

theorem run_predict (he : Encodes p) {u0 : UKF n m p} {b : Bool} {u : UKF n m p} (h : RunInv u0 b u) (dt : Option ℝ)
    (fx : Option (Vec n → ℝ → Vec n)) (hF : (UkfCall.predict (m := m) dt fx).GoodF u0) :
    ∃ u', u.predict dt fx = .ok u' ∧ RunInv u0 true u' := by
  obtain ⟨s, hs, hsm, hsc⟩ := he.pts u.x u.P h.P
  set sf := UKF.pushRows (fun v => fx.getD u.fx v (dt.getD u.dt)) s with hsf
  have hpd : (unscentedTransform sf p.Wm p.Wc (some u.Q) u.xMean u.residualX).2.PosDef := by
    rw [ut_eq]
    rw [h.safe.1]
    rcases hF with hQ | ⟨hm, F, b, hdet, hf⟩
    · refine Matrix.PosDef.posSemidef_add ?_ (h.Q ▸ hQ)
      rcases h.safe.2 with ⟨hV, hx, -, -⟩ | hW
      · rw [hx, ut_mean_default]
        exact default_psd hV sf rfl
      · exact positive_psd hW _
    · refine Matrix.PosDef.add_posSemidef ?_ h.psd
      have hsf' : sf = fun i => F *ᵥ s i + b := by
        funext i
        rw [hsf, h.fx, h.dt]
        exact hf _
      rw [h.xMean, hm, ut_mean_default, hsf', affine_mean he.sum]
      have := affine_cov p.Wc s (WMean p.Wm s) F b
      simp only [resFn, Option.getD_none]
      rw [this, hsm, hsc]
      exact conj_pd h.P hdet
  obtain ⟨s2, hs2, -, -⟩ := he.pts (unscentedTransform sf p.Wm p.Wc (some u.Q) u.xMean u.residualX).1 _ hpd
  refine ⟨_, by
    simp only [UKF.predict, UKF.computeProcessSigmas, hs, UKF.predictUT, ← hsf, hs2]
    rfl, ?_⟩
  exact { h with P := hpd, prior := hpd, ready := fun _ => hs2 }

theorem run_update (he : Encodes p) {u0 : UKF n m p} {u : UKF n m p} (h : RunInv u0 true u) (z : Vec m) (R : MatArg m)
    (hx : Option (Vec n → Vec m)) (hR : (R.resolve u0.R).PosDef) :
    ∃ u', u.update (some z) R hx = .ok u' ∧ RunInv u0 false u' := by
  obtain ⟨s, hs, hm, hc⟩ := he.pts u.x u.P h.P
  obtain rfl : u.sigmasF = s := Except.ok.inj ((h.ready rfl).symm.trans hs)
  set sh := UKF.pushRows (hx.getD u.hx) u.sigmasF with hsh
  set zp := (unscentedTransform sh p.Wm p.Wc none u.zMean u.residualZ).1 with hzp
  set Z := ∑ i, p.Wc i • vecMulVec (resFn u.residualZ (sh i) zp) (resFn u.residualZ (sh i) zp) with hZ
  set C := UKF.crossVariance p.Wc (resFn u.residualX) (resFn u.residualZ) u.x zp u.sigmasF sh with hC
  have hut : unscentedTransform sh p.Wm p.Wc (some (R.resolve u.R)) u.zMean u.residualZ =
      (zp, Z + R.resolve u.R) := ut_eq _ _ _ _ _ _
  have hC' : C = ∑ i, p.Wc i • vecMulVec (u.sigmasF i - u.x) (resFn u.residualZ (sh i) zp) := by
    rw [hC, crossVariance_eq, h.safe.1]
    rfl
  have hP' : u.P = ∑ i, p.Wc i • vecMulVec (u.sigmasF i - u.x) (u.sigmasF i - u.x) := by
    conv_lhs => rw [← hc, wcov_eq]
  have hj : ∀ v w, 0 ≤ v ⬝ᵥ (u.P *ᵥ v) + 2 * (v ⬝ᵥ (C *ᵥ w)) + w ⬝ᵥ (Z *ᵥ w) := by
    intro v w
    rw [hP', hC', hZ]
    rcases h.safe.2 with ⟨hV, -, hz, hr⟩ | hW
    · have e : WMean p.Wm sh = zp := by rw [hzp, hz, ut_mean_default]
      simp only [hr, resFn, Option.getD_none]
      exact joint_default hV hm e v w
    · exact joint_positive hW _ _ v w
  rw [← h.R] at hR
  obtain ⟨h1, h2⟩ := joint_post h.P hR (sum_outer_symm _ _) hj
  have hi : npInv (Z + R.resolve u.R) = some (Z + R.resolve u.R)⁻¹ := npInv_of_det_ne (PD.det_ne h1)
  refine ⟨_, by
    simp only [UKF.update, ← hsh, hut, h.inv, hi]
    rfl, ?_⟩
  exact { h with P := h2, post := h2, ready := fun hb => by cases hb }

/-- **C118 (unscented filter).** With positive definite `P` and `R`, weights that cannot give a negative variance, and
predictions that are affine and invertible or else a positive definite `Q`, a history with at most one measurement
after every prediction never raises, whatever functions `fx` and `hx` are, and `P`, `P_prior` and `P_post` stay positive
definite. -/
theorem C118_ukf (hp : ValidPoints p) (u : UKF n m p) (hs : UkfSafe u) (hinv : ∀ {j : ℕ} (A : Mat j j), u.inv A = npInv A)
    (hP : u.P.PosDef) (hQ : u.Q.PosSemidef) (hprior : u.PPrior.PosDef) (hpost : u.PPost.PosDef) (ops : List (UkfCall n m))
    (halt : UkfCall.Alternating false ops) (hR : ∀ op ∈ ops, op.GoodR u.R ∧ op.GoodF u) :
    ∃ u', runList UkfCall.on u ops = .ok u' ∧ u'.P.PosDef ∧ u'.PPrior.PosDef ∧ u'.PPost.PosDef := by
  have key : ∀ (ops : List (UkfCall n m)) (b : Bool) (v : UKF n m p), RunInv u b v → UkfCall.Alternating b ops →
      (∀ op ∈ ops, op.GoodR u.R ∧ op.GoodF u) →
      ∃ u', runList UkfCall.on v ops = .ok u' ∧ u'.P.PosDef ∧ u'.PPrior.PosDef ∧ u'.PPost.PosDef := by
    intro ops
    induction ops with
    | nil => exact fun b v hv _ _ => ⟨v, rfl, hv.P, hv.prior, hv.post⟩
    | cons op ops ih =>
      intro b v hv ha hg
      have hg' := fun o ho => hg o (List.mem_cons_of_mem _ ho)
      match op, ha with
      | .predict dt fx, ha =>
        obtain ⟨v', e, hv'⟩ := run_predict hp.encodes hv dt fx (hg _ List.mem_cons_self).2
        obtain ⟨u', hu, hr⟩ := ih true v' hv' ha hg'
        exact ⟨u', by simp only [runList, UkfCall.on, e, hu], hr⟩
      | .update none R hx, ha =>
        obtain ⟨u', hu, hr⟩ := ih b { v with z := fun _ => none, xPost := v.x, PPost := v.P }
          { hv with post := hv.P } ha hg'
        exact ⟨u', by simp only [runList, UkfCall.on, UKF.update, hu], hr⟩
      | .update (some z) R hx, ha =>
        obtain ⟨rfl, ha'⟩ := ha
        obtain ⟨v', e, hv'⟩ := run_update hp.encodes hv z R hx (hg _ List.mem_cons_self).1
        obtain ⟨u', hu, hr⟩ := ih false v' hv' ha' hg'
        exact ⟨u', by simp only [runList, UkfCall.on, e, hu], hr⟩
  exact key ops false u ⟨hs, hinv, rfl, rfl, rfl, rfl, rfl, hQ, hP, hprior, hpost, fun h => by cases h⟩ halt hR

/-! ## Which weights are safe -/

theorem symmetric_value (w0 w0' c : ℝ) (hw : w0 + 2 * n * c = 1) : ∀ y : Vec (2 * n + 1), (∑ i : Fin (2 * n + 1), (if (i : ℕ) = 0 then w0' else c) *
    (y i - ∑ j : Fin (2 * n + 1), (if (j : ℕ) = 0 then w0 else c) * y j) ^ 2) =
    c * (∑ i : Fin (2 * n), (y i.succ - y 0) ^ 2) +
      c ^ 2 * (∑ i : Fin (2 * n), (y i.succ - y 0)) ^ 2 * (w0' - w0 - 1) := by
  intro y
  set T := ∑ i : Fin (2 * n), (y i.succ - y 0) with hT
  have hmean : (∑ j : Fin (2 * n + 1), (if (j : ℕ) = 0 then w0 else c) * y j) = y 0 + c * T := by
    rw [Fin.sum_univ_succ, hT, Finset.sum_sub_distrib]
    simp only [Fin.val_succ, Nat.add_eq_zero_iff, one_ne_zero, and_false, if_false, Fin.val_zero, if_true,
      ← Finset.mul_sum, Finset.sum_const, Finset.card_univ, Fintype.card_fin, nsmul_eq_mul]
    push_cast
    linear_combination y 0 * hw
  rw [hmean, Fin.sum_univ_succ]
  simp only [Fin.val_succ, Nat.add_eq_zero_iff, one_ne_zero, and_false, if_false, Fin.val_zero, if_true,
    ← Finset.mul_sum]
  have h2 : ∑ i : Fin (2 * n), (y i.succ - (y 0 + c * T)) ^ 2 =
      (∑ i : Fin (2 * n), (y i.succ - y 0) ^ 2) - 2 * (c * T) * T + (2 * n) * (c * T) ^ 2 := by
    have : ∀ i : Fin (2 * n), (y i.succ - (y 0 + c * T)) ^ 2 =
        (y i.succ - y 0) ^ 2 - 2 * (c * T) * (y i.succ - y 0) + (c * T) ^ 2 := fun i => by ring
    rw [Finset.sum_congr rfl fun i _ => this i, Finset.sum_add_distrib, Finset.sum_sub_distrib, ← Finset.mul_sum, ← hT,
      Finset.sum_const, Finset.card_univ, Fintype.card_fin, nsmul_eq_mul]
    push_cast
    ring
  rw [h2]
  linear_combination c ^ 2 * T ^ 2 * hw

/-- A centre with weights `w0` (mean) and `w0'` (covariance) and the weight `c` elsewhere. -/
theorem symmetric_var (w0 w0' c : ℝ) (hc : 0 < c) (hw : w0 + 2 * n * c = 1) :
    VarNonneg (k := 2 * n + 1) (fun i => if (i : ℕ) = 0 then w0 else c) (fun i => if (i : ℕ) = 0 then w0' else c) ↔
      (n = 0 ∨ 0 ≤ 1 + (1 - w0) * (w0' - w0 - 1)) := by
  have key := symmetric_value (n := n) w0 w0' c hw
  constructor
  · intro h
    by_cases hn : n = 0
    · exact Or.inl hn
    right
    have h1 := h fun i => if (i : ℕ) = 0 then 0 else 1
    rw [key] at h1
    simp at h1
    have hn' : (0 : ℝ) < n := by exact_mod_cast Nat.pos_of_ne_zero hn
    have hpos : (0 : ℝ) < c * (2 * n) := by positivity
    have e : c * (2 * n) + c ^ 2 * (2 * n) ^ 2 * (w0' - w0 - 1) =
        c * (2 * n) * (1 + (1 - w0) * (w0' - w0 - 1)) := by
      linear_combination c * (2 * n) * (w0' - w0 - 1) * hw
    rw [e] at h1
    exact nonneg_of_mul_nonneg_right h1 hpos
  · rintro (rfl | h) y
    · rw [key]; simp
    · rw [key]
      set T := ∑ i : Fin (2 * n), (y i.succ - y 0)
      set A := ∑ i : Fin (2 * n), (y i.succ - y 0) ^ 2
      have hA : 0 ≤ A := Finset.sum_nonneg fun i _ => sq_nonneg _
      have hTA : T ^ 2 ≤ 2 * n * A := by
        have := sq_sum_le_card_mul_sum_sq (s := (Finset.univ : Finset (Fin (2 * n)))) (f := fun i => y i.succ - y 0)
        simpa only [Finset.card_univ, Fintype.card_fin, Nat.cast_mul, Nat.cast_ofNat] using this
      by_cases hg : 0 ≤ w0' - w0 - 1
      · positivity
      · have hg' : w0' - w0 - 1 < 0 := not_le.1 hg
        have h3 : c ^ 2 * (2 * n * A) * (w0' - w0 - 1) ≤ c ^ 2 * T ^ 2 * (w0' - w0 - 1) :=
          mul_le_mul_of_nonpos_right (mul_le_mul_of_nonneg_left hTA (sq_nonneg c)) hg'.le
        have h4 : c * A + c ^ 2 * (2 * n * A) * (w0' - w0 - 1) = c * A * (1 + (1 - w0) * (w0' - w0 - 1)) := by
          linear_combination c * A * (w0' - w0 - 1) * hw
        have h5 : 0 ≤ c * A * (1 + (1 - w0) * (w0' - w0 - 1)) := by positivity
        linarith

/-- **C118 (which parameters are safe).** For Merwe's points the variance computed for a function is nonnegative, for
all functions, exactly if `0 ≤ alpha² kappa + n beta`. -/
theorem C118_merwe (hn : 0 < n) (alpha beta kappa : ℝ) (hpos : 0 < alpha ^ 2 * (n + kappa))
    (sqrt : Mat n n → Except Err (Mat n n)) {p : SigmaPts n} (hp : merwe n alpha beta kappa sqrt = .ok p) :
    VarNonneg p.Wm p.Wc ↔ 0 ≤ alpha ^ 2 * kappa + n * beta := by
  have e : (n : ℝ) + (alpha ^ 2 * (n + kappa) - n) = alpha ^ 2 * (n + kappa) := by ring
  unfold merwe at hp
  simp only [e, hpos.ne', if_false, Except.ok.injEq] at hp
  subst hp
  have hw : (alpha ^ 2 * (n + kappa) - n) / (alpha ^ 2 * (n + kappa)) +
      2 * n * (0.5 / (alpha ^ 2 * (n + kappa))) = 1 := by
    have := hpos.ne'
    generalize alpha ^ 2 * (n + kappa) = c at this ⊢
    field_simp
    ring
  refine (symmetric_var _ _ _ (by positivity) hw).trans ?_
  rw [or_iff_right hn.ne']
  have e2 : 1 + (1 - (alpha ^ 2 * (n + kappa) - n) / (alpha ^ 2 * (n + kappa))) *
      ((alpha ^ 2 * (n + kappa) - n) / (alpha ^ 2 * (n + kappa)) + (1 - alpha ^ 2 + beta) -
        (alpha ^ 2 * (n + kappa) - n) / (alpha ^ 2 * (n + kappa)) - 1) =
      (alpha ^ 2 * kappa + n * beta) / (alpha ^ 2 * (n + kappa)) := by
    rw [eq_div_iff hpos.ne']
    have h1 : (alpha ^ 2 * (n + kappa) - n) / (alpha ^ 2 * (n + kappa)) * (alpha ^ 2 * (n + kappa)) =
        alpha ^ 2 * (n + kappa) - n := div_mul_cancel₀ _ hpos.ne'
    linear_combination (alpha ^ 2 - beta) * h1
  rw [e2, le_div_iff₀ hpos, zero_mul]

/-- **C118.** For Julier's points: exactly if `kappa` is not negative. -/
theorem C118_julier (hn : 0 < n) (kappa : ℝ) (hpos : 0 < n + kappa) (sqrt : Mat n n → Except Err (Mat n n))
    {p : SigmaPts n} (hp : julier n kappa sqrt = .ok p) : VarNonneg p.Wm p.Wc ↔ 0 ≤ kappa := by
  unfold julier at hp
  simp only [hpos.ne', if_false, Except.ok.injEq] at hp
  subst hp
  have hw : kappa / (n + kappa) + 2 * n * (0.5 / (n + kappa)) = 1 := by
    have := hpos.ne'
    field_simp
    ring
  refine (symmetric_var _ _ _ (by positivity) hw).trans ?_
  rw [or_iff_right hn.ne', show 1 + (1 - kappa / (n + kappa)) * (kappa / (n + kappa) - kappa / (n + kappa) - 1) =
    kappa / (n + kappa) by ring, le_div_iff₀ hpos, zero_mul]

/-- **C118.** The weights of the simplex points are positive. -/
theorem C118_simplex (sqrt : Mat n n → Except Err (Mat n n)) :
    VarNonneg (simplex n sqrt).Wm (simplex n sqrt).Wc ∧ ∀ i, 0 ≤ (simplex n sqrt).Wc i := by
  have h : ∀ i, 0 ≤ (simplex n sqrt).Wc i := fun i => by
    show (0 : ℝ) ≤ 1 / (n + 1)
    positivity
  exact ⟨fun y => Finset.sum_nonneg fun i _ => mul_nonneg (h i) (sq_nonneg _), h⟩

theorem ut_single (y : Vec k) (a : Fin n) (Wm Wc : Vec k) (N : Mat n n) :
    (unscentedTransform (fun i => y i • (Pi.single a 1 : Vec n)) Wm Wc (some N) none none).2 a a =
      (∑ i, Wc i * (y i - ∑ j, Wm j * y j) ^ 2) + N a a := by
  have hmean : (∑ j, Wm j • (y j • (Pi.single a 1 : Vec n))) = (∑ j, Wm j * y j) • Pi.single a 1 := by
    rw [Finset.sum_smul]
    exact Finset.sum_congr rfl fun i _ => by rw [smul_smul]
  have h := congrArg (fun r => r.2 a a) (ut_default (fun i => y i • (Pi.single a 1 : Vec n)) Wm Wc (some N))
  refine h.trans ?_
  simp only [hmean, Option.getD_some, Matrix.add_apply, Matrix.sum_apply, Matrix.smul_apply, vecMulVec_apply, ← sub_smul,
    Pi.smul_apply, Pi.single_eq_same, smul_eq_mul, mul_one, ← pow_two]

/-- **C118 (the condition is needed).** If `alpha² kappa + n beta < 0` there are, for every state and covariance, a
process function and a positive definite process noise for which `predict` raises `LinAlgError`. -/
theorem C118_breaks (hn : 0 < n) (alpha beta kappa : ℝ) (hpos : 0 < alpha ^ 2 * (n + kappa))
    (hneg : alpha ^ 2 * kappa + n * beta < 0) (sqrt : Mat n n → Except Err (Mat n n)) (hs : IsCholUpper sqrt)
    (hr : RefusesOthers sqrt) {p : SigmaPts n} (hp : merwe n alpha beta kappa sqrt = .ok p) (u : UKF n m p)
    (hm : u.xMean = none) (hx : u.residualX = none) (hP : u.P.PosDef) (dt : Option ℝ) :
    ∃ (fx : Vec n → ℝ → Vec n) (Q : Mat n n) (u' : UKF n m p), Q.PosDef ∧
      ({ u with Q := Q } : UKF n m p).predict dt (some fx) = .error (.linAlgError, u') := by
  have e : (n : ℝ) + (alpha ^ 2 * (n + kappa) - n) = alpha ^ 2 * (n + kappa) := by ring
  have e' : (alpha ^ 2 * (n + kappa) - n) + (n : ℝ) = alpha ^ 2 * (n + kappa) := by ring
  unfold merwe at hp
  simp only [e, e', hpos.ne', if_false, Except.ok.injEq] at hp
  subst hp
  have hw : (alpha ^ 2 * (n + kappa) - n) / (alpha ^ 2 * (n + kappa)) +
      2 * n * (0.5 / (alpha ^ 2 * (n + kappa))) = 1 := by
    have := hpos.ne'
    generalize alpha ^ 2 * (n + kappa) = c at this ⊢
    field_simp
    ring
  obtain ⟨U, hU, hUU⟩ := hs ((alpha ^ 2 * (n + kappa)) • u.P) (hP.smul hpos)
  set a : Fin n := ⟨0, hn⟩
  set y : Vec (2 * n + 1) := fun i => if (i : ℕ) = 0 then 0 else 1 with hy
  have hq := symmetric_value (n := n) _ ((alpha ^ 2 * (n + kappa) - n) / (alpha ^ 2 * (n + kappa)) + (1 - alpha ^ 2 + beta))
    _ hw y
  set q := ∑ i : Fin (2 * n + 1), (if (i : ℕ) = 0 then
      (alpha ^ 2 * (n + kappa) - n) / (alpha ^ 2 * (n + kappa)) + (1 - alpha ^ 2 + beta) else
      0.5 / (alpha ^ 2 * (n + kappa))) * (y i - ∑ j : Fin (2 * n + 1), (if (j : ℕ) = 0 then
      (alpha ^ 2 * (n + kappa) - n) / (alpha ^ 2 * (n + kappa)) else 0.5 / (alpha ^ 2 * (n + kappa))) * y j) ^ 2 with hqdef
  have hqneg : q < 0 := by
    have hn' : (0 : ℝ) < n := by exact_mod_cast hn
    have h1 : q = n * (alpha ^ 2 * kappa + n * beta) / (alpha ^ 2 * (n + kappa)) ^ 2 := by
      rw [hq, hy]
      simp
      have := hpos.ne'
      have h2 : alpha ^ 2 * (n + kappa) = alpha ^ 2 * n + alpha ^ 2 * kappa := by ring
      have hk : alpha ^ 2 * kappa = alpha ^ 2 * (n + kappa) - alpha ^ 2 * n := by ring
      rw [hk]
      generalize alpha ^ 2 * (n + kappa) = c at this ⊢
      field_simp
      ring
    rw [h1]
    exact div_neg_of_neg_of_pos (mul_neg_of_pos_of_neg hn' hneg) (by positivity)
  have hrow : ∀ k : Fin n, U k ≠ 0 := by
    intro k hk
    have hd : U.det = 0 := det_eq_zero_of_row_eq_zero k fun j => congrFun hk j
    have := PD.det_ne (hP.smul hpos)
    rw [← hUU, det_mul, hd, mul_zero] at this
    exact this rfl
  classical
  set f : Vec n → ℝ → Vec n := fun v _ => if v = u.x then 0 else Pi.single a 1 with hf
  have hQ : ((-q / 2) • (1 : Mat n n)).PosDef := Matrix.PosDef.one.smul (by linarith)
  have hrows : UKF.pushRows (fun v => f v (dt.getD u.dt)) (symmetricSet (fun a b => a - b) u.x U) =
      fun i => y i • (Pi.single a 1 : Vec n) := by
    funext i
    show f (symmetricSet (fun a b => a - b) u.x U i) (dt.getD u.dt) = _
    simp only [hf, hy]
    by_cases h0 : (i : ℕ) = 0
    · rw [if_pos, if_pos h0, zero_smul]
      simp [symmetricSet, h0]
    · rw [if_neg, if_neg h0, one_smul]
      simp only [symmetricSet, h0, dif_neg, not_false_iff]
      split_ifs with h
      · intro hc
        exact hrow _ (by simpa using hc)
      · intro hc
        exact hrow _ (by simpa using hc)
  refine ⟨f, (-q / 2) • 1, ?_⟩
  simp only [UKF.predict, UKF.computeProcessSigmas, hU, UKF.predictUT, Option.getD_some, hrows, hm, hx]
  rw [hr]
  · exact ⟨_, hQ, rfl⟩
  · intro hc
    have h := hc.diag_pos (i := a)
    rw [Matrix.smul_apply, ut_single, Matrix.smul_apply, Matrix.one_apply_eq, ← hqdef] at h
    simp only [smul_eq_mul, mul_one] at h
    nlinarith

/-! ## Exactly when a prediction fails -/

namespace Spec

/-- The variance computed from the sigma points is never negative, and zero only for a function that takes the same
value at all of them. -/
def VarStrict {k : ℕ} (Wm Wc : Vec k) : Prop :=
  VarNonneg Wm Wc ∧ ∀ y : Vec k, ∑ i, Wc i * (y i - ∑ j, Wm j * y j) ^ 2 = 0 → ∀ i j, y i = y j

/-- Drawing points for a matrix that is not positive definite raises `LinAlgError`. -/
def DrawsOnlyPD (p : SigmaPts n) : Prop := ∀ (x : Vec n) (A : Mat n n), ¬ A.PosDef → p.points x A = .error .linAlgError

end Spec

theorem quad_default (Wm Wc : Vec k) (s : Mat k n) (v : Vec n) :
    v ⬝ᵥ ((∑ i, Wc i • vecMulVec (s i - WMean Wm s) (s i - WMean Wm s)) *ᵥ v) =
      ∑ i, Wc i * (v ⬝ᵥ s i - ∑ j, Wm j * (v ⬝ᵥ s j)) ^ 2 := by
  have hm : v ⬝ᵥ WMean Wm s = ∑ j, Wm j * (v ⬝ᵥ s j) := by
    rw [WMean, dotProduct_sum]
    exact Finset.sum_congr rfl fun i _ => by rw [dotProduct_smul, smul_eq_mul]
  rw [quad_sum]
  refine Finset.sum_congr rfl fun i _ => ?_
  rw [dotProduct_sub, hm]
  ring

/-- **C118 (exactly when `predict` fails).** With default means and residuals, positive definite `P` and any process
noise `Q`, `predict` succeeds unless there is a direction that the noise does not disturb and in which `fx` sends all
sigma points to the same place; then it raises `LinAlgError`. -/
theorem C118_predict_exact (hp : ValidPoints p) (hV : VarStrict p.Wm p.Wc) (hd : DrawsOnlyPD p) (u : UKF n m p)
    (hm : u.xMean = none) (hx : u.residualX = none) (hP : u.P.PosDef) (hQ : u.Q.PosSemidef) (dt : Option ℝ)
    (fx : Option (Vec n → ℝ → Vec n)) :
    ∃ s, p.points u.x u.P = .ok s ∧
      ((¬ ∃ v, v ≠ 0 ∧ u.Q *ᵥ v = 0 ∧ ∀ i j, v ⬝ᵥ fx.getD u.fx (s i) (dt.getD u.dt) =
          v ⬝ᵥ fx.getD u.fx (s j) (dt.getD u.dt)) → ∃ u', u.predict dt fx = .ok u' ∧ u'.P.PosDef) ∧
      ((∃ v, v ≠ 0 ∧ u.Q *ᵥ v = 0 ∧ ∀ i j, v ⬝ᵥ fx.getD u.fx (s i) (dt.getD u.dt) =
          v ⬝ᵥ fx.getD u.fx (s j) (dt.getD u.dt)) → ∃ u', u.predict dt fx = .error (.linAlgError, u')) := by
  have he := hp.encodes
  obtain ⟨s, hs, -, -⟩ := he.pts u.x u.P hP
  set sf := UKF.pushRows (fun v => fx.getD u.fx v (dt.getD u.dt)) s with hsf
  have hut : unscentedTransform sf p.Wm p.Wc (some u.Q) none none =
      (WMean p.Wm sf, (∑ i, p.Wc i • vecMulVec (sf i - WMean p.Wm sf) (sf i - WMean p.Wm sf)) + u.Q) := by
    rw [ut_default]
    rfl
  have hpsd := default_psd hV.1 sf rfl
  refine ⟨s, hs, fun hno => ?_, fun hex => ?_⟩
  · have hpd : ((∑ i, p.Wc i • vecMulVec (sf i - WMean p.Wm sf) (sf i - WMean p.Wm sf)) + u.Q).PosDef := by
      refine PD.of_quad (by rw [transpose_add, PSD.symm hpsd, PSD.symm hQ]) fun v hv => ?_
      rw [add_mulVec, dotProduct_add]
      have h1 := PSD.quad hpsd v
      have h2 := PSD.quad hQ v
      refine lt_of_le_of_ne (add_nonneg h1 h2) fun h0 => hno ⟨v, hv, ?_, ?_⟩
      · exact (hQ.dotProduct_mulVec_zero_iff v).1 (by rw [star_trivial]; linarith)
      · refine hV.2 (fun i => v ⬝ᵥ sf i) ?_
        rw [← quad_default]
        linarith
    obtain ⟨s2, hs2, -, -⟩ := he.pts (WMean p.Wm sf) _ hpd
    exact ⟨_, by simp only [UKF.predict, UKF.computeProcessSigmas, hs, UKF.predictUT, ← hsf, hm, hx, hut, hs2]; rfl, hpd⟩
  · obtain ⟨v, hv, hQv, heq⟩ := hex
    have hn : ¬ ((∑ i, p.Wc i • vecMulVec (sf i - WMean p.Wm sf) (sf i - WMean p.Wm sf)) + u.Q).PosDef := by
      intro hpd
      have h := PD.quad hpd hv
      rw [add_mulVec, dotProduct_add, hQv, dotProduct_zero, add_zero, quad_default] at h
      refine h.ne' (Finset.sum_eq_zero fun i _ => ?_)
      have : ∑ j, p.Wm j * (v ⬝ᵥ sf j) = v ⬝ᵥ sf i := by
        rw [Finset.sum_congr rfl fun j _ => congrArg (p.Wm j * ·) (show v ⬝ᵥ sf j = v ⬝ᵥ sf i from heq j i), ← Finset.sum_mul,
          he.sum, one_mul]
      rw [this, sub_self]
      ring
    have hs2 := hd (WMean p.Wm sf) _ hn
    exact ⟨_, by simp only [UKF.predict, UKF.computeProcessSigmas, hs, UKF.predictUT, ← hsf, hm, hx, hut, hs2]; rfl⟩

theorem symmetric_strict (w0 w0' c : ℝ) (hc : 0 < c) (hw : w0 + 2 * n * c = 1)
    (h : 0 < 1 + (1 - w0) * (w0' - w0 - 1)) :
    VarStrict (k := 2 * n + 1) (fun i => if (i : ℕ) = 0 then w0 else c) (fun i => if (i : ℕ) = 0 then w0' else c) := by
  refine ⟨(symmetric_var w0 w0' c hc hw).2 (Or.inr h.le), fun y h0 => ?_⟩
  rw [symmetric_value (n := n) w0 w0' c hw] at h0
  set T := ∑ i : Fin (2 * n), (y i.succ - y 0)
  set A := ∑ i : Fin (2 * n), (y i.succ - y 0) ^ 2 with hAdef
  have hA : 0 ≤ A := Finset.sum_nonneg fun i _ => sq_nonneg _
  have hTA : T ^ 2 ≤ 2 * n * A := by
    have := sq_sum_le_card_mul_sum_sq (s := (Finset.univ : Finset (Fin (2 * n)))) (f := fun i => y i.succ - y 0)
    simpa only [Finset.card_univ, Fintype.card_fin, Nat.cast_mul, Nat.cast_ofNat] using this
  have hA0 : A = 0 := by
    by_contra hne
    have hApos : 0 < A := lt_of_le_of_ne hA (Ne.symm hne)
    by_cases hg : 0 ≤ w0' - w0 - 1
    · have : 0 < c * A + c ^ 2 * T ^ 2 * (w0' - w0 - 1) := by positivity
      linarith
    · have hg' : w0' - w0 - 1 < 0 := not_le.1 hg
      have h3 : c ^ 2 * (2 * n * A) * (w0' - w0 - 1) ≤ c ^ 2 * T ^ 2 * (w0' - w0 - 1) :=
        mul_le_mul_of_nonpos_right (mul_le_mul_of_nonneg_left hTA (sq_nonneg c)) hg'.le
      have h4 : c * A + c ^ 2 * (2 * n * A) * (w0' - w0 - 1) = c * A * (1 + (1 - w0) * (w0' - w0 - 1)) := by
        linear_combination c * A * (w0' - w0 - 1) * hw
      have h5 : 0 < c * A * (1 + (1 - w0) * (w0' - w0 - 1)) := by positivity
      linarith
  have hall : ∀ i : Fin (2 * n + 1), y i = y 0 := by
    intro i
    refine Fin.cases rfl (fun j => ?_) i
    have := (Finset.sum_eq_zero_iff_of_nonneg fun i _ => sq_nonneg _).1 (hAdef.symm.trans hA0) j (Finset.mem_univ _)
    linarith [pow_eq_zero_iff (two_ne_zero) |>.1 this]
  intro i j
  rw [hall i, hall j]

theorem not_pd_smul {c : ℝ} (hc : 0 < c) {A : Mat n n} (h : ¬ A.PosDef) : ¬ (c • A).PosDef := by
  intro hcA
  apply h
  have := hcA.smul (inv_pos.2 hc)
  rwa [smul_smul, inv_mul_cancel₀ hc.ne', one_smul] at this

/-- **C118.** Merwe's points with `0 < alpha² kappa + n beta`, Julier's with `0 < kappa` and the simplex points meet the
hypotheses of `C118_predict_exact`. -/
theorem C118_strict (hn : 0 < n) (sqrt : Mat n n → Except Err (Mat n n)) (hr : RefusesOthers sqrt) :
    (∀ (alpha beta kappa : ℝ) (p : SigmaPts n), 0 < alpha ^ 2 * (n + kappa) → merwe n alpha beta kappa sqrt = .ok p →
      0 < alpha ^ 2 * kappa + n * beta → VarStrict p.Wm p.Wc ∧ DrawsOnlyPD p) ∧
    (∀ (kappa : ℝ) (p : SigmaPts n), 0 < n + kappa → julier n kappa sqrt = .ok p → 0 < kappa →
      VarStrict p.Wm p.Wc ∧ DrawsOnlyPD p) ∧
    VarStrict (simplex n sqrt).Wm (simplex n sqrt).Wc ∧ DrawsOnlyPD (simplex n sqrt) := by
  refine ⟨fun alpha beta kappa p hpos hp h => ?_, fun kappa p hpos hp h => ?_, ⟨(C118_simplex sqrt).1, fun y h => ?_⟩,
    fun x A hA => ?_⟩
  · have e : (n : ℝ) + (alpha ^ 2 * (n + kappa) - n) = alpha ^ 2 * (n + kappa) := by ring
    have e' : (alpha ^ 2 * (n + kappa) - n) + (n : ℝ) = alpha ^ 2 * (n + kappa) := by ring
    unfold merwe at hp
    simp only [e, e', hpos.ne', if_false, Except.ok.injEq] at hp
    subst hp
    have hw : (alpha ^ 2 * (n + kappa) - n) / (alpha ^ 2 * (n + kappa)) +
        2 * n * (0.5 / (alpha ^ 2 * (n + kappa))) = 1 := by
      have := hpos.ne'
      generalize alpha ^ 2 * (n + kappa) = c at this ⊢
      field_simp
      ring
    refine ⟨symmetric_strict _ _ _ (by positivity) hw ?_, fun x A hA => ?_⟩
    · have e2 : 1 + (1 - (alpha ^ 2 * (n + kappa) - n) / (alpha ^ 2 * (n + kappa))) *
          ((alpha ^ 2 * (n + kappa) - n) / (alpha ^ 2 * (n + kappa)) + (1 - alpha ^ 2 + beta) -
            (alpha ^ 2 * (n + kappa) - n) / (alpha ^ 2 * (n + kappa)) - 1) =
          (alpha ^ 2 * kappa + n * beta) / (alpha ^ 2 * (n + kappa)) := by
        rw [eq_div_iff hpos.ne']
        have h1 : (alpha ^ 2 * (n + kappa) - n) / (alpha ^ 2 * (n + kappa)) * (alpha ^ 2 * (n + kappa)) =
            alpha ^ 2 * (n + kappa) - n := div_mul_cancel₀ _ hpos.ne'
        linear_combination (alpha ^ 2 - beta) * h1
      rw [e2]
      exact div_pos h hpos
    · simp only [hr _ (not_pd_smul hpos hA)]
  · unfold julier at hp
    simp only [hpos.ne', if_false, Except.ok.injEq] at hp
    subst hp
    have hw : kappa / (n + kappa) + 2 * n * (0.5 / (n + kappa)) = 1 := by
      have := hpos.ne'
      field_simp
      ring
    refine ⟨symmetric_strict _ _ _ (by positivity) hw ?_, fun x A hA => ?_⟩
    · rw [show 1 + (1 - kappa / (n + kappa)) * (kappa / (n + kappa) - kappa / (n + kappa) - 1) =
        kappa / (n + kappa) by ring]
      exact div_pos h hpos
    · simp only [hr _ (not_pd_smul hpos hA)]
  · have hpos : (0 : ℝ) < 1 / (n + 1) := by positivity
    have h0 := (Finset.sum_eq_zero_iff_of_nonneg fun i _ => mul_nonneg hpos.le (sq_nonneg _)).1 h
    intro i j
    have hi := h0 i (Finset.mem_univ _)
    have hj := h0 j (Finset.mem_univ _)
    have hi' := pow_eq_zero_iff (two_ne_zero) |>.1 ((mul_eq_zero.1 hi).resolve_left hpos.ne')
    have hj' := pow_eq_zero_iff (two_ne_zero) |>.1 ((mul_eq_zero.1 hj).resolve_left hpos.ne')
    linarith
  · simp only [simplex, hr A hA]

/-! ## The cubature filter -/

namespace Spec

/-- A call of a `CubatureKalmanFilter`; measurements are columns. -/
inductive CkfCall (m : ℕ)
  | predict (dt : Option ℝ)
  | update (z : Option (Vec m)) (R : MatArg m)

/-- Making the call. -/
noncomputable def CkfCall.on (chol : Mat n n → Except Err (Mat n n)) (s : CKF n m) : CkfCall m → Exec (CKF n m)
  | .predict dt => s.predict chol dt
  | .update z R => s.update (z.map .col) R

/-- At most one measurement after every prediction. -/
def CkfCall.Alternating : Bool → List (CkfCall m) → Prop
  | _, [] => True
  | _, .predict _ :: ops => Alternating true ops
  | b, .update none _ :: ops => Alternating b ops
  | b, .update (some _) _ :: ops => b = true ∧ Alternating false ops

/-- The measurement noise of a call is positive definite. -/
def CkfCall.GoodR (R0 : Mat m m) : CkfCall m → Prop
  | .update (some _) R => (R.resolve R0).PosDef
  | _ => True

/-- As for the unscented filter. -/
def CkfCall.GoodF (s : CKF n m) : CkfCall m → Prop
  | .predict dt => s.Q.PosDef ∨ AffineInvertible fun v => s.fx v (dt.getD s.dt)
  | _ => True

end Spec

structure CkfRun (s0 : CKF n m) (b : Bool) (s : CKF n m) : Prop where
  R : s.R = s0.R
  Q : s.Q = s0.Q
  fx : s.fx = s0.fx
  dt : s.dt = s0.dt
  psd : s.Q.PosSemidef
  P : s.P.PosDef
  prior : s.PPrior.PosDef
  post : s.PPost.PosDef
  ready : b = true → s.P = (∑ i, eqW (2 * n) i • vecMulVec (s.sigmasF i - s.x) (s.sigmasF i - s.x)) + s.Q

theorem eqW_nonneg (k : ℕ) (i : Fin k) : 0 ≤ eqW k i := by
  unfold eqW; positivity

theorem ckf_run_predict (hn : 0 < n) {chol : Mat n n → Except Err (Mat n n)} (hc : IsCholUpper chol) {s0 : CKF n m}
    {b : Bool} {s : CKF n m} (h : CkfRun s0 b s) (dt : Option ℝ) (hF : (CkfCall.predict (m := m) dt).GoodF s0) :
    ∃ s', s.predict chol dt = .ok s' ∧ CkfRun s0 true s' := by
  obtain ⟨σ, hσ, hm, hcov, -⟩ := C25_points hn chol hc s.x s.P h.P
  have hk : 0 < 2 * n := by omega
  have hpd : (ckfTransform (rows fun k => s.fx (σ k) (dt.getD s.dt)) s.Q).2.PosDef := by
    rw [C25_transform hk, wcov_eq]
    rcases hF with hQ | ⟨F, b, hdet, hf⟩
    · exact Matrix.PosDef.posSemidef_add (positive_psd (eqW_nonneg _) _) (h.Q ▸ hQ)
    · refine Matrix.PosDef.add_posSemidef ?_ h.psd
      have hsf' : (rows fun k => s.fx (σ k) (dt.getD s.dt)) = fun i => F *ᵥ σ i + b := by
        funext i
        rw [h.fx, h.dt]
        exact hf _
      have hsum : ∑ i, eqW (2 * n) i = 1 := by
        simp only [eqW, Finset.sum_const, Finset.card_univ, Fintype.card_fin, nsmul_eq_mul]
        field_simp
      rw [hsf', affine_mean hsum]
      have := affine_cov (eqW (2 * n)) σ (WMean (eqW (2 * n)) σ) F b
      rw [this, hm, hcov]
      exact conj_pd h.P hdet
  refine ⟨_, by simp only [CKF.predict, hσ]; rfl, ?_⟩
  exact { h with P := hpd, prior := hpd, ready := fun _ =>
    show (ckfTransform (rows fun k => s.fx (σ k) (dt.getD s.dt)) s.Q).2 = _ by rw [C25_transform hk, wcov_eq] }

theorem ckf_run_update (hn : 0 < n) {s0 : CKF n m} {s : CKF n m} (h : CkfRun s0 true s) (z : Vec m) (R : MatArg m)
    (hR : (R.resolve s0.R).PosDef) : ∃ s', s.update (some (.col z)) R = .ok s' ∧ CkfRun s0 false s' := by
  have hk : 0 < 2 * n := by omega
  rw [← h.R] at hR
  set sh : Mat (2 * n) m := rows fun k => s.hx (s.sigmasF k) with hsh
  set zp := WMean (eqW (2 * n)) sh with hzp
  set Z := ∑ i, eqW (2 * n) i • vecMulVec (sh i - zp) (sh i - zp) with hZ
  set C := ((1 : ℝ) / (2 * n : ℕ)) • outerSum (rows fun k => s.sigmasF k - s.x) (rows fun k => sh k - zp) with hC
  have hC' : C = ∑ i, eqW (2 * n) i • vecMulVec (s.sigmasF i - s.x) (sh i - zp) := by
    rw [hC, outerSum_eq, Finset.smul_sum]
    rfl
  have hut : ckfTransform sh (R.resolve s.R) = (zp, Z + R.resolve s.R) := by
    rw [C25_transform hk, wcov_eq]
  have hj : ∀ v w, 0 ≤ v ⬝ᵥ (s.P *ᵥ v) + 2 * (v ⬝ᵥ (C *ᵥ w)) + w ⬝ᵥ (Z *ᵥ w) := by
    intro v w
    have h1 := joint_positive (eqW_nonneg (2 * n)) (fun i => s.sigmasF i - s.x) (fun i => sh i - zp) v w
    have h2 := PSD.quad h.psd v
    rw [h.ready rfl, hC', hZ, add_mulVec, dotProduct_add]
    linarith
  obtain ⟨h1, h2⟩ := joint_post h.P hR (sum_outer_symm _ _) hj
  have hi : npInv (Z + R.resolve s.R) = some (Z + R.resolve s.R)⁻¹ := npInv_of_det_ne (PD.det_ne h1)
  rw [← Matrix.mul_assoc] at h2
  refine ⟨_, by
    simp only [CKF.update, ← hsh, hut, hi]
    rfl, ?_⟩
  exact { h with P := h2, post := h2, ready := fun hb => by cases hb }

/-- **C118 (cubature filter).** With positive definite `P` and `R`, and predictions that are affine and invertible or
else a positive definite `Q`, a history with at most one measurement after
every prediction never raises, whatever functions `fx` and `hx` are, and the covariances stay positive definite. -/
theorem C118_ckf (hn : 0 < n) (chol : Mat n n → Except Err (Mat n n)) (hc : IsCholUpper chol) (s : CKF n m)
    (hP : s.P.PosDef) (hQ : s.Q.PosSemidef) (hprior : s.PPrior.PosDef) (hpost : s.PPost.PosDef) (ops : List (CkfCall m))
    (halt : CkfCall.Alternating false ops) (hR : ∀ op ∈ ops, op.GoodR s.R ∧ op.GoodF s) :
    ∃ s', runList (CkfCall.on chol) s ops = .ok s' ∧ s'.P.PosDef ∧ s'.PPrior.PosDef ∧ s'.PPost.PosDef := by
  have key : ∀ (ops : List (CkfCall m)) (b : Bool) (v : CKF n m), CkfRun s b v → CkfCall.Alternating b ops →
      (∀ op ∈ ops, op.GoodR s.R ∧ op.GoodF s) →
      ∃ s', runList (CkfCall.on chol) v ops = .ok s' ∧ s'.P.PosDef ∧ s'.PPrior.PosDef ∧ s'.PPost.PosDef := by
    intro ops
    induction ops with
    | nil => exact fun b v hv _ _ => ⟨v, rfl, hv.P, hv.prior, hv.post⟩
    | cons op ops ih =>
      intro b v hv ha hg
      have hg' := fun o ho => hg o (List.mem_cons_of_mem _ ho)
      match op, ha with
      | .predict dt, ha =>
        obtain ⟨v', e, hv'⟩ := ckf_run_predict hn hc hv dt (hg _ List.mem_cons_self).2
        obtain ⟨u', hu, hr⟩ := ih true v' hv' ha hg'
        exact ⟨u', by simp only [runList, CkfCall.on, e, hu], hr⟩
      | .update none R, ha =>
        obtain ⟨u', hu, hr⟩ := ih b { v with z := fun _ => none, xPost := v.x, PPost := v.P }
          { hv with post := hv.P } ha hg'
        exact ⟨u', by simp only [runList, CkfCall.on, Option.map_none, CKF.update, hu], hr⟩
      | .update (some z) R, ha =>
        obtain ⟨rfl, ha'⟩ := ha
        obtain ⟨v', e, hv'⟩ := ckf_run_update hn hv z R (hg _ List.mem_cons_self).1
        obtain ⟨u', hu, hr⟩ := ih false v' hv' ha' hg'
        exact ⟨u', by simp only [runList, CkfCall.on, Option.map_some, e, hu], hr⟩
  exact key ops false s ⟨rfl, rfl, rfl, rfl, hQ, hP, hprior, hpost, fun h => by cases h⟩ halt hR

/-! ## The ensemble filter -/

namespace Spec

/-- A call of an `EnsembleKalmanFilter` with the noise it draws. -/
inductive EnkfCall (n m N : ℕ)
  | predict (e : Mat N n)
  | update (z : Option (Vec m)) (R : MatArg m) (e : Mat N m)

/-- Making the call. -/
noncomputable def EnkfCall.on {N : ℕ} (s : EnKF n m N) : EnkfCall n m N → Exec (EnKF n m N)
  | .predict e => s.predict e
  | .update z R e => s.update z R e

/-- At most one measurement after every prediction. -/
def EnkfCall.Alternating {N : ℕ} : Bool → List (EnkfCall n m N) → Prop
  | _, [] => True
  | _, .predict _ :: ops => Alternating true ops
  | b, .update none _ _ :: ops => Alternating b ops
  | b, .update (some _) _ _ :: ops => b = true ∧ Alternating false ops

/-- The measurement noise of a call is positive definite. -/
def EnkfCall.GoodR {N : ℕ} (R0 : Mat m m) : EnkfCall n m N → Prop
  | .update (some _) R _ => (R.resolve R0).PosDef
  | _ => True

end Spec

structure EnkfRun {N : ℕ} (R0 : Mat m m) (b : Bool) (s : EnKF n m N) : Prop where
  inv : s.inv = npInv
  R : s.R = R0
  P : s.P.PosSemidef
  prior : s.PPrior.PosSemidef
  post : s.PPost.PosSemidef
  ready : b = true → s.x = meanRows s.sigmas ∧ s.P = SampleCov s.sigmas

theorem enkf_run_update {N : ℕ} (hN : 2 ≤ N) {R0 : Mat m m} {s : EnKF n m N} (h : EnkfRun R0 true s) (z : Vec m)
    (R : MatArg m) (e : Mat N m) (hR : (R.resolve R0).PosDef) :
    ∃ s', s.update (some z) R e = .ok s' ∧ EnkfRun R0 false s' := by
  rw [← h.R] at hR
  obtain ⟨hx, hP⟩ := h.ready rfl
  set W : Vec N := fun _ => (1 : ℝ) / ((N : ℝ) - 1) with hW
  have hW0 : ∀ i, 0 ≤ W i := fun i => by
    have : (2 : ℝ) ≤ N := by exact_mod_cast hN
    apply div_nonneg <;> linarith
  have hsum : ∀ {k l : ℕ} (A : Mat N k) (B : Mat N l), ((1 : ℝ) / ((N : ℝ) - 1)) • outerSum A B =
      ∑ i, W i • vecMulVec (A i) (B i) := by
    intro k l A B
    rw [outerSum_eq, Finset.smul_sum]
  set sh : Mat N m := rows fun i => s.hx (s.sigmas i) with hsh
  set Z := ∑ i, W i • vecMulVec (sh i - meanRows sh) (sh i - meanRows sh) with hZ
  set C := ∑ i, W i • vecMulVec (s.sigmas i - s.x) (sh i - meanRows sh) with hC
  have hP' : s.P = ∑ i, W i • vecMulVec (s.sigmas i - s.x) (s.sigmas i - s.x) := by
    rw [hP, ← sampleCov_eq, hsum, ← hx]
    rfl
  have hj : ∀ v w, 0 ≤ v ⬝ᵥ (s.P *ᵥ v) + 2 * (v ⬝ᵥ (C *ᵥ w)) + w ⬝ᵥ (Z *ᵥ w) := by
    intro v w
    rw [hP']
    exact joint_positive hW0 _ _ v w
  obtain ⟨h1, h2⟩ := joint_post_semi h.P hR (sum_outer_symm _ _) hj
  rw [← Matrix.mul_assoc] at h2
  have hi : npInv (((1 : ℝ) / ((N : ℝ) - 1)) • outerSum (rows fun i => sh i - meanRows sh) (rows fun i => sh i - meanRows sh) +
      R.resolve s.R) = some (Z + R.resolve s.R)⁻¹ := by
    rw [hsum]
    exact npInv_of_det_ne (PD.det_ne h1)
  have hnew : s.P - ((1 : ℝ) / ((N : ℝ) - 1)) • outerSum (rows fun i => s.sigmas i - s.x) (rows fun i => sh i - meanRows sh) *
      (Z + R.resolve s.R)⁻¹ * (((1 : ℝ) / ((N : ℝ) - 1)) • outerSum (rows fun i => sh i - meanRows sh)
        (rows fun i => sh i - meanRows sh) + R.resolve s.R) *
      (((1 : ℝ) / ((N : ℝ) - 1)) • outerSum (rows fun i => s.sigmas i - s.x) (rows fun i => sh i - meanRows sh) *
        (Z + R.resolve s.R)⁻¹)ᵀ = s.P - C * (Z + R.resolve s.R)⁻¹ * (Z + R.resolve s.R) * (C * (Z + R.resolve s.R)⁻¹)ᵀ := by
    rw [hsum, hsum]
    rfl
  rw [← hnew] at h2
  refine ⟨_, by
    simp only [EnKF.update, if_neg (show N ≠ 1 by omega), ← hsh, h.inv, hi]
    rfl, ?_⟩
  exact { inv := rfl, R := h.R, P := h2, prior := h.prior, post := h2, ready := fun hb => by cases hb }

/-- **C118 (ensemble filter).** With at least two members and positive definite `R` a history with at most one
measurement after every prediction never raises, whatever functions `fx` and `hx` are and whatever noise is drawn, and
the covariances stay positive semidefinite. -/
theorem C118_enkf {N : ℕ} (hN : 2 ≤ N) (s : EnKF n m N) (hinv : s.inv = npInv)
    (hP : s.P.PosSemidef) (hprior : s.PPrior.PosSemidef) (hpost : s.PPost.PosSemidef) (ops : List (EnkfCall n m N))
    (halt : EnkfCall.Alternating false ops) (hR : ∀ op ∈ ops, op.GoodR s.R) :
    ∃ s', runList EnkfCall.on s ops = .ok s' ∧ s'.P.PosSemidef ∧ s'.PPrior.PosSemidef ∧ s'.PPost.PosSemidef := by
  have key : ∀ (ops : List (EnkfCall n m N)) (b : Bool) (v : EnKF n m N), EnkfRun s.R b v →
      EnkfCall.Alternating b ops → (∀ op ∈ ops, op.GoodR s.R) →
      ∃ s', runList EnkfCall.on v ops = .ok s' ∧ s'.P.PosSemidef ∧ s'.PPrior.PosSemidef ∧ s'.PPost.PosSemidef := by
    intro ops
    induction ops with
    | nil => exact fun b v hv _ _ => ⟨v, rfl, hv.P, hv.prior, hv.post⟩
    | cons op ops ih =>
      intro b v hv ha hg
      have hg' := fun o ho => hg o (List.mem_cons_of_mem _ ho)
      match op, ha with
      | .predict e, ha =>
        obtain ⟨v', e', -, h1, h2, h3, -, h4, -, h5, -, h6, h7⟩ := C26_predict hN v e
        obtain ⟨u', hu, hr⟩ := ih true v' ⟨h7.trans hv.inv, h6.trans hv.R, h3, h4 ▸ h3, h5 ▸ hv.post,
          fun _ => ⟨by rw [h1, meanRows_eq], h2⟩⟩ ha hg'
        exact ⟨u', by simp only [runList, EnkfCall.on, e', hu], hr⟩
      | .update none R e, ha =>
        obtain ⟨u', hu, hr⟩ := ih b { v with z := fun _ => none, xPost := v.x, PPost := v.P }
          { hv with post := hv.P } ha hg'
        exact ⟨u', by simp only [runList, EnkfCall.on, EnKF.update, hu], hr⟩
      | .update (some z) R e, ha =>
        obtain ⟨rfl, ha'⟩ := ha
        obtain ⟨v', e', hv'⟩ := enkf_run_update hN hv z R e (hg _ List.mem_cons_self)
        obtain ⟨u', hu, hr⟩ := ih false v' hv' ha' hg'
        exact ⟨u', by simp only [runList, EnkfCall.on, e', hu], hr⟩
  exact key ops false s ⟨hinv, rfl, hP, hprior, hpost, fun h => by cases h⟩ halt hR

/-! ## Non-vacuity -/

/-- The recommended parameters `alpha = 0.001`, `beta = 2`, `kappa = 0` are safe although the centre has a large
negative weight, and a fresh filter with them meets the hypotheses, whatever its functions are. -/
example (fx : Vec 2 → ℝ → Vec 2) (hx : Vec 2 → Vec 1) : ∃ (p : SigmaPts 2) (i : Fin p.num), ValidPoints p ∧ p.Wc i < 0 ∧
    UkfSafe (UKF.fresh 1 p 1 hx fx) ∧ (UKF.fresh 1 p 1 hx fx).P.PosDef ∧ (UKF.fresh 1 p 1 hx fx).Q.PosDef ∧
    UkfCall.Alternating (n := 2) (m := 1) false [.predict none none, .update (some 1) .none none, .predict none none] := by
  obtain ⟨sqrt, hs⟩ := cholUpper_exists (n := 2)
  have hpos : (0 : ℝ) < 0.001 ^ 2 * ((2 : ℕ) + 0) := by norm_num
  obtain ⟨p, hp, hnum, -⟩ := encodes_merwe (n := 2) 0.001 2 0 hpos sqrt hs
  have hV := (C118_merwe (n := 2) (by norm_num) 0.001 2 0 hpos sqrt hp).2 (by norm_num)
  have hi : ∃ i, p.Wc i < 0 := by
    simp only [merwe] at hp
    rw [if_neg (by norm_num)] at hp
    cases hp
    refine ⟨(0 : Fin 5), ?_⟩
    norm_num
  obtain ⟨i, hi⟩ := hi
  exact ⟨p, i, .merwe _ _ _ sqrt p hpos hs hp, hi, ⟨rfl, Or.inl ⟨hV, rfl, rfl, rfl⟩⟩, Matrix.PosDef.one, Matrix.PosDef.one,
    ⟨rfl, trivial⟩⟩

/-- Singular process noise: constant velocity with `Q_discrete_white_noise(2, dt=1)`, whose determinant is zero. -/
example (hx : Vec 2 → Vec 1) : ∃ (p : SigmaPts 2) (u : UKF 2 1 p), ValidPoints p ∧ UkfSafe u ∧ u.Q.PosSemidef ∧ u.Q.det = 0 ∧
    ∀ op ∈ ([.predict none none, .update (some 1) .none none, .predict none none] : List (UkfCall 2 1)),
      op.GoodR u.R ∧ op.GoodF u := by
  obtain ⟨sqrt, hs⟩ := cholUpper_exists (n := 2)
  have hpos : (0 : ℝ) < 0.001 ^ 2 * ((2 : ℕ) + 0) := by norm_num
  obtain ⟨p, hp, hnum, -⟩ := encodes_merwe (n := 2) 0.001 2 0 hpos sqrt hs
  have hV := (C118_merwe (n := 2) (by norm_num) 0.001 2 0 hpos sqrt hp).2 (by norm_num)
  have hF : AffineInvertible fun v : Vec 2 => (!![1, 1; 0, 1] : Mat 2 2) *ᵥ v :=
    ⟨!![1, 1; 0, 1], 0, by norm_num [det_fin_two], fun v => by simp⟩
  refine ⟨p, { UKF.fresh 1 p 1 hx (fun v _ => (!![1, 1; 0, 1] : Mat 2 2) *ᵥ v) with Q := !![0.25, 0.5; 0.5, 1] },
    .merwe _ _ _ sqrt p hpos hs hp, ⟨rfl, Or.inl ⟨hV, rfl, rfl, rfl⟩⟩, ?_, ?_, ?_⟩
  · refine PSD.of_quad ?_ fun v => ?_
    · ext i j
      fin_cases i <;> fin_cases j <;> rfl
    · have : v ⬝ᵥ ((!![0.25, 0.5; 0.5, 1] : Mat 2 2) *ᵥ v) = (0.5 * v 0 + v 1) ^ 2 := by
        simp [dotProduct, mulVec, Fin.sum_univ_two]
        ring
      show 0 ≤ v ⬝ᵥ ((!![0.25, 0.5; 0.5, 1] : Mat 2 2) *ᵥ v)
      rw [this]
      positivity
  · show (!![0.25, 0.5; 0.5, 1] : Mat 2 2).det = 0
    norm_num [det_fin_two]
  · intro op hop
    simp only [List.mem_cons, List.not_mem_nil, or_false] at hop
    rcases hop with rfl | rfl | rfl
    · exact ⟨trivial, Or.inr ⟨rfl, hF⟩⟩
    · exact ⟨Matrix.PosDef.one, trivial⟩
    · exact ⟨trivial, Or.inr ⟨rfl, hF⟩⟩

/-- A square root routine meeting both contracts, and parameters that are not safe. -/
example : ∃ sqrt : Mat 2 2 → Except Err (Mat 2 2), IsCholUpper sqrt ∧ RefusesOthers sqrt := by
  classical
  refine ⟨fun A => if h : A.PosDef then .ok (chol_exists h.posSemidef).choose ᵀ else .error .linAlgError,
    fun A hA => ⟨_, dif_pos hA, ?_⟩, fun A hA => dif_neg hA⟩
  rw [transpose_transpose]
  exact (chol_exists hA.posSemidef).choose_spec.1

example : (0 : ℝ) < 1 ^ 2 * ((2 : ℕ) + -1) ∧ (1 : ℝ) ^ 2 * -1 + (2 : ℕ) * 0 < 0 := by norm_num

end Filterpy
