import Verif.Props.OtherUnits
import Verif.Lemmas.Cholesky

/-!
# The scales of the variables do not matter in the unscented and cubature filters, the axes do (C130)
-/

namespace Filterpy
open Matrix Spec

variable {n m k : ℕ}

/-- A user supplied mean function in new units. -/
noncomputable def unitsMean (T : Mat n n) (f : Mat k n → Vec k → Vec n) (s : Mat k n) (w : Vec k) : Vec n :=
  T *ᵥ f (UKF.pushRows (T⁻¹ *ᵥ ·) s) w

theorem pushRows_cancel {T : Mat n n} (hT : IsUnit T.det) (s : Mat k n) :
    UKF.pushRows (T⁻¹ *ᵥ ·) (UKF.pushRows (T *ᵥ ·) s) = s := by
  funext i; exact inv_mulVec_cancel hT _

theorem pushRows_mul (T : Mat n n) (s : Mat k n) : UKF.pushRows (T *ᵥ ·) s = s * Tᵀ := by
  ext i j
  simp only [UKF.pushRows, mulVec, dotProduct, Matrix.mul_apply, transpose_apply]
  exact Finset.sum_congr rfl fun _ _ => mul_comm _ _

theorem units_vecMulVec {j : ℕ} (T : Mat n n) (U : Mat j j) (a : Vec n) (b : Vec j) :
    vecMulVec (T *ᵥ a) (U *ᵥ b) = T * vecMulVec a b * Uᵀ := by
  rw [mul_vecMulVec, vecMulVec_mul, vecMul_transpose]

/-- The fold of `unscented_transform` and `cross_variance` in new units. -/
theorem units_fold {ι : Type*} {j : ℕ} (T : Mat n n) (U : Mat j j) (g g' : Mat n j → ι → Mat n j)
    (h : ∀ A i, g' (T * A * Uᵀ) i = T * g A i * Uᵀ) (is : List ι) (A : Mat n j) :
    is.foldl g' (T * A * Uᵀ) = T * is.foldl g A * Uᵀ := by
  induction is generalizing A with
  | nil => rfl
  | cons i is ih => rw [List.foldl_cons, List.foldl_cons, h, ih]

theorem units_fold_zero {ι : Type*} {j : ℕ} (T : Mat n n) (U : Mat j j) (g g' : Mat n j → ι → Mat n j)
    (h : ∀ A i, g' (T * A * Uᵀ) i = T * g A i * Uᵀ) (is : List ι) :
    is.foldl g' 0 = T * is.foldl g 0 * Uᵀ := by
  have := units_fold T U g g' h is 0
  rwa [Matrix.mul_zero, Matrix.zero_mul] at this

/-- The unscented transform follows a change of units. -/
theorem units_ut {T : Mat n n} (hT : IsUnit T.det) (s : Mat k n) (Wm Wc : Vec k) (N : Mat n n)
    (f : Option (Mat k n → Vec k → Vec n)) (r : Option (Vec n → Vec n → Vec n)) :
    unscentedTransform (UKF.pushRows (T *ᵥ ·) s) Wm Wc (some (T * N * Tᵀ)) (f.map (unitsMean T)) (r.map (unitsResidual T)) =
      (T *ᵥ (unscentedTransform s Wm Wc (some N) f r).1, T * (unscentedTransform s Wm Wc (some N) f r).2 * Tᵀ) := by
  have k0 (x : Vec n) : (fun i => UKF.pushRows (T *ᵥ ·) s i - T *ᵥ x) =
      @HMul.hMul (Mat k n) (Mat n n) (Mat k n) _ (fun i => s i - x) Tᵀ := by
    refine Eq.trans ?_ (pushRows_mul T (fun i => s i - x))
    funext i; exact (mulVec_sub _ _ _).symm
  have k1 (A : Mat k n) : (A * Tᵀ)ᵀ * (diagonal Wc * (A * Tᵀ)) + T * N * Tᵀ = T * (Aᵀ * (diagonal Wc * A) + N) * Tᵀ := by
    rw [transpose_mul, transpose_transpose, Matrix.mul_add, Matrix.add_mul]
    simp only [Matrix.mul_assoc]
  have k2 (r : Vec n → Vec n → Vec n) (x : Vec n) :
      (List.finRange k).foldl (utStep (UKF.pushRows (T *ᵥ ·) s) Wc (unitsResidual T r) (T *ᵥ x)) 0 + T * N * Tᵀ =
      T * ((List.finRange k).foldl (utStep s Wc r x) 0 + N) * Tᵀ := by
    rw [Matrix.mul_add, Matrix.add_mul]
    congr 1
    refine units_fold_zero T T _ _ (fun A i => ?_) _
    simp only [utStep, UKF.pushRows, unitsResidual, inv_mulVec_cancel hT, units_vecMulVec, Matrix.mul_add, Matrix.add_mul,
      Matrix.mul_smul, Matrix.smul_mul]
  have k3 : Wm ᵥ* UKF.pushRows (T *ᵥ ·) s = T *ᵥ (Wm ᵥ* s) := by
    rw [pushRows_mul, ← vecMul_vecMul, vecMul_transpose]
  cases f <;> cases r <;>
    simp only [unscentedTransform, Option.map_none, Option.map_some, unitsMean, pushRows_cancel hT, k0, k2, k3] <;>
    first | rfl | exact Prod.ext rfl (k1 _)

theorem units_cross {T : Mat n n} {U : Mat m m} (Wc : Vec k) (rx rx' : Vec n → Vec n → Vec n) (rz rz' : Vec m → Vec m → Vec m)
    (hx : ∀ a b, rx' (T *ᵥ a) (T *ᵥ b) = T *ᵥ rx a b) (hz : ∀ a b, rz' (U *ᵥ a) (U *ᵥ b) = U *ᵥ rz a b)
    (x : Vec n) (z : Vec m) (sf : Mat k n) (sh : Mat k m) :
    UKF.crossVariance Wc rx' rz' (T *ᵥ x) (U *ᵥ z) (UKF.pushRows (T *ᵥ ·) sf) (UKF.pushRows (U *ᵥ ·) sh) =
      T * UKF.crossVariance Wc rx rz x z sf sh * Uᵀ := by
  refine units_fold_zero T U _ _ (fun A i => ?_) _
  simp only [UKF.crossStep, UKF.pushRows, hx, hz, units_vecMulVec, Matrix.mul_add, Matrix.add_mul, Matrix.mul_smul,
    Matrix.smul_mul]

theorem units_resFn {T : Mat n n} (hT : IsUnit T.det) (r : Option (Vec n → Vec n → Vec n)) (a b : Vec n) :
    resFn (r.map (unitsResidual T)) (T *ᵥ a) (T *ᵥ b) = T *ᵥ resFn r a b := by
  cases r with
  | none => exact (mulVec_sub _ _ _).symm
  | some r => simp only [Option.map_some, resFn, Option.getD_some, unitsResidual, inv_mulVec_cancel hT]

theorem units_addFn {T : Mat n n} (hT : IsUnit T.det) (r : Option (Vec n → Vec n → Vec n)) (a b : Vec n) :
    ((r.map (unitsResidual T)).getD fun a b => a + b) (T *ᵥ a) (T *ᵥ b) = T *ᵥ (r.getD fun a b => a + b) a b := by
  cases r with
  | none => exact (mulVec_add _ _ _).symm
  | some r => simp only [Option.map_some, Option.getD_some, unitsResidual, inv_mulVec_cancel hT]

/-! ## `UnscentedKalmanFilter` -/

/-- A motion `fx(x, dt)` in new units. -/
noncomputable def unitsMotion (T : Mat n n) (f : Vec n → ℝ → Vec n) (v : Vec n) (dt : ℝ) : Vec n := T *ᵥ f (T⁻¹ *ᵥ v) dt

variable {Wm Wc : Vec k} {pts pts' : Vec n → Mat n n → Except Err (Mat k n)}

/-- The second filter is the first one in the units `x' = T x`, `z' = U z`; with `A := False` nothing is asked of the
records `x_prior`, `P_prior`, `x_post`, `P_post`, which a new filter keeps from `__init__`. -/
structure UKF.InUnits (A : Prop) (T : Mat n n) (U : Mat m m) (s : UKF n m ⟨k, Wm, Wc, pts⟩) (t : UKF n m ⟨k, Wm, Wc, pts'⟩) : Prop where
  x : t.x = T *ᵥ s.x
  P : t.P = T * s.P * Tᵀ
  Q : t.Q = T * s.Q * Tᵀ
  R : t.R = U * s.R * Uᵀ
  dt : t.dt = s.dt
  hx : t.hx = unitsFn U T s.hx
  fx : t.fx = unitsMotion T s.fx
  xMean : t.xMean = s.xMean.map (unitsMean T)
  zMean : t.zMean = s.zMean.map (unitsMean U)
  residualX : t.residualX = s.residualX.map (unitsResidual T)
  residualZ : t.residualZ = s.residualZ.map (unitsResidual U)
  stateAdd : t.stateAdd = s.stateAdd.map (unitsResidual T)
  sigmasF : t.sigmasF = UKF.pushRows (T *ᵥ ·) s.sigmasF
  sigmasH : t.sigmasH = UKF.pushRows (U *ᵥ ·) s.sigmasH
  K : t.K = T * s.K * U⁻¹
  y : t.y = U *ᵥ s.y
  S : t.S = U * s.S * Uᵀ
  SI : t.SI = (U⁻¹)ᵀ * s.SI * U⁻¹
  xPrior : A → t.xPrior = T *ᵥ s.xPrior
  PPrior : A → t.PPrior = T * s.PPrior * Tᵀ
  xPost : A → t.xPost = T *ᵥ s.xPost
  PPost : A → t.PPost = T * s.PPost * Tᵀ
  mahal : t.mahal = s.mahal
  inv : @s.inv m = npInv
  inv' : @t.inv m = npInv

/-- A call expressed in new units. -/
noncomputable def UkfCall.units (T : Mat n n) (U : Mat m m) : UkfCall n m → UkfCall n m
  | .predict dt fx => .predict dt (fx.map (unitsMotion T))
  | .update z R hx => .update (z.map (U *ᵥ ·)) (R.conj U) (hx.map (unitsFn U T))
  | op => op

theorem UKF.InUnits.caches {A : Prop} {T : Mat n n} {U : Mat m m} {s : UKF n m ⟨k, Wm, Wc, pts⟩} {t : UKF n m ⟨k, Wm, Wc, pts'⟩}
    (h : UKF.InUnits A T U s t) (a a' b b' c : Option ℝ) :
    UKF.InUnits A T U { s with logLik := a, lik := b, mahal := c } { t with logLik := a', lik := b', mahal := c } := by
  obtain ⟨⟩ := h
  constructor <;> first | assumption | rfl

/-- What the calls of the sigma point object do in new units. -/
def Spec.PointsInUnits (T : Mat n n) (pts pts' : Vec n → Mat n n → Except Err (Mat k n)) : Prop :=
  ∀ x P, pts' (T *ᵥ x) (T * P * Tᵀ) = (pts x P).map (UKF.pushRows (T *ᵥ ·))

theorem ukf_units_step {T : Mat n n} {U : Mat m m} (hT : T.det ≠ 0) (hU : U.det ≠ 0) (hp : PointsInUnits T pts pts')
    (A : Prop)     (expf : ℝ → ℝ) {s : UKF n m ⟨k, Wm, Wc, pts⟩} {t : UKF n m ⟨k, Wm, Wc, pts'⟩}
    (h : UKF.InUnits A T U s t) (op : UkfCall n m) :
    Agree (UKF.InUnits A T U) (op.on expf s) ((op.units T U).on expf t) := by
  have hT' := isUnit_det_of_ne hT
  have hU' := isUnit_det_of_ne hU
  have hs := h
  rcases s with ⟨x, P, Q, R, dt, hx, fx, xM, zM, rx, rz, sa, sf, sh, z0, K, y, S, SI, xp, Pp, xq, Pq, ll, lk, mh, iv⟩
  rcases t with ⟨x', P', Q', R', dt', hx', fx', xM', zM', rx', rz', sa', sf', sh', z0', K', y', S', SI', xp', Pp', xq', Pq', ll', lk', mh', iv'⟩
  have hc := h.caches
  obtain ⟨h1, h2, h3, h4, h5, h6, h7, h8, h9, h10, h11, h12, h13, h14, h15, h16, h17, h18, h19, h20, h21, h22, h23, h24, h25⟩ := h
  simp only at h1 h2 h3 h4 h5 h6 h7 h8 h9 h10 h11 h12 h13 h14 h15 h16 h17 h18 h19 h20 h21 h22 h23 h24 h25
  subst h1 h2 h3 h4 h5 h6 h7 h8 h9 h10 h11 h12 h13 h14 h15 h16 h17 h18 h23
  cases op with
  | readLL => cases ll <;> cases ll' <;> exact hc ..
  | readLik => cases lk <;> cases lk' <;> cases ll <;> cases ll' <;> exact hc ..
  | readMahal =>
    cases mh' with
    | some v => exact hc ..
    | none =>
      simp only [UkfCall.on, UkfCall.units, UKF.readMahal, units_mahal hU']
      by_cases hd : y ⬝ᵥ (SI *ᵥ y) < 0
      · simp only [if_pos hd]; exact ⟨rfl, hc ..⟩
      · simp only [if_neg hd]; exact hc ..
  | predict d f =>
    have hf : (fun v => (f.map (unitsMotion T)).getD (unitsMotion T fx) v (d.getD dt')) =
        fun v => T *ᵥ (f.getD fx) (T⁻¹ *ᵥ v) (d.getD dt') := by
      cases f <;> rfl
    have hpu (g : Vec n → ℝ → Vec n) (d : ℝ) (s : Mat k n) :
        UKF.pushRows (fun v => T *ᵥ g (T⁻¹ *ᵥ v) d) (UKF.pushRows (T *ᵥ ·) s) =
          UKF.pushRows (T *ᵥ ·) (UKF.pushRows (fun v => g v d) s) := by
      funext i; simp only [UKF.pushRows, inv_mulVec_cancel hT']
    simp only [UkfCall.on, UkfCall.units, UKF.predict, UKF.computeProcessSigmas, hp x P]
    cases pts x P with
    | error e => exact ⟨rfl, hc ..⟩
    | ok sg =>
      simp only [Except.map, UKF.predictUT, hf, hpu, units_ut hT']
      generalize unscentedTransform (UKF.pushRows (fun v => f.getD fx v (d.getD dt')) sg) Wm Wc (some Q) xM rx = q
      simp only [hp q.1 q.2]
      cases pts q.1 q.2 with
      | error e => exact ⟨rfl, by constructor <;> first | rfl | assumption | exact fun _ => rfl⟩
      | ok sg' => constructor <;> first | rfl | assumption | exact fun _ => rfl
  | update z Ra h' =>
    cases z with
    | none => constructor <;> first | rfl | assumption | exact fun _ => rfl
    | some z =>
      have hh : UKF.pushRows ((h'.map (unitsFn U T)).getD (unitsFn U T hx)) (UKF.pushRows (T *ᵥ ·) sf) =
          UKF.pushRows (U *ᵥ ·) (UKF.pushRows (h'.getD hx) sf) := by
        funext i
        cases h' <;> simp only [UKF.pushRows, Option.map_none, Option.map_some, Option.getD_none, Option.getD_some, unitsFn, inv_mulVec_cancel hT']
      simp only [UkfCall.on, UkfCall.units, UKF.update, Option.map_some, MatArg.conj_resolve U Ra rfl, hh, units_ut hU']
      generalize UKF.pushRows (h'.getD hx) sf = sg
      generalize unscentedTransform sg Wm Wc (some (Ra.resolve R)) zM rz = q
      rw [h24, h25, units_inv hU]
      cases npInv q.2 with
      | none => exact ⟨rfl, by constructor <;> first | rfl | assumption | exact fun _ => rfl⟩
      | some SI =>
        have uu : Uᵀ * (U⁻¹)ᵀ = 1 := by rw [← transpose_mul, nonsing_inv_mul _ hU', transpose_one]
        have uUm (A : Mat m m) : Uᵀ * ((U⁻¹)ᵀ * A) = A := by rw [← Matrix.mul_assoc, uu, Matrix.one_mul]
        have uUn (A : Mat m n) : Uᵀ * ((U⁻¹)ᵀ * A) = A := by rw [← Matrix.mul_assoc, uu, Matrix.one_mul]
        have uU (A : Mat m n) : U⁻¹ * (U * A) = A := nonsing_inv_mul_cancel_left _ _ hU'
        have hK (A : Mat n m) : (T * A * Uᵀ) * ((U⁻¹)ᵀ * SI * U⁻¹) = T * (A * SI) * U⁻¹ := by
          simp only [Matrix.mul_assoc, uUm]
        have hP (K : Mat n m) (A : Mat m m) : T * P * Tᵀ - T * K * U⁻¹ * (U * A * Uᵀ * (T * K * U⁻¹)ᵀ) =
            T * (P - K * (A * Kᵀ)) * Tᵀ := by
          simp only [transpose_mul, Matrix.mul_assoc, uU, uUn, Matrix.mul_sub, Matrix.sub_mul]
        have hy (K : Mat n m) (y : Vec m) : (T * K * U⁻¹) *ᵥ (U *ᵥ y) = T *ᵥ (K *ᵥ y) := by
          rw [mulVec_mulVec, Matrix.mul_assoc, nonsing_inv_mul _ hU', Matrix.mul_one, mulVec_mulVec]
        simp only [Option.map_some, units_cross Wc _ _ _ _ (units_resFn hT' rx) (units_resFn hU' rz), hK, hP, units_resFn hU', hy,
          units_addFn hT']
        constructor <;> first | rfl | assumption | exact fun _ => rfl

/-- A `MerweScaledSigmaPoints`, `JulierSigmaPoints` or `SimplexSigmaPoints` object whose `sqrt_method` is `chol` and whose
`subtract` is `sub`. -/
def Spec.SigmaObject (chol : Mat n n → Except Err (Mat n n)) (sub : Vec n → Vec n → Vec n) (p : SigmaPts n) : Prop :=
  (∃ alpha beta kappa, SigmaPts.merwe n alpha beta kappa chol sub = .ok p) ∨
    (∃ kappa, SigmaPts.julier n kappa chol sub = .ok p) ∨ p = SigmaPts.simplex n chol sub

theorem symmetricSet_units {T : Mat n n} (hT : IsUnit T.det) (sub : Vec n → Vec n → Vec n) (x : Vec n) (U : Mat n n) :
    SigmaPts.symmetricSet (unitsResidual T sub) (T *ᵥ x) (U * Tᵀ) = UKF.pushRows (T *ᵥ ·) (SigmaPts.symmetricSet sub x U) := by
  have hr (i : Fin n) : (U * Tᵀ) i = T *ᵥ U i := by rw [← pushRows_mul]; rfl
  funext i
  simp only [SigmaPts.symmetricSet, UKF.pushRows]
  split_ifs
  · rfl
  · rw [hr, ← mulVec_neg, unitsResidual, inv_mulVec_cancel hT, inv_mulVec_cancel hT]
  · rw [hr, unitsResidual, inv_mulVec_cancel hT, inv_mulVec_cancel hT]

theorem scale_det {d : Fin n → ℝ} (hd : ∀ i, 0 < d i) : (diagonal d).det ≠ 0 := by
  rw [det_diagonal]; exact Finset.prod_ne_zero_iff.2 fun i _ => (hd i).ne'

/-- The points as a function of `subtract`. -/
theorem sigma_family {chol : Mat n n → Except Err (Mat n n)} (hc : IsCholesky chol) {d : Fin n → ℝ} (hd : ∀ i, 0 < d i)
    {sub : Vec n → Vec n → Vec n} {p : SigmaPts n} (hp : SigmaObject chol sub p) :
    ∃ G : (Vec n → Vec n → Vec n) → Vec n → Mat n n → Except Err (Mat p.num n), p.points = G sub ∧
      ∀ sub', SigmaObject chol sub' ⟨p.num, p.Wm, p.Wc, G sub'⟩ ∧
        PointsInUnits (diagonal d) (G sub') (G (unitsResidual (diagonal d) sub')) := by
  have hT := isUnit_det_of_ne (scale_det hd)
  have hs (c : ℝ) (P : Mat n n) : chol (c • (diagonal d * P * (diagonal d)ᵀ)) = (chol (c • P)).map (· * (diagonal d)ᵀ) := by
    rw [← hc.scale hd, Matrix.mul_smul, Matrix.smul_mul]
  have hG (c : ℝ) (sub : Vec n → Vec n → Vec n) (x : Vec n) (P : Mat n n) :
      (match chol (c • (diagonal d * P * (diagonal d)ᵀ)) with
        | .error e => .error e
        | .ok U => .ok (SigmaPts.symmetricSet (unitsResidual (diagonal d) sub) (diagonal d *ᵥ x) U)) =
      Except.map (UKF.pushRows (diagonal d *ᵥ ·)) (match chol (c • P) with
        | .error e => .error e
        | .ok U => .ok (SigmaPts.symmetricSet sub x U)) := by
    rw [hs]
    cases chol (c • P) with
    | error e => rfl
    | ok U => simp only [Except.map, symmetricSet_units hT]
  rcases hp with ⟨alpha, beta, kappa, hp⟩ | ⟨kappa, hp⟩ | hp
  · unfold SigmaPts.merwe at hp
    by_cases h0 : (n : ℝ) + (alpha ^ 2 * (n + kappa) - n) = 0
    · simp only [if_pos h0] at hp; cases hp
    simp only [if_neg h0] at hp
    cases hp
    refine ⟨fun sub x P => match chol ((alpha ^ 2 * (n + kappa) - n + n) • P) with
        | .error e => .error e
        | .ok U => .ok (SigmaPts.symmetricSet sub x U), rfl, fun sub' => ⟨Or.inl ⟨alpha, beta, kappa, ?_⟩, fun x P => hG _ _ _ _⟩⟩
    unfold SigmaPts.merwe
    simp only [if_neg h0]
    rfl
  · unfold SigmaPts.julier at hp
    by_cases h0 : (n : ℝ) + kappa = 0
    · simp only [if_pos h0] at hp; cases hp
    simp only [if_neg h0] at hp
    cases hp
    refine ⟨fun sub x P => match chol (((n : ℝ) + kappa) • P) with
        | .error e => .error e
        | .ok U => .ok (SigmaPts.symmetricSet sub x U), rfl, fun sub' => ⟨Or.inr (Or.inl ⟨kappa, ?_⟩), fun x P => hG _ _ _ _⟩⟩
    unfold SigmaPts.julier
    simp only [if_neg h0]
    rfl
  · subst hp
    refine ⟨fun sub => (SigmaPts.simplex n chol sub).points, rfl, fun sub' => ⟨Or.inr (Or.inr rfl), fun x P => ?_⟩⟩
    simp only [SigmaPts.simplex, hc.scale hd]
    cases chol P with
    | error e => rfl
    | ok U =>
      simp only [Except.map]
      congr 1
      funext i
      have hr : (fun a => ((U * (diagonal d)ᵀ)ᵀ * SigmaPts.simplexI n) a i) =
          diagonal d *ᵥ fun a => (Uᵀ * SigmaPts.simplexI n) a i := by
        rw [transpose_mul, transpose_transpose, Matrix.mul_assoc]
        funext a
        rw [Matrix.mul_apply]
        rfl
      simp only [hr, UKF.pushRows]
      rw [← mulVec_neg, unitsResidual, inv_mulVec_cancel hT, inv_mulVec_cancel hT]

/-- **C130 (sigma points).** When every variable is measured on another scale, the sigma points of every kind are the old
points in the new scales: those of the same object when the points are subtracted as usual, and those of the object with
the translated `subtract` otherwise. -/
theorem C130_points {chol : Mat n n → Except Err (Mat n n)} (hc : IsCholesky chol) {d : Fin n → ℝ} (hd : ∀ i, 0 < d i)
    (sub : Vec n → Vec n → Vec n) {p : SigmaPts n} (hp : SigmaObject chol sub p) :
    (∃ pts', SigmaObject chol (unitsResidual (diagonal d) sub) ⟨p.num, p.Wm, p.Wc, pts'⟩ ∧
      PointsInUnits (diagonal d) p.points pts') ∧
    ((sub = fun a b => a - b) → PointsInUnits (diagonal d) p.points p.points) := by
  obtain ⟨G, h1, h2⟩ := sigma_family hc hd hp
  refine ⟨⟨G (unitsResidual (diagonal d) sub), (h2 _).1, h1 ▸ (h2 sub).2⟩, fun h => ?_⟩
  have := (h2 sub).2
  rw [h, units_default_residual (scale_det hd), ← h, ← h1] at this
  exact this

/-- **C130 (`UnscentedKalmanFilter`, any points).** Express the filter, its functions (`fx`, `hx`, means, residuals, `state_add`)
and every call in other units: when the sigma points follow the change of units, so does everything the filter reports after
any history of calls, with the same Mahalanobis distances and the same exceptions. -/
theorem C130_ukf_functions {T : Mat n n} {U : Mat m m} (hT : T.det ≠ 0) (hU : U.det ≠ 0) (hp : PointsInUnits T pts pts')
    (A : Prop) (expf : ℝ → ℝ) {s : UKF n m ⟨k, Wm, Wc, pts⟩} {t : UKF n m ⟨k, Wm, Wc, pts'⟩}
    (h : UKF.InUnits A T U s t) (ops : List (UkfCall n m)) :
    Agree (UKF.InUnits A T U) (runList (UkfCall.on expf) s ops) (runList (UkfCall.on expf) t (ops.map (UkfCall.units T U))) :=
  runList_units _ ops (fun _ _ i _ h => ukf_units_step hT hU hp A expf h i) h

/-- **C130 (`UnscentedKalmanFilter`).** With Merwe, Julier or simplex points, the filter follows every change of the scales of
the state variables, and every linear change of the measured quantities. -/
theorem C130_ukf {chol : Mat n n → Except Err (Mat n n)} (hc : IsCholesky chol) {d : Fin n → ℝ} (hd : ∀ i, 0 < d i)
    {U : Mat m m} (hU : U.det ≠ 0) {p : SigmaPts n} (hp : SigmaObject chol (fun a b => a - b) p)
    (A : Prop) (expf : ℝ → ℝ) {s t : UKF n m p} (h : UKF.InUnits A (diagonal d) U s t) (ops : List (UkfCall n m)) :
    Agree (fun s t : UKF n m p => UKF.InUnits A (diagonal d) U s t) (runList (UkfCall.on expf) s ops)
      (runList (UkfCall.on expf) t (ops.map (UkfCall.units (diagonal d) U))) := by
  exact C130_ukf_functions (scale_det hd) hU ((C130_points hc hd _ hp).2 rfl) A expf h ops

/-! ## `UnscentedKalmanFilter.rts_smoother` -/

/-- A smoothed entry in new units. -/
noncomputable def UKF.RtsOut.units (T : Mat n n) (o : UKF.RtsOut n) : UKF.RtsOut n :=
  ⟨T *ᵥ o.x, T * o.P * Tᵀ, T * o.K * T⁻¹⟩

theorem rts_units_step {A : Prop} {T : Mat n n} {U : Mat m m} (hT : T.det ≠ 0) (hp : PointsInUnits T pts pts')
    {s : UKF n m ⟨k, Wm, Wc, pts⟩} {t : UKF n m ⟨k, Wm, Wc, pts'⟩} (h : UKF.InUnits A T U s t)
    (hs : @s.inv n = npInv) (ht : @t.inv n = npInv) (x : Vec n) (P : Mat n n) (dt : Option ℝ) (o : UKF.RtsOut n) :
    t.rtsStep (T *ᵥ x) (T * P * Tᵀ) dt (o.units T) = (s.rtsStep x P dt o).map (UKF.RtsOut.units T) := by
  have hT' := isUnit_det_of_ne hT
  simp only [UKF.rtsStep, hp x P]
  cases pts x P with
  | error e => rfl
  | ok sg =>
    cases dt with
    | none => rfl
    | some dt =>
      have hpu : UKF.pushRows (fun v => unitsMotion T s.fx v dt) (UKF.pushRows (T *ᵥ ·) sg) =
          UKF.pushRows (T *ᵥ ·) (UKF.pushRows (fun v => s.fx v dt) sg) := by
        funext i; simp only [UKF.pushRows, unitsMotion, inv_mulVec_cancel hT']
      simp only [Except.map, h.fx, h.Q, h.xMean, h.residualX, hpu, units_ut hT', hs, ht]
      generalize unscentedTransform (UKF.pushRows (fun v => s.fx v dt) sg) Wm Wc (some s.Q) s.xMean s.residualX = q
      simp only [units_inv hT]
      cases npInv q.2 with
      | none => rfl
      | some PI =>
        have uu : Tᵀ * (T⁻¹)ᵀ = 1 := by rw [← transpose_mul, nonsing_inv_mul _ hT', transpose_one]
        have uT (B : Mat n n) : Tᵀ * ((T⁻¹)ᵀ * B) = B := by rw [← Matrix.mul_assoc, uu, Matrix.one_mul]
        have iT (B : Mat n n) : T⁻¹ * (T * B) = B := nonsing_inv_mul_cancel_left _ _ hT'
        have hK (B : Mat n n) : (T * B * Tᵀ) * ((T⁻¹)ᵀ * PI * T⁻¹) = T * (B * PI) * T⁻¹ := by
          simp only [Matrix.mul_assoc, uT]
        have hP (K B C : Mat n n) : T * P * Tᵀ + T * K * T⁻¹ * (T * B * Tᵀ - T * C * Tᵀ) * (T * K * T⁻¹)ᵀ =
            T * (P + K * (B - C) * Kᵀ) * Tᵀ := by
          simp only [transpose_mul, Matrix.mul_assoc, iT, uT, Matrix.mul_sub, Matrix.sub_mul, Matrix.mul_add, Matrix.add_mul]
        simp only [Option.map_some, UKF.RtsOut.units,
          units_cross Wc _ _ _ _ (units_resFn hT' s.residualX) (units_resFn hT' s.residualX), hK, hP, units_resFn hT',
          units_x hT']

theorem rts_units_loop {A : Prop} {T : Mat n n} {U : Mat m m} (hT : T.det ≠ 0) (hp : PointsInUnits T pts pts')
    {s : UKF n m ⟨k, Wm, Wc, pts⟩} {t : UKF n m ⟨k, Wm, Wc, pts'⟩} (h : UKF.InUnits A T U s t)
    (hs : @s.inv n = npInv) (ht : @t.inv n = npInv) (es : List ((Vec n × Mat n n) × Option ℝ)) :
    t.rtsLoop (es.map fun e => ((T *ᵥ e.1.1, T * e.1.2 * Tᵀ), e.2)) = (s.rtsLoop es).map (List.map (UKF.RtsOut.units T)) := by
  induction es with
  | nil => rfl
  | cons e es ih =>
    cases es with
    | nil =>
      simp only [List.map_cons, List.map_nil, UKF.rtsLoop, Except.map, UKF.RtsOut.units, Matrix.mul_zero, Matrix.zero_mul]
    | cons e' rest =>
      simp only [List.map_cons] at ih ⊢
      rw [UKF.rtsLoop, ih, UKF.rtsLoop]
      cases s.rtsLoop (e' :: rest) with
      | error err => rfl
      | ok l =>
        cases l with
        | nil => rfl
        | cons o tl =>
          simp only [Except.map, List.map_cons, rts_units_step hT hp h hs ht]
          cases s.rtsStep e.1.1 e.1.2 e.2 o <;> rfl

/-- **C130 (`rts_smoother`).** The smoothed states, covariances and gains follow the change of scales too, and the same exceptions
are raised. -/
theorem C130_rts {chol : Mat n n → Except Err (Mat n n)} (hc : IsCholesky chol) {d : Fin n → ℝ} (hd : ∀ i, 0 < d i)
    {U : Mat m m} {p : SigmaPts n} (hp : SigmaObject chol (fun a b => a - b) p) (A : Prop)
    {s t : UKF n m p} (h : UKF.InUnits A (diagonal d) U s t) (hs : @s.inv n = npInv) (ht : @t.inv n = npInv)
    (Xs : List (Vec n)) (Ps : List (Mat n n)) (Qs Qs' : Option (List (Mat n n))) (dts : UKF.DtArg) :
    t.rtsSmoother (Xs.map (diagonal d *ᵥ ·)) (Ps.map fun P => diagonal d * P * (diagonal d)ᵀ) Qs' dts =
      (s.rtsSmoother Xs Ps Qs dts).map (List.map (UKF.RtsOut.units (diagonal d))) := by
  have hd' : t.rtsDts Xs.length dts = s.rtsDts Xs.length dts := by
    cases dts <;> simp only [UKF.rtsDts, h.dt]
  simp only [UKF.rtsSmoother, List.length_map, hd']
  by_cases hl : Xs.length ≠ Ps.length
  · rw [if_pos hl, if_pos hl]; rfl
  rw [if_neg hl, if_neg hl]
  have := rts_units_loop (scale_det hd) ((C130_points hc hd _ hp).2 rfl) h hs ht ((Xs.zip Ps).zip (s.rtsDts Xs.length dts))
  refine Eq.trans ?_ this
  congr 1
  rw [List.zip_map, List.zip_map_left]
  rfl

/-! ## `CubatureKalmanFilter` -/

/-- The second filter is the first one in the units `x' = T x`, `z' = U z`; the flag `A` as above. -/
structure CKF.InUnits (A : Prop) (T : Mat n n) (U : Mat m m) (s t : CKF n m) : Prop where
  x : t.x = T *ᵥ s.x
  P : t.P = T * s.P * Tᵀ
  Q : t.Q = T * s.Q * Tᵀ
  R : t.R = U * s.R * Uᵀ
  dt : t.dt = s.dt
  hx : t.hx = unitsFn U T s.hx
  fx : t.fx = unitsMotion T s.fx
  residualZ : t.residualZ = s.residualZ.map (unitsResidual U)
  sigmasF : t.sigmasF = UKF.pushRows (T *ᵥ ·) s.sigmasF
  sigmasH : t.sigmasH = UKF.pushRows (U *ᵥ ·) s.sigmasH
  K : t.K = T * s.K * U⁻¹
  y : t.y = U *ᵥ s.y
  S : t.S = U * s.S * Uᵀ
  SI : t.SI = (U⁻¹)ᵀ * s.SI * U⁻¹
  xPrior : A → t.xPrior = T *ᵥ s.xPrior
  PPrior : A → t.PPrior = T * s.PPrior * Tᵀ
  xPost : A → t.xPost = T *ᵥ s.xPost
  PPost : A → t.PPost = T * s.PPost * Tᵀ
  mahal : t.mahal = s.mahal
  yArray : t.yArray = s.yArray

/-- A measurement in new units. -/
noncomputable def ColArg.units (U : Mat m m) : ColArg m → ColArg m
  | .col z => .col (U *ᵥ z)
  | .flat z => .flat (U *ᵥ z)

/-- A call expressed in new units. -/
noncomputable def CkfCall.units (U : Mat m m) : CkfCall n m → CkfCall n m
  | .update z R => .update (z.map (ColArg.units U)) (R.conj U)
  | op => op

theorem CKF.InUnits.caches {A : Prop} {T : Mat n n} {U : Mat m m} {s t : CKF n m} (h : CKF.InUnits A T U s t)
    (a a' b b' c : Option ℝ) :
    CKF.InUnits A T U { s with logLik := a, lik := b, mahal := c } { t with logLik := a', lik := b', mahal := c } := by
  obtain ⟨⟩ := h
  constructor <;> first | assumption | rfl

/-- `ckf_transform` follows a change of units. -/
theorem units_ckfTransform (T : Mat n n) (s : Mat k n) (N : Mat n n) :
    ckfTransform (UKF.pushRows (T *ᵥ ·) s) (T * N * Tᵀ) =
      (T *ᵥ (ckfTransform s N).1, T * (ckfTransform s N).2 * Tᵀ) := by
  have hx : (fun j => (∑ i, UKF.pushRows (T *ᵥ ·) s i j) / (k : ℝ)) = T *ᵥ fun j => (∑ i, s i j) / (k : ℝ) :=
    units_meanRows T s
  simp only [ckfTransform, hx]
  refine Prod.ext rfl ?_
  simp only [Matrix.mul_add, Matrix.add_mul, Matrix.mul_smul, Matrix.smul_mul]
  congr 2
  refine units_fold_zero T T _ _ (fun A i => ?_) _
  simp only [ckfStep, UKF.pushRows, units_vecMulVec, Matrix.mul_add, Matrix.add_mul, Matrix.mul_sub, Matrix.sub_mul]

theorem units_spherical {chol : Mat n n → Except Err (Mat n n)} (hc : IsCholesky chol) {d : Fin n → ℝ} (hd : ∀ i, 0 < d i)
    (x : Vec n) (P : Mat n n) :
    sphericalRadialSigmas chol (diagonal d *ᵥ x) (diagonal d * P * (diagonal d)ᵀ) =
      (sphericalRadialSigmas chol x P).map (UKF.pushRows (diagonal d *ᵥ ·)) := by
  simp only [sphericalRadialSigmas, hc.scale hd]
  cases chol P with
  | error e => rfl
  | ok C =>
    have hr (i : Fin n) : (Real.sqrt n • (C * (diagonal d)ᵀ)) i = diagonal d *ᵥ (Real.sqrt n • C) i := by
      rw [← Matrix.smul_mul, ← pushRows_mul]; rfl
    simp only [Except.map]
    congr 1
    funext i
    simp only [rows, UKF.pushRows]
    split_ifs
    · rw [hr, mulVec_add]
    · rw [hr, mulVec_sub]

theorem ckf_units_step {chol : Mat n n → Except Err (Mat n n)} (hc : IsCholesky chol) {d : Fin n → ℝ} (hd : ∀ i, 0 < d i)
    {U : Mat m m} (hU : U.det ≠ 0) (A : Prop) (expf : ℝ → ℝ) {s t : CKF n m}
    (h : CKF.InUnits A (diagonal d) U s t) (op : CkfCall n m) :
    Agree (CKF.InUnits A (diagonal d) U) (op.on chol expf s) ((op.units U).on chol expf t) := by
  have hT' := isUnit_det_of_ne (scale_det hd)
  have hU' := isUnit_det_of_ne hU
  have hsp := units_spherical hc hd
  generalize diagonal d = T at *
  rcases s with ⟨x, P, Q, R, dt, hx, fx, rz, sf, sh, z0, K, y, S, SI, xp, Pp, xq, Pq, ll, lk, mh, ya⟩
  rcases t with ⟨x', P', Q', R', dt', hx', fx', rz', sf', sh', z0', K', y', S', SI', xp', Pp', xq', Pq', ll', lk', mh', ya'⟩
  have hcc := h.caches
  obtain ⟨h1, h2, h3, h4, h5, h6, h7, h8, h9, h10, h11, h12, h13, h14, h15, h16, h17, h18, h19, h20⟩ := h
  simp only at h1 h2 h3 h4 h5 h6 h7 h8 h9 h10 h11 h12 h13 h14 h15 h16 h17 h18 h19 h20
  subst h1 h2 h3 h4 h5 h6 h7 h8 h9 h10 h11 h12 h13 h14 h19 h20
  cases op with
  | readLL => cases ll <;> cases ll' <;> exact hcc ..
  | readLik => cases lk <;> cases lk' <;> cases ll <;> cases ll' <;> exact hcc ..
  | readMahal =>
    cases mh' with
    | some v => exact hcc ..
    | none =>
      simp only [CkfCall.on, CkfCall.units, CKF.readMahal, units_mahal hU']
      by_cases hy : ya' = false
      · simp only [if_pos hy]; exact ⟨rfl, hcc ..⟩
      simp only [if_neg hy]
      by_cases hd : y ⬝ᵥ (SI *ᵥ y) < 0
      · simp only [if_pos hd]; exact ⟨rfl, hcc ..⟩
      · simp only [if_neg hd]; exact hcc ..
  | predict e =>
    simp only [CkfCall.on, CkfCall.units, CKF.predict, hsp]
    cases sphericalRadialSigmas chol x P with
    | error e => exact ⟨rfl, hcc ..⟩
    | ok sg =>
      have hpu : (rows fun k => unitsMotion T fx (UKF.pushRows (T *ᵥ ·) sg k) (e.getD dt')) =
          UKF.pushRows (T *ᵥ ·) (rows fun k => fx (sg k) (e.getD dt')) := by
        funext i; simp only [UKF.pushRows, rows, unitsMotion, inv_mulVec_cancel hT']
      simp only [Except.map, hpu, units_ckfTransform]
      constructor <;> first | rfl | assumption | exact fun _ => rfl
  | update z Ra =>
    cases z with
    | none => constructor <;> first | rfl | assumption | exact fun _ => rfl
    | some z =>
      have hh : (rows fun k => unitsFn U T hx (UKF.pushRows (T *ᵥ ·) sf k)) =
          UKF.pushRows (U *ᵥ ·) (rows fun k => hx (sf k)) := by
        funext i
        simp only [UKF.pushRows, rows, unitsFn, inv_mulVec_cancel hT']
      simp only [CkfCall.on, CkfCall.units, CKF.update, Option.map_some, MatArg.conj_resolve U Ra rfl, hh, units_ckfTransform]
      generalize (rows fun k => hx (sf k)) = sg
      generalize ckfTransform sg (Ra.resolve R) = q
      rw [units_inv hU]
      cases npInv q.2 with
      | none => exact ⟨rfl, by constructor <;> first | rfl | assumption⟩
      | some SI =>
        have uu : Uᵀ * (U⁻¹)ᵀ = 1 := by rw [← transpose_mul, nonsing_inv_mul _ hU', transpose_one]
        have uUm (A : Mat m m) : Uᵀ * ((U⁻¹)ᵀ * A) = A := by rw [← Matrix.mul_assoc, uu, Matrix.one_mul]
        have uUn (A : Mat m n) : Uᵀ * ((U⁻¹)ᵀ * A) = A := by rw [← Matrix.mul_assoc, uu, Matrix.one_mul]
        have uU (A : Mat m n) : U⁻¹ * (U * A) = A := nonsing_inv_mul_cancel_left _ _ hU'
        have hK (a : ℝ) (A : Mat n m) : a • (T * A * Uᵀ) * ((U⁻¹)ᵀ * SI * U⁻¹) = T * (a • A * SI) * U⁻¹ := by
          simp only [Matrix.mul_assoc, uUm, Matrix.mul_smul, Matrix.smul_mul]
        have hP (K : Mat n m) (A : Mat m m) : T * P * Tᵀ - T * K * U⁻¹ * (U * A * Uᵀ) * (T * K * U⁻¹)ᵀ =
            T * (P - K * A * Kᵀ) * Tᵀ := by
          simp only [transpose_mul, Matrix.mul_assoc, uU, uUn, Matrix.mul_sub, Matrix.sub_mul]
        have hd1 : (rows fun k => UKF.pushRows (T *ᵥ ·) sf k - T *ᵥ x) = rows fun i => T *ᵥ (sf i - x) := by
          funext i; simp only [rows, UKF.pushRows, mulVec_sub]
        have hd2 : (rows fun k => UKF.pushRows (U *ᵥ ·) sg k - U *ᵥ q.1) = rows fun i => U *ᵥ (sg i - q.1) := by
          funext i; simp only [rows, UKF.pushRows, mulVec_sub]
        have hy (a b : Vec m) : ((rz.map (unitsResidual U)).getD fun a b => a - b) (U *ᵥ a) (U *ᵥ b) =
            U *ᵥ (rz.getD fun a b => a - b) a b := units_resFn hU' rz a b
        cases z with
        | col z =>
          simp only [Option.map_some, ColArg.units, hd1, hd2, units_outerSum, hK, hP, hy, units_x hU']
          constructor <;> first | rfl | assumption | exact fun _ => rfl
        | flat z =>
          simp only [Option.map_some, ColArg.units, hd1, hd2, units_outerSum, hK, hP, hy, units_x hU']
          by_cases hm : m ≤ 1
          · simp only [if_pos hm]
            constructor <;> first | rfl | assumption | exact fun _ => rfl
          · simp only [if_neg hm]
            exact ⟨rfl, by constructor <;> first | rfl | assumption⟩

/-- **C130 (`CubatureKalmanFilter`).** The same for the cubature filter. -/
theorem C130_ckf {chol : Mat n n → Except Err (Mat n n)} (hc : IsCholesky chol) {d : Fin n → ℝ} (hd : ∀ i, 0 < d i)
    {U : Mat m m} (hU : U.det ≠ 0) (A : Prop) (expf : ℝ → ℝ) {s t : CKF n m}
    (h : CKF.InUnits A (diagonal d) U s t) (ops : List (CkfCall n m)) :
    Agree (CKF.InUnits A (diagonal d) U) (runList (CkfCall.on chol expf) s ops)
      (runList (CkfCall.on chol expf) t (ops.map (CkfCall.units U))) :=
  runList_units _ ops (fun _ _ i _ h => ckf_units_step hc hd hU A expf h i) h

/-! ## Turned axes -/

/-- No points are moved nowhere. -/
theorem pushRows_zero (T : Mat n n) : UKF.pushRows (T *ᵥ ·) (0 : Mat k n) = 0 := by
  rw [pushRows_mul, Matrix.zero_mul]

/-- The factor of a multiple of the identity. -/
theorem Spec.IsCholesky.scalar {chol : Mat n n → Except Err (Mat n n)} (hc : IsCholesky chol) {c : ℝ} (h : 0 < c) :
    chol ((c * c) • 1) = .ok (c • 1) := by
  have hs : symUpper ((c * c) • 1 : Mat n n) = (c * c) • 1 := symUpper_of_symm (by rw [transpose_smul, transpose_one])
  have hp : ((c * c) • 1 : Mat n n).PosDef := PosDef.one.smul (mul_pos h h)
  obtain ⟨V, h1, h2⟩ := (hc ((c * c) • 1)).1 (by rwa [hs])
  rw [hs] at h2
  have h3 : CholFactor ((c * c) • 1) (c • 1 : Mat n n) := by
    refine ⟨fun i j hij => ?_, fun i => ?_, ?_⟩
    · rw [Matrix.smul_apply, Matrix.one_apply_ne hij.ne', smul_zero]
    · rw [Matrix.smul_apply, Matrix.one_apply_eq, smul_eq_mul, mul_one]; exact h
    · rw [transpose_smul, transpose_one, Matrix.smul_mul, Matrix.one_mul, smul_smul]
  rw [h1, h2.unique h3]

/-- The axes turned by 45 degrees. -/
def turned : Mat 2 2 := !![1, 1; -1, 1]

theorem turned_det : turned.det = 2 := by simp [turned, det_fin_two]; norm_num

theorem turned_inv : turned⁻¹ = !![1/2, -1/2; 1/2, 1/2] := by
  apply inv_eq_right_inv
  ext i j; fin_cases i <;> fin_cases j <;> simp [turned, Matrix.mul_apply, Fin.sum_univ_two] <;> norm_num

theorem turned_sq (a : ℝ) : turned * (a • 1) * turnedᵀ = (a * 2) • 1 := by
  ext i j; fin_cases i <;> fin_cases j <;> simp [turned, Matrix.mul_apply, Fin.sum_univ_two] <;> ring

/-- The motion of the counterexample. -/
def bilinearMotion (v : Vec 2) (_ : ℝ) : Vec 2 := ![v 0 ^ 2 * v 1 ^ 2, 0]

theorem bilinear_turned (v : Vec 2) (dt : ℝ) : unitsMotion turned bilinearMotion v dt =
    ![((v 0 - v 1) / 2) ^ 2 * ((v 0 + v 1) / 2) ^ 2, -(((v 0 - v 1) / 2) ^ 2 * ((v 0 + v 1) / 2) ^ 2)] := by
  have e0 : (turned⁻¹ *ᵥ v) 0 = (v 0 - v 1) / 2 := by rw [turned_inv]; simp [mulVec, dotProduct, Fin.sum_univ_two]; ring
  have e1 : (turned⁻¹ *ᵥ v) 1 = (v 0 + v 1) / 2 := by rw [turned_inv]; simp [mulVec, dotProduct, Fin.sum_univ_two]; ring
  rw [unitsMotion, bilinearMotion, e0, e1]
  funext i; fin_cases i <;> simp [turned, mulVec, dotProduct, Fin.sum_univ_two]

/-- **C130 (refuted for turned axes, `CubatureKalmanFilter`).** Two filters that describe the same situation, one in axes turned
by 45 degrees, predict different states: `0` in the turned axes is still `0`, but the second filter says `(1, -1)`. -/
theorem C130_ckf_axes_refuted {chol : Mat 2 2 → Except Err (Mat 2 2)} (hc : IsCholesky chol) :
    ∃ s t : CKF 2 1, CKF.InUnits False turned 1 s t ∧ ∃ s' t', s.predict chol = .ok s' ∧ t.predict chol = .ok t' ∧
      s'.x = 0 ∧ t'.x = ![1, -1] := by
  let s : CKF 2 1 := CKF.fresh 2 1 1 (fun v _ => v 0) bilinearMotion
  let t : CKF 2 1 := { CKF.fresh 2 1 1 (unitsFn 1 turned fun v _ => v 0) (unitsMotion turned bilinearMotion) with
    P := (2 : ℝ) • 1, Q := (2 : ℝ) • 1 }
  have h1 : turned * 1 * turnedᵀ = (2 : ℝ) • 1 := by
    have := turned_sq 1
    rwa [one_smul, one_mul] at this
  have c1 : chol 1 = .ok 1 := by have := hc.scalar one_pos; simpa using this
  have c2 : chol ((2 : ℝ) • 1) = .ok (Real.sqrt 2 • 1) := by
    have := hc.scalar (c := Real.sqrt 2) (by positivity)
    rwa [Real.mul_self_sqrt (by norm_num)] at this
  refine ⟨s, t, ?_, ?_⟩
  · constructor <;> first | exact False.elim | exact h1.symm | rfl | (simp [s, t, CKF.fresh]; done) |
      exact (pushRows_zero _).symm
  · simp only [CKF.predict, s, t, CKF.fresh, sphericalRadialSigmas, c1, c2]
    refine ⟨_, _, rfl, rfl, ?_, ?_⟩
    · funext j
      fin_cases j <;> simp [ckfTransform, rows, bilinearMotion, Fin.sum_univ_four]
    · funext j
      fin_cases j <;> simp [ckfTransform, rows, bilinear_turned, Fin.sum_univ_four] <;> norm_num

/-- **C130 (refuted for turned axes, `UnscentedKalmanFilter`).** The same with `MerweScaledSigmaPoints(2, 1, 0, 0)`. -/
theorem C130_ukf_axes_refuted {chol : Mat 2 2 → Except Err (Mat 2 2)} (hc : IsCholesky chol) :
    ∃ p, SigmaPts.merwe 2 1 0 0 chol = .ok p ∧ ∃ s t : UKF 2 1 p, UKF.InUnits False turned 1 s t ∧
      ∃ s' t', s.predict = .ok s' ∧ t.predict = .ok t' ∧ s'.x = 0 ∧ t'.x = ![1, -1] := by
  let p : SigmaPts 2 := ⟨2 * 2 + 1, fun i => if (i : ℕ) = 0 then 0 else 1 / 4, fun i => if (i : ℕ) = 0 then 0 else 1 / 4,
    fun x P => match chol ((2 : ℝ) • P) with
        | .error e => .error e
        | .ok U => .ok (SigmaPts.symmetricSet (fun a b => a - b) x U)⟩
  have hp : SigmaPts.merwe 2 1 0 0 chol = .ok p := by
    have e1 : (1 : ℝ) ^ 2 * ((2 : ℕ) + 0) - (2 : ℕ) = 0 := by norm_num
    have e2 : (0 : ℝ) / ((2 : ℕ) + 0) = 0 := by norm_num
    have e3 : (0.5 : ℝ) / ((2 : ℕ) + 0) = 1 / 4 := by norm_num
    have e4 : (0 : ℝ) + (1 - 1 ^ 2 + 0) = 0 := by norm_num
    have e5 : (0 : ℝ) + (2 : ℕ) = 2 := by norm_num
    have e6 : ¬ ((2 : ℕ) + 0 : ℝ) = 0 := by norm_num
    simp only [SigmaPts.merwe, e1, e2, e3, e4, e5, if_neg e6, p]
    congr 3
    funext x P
    cases chol ((2 : ℝ) • P) <;> rfl
  let s : UKF 2 1 p := UKF.fresh 1 p 1 (fun v _ => v 0) bilinearMotion
  let t : UKF 2 1 p := { UKF.fresh 1 p 1 (unitsFn 1 turned fun v _ => v 0) (unitsMotion turned bilinearMotion) with
    P := (2 : ℝ) • 1, Q := (2 : ℝ) • 1 }
  have h1 : turned * 1 * turnedᵀ = (2 : ℝ) • 1 := by
    have := turned_sq 1
    rwa [one_smul, one_mul] at this
  have c1 : chol ((2 : ℝ) • 1) = .ok (Real.sqrt 2 • 1) := by
    have := hc.scalar (c := Real.sqrt 2) (by positivity)
    rwa [Real.mul_self_sqrt (by norm_num)] at this
  have c2 : chol ((2 : ℝ) • (2 : ℝ) • 1) = .ok ((2 : ℝ) • 1) := by
    rw [smul_smul]; exact hc.scalar two_pos
  have hu (g : Vec 2 → ℝ → Vec 2) (c : ℝ) : ∀ a : Vec 2, g 0 1 = 0 → (∀ b : Vec 2, b = ![c, 0] ∨ b = ![-c, 0] ∨ b = ![0, c] ∨ b = ![0, -c] → g b 1 = a) →
      ∀ N : Mat 2 2, unscentedTransform (UKF.pushRows (fun v => g v 1) (SigmaPts.symmetricSet (fun a b => a - b) 0 (c • 1)))
        p.Wm p.Wc (some N) none none = (a, N) := by
    intro a h0 hg N
    have hr : UKF.pushRows (fun v => g v 1) (SigmaPts.symmetricSet (fun a b => a - b) 0 (c • 1)) =
        (fun i => if i = 0 then 0 else a : Mat 5 2) := by
      funext i
      have hz : ((c • 1 : Mat 2 2) 0) = ![c, 0] := by funext j; fin_cases j <;> simp
      have ho : ((c • 1 : Mat 2 2) 1) = ![0, c] := by funext j; fin_cases j <;> simp
      fin_cases i
      · simp [UKF.pushRows, SigmaPts.symmetricSet, h0]
      · simp [UKF.pushRows, SigmaPts.symmetricSet]
        exact hg _ (Or.inl hz)
      · simp [UKF.pushRows, SigmaPts.symmetricSet]
        exact hg _ (Or.inr (Or.inr (Or.inl ho)))
      · simp [UKF.pushRows, SigmaPts.symmetricSet]
        exact hg _ (Or.inr (Or.inl (by rw [hz]; simp)))
      · simp [UKF.pushRows, SigmaPts.symmetricSet]
        exact hg _ (Or.inr (Or.inr (Or.inr (by rw [ho]; simp))))
    have hx : p.Wm ᵥ* (fun i => if i = 0 then 0 else a : Mat 5 2) = a := by
      funext j
      simp [vecMul, dotProduct, p, Fin.sum_univ_five]
      ring
    have hP (D : Mat 5 2) (hD : ∀ i, i ≠ 0 → D i = 0) : Dᵀ * (diagonal p.Wc * D) = 0 := by
      ext i j
      rw [Matrix.mul_apply]
      refine Finset.sum_eq_zero fun l _ => ?_
      rw [diagonal_mul, transpose_apply]
      by_cases hl : l = 0
      · subst hl; simp [p]
      · rw [hD l hl]; simp
    unfold unscentedTransform
    simp only [hr]
    refine Prod.ext hx ?_
    rw [hx]
    refine (congrArg (· + N) (hP _ fun i hi => ?_)).trans (zero_add N)
    simp [hi]
  refine ⟨p, hp, s, t, ?_, ?_⟩
  · constructor <;> first | exact False.elim | exact h1.symm | rfl | (simp [s, t, UKF.fresh]; done) |
      exact (pushRows_zero _).symm
  · have e1 := hu bilinearMotion (Real.sqrt 2) 0 (by simp [bilinearMotion]) (by
      rintro b (rfl | rfl | rfl | rfl) <;> simp [bilinearMotion]) 1
    have e2 := hu (unitsMotion turned bilinearMotion) 2 ![1, -1] (by simp [bilinear_turned]) (by
      rintro b (rfl | rfl | rfl | rfl) <;> simp [bilinear_turned]) ((2 : ℝ) • 1)
    have hs : ∃ s', s.predict = .ok s' ∧ s'.x = 0 := by
      simp only [UKF.predict, UKF.computeProcessSigmas, s, UKF.fresh, p, c1, UKF.predictUT]
      simp only [p] at e1
      simp only [Option.getD_none, e1, c1]
      exact ⟨_, rfl, rfl⟩
    have ht : ∃ t', t.predict = .ok t' ∧ t'.x = ![1, -1] := by
      simp only [UKF.predict, UKF.computeProcessSigmas, t, UKF.fresh, p, c2, UKF.predictUT]
      simp only [p] at e2
      simp only [Option.getD_none, e2, c2]
      exact ⟨_, rfl, rfl⟩
    obtain ⟨s', h3, h4⟩ := hs
    obtain ⟨t', h5, h6⟩ := ht
    exact ⟨s', t', h3, h5, h4, h6⟩

/-- **C130 (likelihood).** In the new units the log-likelihood of a measurement is shifted by `- log |det U|`. -/
theorem C130_likelihood {A : Prop} {T : Mat n n} {U : Mat m m} (hU : U.det ≠ 0) :
    (∀ (s : UKF n m ⟨k, Wm, Wc, pts⟩) (t : UKF n m ⟨k, Wm, Wc, pts'⟩), UKF.InUnits A T U s t → s.logLik = none →
      t.logLik = none → s.S.det ≠ 0 → t.readLogLik.1 = s.readLogLik.1 - Real.log |U.det|) ∧
    (∀ s t : CKF n m, CKF.InUnits A T U s t → s.logLik = none → t.logLik = none → s.S.det ≠ 0 →
      t.readLogLik.1 = s.readLogLik.1 - Real.log |U.det|) := by
  constructor <;> intro s t h hs ht hS
  · simp only [UKF.readLogLik, hs, ht, h.y, h.S, units_logpdf hU _ hS]
  · simp only [CKF.readLogLik, hs, ht, h.y, h.S, units_logpdf hU _ hS]

/-! ### Filters to which the theorems apply -/

/-- Two `UnscentedKalmanFilter`s just built, in two systems of units, by the same user. -/
theorem ukf_fresh_units (T : Mat n n) (U : Mat m m) (p : SigmaPts n) (dt : ℝ) (hx : Vec n → Vec m) (fx : Vec n → ℝ → Vec n)
    (x : Vec n) (P Q : Mat n n) (R : Mat m m) :
    UKF.InUnits False T U ({ UKF.fresh m p dt hx fx with x := x, P := P, Q := Q, R := R } : UKF n m p)
      ({ UKF.fresh m p dt (unitsFn U T hx) (unitsMotion T fx) with
        x := T *ᵥ x, P := T * P * Tᵀ, Q := T * Q * Tᵀ, R := U * R * Uᵀ } : UKF n m p) := by
  constructor <;> first | exact False.elim | rfl | exact (pushRows_zero _).symm | (simp [UKF.fresh]; done)

/-- Two `CubatureKalmanFilter`s just built. -/
theorem ckf_fresh_units (T : Mat n n) (U : Mat m m) (dt : ℝ) (hx : Vec n → Vec m) (fx : Vec n → ℝ → Vec n)
    (x : Vec n) (P Q : Mat n n) (R : Mat m m) :
    CKF.InUnits False T U { CKF.fresh n m dt hx fx with x := x, P := P, Q := Q, R := R }
      { CKF.fresh n m dt (unitsFn U T hx) (unitsMotion T fx) with
        x := T *ᵥ x, P := T * P * Tᵀ, Q := T * Q * Tᵀ, R := U * R * Uᵀ } := by
  constructor <;> first | exact False.elim | rfl | exact (pushRows_zero _).symm | (simp [CKF.fresh]; done)

/-- Metres against kilometres: a nonlinear radar filter with Merwe points, on a routine that exists. -/
example (expf : ℝ → ℝ) (zs : List (Vec 1)) : ∃ (p : SigmaPts 2) (s t : UKF 2 1 p),
    UKF.InUnits False (diagonal ![1 / 1000, 1 / 1000]) !![1 / 1000] s t ∧
    Agree (fun s t : UKF 2 1 p => UKF.InUnits False (diagonal ![1 / 1000, 1 / 1000]) !![1 / 1000] s t)
      (runList (UkfCall.on expf) s (zs.flatMap fun z => [.predict none none, .update (some z) .none none]))
      (runList (UkfCall.on expf) t ((zs.flatMap fun z => [.predict none none, .update (some z) .none none]).map
        (UkfCall.units (diagonal ![1 / 1000, 1 / 1000]) !![1 / 1000]))) := by
  obtain ⟨chol, hc⟩ := isCholesky_exists (n := 2)
  have hm : ∃ p, SigmaPts.merwe 2 (1 / 10) 2 1 chol = .ok p := by
    unfold SigmaPts.merwe
    rw [if_neg (by norm_num)]
    exact ⟨_, rfl⟩
  obtain ⟨p, hp⟩ := hm
  have h := ukf_fresh_units (diagonal ![1 / 1000, 1 / 1000]) !![1 / 1000] p 1 (fun v _ => Real.sqrt (v 0 ^ 2 + 1))
    (fun v dt => ![v 0 + dt * v 1, v 1]) ![1, 2] 1 1 1
  refine ⟨p, _, _, h, C130_ukf hc (fun i => ?_) (by simp) (Or.inl ⟨_, _, _, hp⟩) False expf h _⟩
  fin_cases i <;> simp

end Filterpy
