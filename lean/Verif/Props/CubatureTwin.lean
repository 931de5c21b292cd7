import Verif.Props.Cubature
import Verif.Props.UKF
import Verif.Lemmas.Cholesky
import Verif.Lemmas.Sim

/-!
# C139: the cubature filter is the unscented filter with `kappa = 0`, except that it does not redraw its points
-/

namespace Filterpy

open Matrix Spec SigmaPts

variable {n m : ℕ}

/-- No weight on the first of `2n + 1` points, equal weights on the others. -/
noncomputable def Spec.evenW (n : ℕ) : Vec (2 * n + 1) := fun i => if (i : ℕ) = 0 then 0 else 1 / (2 * n)

/-- The sigma points without a weight on the centre: `x` itself (weight 0) and `x ± U[k]` (weight `1/(2n)` each), where `U` is
the factor of `n P`. -/
noncomputable def Spec.EvenPoints (n : ℕ) (chol : Mat n n → Except Err (Mat n n)) : SigmaPts n where
  num := 2 * n + 1
  Wm := evenW n
  Wc := evenW n
  points := fun x P => match chol ((n : ℝ) • P) with
    | .error e => .error e
    | .ok U => .ok fun i =>
      if h0 : (i : ℕ) = 0 then x
      else if h : (i : ℕ) ≤ n then x + U ⟨i - 1, by omega⟩
      else x - U ⟨i - 1 - n, by omega⟩

theorem even_set (x : Vec n) (U : Mat n n) : (fun i : Fin (2 * n + 1) =>
      if h0 : (i : ℕ) = 0 then x
      else if h : (i : ℕ) ≤ n then x + U ⟨i - 1, by omega⟩
      else x - U ⟨i - 1 - n, by omega⟩) = symmetricSet (fun a b => a - b) x U := by
  funext i
  unfold symmetricSet
  by_cases h0 : (i : ℕ) = 0
  · rw [dif_pos h0, dif_pos h0]
  · rw [dif_neg h0, dif_neg h0]
    by_cases h : (i : ℕ) ≤ n
    · rw [dif_pos h, dif_pos h]
      exact (sub_neg_eq_add x (U ⟨i - 1, by omega⟩)).symm
    · rw [dif_neg h, dif_neg h]

/-- **C139, the points.**  `JulierSigmaPoints(n, kappa=0)` and `MerweScaledSigmaPoints(n, alpha=1, beta=0, kappa=0)` are the
points without a weight on the centre. -/
theorem C139_points (hn : 0 < n) (chol : Mat n n → Except Err (Mat n n)) :
    julier n 0 chol = .ok (EvenPoints n chol) ∧ merwe n 1 0 0 chol = .ok (EvenPoints n chol) := by
  have hn' : (n : ℝ) ≠ 0 := by positivity
  have e : (0.5 : ℝ) / n = 1 / (2 * n) := by field_simp; norm_num
  constructor
  · unfold julier EvenPoints evenW
    simp only [add_zero, if_neg hn', zero_div, e, even_set]
    rfl
  · unfold merwe EvenPoints evenW
    simp only [one_pow, add_zero, one_mul, sub_self, if_neg hn', zero_div, zero_add, e, even_set]
    rfl

/-- Cholesky factors of multiples. -/
theorem Spec.IsCholesky.smul {chol : Mat n n → Except Err (Mat n n)} (hc : IsCholesky chol) {c : ℝ} (h : 0 < c) (P : Mat n n) :
    chol (c • P) = match chol P with
      | .error e => .error e
      | .ok U => .ok (Real.sqrt c • U) := by
  by_cases hP : (symUpper P).PosDef
  · obtain ⟨U, h1, h2⟩ := (hc P).1 hP
    obtain ⟨V, h3, h4⟩ := (hc (c • P)).1 (by rw [symUpper_smul]; exact hP.smul h)
    rw [symUpper_smul] at h4
    have h5 : CholFactor (c • symUpper P) (Real.sqrt c • U) := by
      refine ⟨fun i j hij => ?_, fun i => ?_, ?_⟩
      · rw [Matrix.smul_apply, h2.upper i j hij, smul_zero]
      · exact mul_pos (Real.sqrt_pos.2 h) (h2.pos i)
      · rw [transpose_smul, Matrix.smul_mul, Matrix.mul_smul, smul_smul, h2.eq, Real.mul_self_sqrt h.le]
    rw [h1, h3, h4.unique h5]
  · have hP' : ¬ (symUpper (c • P)).PosDef := fun hq => hP (by
      rw [symUpper_smul] at hq
      have := hq.smul (inv_pos.2 h)
      rwa [smul_smul, inv_mul_cancel₀ h.ne', _root_.one_smul] at this)
    rw [(hc P).2 hP, (hc (c • P)).2 hP']

/-- The points drawn by the two filters are the same, apart from the centre. -/
theorem even_points (hn : 0 < n) {chol : Mat n n → Except Err (Mat n n)} (hc : IsCholesky chol) (x : Vec n) (P : Mat n n) :
    (∃ e, (EvenPoints n chol).points x P = .error e ∧ sphericalRadialSigmas chol x P = .error e) ∨
    ∃ (σ : Mat (EvenPoints n chol).num n) (τ : Mat (2 * n) n), (EvenPoints n chol).points x P = .ok σ ∧
      sphericalRadialSigmas chol x P = .ok τ ∧ ∀ k : Fin (2 * n), σ k.succ = τ k := by
  have h := hc.smul (c := n) (by positivity) P
  simp only [EvenPoints, sphericalRadialSigmas, h]
  cases hP : chol P with
  | error e => exact .inl ⟨e, rfl, rfl⟩
  | ok U =>
    refine .inr ⟨_, _, rfl, rfl, fun k => ?_⟩
    simp only [rows, Fin.val_succ, Nat.succ_ne_zero, dite_false, Nat.add_sub_cancel]
    by_cases hk : (k : ℕ) < n
    · rw [dif_pos (show (k : ℕ) + 1 ≤ n by omega), dif_pos hk]
    · rw [dif_neg (show ¬ (k : ℕ) + 1 ≤ n by omega), dif_neg hk]

/-- The unscented transform with a weightless centre is the cubature transform of the other points. -/
theorem even_transform {k : ℕ} (hn : 0 < n) (σ : Mat (2 * n + 1) k) (τ : Mat (2 * n) k) (h : ∀ i, σ i.succ = τ i) (Q : Mat k k) :
    unscentedTransform σ (evenW n) (evenW n) (some Q) none none = ckfTransform τ Q := by
  rw [C25_transform (by omega) τ Q]
  have hw : ∀ i : Fin (2 * n), eqW (2 * n) i = 1 / (2 * n) := fun i => by simp [eqW]
  have hm : (evenW n) ᵥ* σ = WMean (eqW (2 * n)) τ := by
    funext j
    show ∑ i : Fin (2 * n + 1), _ * σ i j = _
    rw [Fin.sum_univ_succ]
    simp [evenW, h, WMean, hw]
  simp only [unscentedTransform, hm]
  refine Prod.ext rfl ?_
  show _ + Q = _ + Q
  congr 1
  refine (fast_cov (mapRows (fun v => v - WMean (eqW (2 * n)) τ) σ) (evenW n)).trans ?_
  show ∑ i : Fin (2 * n + 1), _ = _
  rw [Fin.sum_univ_succ]
  ext a b
  simp [evenW, h, mapRows, WCov, hw, Matrix.sum_apply, vecMulVec_apply]

/-- Likewise the cross covariance. -/
theorem even_cross {k : ℕ} (σ : Mat (2 * n + 1) n) (τ : Mat (2 * n) n)
    (h : ∀ i, σ i.succ = τ i) (σ' : Mat (2 * n + 1) k) (τ' : Mat (2 * n) k) (h' : ∀ i, σ' i.succ = τ' i) (x : Vec n) (z : Vec k) :
    UKF.crossVariance (evenW n) (resFn none) (resFn none) x z σ σ'
      = ((1 : ℝ) / (2 * n : ℕ)) • outerSum (rows fun i => τ i - x) (rows fun i => τ' i - z) := by
  rw [crossVariance_eq, outerSum_eq, Finset.smul_sum]
  show ∑ i : Fin (2 * n + 1), _ = _
  rw [Fin.sum_univ_succ]
  simp [evenW, h, h', resFn, rows]

/-- An unscented filter with weightless centre and a cubature filter in the same state: same numbers in all attributes that
both have, apart from the copies of the prior; the cubature filter has the points of the unscented one without the centre. -/
structure Spec.CubatureTwin {chol : Mat n n → Except Err (Mat n n)} (s : UKF n m (EvenPoints n chol)) (t : CKF n m) : Prop where
  x : s.x = t.x
  P : s.P = t.P
  Q : s.Q = t.Q
  R : s.R = t.R
  dt : s.dt = t.dt
  hx : s.hx = t.hx
  fx : s.fx = t.fx
  z : s.z = t.z
  K : s.K = t.K
  y : s.y = t.y
  S : s.S = t.S
  SI : s.SI = t.SI
  xPost : s.xPost = t.xPost
  PPost : s.PPost = t.PPost
  logLik : s.logLik = t.logLik
  lik : s.lik = t.lik
  mahal : s.mahal = t.mahal
  sigmasF : ∀ k : Fin (2 * n), s.sigmasF k.succ = t.sigmasF k
  sigmasH : ∀ k : Fin (2 * n), s.sigmasH k.succ = t.sigmasH k
  xMean : s.xMean = none
  zMean : s.zMean = none
  residualX : s.residualX = none
  residualZ : s.residualZ = none
  stateAdd : s.stateAdd = none
  inv : ∀ k : ℕ, s.inv (k := k) = npInv
  residualZ' : t.residualZ = none

variable {chol : Mat n n → Except Err (Mat n n)}

/-- **C139, `update`.**  Whenever the two filters hold the same numbers and the same points, `update` with the same arguments
leaves them so, or both raise the same exception: for every measurement function, and also for a missing measurement. -/
theorem C139_update (hn : 0 < n) (s : UKF n m (EvenPoints n chol)) (t : CKF n m) (h : CubatureTwin s t) (z : Option (Vec m))
    (R : MatArg m) : Agree CubatureTwin (s.update z R) (t.update (z.map .col) R) := by
  cases z with
  | none =>
    show CubatureTwin _ _
    exact { h with z := rfl, xPost := h.x, PPost := h.P }
  | some z =>
    have hh : ∀ k : Fin (2 * n), UKF.pushRows t.hx s.sigmasF k.succ = (rows fun k => t.hx (t.sigmasF k) : Mat (2 * n) m) k :=
      fun k => congrArg t.hx (h.sigmasF k)
    have hT : unscentedTransform (UKF.pushRows t.hx s.sigmasF) (EvenPoints n chol).Wm (EvenPoints n chol).Wc
        (some (R.resolve t.R)) none none = ckfTransform (rows fun k => t.hx (t.sigmasF k)) (R.resolve t.R) :=
      even_transform hn _ _ hh _
    have hX : ∀ zp : Vec m, UKF.crossVariance (EvenPoints n chol).Wc (resFn none) (resFn none) t.x zp s.sigmasF
        (UKF.pushRows t.hx s.sigmasF) = ((1 : ℝ) / (2 * n : ℕ)) • outerSum (rows fun k => t.sigmasF k - t.x)
          (rows fun k => (rows fun k => t.hx (t.sigmasF k) : Mat (2 * n) m) k - zp) := fun zp =>
      even_cross s.sigmasF t.sigmasF h.sigmasF _ _ hh _ _
    simp only [UKF.update, CKF.update, Option.map_some, Option.getD_none, h.zMean, h.residualZ, h.residualX, h.R, h.hx, hT,
      h.inv, h.x, hX]
    cases hS : npInv (ckfTransform (rows fun k => t.hx (t.sigmasF k)) (R.resolve t.R)).2 with
    | none =>
      refine ⟨rfl, ?_⟩
      constructor <;> first | rfl | exact hh | exact h.P | exact h.Q | exact h.dt | exact h.fx | exact h.z | exact h.K | exact h.y | exact h.SI | exact h.xPost | exact h.PPost | exact h.logLik | exact h.lik | exact h.mahal | exact h.sigmasF | exact h.xMean | exact h.stateAdd | exact h.inv | exact h.residualZ'
    | some SI =>
      show CubatureTwin _ _
      have hy : ∀ a b : Vec m, resFn none a b = (t.residualZ.getD fun a b => a - b) a b := fun a b => by
        rw [h.residualZ']; rfl
      constructor <;> first | exact h.Q | exact h.R | exact h.dt | exact h.hx | exact h.fx | rfl | exact hh | exact h.sigmasF | exact h.xMean | exact h.zMean | exact h.residualX | exact h.residualZ | exact h.stateAdd | exact h.inv | exact h.residualZ' | exact hy _ _ | simp only [h.stateAdd, h.residualZ', h.P, Option.getD_none, resFn, Matrix.mul_assoc]

/-- `ckf.sigmas_f = spherical_radial_sigmas(ckf.x, ckf.P)`, a line that a user can write after `ckf.predict()`. -/
noncomputable def Spec.redrawn (chol : Mat n n → Except Err (Mat n n)) (t : CKF n m) : Exec (CKF n m) :=
  match sphericalRadialSigmas chol t.x t.P with
  | .error e => .error (e, t)
  | .ok τ => .ok { t with sigmasF := τ }

/-- `predict` followed by that line. -/
noncomputable def Spec.predictRedrawn (chol : Mat n n → Except Err (Mat n n)) (t : CKF n m) (dt : Option ℝ) : Exec (CKF n m) :=
  match t.predict chol dt with
  | .error e => .error e
  | .ok t' => redrawn chol t'

theorem twin_predict (hn : 0 < n) (hc : IsCholesky chol) (s : UKF n m (EvenPoints n chol)) (t : CKF n m)
    (h : CubatureTwin s t) (dt : Option ℝ) : Agree CubatureTwin (s.predict dt) (predictRedrawn chol t dt) := by
  simp only [UKF.predict, UKF.computeProcessSigmas, CKF.predict, predictRedrawn, h.x, h.P, h.dt, h.fx, Option.getD_none]
  obtain ⟨e, h1, h2⟩ | ⟨σ, τ, h1, h2, h3⟩ := even_points hn hc t.x t.P
  · simp only [h1, h2]
    exact ⟨rfl, h⟩
  · have hf : ∀ k : Fin (2 * n), UKF.pushRows (fun v => t.fx v (dt.getD t.dt)) σ k.succ
        = (rows fun k => t.fx (τ k) (dt.getD t.dt) : Mat (2 * n) n) k := fun k => congrArg (t.fx · _) (h3 k)
    have hT : unscentedTransform (UKF.pushRows (fun v => t.fx v (dt.getD t.dt)) σ) (EvenPoints n chol).Wm (EvenPoints n chol).Wc
        (some t.Q) none none = ckfTransform (rows fun k => t.fx (τ k) (dt.getD t.dt)) t.Q :=
      even_transform hn _ _ hf _
    simp only [h1, h2, UKF.predictUT, h.xMean, h.residualX, h.Q, hT, redrawn]
    generalize ckfTransform (rows fun k => t.fx (τ k) (dt.getD t.dt)) t.Q = xP
    obtain ⟨e, h4, h5⟩ | ⟨σ', τ', h4, h5, h6⟩ := even_points hn hc xP.1 xP.2
    · simp only [h4, h5]
      refine ⟨rfl, ?_⟩
      constructor <;> first | rfl | exact hf | exact h.R | exact h.dt | exact h.hx | exact h.fx | exact h.z | exact h.K | exact h.y | exact h.S | exact h.SI | exact h.xPost | exact h.PPost | exact h.logLik | exact h.lik | exact h.mahal | exact h.sigmasH | exact h.xMean | exact h.zMean | exact h.residualZ | exact h.stateAdd | exact h.inv | exact h.residualZ'
    · simp only [h4, h5]
      show CubatureTwin _ _
      constructor <;> first | rfl | exact h6 | exact h.R | exact h.dt | exact h.hx | exact h.fx | exact h.z | exact h.K | exact h.y | exact h.S | exact h.SI | exact h.xPost | exact h.PPost | exact h.logLik | exact h.lik | exact h.mahal | exact h.sigmasH | exact h.xMean | exact h.zMean | exact h.residualZ | exact h.stateAdd | exact h.inv | exact h.residualZ'

/-- **C139, `predict`.**  The two filters reach the same state and covariance, for every process function, or raise the same
exception; only the unscented filter draws new points afterwards, which raises an exception if the new covariance has no
Cholesky factor. -/
theorem C139_predict (hn : 0 < n) (hc : IsCholesky chol) (s : UKF n m (EvenPoints n chol)) (t : CKF n m)
    (h : CubatureTwin s t) (dt : Option ℝ) :
    (∃ e, s.predict dt = .error (e, s) ∧ t.predict chol dt = .error (e, t)) ∨
    ∃ t', t.predict chol dt = .ok t' ∧ t'.xPrior = t'.x ∧ t'.PPrior = t'.P ∧
      ((∃ s', s.predict dt = .ok s' ∧ s'.x = t'.x ∧ s'.P = t'.P ∧ s'.xPrior = t'.x ∧ s'.PPrior = t'.P ∧
        (EvenPoints n chol).points t'.x t'.P = .ok s'.sigmasF) ∨
       ∃ e s', s.predict dt = .error (e, s') ∧ s'.x = t'.x ∧ s'.P = t'.P ∧ sphericalRadialSigmas chol t'.x t'.P = .error e) := by
  simp only [UKF.predict, UKF.computeProcessSigmas, CKF.predict, h.x, h.P, h.dt, h.fx, Option.getD_none]
  obtain ⟨e, h1, h2⟩ | ⟨σ, τ, h1, h2, h3⟩ := even_points hn hc t.x t.P
  · simp only [h1, h2]
    exact .inl ⟨e, rfl, rfl⟩
  · have hf : ∀ k : Fin (2 * n), UKF.pushRows (fun v => t.fx v (dt.getD t.dt)) σ k.succ
        = (rows fun k => t.fx (τ k) (dt.getD t.dt) : Mat (2 * n) n) k := fun k => congrArg (t.fx · _) (h3 k)
    have hT : unscentedTransform (UKF.pushRows (fun v => t.fx v (dt.getD t.dt)) σ) (EvenPoints n chol).Wm (EvenPoints n chol).Wc
        (some t.Q) none none = ckfTransform (rows fun k => t.fx (τ k) (dt.getD t.dt)) t.Q :=
      even_transform hn _ _ hf _
    simp only [h1, h2, UKF.predictUT, h.xMean, h.residualX, h.Q, hT]
    generalize ckfTransform (rows fun k => t.fx (τ k) (dt.getD t.dt)) t.Q = xP
    refine .inr ⟨_, rfl, rfl, rfl, ?_⟩
    obtain ⟨e, h4, h5⟩ | ⟨σ', τ', h4, h5, h6⟩ := even_points hn hc xP.1 xP.2
    · simp only [h4, h5]
      exact .inr ⟨e, _, rfl, rfl, rfl, rfl⟩
    · simp only [h4, h5]
      exact .inl ⟨_, rfl, rfl, rfl, rfl, rfl, rfl⟩

/-- A call on the unscented filter. -/
noncomputable def CkfOp.onUkf (s : UKF n m (EvenPoints n chol)) : CkfOp m → Exec (UKF n m (EvenPoints n chol))
  | .predict dt => s.predict dt
  | .update z R => s.update z R

/-- The same call on a cubature filter whose points the user redraws after every `predict`. -/
noncomputable def CkfOp.onRedrawn (chol : Mat n n → Except Err (Mat n n)) (t : CKF n m) : CkfOp m → Exec (CKF n m)
  | .predict dt => predictRedrawn chol t dt
  | .update z R => t.update (z.map .col) R

/-- **C139, whole histories.**  A cubature filter with the line `ckf.sigmas_f = spherical_radial_sigmas(ckf.x, ckf.P)` after
every `predict` is the unscented filter with `JulierSigmaPoints(n, kappa=0)`: after any history of calls both hold the same
numbers, or the same call raises the same exception, whatever the process and the measurement function. -/
theorem C139_redrawn (hn : 0 < n) (hc : IsCholesky chol) (s : UKF n m (EvenPoints n chol)) (t : CKF n m)
    (h : CubatureTwin s t) (ops : List (CkfOp m)) :
    Agree CubatureTwin (runList CkfOp.onUkf s ops) (runList (CkfOp.onRedrawn chol) t ops) :=
  runList_agree _ (fun s t op _ h => by
    cases op with
    | predict dt => exact twin_predict hn hc s t h dt
    | update z R => exact C139_update hn s t h z R) s t h

/-- New filters hold the same numbers. -/
theorem C139_fresh (dt : ℝ) (hx : Vec n → Vec m) (fx : Vec n → ℝ → Vec n) :
    CubatureTwin (UKF.fresh m (EvenPoints n chol) dt hx fx) (CKF.fresh n m dt hx fx) := by
  constructor <;> first | rfl | exact fun _ => rfl

/-- The call as one of C22. -/
def CkfOp.asUkf : CkfOp m → UkfOp n m
  | .predict dt => .predict dt
  | .update z R => .update z R none

theorem onUkf_as (s : UKF n m (EvenPoints n chol)) (ops : List (CkfOp m)) :
    runList CkfOp.onUkf s ops = runList UkfOp.onUkf s (ops.map CkfOp.asUkf) := by
  induction ops generalizing s with
  | nil => rfl
  | cons op ops ih =>
    have e : CkfOp.onUkf s op = UkfOp.onUkf s op.asUkf := by cases op <;> rfl
    simp only [List.map_cons, runList, e]
    cases UkfOp.onUkf s op.asUkf with
    | error e => rfl
    | ok s' => exact ih s'

theorem onKf_as {l : ℕ} (F : ℝ → Mat n n) (dt : ℝ) (s : KF n m l) (ops : List (CkfOp m)) :
    runList (CkfOp.onKf F dt) s ops = runList (UkfOp.onKf F dt) s (ops.map CkfOp.asUkf) := by
  induction ops generalizing s with
  | nil => rfl
  | cons op ops ih =>
    have e : CkfOp.onKf F dt s op = UkfOp.onKf F dt s op.asUkf := by cases op <;> rfl
    simp only [List.map_cons, runList, e]
    cases UkfOp.onKf F dt s op.asUkf with
    | error e => rfl
    | ok s' => exact ih s'

theorem even_valid (hn : 0 < n) (hc : IsCholesky chol) : ValidPoints (EvenPoints n chol) :=
  .julier 0 chol _ (by positivity) hc.upper (C139_points hn chol).1

theorem alternating_as (b : Bool) (ops : List (CkfOp m)) (h : CkfOp.Alternating b ops) :
    Alternating (n := n) b (ops.map CkfOp.asUkf) := by
  induction ops generalizing b with
  | nil => trivial
  | cons op ops ih =>
    cases op with
    | predict dt => exact ih _ h
    | update z R =>
      cases z with
      | none => exact ih _ h
      | some z => exact ⟨h.1, ih _ h.2⟩

/-- **C139, linear systems.**  With the redrawing the cubature filter gives the estimates of the Kalman filter on every
linear system with process noise, which it does not without (`C25_process_noise_refuted`). -/
theorem C139_linear {l : ℕ} (hn : 0 < n) (hc : IsCholesky chol) (F : ℝ → Mat n n) (H : Mat m n) (Q P : Mat n n) (R : Mat m m)
    (x : Vec n) (dt : ℝ) (hP : P.PosDef) (hQ : NoiseOK F Q) (ops : List (CkfOp m)) (ha : CkfOp.Alternating false ops)
    (hR : ∀ op ∈ ops, op.GoodR R) :
    ∃ t' k', runList (CkfOp.onRedrawn chol)
        { CKF.fresh n m dt (fun v => H *ᵥ v) (fun v t => F t *ᵥ v) with x := x, P := P, Q := Q, R := R } ops = .ok t' ∧
      runList (CkfOp.onKf F dt) { KF.fresh n m l with x := x, P := P, Q := Q, R := R, H := H } ops = .ok k' ∧
      t'.x = k'.x ∧ t'.P = k'.P := by
  have ht : CubatureTwin (chol := chol)
      { UKF.fresh m (EvenPoints n chol) dt (fun v => H *ᵥ v) (fun v t => F t *ᵥ v) with
        x := x, P := P, Q := Q, R := R, xPrior := 0, PPrior := 1 }
      { CKF.fresh n m dt (fun v => H *ᵥ v) (fun v t => F t *ᵥ v) with x := x, P := P, Q := Q, R := R } := by
    constructor <;> first | rfl | exact fun _ => rfl
  obtain ⟨u', k', h1, h2, h3⟩ := C22_linear (even_valid hn hc) F
    { UKF.fresh m (EvenPoints n chol) dt (fun v => H *ᵥ v) (fun v t => F t *ᵥ v) with
        x := x, P := P, Q := Q, R := R, xPrior := 0, PPrior := 1 }
    ({ KF.fresh n m l with x := x, P := P, Q := Q, R := R, H := H } : KF n m l)
    (by constructor <;> first | rfl | exact fun _ => rfl)
    (by constructor <;> first | rfl | exact fun _ => rfl) hP hQ (ops.map CkfOp.asUkf) (alternating_as _ _ ha) (by
      intro op hop
      obtain ⟨o, ho, rfl⟩ := List.mem_map.1 hop
      have := hR o ho
      cases o with
      | predict dt => trivial
      | update z R => cases z <;> first | trivial | exact this)
  have hA := C139_redrawn hn hc _ _ ht ops
  rw [onUkf_as, h1] at hA
  obtain ⟨t', h4, h5⟩ := hA.ok_left
  refine ⟨t', k', h4, (onKf_as _ _ _ _).trans h2, h5.x.symm.trans h3.x, h5.P.symm.trans h3.P⟩

/-- **C139 is false without the redrawing**: a random walk with unit noises, measured directly.  After one prediction and one
measurement of 1 the unscented filter holds `x = 2/3`, the cubature filter `x = 1/2`. -/
theorem C139_kept_refuted {chol : Mat 1 1 → Except Err (Mat 1 1)} (hc : IsCholesky chol) :
    ∃ s' t', runList CkfOp.onUkf (UKF.fresh 1 (EvenPoints 1 chol) 1 (fun v => (1 : Mat 1 1) *ᵥ v) (fun v _ => (1 : Mat 1 1) *ᵥ v))
        [.predict none, .update (some 1) .none] = .ok s' ∧
      runList (CkfOp.onCkf chol) (CKF.fresh 1 1 1 (fun v => (1 : Mat 1 1) *ᵥ v) (fun v _ => (1 : Mat 1 1) *ᵥ v))
        [.predict none, .update (some 1) .none] = .ok t' ∧
      s'.x 0 = 2 / 3 ∧ t'.x 0 = 1 / 2 := by
  obtain ⟨t', k', h1, h2, h3, -, h4, -⟩ := C25_process_noise_refuted chol hc.upper
  obtain ⟨u', k'', g1, g2, g3⟩ := C22_linear (even_valid one_pos hc) (fun _ => 1)
    (UKF.fresh 1 (EvenPoints 1 chol) 1 (fun v => (1 : Mat 1 1) *ᵥ v) (fun v _ => (1 : Mat 1 1) *ᵥ v))
    ({ KF.fresh 1 1 0 with H := 1 } : KF 1 1 0)
    (by constructor <;> first | rfl | exact fun _ => rfl)
    (by constructor <;> first | rfl | exact fun _ => rfl) PosDef.one (.inl PosDef.one)
    [.predict none, .update (some 1) .none none] ⟨rfl, trivial⟩ (by
      intro op hop
      simp only [List.mem_cons, List.not_mem_nil, or_false] at hop
      rcases hop with rfl | rfl
      · trivial
      · exact PosDef.one)
  refine ⟨u', t', (onUkf_as _ _).trans g1, h1, ?_, h3⟩
  have e := (onKf_as (fun _ => 1) 1 ({ KF.fresh 1 1 0 with H := 1 } : KF 1 1 0) [.predict none, .update (some 1) .none]).symm.trans h2
  obtain rfl : k'' = k' := Except.ok.inj (g2.symm.trans e)
  rw [g3.x, h4]

/-- A Cholesky routine exists, and the hypotheses of `C139_linear` are met by a constant-velocity tracker. -/
example : ∃ chol : Mat 2 2 → Except Err (Mat 2 2), IsCholesky chol ∧
    NoiseOK (fun t => !![1, t; 0, 1]) (1 : Mat 2 2) ∧
    CkfOp.Alternating (m := 1) false [.predict none, .update (some 1) .none, .predict (some 0.5), .update none .none] := by
  obtain ⟨chol, hc⟩ := isCholesky_exists (n := 2)
  exact ⟨chol, hc, .inl PosDef.one, by simp [CkfOp.Alternating]⟩

end Filterpy
