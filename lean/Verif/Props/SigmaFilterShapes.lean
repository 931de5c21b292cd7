import Verif.Spec.SigmaFilterShapes
import Verif.Props.OtherShapes
import Verif.Props.SigmaShapes

/-!
# C143: forms of state and measurement in the sigma point and ensemble filters
-/

namespace Filterpy

open Matrix Spec

variable {n m N : ℕ}

/-! ## `UnscentedKalmanFilter` -/

theorem ndSub_flat (v w : Vec n) : Nd.sub (.d1 n v) (.d1 n w) = .ok (.d1 n (v - w)) := sub_vecAs false v w

theorem ndAdd_mat (A B : Mat n m) : Nd.add (.d2 n m A) (.d2 n m B) = .ok (.d2 n m (A + B)) := by
  rw [Nd.add, Nd.broadcast_d2]; rfl

theorem ndAddInto_mat (A B : Mat n m) : Nd.addInto (.d2 n m A) (.d2 n m B) = .ok (.d2 n m (A + B)) := by
  simp [Nd.addInto, ndAdd_mat, Nd.shape]

theorem crossTurn_flat {k : ℕ} (Wc : Vec k) (x : Vec n) (zp : Vec m) (sf : Mat k n) (sh : Mat k m) (A : Mat n m) (i : Fin k) :
    NUKF.crossTurn Wc (.d1 n x) zp sf sh A i = .ok (UKF.crossStep Wc (resFn none) (resFn none) x zp sf sh A i) := by
  unfold NUKF.crossTurn
  rw [ndSub_flat]
  simp only [Nd.size]
  rw [ndAddInto_mat]
  simp only [Except.ok.injEq]
  ext a b
  simp [UKF.crossStep, Nd.get, Nd.flat, resFn, vecMulVec_apply]
  rfl

theorem cross_flat {k : ℕ} (Wc : Vec k) (x : Vec n) (zp : Vec m) (sf : Mat k n) (sh : Mat k m) :
    NUKF.cross Wc (.d1 n x) zp sf sh = .ok (UKF.crossVariance Wc (resFn none) (resFn none) x zp sf sh) := by
  unfold NUKF.cross UKF.crossVariance
  generalize (0 : Mat n m) = A
  induction List.finRange k generalizing A with
  | nil => rfl
  | cons i l ih =>
    rw [List.foldlM_cons, crossTurn_flat]
    exact ih _

/-- **C143, a new `UnscentedKalmanFilter`** stores its state and residual as 1-D arrays. -/
theorem C143_ukf_fresh (p : SigmaPts n) (dt : ℝ) (hx : Vec n → Vec m) (fx : Vec n → ℝ → Vec n)
    (xMean : Option (Mat p.num n → Vec p.num → Vec n)) (zMean : Option (Mat p.num m → Vec p.num → Vec m)) :
    UKFStores (NUKF.fresh m p dt hx fx xMean zMean) (UKF.fresh m p dt hx fx xMean zMean) := by
  have hz : ZAs false none fun _ : Fin m => (none : Option ℝ) := .inl ⟨rfl, fun _ => rfl⟩
  constructor <;> first | rfl | exact hz

/-- **C143, `UnscentedKalmanFilter.predict`.**  It computes what the mathematical filter computes and leaves a 1-D state, or raises
the same exception. -/
theorem C143_ukf_predict {p : SigmaPts n} {pts : Nd → Mat n n → Except Err (Mat p.num n)} (hp : PointsOf p pts)
    (s : NUKF n m p) (t : UKF n m p) (h : UKFStores s t) (dt : Option ℝ) (fx : Option (Vec n → ℝ → Vec n)) :
    Agree UKFStores (s.predict pts dt fx) (t.predict dt fx) := by
  obtain ⟨⟩ := s
  obtain ⟨rfl, rfl, rfl, rfl, rfl, rfl, rfl, rfl, rfl, rfl, rfl, hz, rfl, rfl, rfl, rfl, rfl, rfl, rfl, rfl, rfl, rfl, rfl,
    rfl, hrx, hrz, hsa⟩ := h
  simp only [NUKF.predict, UKF.predict, UKF.computeProcessSigmas, hp.flat]
  cases p.points t.x t.P with
  | error e => exact ⟨rfl, by fields⟩
  | ok sigmas =>
    simp only [UKF.predictUT, hrx]
    generalize unscentedTransform _ _ _ _ _ _ = xP
    cases p.points xP.1 xP.2 with
    | error e => exact ⟨rfl, by fields⟩
    | ok sigmas =>
      show UKFStores _ _
      fields

/-- **C143, `UnscentedKalmanFilter.update`** does the same for every measurement that fits: a 1-D array of `dim_z` values, or one
number for all sensors. -/
theorem C143_ukf_update_partial {p : SigmaPts n} (s : NUKF n m p) (t : UKF n m p) (h : UKFStores s t) (z : Nd) (v : Vec m)
    (hv : Accepted false v z) (R : MatArg m) (hx : Option (Vec n → Vec m)) :
    Agree UKFStores (s.update (some z) R hx) (t.update (some v) R hx) := by
  obtain ⟨⟩ := s
  obtain ⟨rfl, rfl, rfl, rfl, rfl, rfl, rfl, rfl, rfl, rfl, rfl, hz, rfl, rfl, rfl, rfl, rfl, rfl, rfl, rfl, rfl, rfl, rfl,
    rfl, hrx, hrz, hsa⟩ := h
  have hz2 : ZAs false (some z) fun i => some (v i) := .inr ⟨z, v, rfl, hv, fun _ => rfl⟩
  simp only [NUKF.update, UKF.update, hrx, hrz, hsa]
  generalize unscentedTransform _ _ _ _ _ _ = zpS
  cases t.inv zpS.2 with
  | none => exact ⟨rfl, by fields⟩
  | some SI =>
    simp only [cross_flat]
    have h1 : Nd.sub z (.d1 m zpS.1) = .ok (.d1 m (v - zpS.1)) := sub_fits false hv zpS.1
    have h2 : ∀ (K : Mat n m) (y : Vec m), Nd.corr (.d1 n t.x) K (.d1 m y) = .ok (.d1 n (t.x + K *ᵥ y)) := corr_vecAs false t.x
    simp only [h1, h2]
    show UKFStores _ _
    fields

/-- **C143, `UnscentedKalmanFilter.update(None)`**, likewise. -/
theorem C143_ukf_none {p : SigmaPts n} (s : NUKF n m p) (t : UKF n m p) (h : UKFStores s t) (R : MatArg m)
    (hx : Option (Vec n → Vec m)) : Agree UKFStores (s.update none R hx) (t.update none R hx) := by
  obtain ⟨⟩ := s
  obtain ⟨rfl, rfl, rfl, rfl, rfl, rfl, rfl, rfl, rfl, rfl, rfl, hz, rfl, rfl, rfl, rfl, rfl, rfl, rfl, rfl, rfl, rfl, rfl,
    rfl, hrx, hrz, hsa⟩ := h
  have hz2 : ZAs false none fun _ : Fin m => (none : Option ℝ) := .inl ⟨rfl, fun _ => rfl⟩
  show UKFStores _ _
  fields

/-- **C143: exactly the fitting measurements** keep the state of an `UnscentedKalmanFilter` 1-D. -/
theorem C143_ukf_exactly {p : SigmaPts n} (s s' : NUKF n m p) (t : UKF n m p) (h : UKFStores s t) (z : Nd) (R : MatArg m)
    (hx : Option (Vec n → Vec m)) (hok : s.update (some z) R hx = .ok s') (x' : Vec n) (hx' : s'.x = .d1 n x') :
    ∃ v : Vec m, Accepted false v z := by
  simp only [NUKF.update, h.x] at hok
  generalize unscentedTransform _ _ _ _ _ _ = zpS at hok
  generalize s.inv zpS.2 = q at hok
  cases q with
  | none => simp at hok
  | some SI =>
    simp only [cross_flat] at hok
    cases hy : Nd.sub z (.d1 m zpS.1) with
    | error e => simp [hy] at hok
    | ok y =>
      simp only [hy] at hok
      generalize UKF.crossVariance _ _ _ _ _ _ _ = C at hok
      cases hc : Nd.corr (.d1 n t.x) (C * SI) y with
      | error e => simp [hc] at hok
      | ok x =>
        simp only [hc, Except.ok.injEq] at hok
        subst hok
        simp only at hx'
        subst hx'
        exact fits_of_sub false t.x x' zpS.1 (C * SI) hy hc

/-- What `update` has computed when it comes to the residual: the gain and the predicted measurement. -/
theorem ukf_update_to_residual {p : SigmaPts n} (s : NUKF n m p) (t : UKF n m p) (h : UKFStores s t) (z : Nd) (R : MatArg m)
    (hx : Option (Vec n → Vec m)) {SI : Mat m m} (zp : Vec m) (S : Mat m m)
    (hS : unscentedTransform (UKF.pushRows (hx.getD t.hx) t.sigmasF) p.Wm p.Wc (some (R.resolve t.R)) t.zMean none = (zp, S))
    (hSI : t.inv S = some SI) (K : Mat n m)
    (hK : K = UKF.crossVariance p.Wc (resFn none) (resFn none) t.x zp t.sigmasF (UKF.pushRows (hx.getD t.hx) t.sigmasF) * SI)
    {y : Nd} (hy : Nd.sub z (.d1 m zp) = .ok y) :
    (∀ e, Nd.corr (.d1 n t.x) K y = .error e → ∃ s', s.update (some z) R hx = .error (e, s')) ∧
      ∀ x, Nd.corr (.d1 n t.x) K y = .ok x → ∃ s', s.update (some z) R hx = .ok s' ∧ s'.x = x := by
  have hinv : s.inv S = some SI := by rw [← hSI, h.inv]
  subst hK
  constructor
  · intro e he
    simp only [NUKF.update, h.x, h.hx, h.sigmasF, h.R, h.zMean, hS, hinv, cross_flat, hy, he]
    exact ⟨_, rfl⟩
  · intro x he
    simp only [NUKF.update, h.x, h.hx, h.sigmasF, h.R, h.zMean, hS, hinv, cross_flat, hy, he]
    exact ⟨_, rfl, rfl⟩

theorem ndCorr_flat_mat (x : Vec n) (K : Mat n m) (Y : Mat m m) (hn : 0 < n) (hnm : ¬ (n = 1 ∧ m = 1)) :
    Nd.corr (.d1 n x) K (.d2 m m Y) = .error .valueError ∨
      ∃ q A, Nd.corr (.d1 n x) K (.d2 m m Y) = .ok (.d2 n q A) ∧ q ≠ 1 := by
  simp only [Nd.corr, NKF.correct, Nd.dot_mm, bind, Except.bind, Nd.add, Nd.broadcast, Nd.rows, Nd.cols, Nd.one_bdim]
  cases hq : Nd.bdim n m with
  | none => exact .inl rfl
  | some q =>
    refine .inr ⟨q, _, rfl, ?_⟩
    rintro rfl
    unfold Nd.bdim at hq
    split_ifs at hq with h1 h2 h3
    · simp only [Option.some.injEq] at hq
      omega
    · simp only [Option.some.injEq] at hq
      omega
    · simp only [Option.some.injEq] at hq
      omega

/-- **C143: a column measurement stops an `UnscentedKalmanFilter`.**  Unless state and measurement are single numbers, `update`
raises, or succeeds and leaves a state for which the next `predict` raises `ValueError`. -/
theorem C143_ukf_column {p : SigmaPts n} {pts : Nd → Mat n n → Except Err (Mat p.num n)} (hp : PointsOf p pts)
    (s : NUKF n m p) (t : UKF n m p) (h : UKFStores s t) (v : Vec m) (R : MatArg m) (hx : Option (Vec n → Vec m))
    (hn : 0 < n) (hnm : ¬ (n = 1 ∧ m = 1)) :
    (∃ e s', s.update (some (vecAs true v)) R hx = .error (e, s')) ∨
      ∃ s', s.update (some (vecAs true v)) R hx = .ok s' ∧ ∀ dt fx, s'.predict pts dt fx = .error (.valueError, s') := by
  rcases hS : unscentedTransform (UKF.pushRows (hx.getD t.hx) t.sigmasF) p.Wm p.Wc (some (R.resolve t.R)) t.zMean none with ⟨zp, S⟩
  cases hSI : t.inv S with
  | none =>
    have hinv : s.inv S = none := by rw [← hSI, h.inv]
    left
    simp only [NUKF.update, h.hx, h.sigmasF, h.R, h.zMean, hS, hinv]
    exact ⟨_, _, rfl⟩
  | some SI =>
    have hy : Nd.sub (vecAs true v) (.d1 m zp) = .ok (.d2 m m (of fun i j => v i - zp j)) := Nd.broadcast_col_vec _ _ _
    obtain ⟨h1, h2⟩ := ukf_update_to_residual s t h _ R hx zp S hS hSI _ rfl hy
    rcases ndCorr_flat_mat t.x (UKF.crossVariance p.Wc (resFn none) (resFn none) t.x zp t.sigmasF (UKF.pushRows (hx.getD t.hx) t.sigmasF) * SI)
      (of fun i j => v i - zp j) hn hnm with he | ⟨q, A, he, hq⟩
    · obtain ⟨s', hs⟩ := h1 _ he
      exact .inl ⟨_, s', hs⟩
    · obtain ⟨s', hs, hx'⟩ := h2 _ he
      refine .inr ⟨s', hs, fun dt fx => ?_⟩
      have : pts s'.x s'.P = .error .valueError := by
        apply hp.refuses
        rw [hx']
        simp only [Nd.size]
        intro hc
        exact hq (Nat.eq_of_mul_eq_mul_left hn (by omega))
      simp only [NUKF.predict, this]

/-- **C143 is false for column measurements**: with as many sensors as state variables the call succeeds, and the state has
become a matrix. -/
theorem C143_ukf_square_refuted {p : SigmaPts n} (s : NUKF n n p) (t : UKF n n p) (h : UKFStores s t) (v : Vec n) (R : MatArg n)
    (hx : Option (Vec n → Vec n)) {SI : Mat n n} (zp : Vec n) (S : Mat n n)
    (hS : unscentedTransform (UKF.pushRows (hx.getD t.hx) t.sigmasF) p.Wm p.Wc (some (R.resolve t.R)) t.zMean none = (zp, S))
    (hSI : t.inv S = some SI) (K : Mat n n)
    (hK : K = UKF.crossVariance p.Wc (resFn none) (resFn none) t.x zp t.sigmasF (UKF.pushRows (hx.getD t.hx) t.sigmasF) * SI) :
    ∃ s', s.update (some (vecAs true v)) R hx = .ok s' ∧
      s'.x = .d2 n n (of fun i j => t.x j + (K * (of fun k j => v k - zp j : Mat n n)) i j) := by
  have hy : Nd.sub (vecAs true v) (.d1 n zp) = .ok (.d2 n n (of fun i j => v i - zp j)) := Nd.broadcast_col_vec _ _ _
  refine (ukf_update_to_residual s t h _ R hx zp S hS hSI K hK hy).2 _ ?_
  simp only [Nd.corr, NKF.correct, Nd.dot_mm, bind, Except.bind, Nd.add]
  exact Nd.broadcast_vec_mat _ _ _

/-- **C143 is false for a `1 × 1` measurement** of one sensor: the call succeeds, and the state has become an `n × n` matrix. -/
theorem C143_ukf_one_refuted {p : SigmaPts n} (s : NUKF n 1 p) (t : UKF n 1 p) (h : UKFStores s t) (a : ℝ) (R : MatArg 1)
    (hx : Option (Vec n → Vec 1)) {SI : Mat 1 1} (zp : Vec 1) (S : Mat 1 1)
    (hS : unscentedTransform (UKF.pushRows (hx.getD t.hx) t.sigmasF) p.Wm p.Wc (some (R.resolve t.R)) t.zMean none = (zp, S))
    (hSI : t.inv S = some SI) (K : Mat n 1)
    (hK : K = UKF.crossVariance p.Wc (resFn none) (resFn none) t.x zp t.sigmasF (UKF.pushRows (hx.getD t.hx) t.sigmasF) * SI) :
    ∃ s', s.update (some (.d2 1 1 (of fun _ _ => a))) R hx = .ok s' ∧
      s'.x = .d2 n n (of fun i j => t.x j + K i 0 * (a - zp 0)) := by
  have hy : Nd.sub (.d2 1 1 (of fun _ _ => a)) (.d1 1 zp) = .ok (.d2 1 1 (of fun _ j => a - zp j)) := Nd.broadcast_col_vec _ _ _
  refine (ukf_update_to_residual s t h _ R hx zp S hS hSI K hK hy).2 _ ?_
  simp only [Nd.corr, NKF.correct, Nd.dot_mm, bind, Except.bind, Nd.add]
  refine (Nd.broadcast_vec_col _ _ _).trans ?_
  simp [mul_apply]


theorem sigX_size (x : Nd) : (SigX.arr x).size = x.size := by
  cases x <;> simp [SigX.size, Nd.rows, Nd.cols, Nd.size]

/-- **C143: the sigma point classes** are as the theorems above assume: Merwe's. -/
theorem C143_points_merwe {alpha beta kappa : ℝ} {sqrt : ∀ k, Mat k k → Except Err (Mat k k)} {p : SigmaPts n}
    (hp : SigmaPts.merwe n alpha beta kappa (sqrt n) = .ok p) :
    ∃ pts, PointsOf p pts ∧
      ∀ x P, merweNd n alpha kappa sqrt (.arr x) (.arr (.d2 n n P)) = (pts x P).map fun A => ⟨p.num, A⟩ := by
  unfold SigmaPts.merwe at hp
  simp only at hp
  split_ifs at hp
  have hpe := Except.ok.inj hp
  subst hpe
  refine ⟨fun x P => symmetricNd n (alpha ^ 2 * (n + kappa) - n + n) sqrt (.arr x) (.arr (.d2 n n P)),
    ⟨fun v P => ?_, fun x P h => ?_⟩, fun x P => rfl⟩
  · dsimp only
    rw [symmetricNd_ok (.flat v) (.matrix P)]
    cases sqrt n _ <;> rfl
  · dsimp only
    rw [symmetricNd, if_pos (by rw [sigX_size]; exact Ne.symm h)]

/-- Julier's. -/
theorem C143_points_julier {kappa : ℝ} {sqrt : ∀ k, Mat k k → Except Err (Mat k k)} {p : SigmaPts n}
    (hp : SigmaPts.julier n kappa (sqrt n) = .ok p) :
    ∃ pts, PointsOf p pts ∧
      ∀ x P, julierNd n kappa sqrt (.arr x) (.arr (.d2 n n P)) = (pts x P).map fun A => ⟨p.num, A⟩ := by
  unfold SigmaPts.julier at hp
  split_ifs at hp
  have hpe := Except.ok.inj hp
  subst hpe
  refine ⟨fun x P => symmetricNd n (n + kappa) sqrt (.arr x) (.arr (.d2 n n P)),
    ⟨fun v P => ?_, fun x P h => ?_⟩, fun x P => rfl⟩
  · dsimp only
    rw [symmetricNd_ok (.flat v) (.matrix P)]
    cases sqrt n _ <;> rfl
  · dsimp only
    rw [symmetricNd, if_pos (by rw [sigX_size]; exact Ne.symm h)]

/-- The simplex points. -/
theorem C143_points_simplex {sqrt : ∀ k, Mat k k → Except Err (Mat k k)} :
    PointsOf (SigmaPts.simplex n (sqrt n)) fun x P => simplexNd n sqrt (.arr x) (.arr (.d2 n n P)) := by
  refine ⟨fun v P => ?_, fun x P h => ?_⟩
  · have h := (C131_simplex (sqrt := sqrt) (x := .arr (.d1 n v)) (v := v) (P := .arr (.d2 n n P)) (M := P)).1 (.flat v) (.matrix P)
    rw [SigmaPts.call] at h
    revert h
    show Except.map (fun A : Mat (n + 1) n => (⟨n + 1, A⟩ : (k : ℕ) × Mat k n)) _ =
      Except.map (fun A : Mat (n + 1) n => (⟨n + 1, A⟩ : (k : ℕ) × Mat k n)) _ → _
    cases simplexNd n sqrt (.arr (.d1 n v)) (.arr (.d2 n n P)) <;> cases (SigmaPts.simplex n (sqrt n)).points v P <;>
      intro h <;> cases h <;> rfl
  · rw [simplexNd, if_pos (by rw [sigX_size]; exact Ne.symm h)]
    rfl

/-- A call of `predict(dt)`, of `update(z)` with a measurement `z` that stands for the values `v`, or of `update(None)`. -/
inductive Spec.SigmaCall (m : ℕ)
  | predict (dt : Option ℝ)
  | update (z : Nd) (v : Vec m) (R : MatArg m)
  | missing

/-- The call with the arrays as given. -/
noncomputable def NUKF.call {p : SigmaPts n} (pts : Nd → Mat n n → Except Err (Mat p.num n)) (s : NUKF n m p) :
    SigmaCall m → Exec (NUKF n m p)
  | .predict dt => s.predict pts dt
  | .update z _ R => s.update (some z) R
  | .missing => s.update none

/-- The call with the values. -/
noncomputable def UKF.call {p : SigmaPts n} (t : UKF n m p) : SigmaCall m → Exec (UKF n m p)
  | .predict dt => t.predict dt
  | .update _ v R => t.update (some v) R
  | .missing => t.update none

/-- The measurement of the call fits. -/
def Spec.SigmaCall.Fits (col : Bool) : SigmaCall m → Prop
  | .update z v _ => Accepted col v z
  | _ => True

/-- **C143, runs of an `UnscentedKalmanFilter`.**  Through any sequence of calls with fitting measurements the filter computes
what the mathematical filter computes, up to the same exception if there is one. -/
theorem C143_ukf_run {p : SigmaPts n} {pts : Nd → Mat n n → Except Err (Mat p.num n)} (hp : PointsOf p pts)
    (s : NUKF n m p) (t : UKF n m p) (h : UKFStores s t) (cs : List (SigmaCall m)) (hc : ∀ c ∈ cs, c.Fits false) :
    Agree UKFStores (runList (NUKF.call pts) s cs) (runList UKF.call t cs) := by
  refine runList_agree cs (fun s t c hm h => ?_) s t h
  cases c with
  | predict dt => exact C143_ukf_predict hp s t h dt none
  | update z v R => exact C143_ukf_update_partial s t h z v (hc _ hm) R none
  | missing => exact C143_ukf_none s t h .none none

/-! ## `CubatureKalmanFilter` -/

theorem fillRows_ok {f : ℕ → Except Err (Vec n)} {g : ℕ → Vec n} (k : ℕ) (h : ∀ i < k, f i = .ok (g i)) :
    ∃ s, fillRows f k = .ok s ∧ ∀ i < k, s i = g i := by
  induction k with
  | zero => exact ⟨_, rfl, by simp⟩
  | succ k ih =>
    obtain ⟨s, hs, hg⟩ := ih fun i hi => h i (by omega)
    refine ⟨Function.update s k (g k), ?_, fun i hi => ?_⟩
    · simp [fillRows, hs, h k (by omega)]
    · rcases Nat.lt_succ_iff_lt_or_eq.1 hi with hi | rfl
      · rw [Function.update_of_ne (by omega), hg i hi]
      · simp

theorem fillRows_err {f : ℕ → Except Err (Vec n)} {e : Err} (k : ℕ) (h : ∀ i < k, f i = .error e) (hk : 0 < k) :
    fillRows f k = .error e := by
  induction k with
  | zero => omega
  | succ k ih =>
    rcases Nat.eq_zero_or_pos k with rfl | h0
    · simp [fillRows, h 0 (by omega)]
    · simp [fillRows, ih (fun i hi => h i (by omega)) h0]

theorem assignRow_flat (w : Vec n) : assignRow n (.d1 n w) = .ok w := by
  unfold assignRow
  rw [if_pos ⟨rfl, .inl rfl⟩]
  congr 1
  ext j
  by_cases h : n = 1
  · subst h
    simp [Nd.cols, Nd.bidx, Nd.get, Subsingleton.elim j 0]
  · simp [Nd.cols, Nd.bidx, Nd.get, h]

theorem Spec.HasEntries.flatten {x : Nd} {v : Vec n} (h : HasEntries x v) : Nd.d1 x.size (fun j => x.flat j) = .d1 n v := by
  obtain ⟨hs, hv⟩ := h
  subst hs
  congr 1
  ext j
  exact hv j

theorem hasEntries_flat (v : Vec n) : HasEntries (.d1 n v) v := ⟨rfl, fun i => by simp [Nd.flat, Nd.get]⟩

theorem hasEntries_column (v : Vec n) : HasEntries (vecAs true v) v :=
  ⟨by simp [vecAs, Nd.size], fun i => by simp [vecAs, Nd.flat, Nd.get, Nat.mod_one]⟩

theorem ndAdd_flat (v w : Vec n) : Nd.add (.d1 n v) (.d1 n w) = .ok (.d1 n (v + w)) := add_vecAs false v w

theorem cubaturePoints_entries (chol : Mat n n → Except Err (Mat n n)) {x : Nd} {v : Vec n} (h : HasEntries x v) (P : Mat n n) :
    cubaturePoints chol x P = sphericalRadialSigmas chol v P := by
  unfold cubaturePoints sphericalRadialSigmas
  cases chol P with
  | error e => rfl
  | ok C =>
    dsimp only
    generalize Real.sqrt n • C = U
    obtain ⟨s, hs, hg⟩ := fillRows_ok (f := cubatureRow x U)
      (g := fun i => if h : i < n then v + U ⟨i, h⟩ else if h : i - n < n then v - U ⟨i - n, h⟩ else 0) (2 * n) (by
        intro i hi
        unfold cubatureRow
        by_cases hin : i < n
        · rw [dif_pos hin, h.flatten, ndAdd_flat]
          simp [assignRow_flat, hin]
        · have hin' : i - n < n := by omega
          rw [dif_neg hin, dif_pos hin', h.flatten, ndSub_flat]
          simp [assignRow_flat, hin, hin'])
    rw [hs]
    simp only [Except.ok.injEq]
    funext i
    simp only [rows]
    rw [hg i i.2]
    by_cases hin : (i : ℕ) < n
    · simp [hin]
    · have hin' : (i : ℕ) - n < n := by omega
      simp [hin, hin']

theorem deviations_entries {x : Nd} {v : Vec n} (h : HasEntries x v) (sf : Mat (2 * n) n) :
    NCKF.deviations x sf = .ok (rows fun i => sf i - v) := by
  unfold NCKF.deviations
  rw [if_pos (.inl h.1)]
  congr 1
  funext i j
  simp only [rows, Pi.sub_apply]
  congr 1
  rw [h.1, ← h.2 j]
  by_cases hn : n = 1
  · subst hn
    simp [Nd.bidx]
  · simp [Nd.bidx, hn]

/-- **C143, a new `CubatureKalmanFilter`** has a 1-D state. -/
theorem C143_ckf_fresh (n m : ℕ) (dt : ℝ) (hx : Vec n → Vec m) (fx : Vec n → ℝ → Vec n) :
    CKFStores false (NCKF.fresh n m dt hx fx) (CKF.fresh n m dt hx fx) := by
  have hz : ZAs true none fun _ : Fin m => (none : Option ℝ) := .inl ⟨rfl, fun _ => rfl⟩
  constructor <;> first | rfl | exact hz | exact hasEntries_flat _ | exact fun h => by cases h

/-- **C143, `CubatureKalmanFilter.predict`.**  Whatever the shape of the state, `predict` computes what the mathematical filter
computes from its entries and leaves a column, or raises the same exception and changes nothing. -/
theorem C143_ckf_predict (col : Bool) (chol : Mat n n → Except Err (Mat n n)) (s : NCKF n m) (t : CKF n m)
    (h : CKFStores col s t) (dt : Option ℝ) :
    (∃ e, s.predict chol dt = .error (e, s) ∧ t.predict chol dt = .error (e, t)) ∨
      ∃ s' t', s.predict chol dt = .ok s' ∧ t.predict chol dt = .ok t' ∧ CKFStores true s' t' := by
  simp only [NCKF.predict, CKF.predict, cubaturePoints_entries chol h.x, h.P, h.dt, h.fx, h.Q]
  cases sphericalRadialSigmas chol t.x t.P with
  | error e => exact .inl ⟨e, rfl, rfl⟩
  | ok sigmas =>
    dsimp only
    generalize ckfTransform _ _ = xP
    refine .inr ⟨_, _, rfl, rfl, ?_⟩
    obtain ⟨⟩ := s
    obtain ⟨hx, hc, rfl, rfl, rfl, rfl, rfl, rfl, rfl, rfl, hz, rfl, hy, rfl, rfl, hp, rfl, ho, rfl, rfl, rfl, rfl, hr⟩ := h
    have hcol : NCKF.column xP.1 = vecAs true xP.1 := rfl
    have he := hasEntries_column xP.1
    constructor <;> first | rfl | assumption | exact fun _ => hcol

/-- **C143, `CubatureKalmanFilter.update`** of a column state computes what the mathematical filter computes for every measurement
that fits: a column of `dim_z` values, or one number for all sensors. -/
theorem C143_ckf_update_partial (s : NCKF n m) (t : CKF n m) (h : CKFStores true s t) (z : Nd) (v : Vec m)
    (hv : Accepted true v z) (R : MatArg m) :
    Agree (CKFStores true) (s.update (some z) R) (t.update (some (.col v)) R) := by
  obtain ⟨⟩ := s
  obtain ⟨hx, hc, rfl, rfl, rfl, rfl, rfl, rfl, rfl, rfl, hz, rfl, hy, rfl, rfl, hp, rfl, ho, rfl, rfl, rfl, rfl, hr⟩ := h
  have hx' := hc rfl
  dsimp only at hx'
  subst hx'
  have hz2 : ZAs true (some z) fun i => some (v i) := .inr ⟨z, v, rfl, hv, fun _ => rfl⟩
  simp only [NCKF.update, CKF.update, hr]
  generalize ckfTransform _ _ = zpS
  cases npInv zpS.2 with
  | none => exact ⟨rfl, by constructor <;> first | rfl | assumption⟩
  | some SI =>
    simp only [deviations_entries hx]
    have h1 : Nd.sub z (NCKF.column zpS.1) = .ok (vecAs true (v - zpS.1)) := sub_fits true hv zpS.1
    simp only [h1, corr_vecAs, Option.getD_none]
    have he := fun w : Vec n => hasEntries_column w
    show CKFStores _ _ _
    constructor <;> first | rfl | assumption | exact he _ | exact fun _ => rfl

/-- **C143, `CubatureKalmanFilter.update(None)`**, likewise, for any shape of the state. -/
theorem C143_ckf_none (col : Bool) (s : NCKF n m) (t : CKF n m) (h : CKFStores col s t) (R : MatArg m) :
    Agree (CKFStores col) (s.update none R) (t.update none R) := by
  obtain ⟨⟩ := s
  obtain ⟨hx, hc, rfl, rfl, rfl, rfl, rfl, rfl, rfl, rfl, hz, rfl, hy, rfl, rfl, hp, rfl, ho, rfl, rfl, rfl, rfl, hr⟩ := h
  have hz2 : ZAs true none fun _ : Fin m => (none : Option ℝ) := .inl ⟨rfl, fun _ => rfl⟩
  show CKFStores _ _ _
  constructor <;> first | rfl | assumption

/-- **C143: exactly the fitting measurements** keep the state of a `CubatureKalmanFilter` a column. -/
theorem C143_ckf_exactly (s s' : NCKF n m) (t : CKF n m) (h : CKFStores true s t) (z : Nd) (R : MatArg m)
    (hok : s.update (some z) R = .ok s') (x' : Vec n) (hx' : s'.x = vecAs true x') : ∃ v : Vec m, Accepted true v z := by
  simp only [NCKF.update, h.column rfl, deviations_entries (hasEntries_column t.x)] at hok
  generalize ckfTransform _ _ = zpS at hok
  generalize npInv zpS.2 = q at hok
  cases q with
  | none => simp at hok
  | some SI =>
    dsimp only at hok
    cases hy : Nd.sub z (NCKF.column zpS.1) with
    | error e => simp [hy] at hok
    | ok y =>
      simp only [hy] at hok
      generalize outerSum _ _ = C at hok
      cases hc : Nd.corr (vecAs true t.x) ((((1 : ℝ) / (2 * n : ℕ)) • C) * SI) y with
      | error e =>
        simp only [hc] at hok
        cases hok
      | ok x =>
        simp only [hc, Except.ok.injEq] at hok
        subst hok
        simp only at hx'
        subst hx'
        exact fits_of_sub true t.x x' zpS.1 _ hy hc

/-- What `update` has computed when it comes to the residual. -/
theorem ckf_update_to_residual (col : Bool) (s : NCKF n m) (t : CKF n m) (h : CKFStores col s t) (z : Nd) (R : MatArg m)
    {SI : Mat m m} (zp : Vec m) (S : Mat m m)
    (hS : ckfTransform (rows fun k => t.hx (t.sigmasF k)) (R.resolve t.R) = (zp, S)) (hSI : npInv S = some SI) (K : Mat n m)
    (hK : K = (((1 : ℝ) / (2 * n : ℕ)) • outerSum (rows fun k => t.sigmasF k - t.x)
      (rows fun k => t.hx (t.sigmasF k) - zp)) * SI) {y : Nd} (hy : Nd.sub z (vecAs true zp) = .ok y) :
    ∀ x, Nd.corr s.x K y = .ok x → ∃ s', s.update (some z) R = .ok s' ∧ s'.x = x := by
  subst hK
  intro x he
  have hy' : Nd.sub z (NCKF.column zp) = .ok y := hy
  simp only [NCKF.update, deviations_entries h.x, h.hx, h.sigmasF, h.R, hS, hSI, hy']
  have he' : Nd.corr s.x ((((1 : ℝ) / (2 * n : ℕ)) • outerSum (rows fun k => t.sigmasF k - t.x)
      (rows fun k => rows (fun k => t.hx (t.sigmasF k)) k - zp)) * SI) y = .ok x := he
  rw [he']
  exact ⟨_, rfl, rfl⟩

theorem broadcastRow_err (f : ℝ → ℝ → ℝ) {k : ℕ} (hk : k ≠ n) (h1 : k ≠ 1) (v : Vec k) (w : Vec n) :
    (match Nd.broadcast f (.d1 k v) (.d1 n w) with
      | .error e => .error e
      | .ok r => assignRow n r : Except Err (Vec n)) = .error .valueError := by
  simp only [Nd.broadcast, Nd.rows, Nd.cols, Nd.bdim_self]
  by_cases hn : n = 1
  · subst hn
    simp [Nd.bdim_one, Nd.ndim, Nd.shape, assignRow, Nd.rows, Nd.cols, h1]
  · have : Nd.bdim k n = none := by simp [Nd.bdim, hk, h1, hn]
    rw [this]

theorem cubaturePoints_size {chol : Mat n n → Except Err (Mat n n)} {C : Mat n n} {x : Nd} {P : Mat n n} (hn : 0 < n)
    (hk : x.size ≠ n) (h1 : x.size ≠ 1) (hC : chol P = .ok C) : cubaturePoints chol x P = .error .valueError := by
  simp only [cubaturePoints, hC]
  rw [fillRows_err (e := .valueError) (2 * n) _ (by omega)]
  intro i hi
  unfold cubatureRow
  by_cases hin : i < n
  · rw [dif_pos hin]
    exact broadcastRow_err _ hk h1 _ _
  · have hin' : i - n < n := by omega
    rw [dif_neg hin, dif_pos hin']
    exact broadcastRow_err _ hk h1 _ _

/-- **C143 is false for 1-D measurements of a `CubatureKalmanFilter`**: the call succeeds, the state has become an `n × m` matrix,
and with two or more sensors the next `predict` raises `ValueError`. -/
theorem C143_ckf_flat_refuted (s : NCKF n m) (t : CKF n m) (h : CKFStores true s t) (v : Vec m) (R : MatArg m)
    {SI : Mat m m} (zp : Vec m) (S : Mat m m)
    (hS : ckfTransform (rows fun k => t.hx (t.sigmasF k)) (R.resolve t.R) = (zp, S)) (hSI : npInv S = some SI) (K : Mat n m)
    (hK : K = (((1 : ℝ) / (2 * n : ℕ)) • outerSum (rows fun k => t.sigmasF k - t.x)
      (rows fun k => t.hx (t.sigmasF k) - zp)) * SI) :
    ∃ s', s.update (some (.d1 m v)) R = .ok s' ∧
      s'.x = .d2 n m (of fun i j => t.x i + (K * (of fun k j => v j - zp k : Mat m m)) i j) ∧
      (0 < n → 1 < m → ∀ chol C dt, chol s'.P = .ok C → s'.predict chol dt = .error (.valueError, s')) := by
  have hy : Nd.sub (.d1 m v) (vecAs true zp) = .ok (.d2 m m (of fun i j => v j - zp i)) := Nd.broadcast_vec_col _ _ _
  obtain ⟨s', hs, hx⟩ := ckf_update_to_residual true s t h _ R zp S hS hSI K hK hy
    (.d2 n m (of fun i j => t.x i + (K * (of fun k j => v j - zp k : Mat m m)) i j)) (by
      rw [h.column rfl]
      exact corr_mixed _ _ _)
  refine ⟨s', hs, hx, fun hn hm chol C dt hC => ?_⟩
  have h2 : n * 2 ≤ n * m := Nat.mul_le_mul_left n hm
  have : cubaturePoints chol s'.x s'.P = .error .valueError := by
    refine cubaturePoints_size hn ?_ ?_ hC <;> (rw [hx]; simp only [Nd.size]; omega)
  simp only [NCKF.predict, this]

/-- **C143 is false for `update` before the first `predict` of a `CubatureKalmanFilter`**, and whenever the caller has assigned a
1-D state: the call succeeds, the state has become an `n × n` matrix, and the next `predict` raises `ValueError`. -/
theorem C143_ckf_start_refuted (s : NCKF n m) (t : CKF n m) (h : CKFStores false s t) (hx : s.x = .d1 n t.x) (v : Vec m)
    (R : MatArg m) {SI : Mat m m} (zp : Vec m) (S : Mat m m)
    (hS : ckfTransform (rows fun k => t.hx (t.sigmasF k)) (R.resolve t.R) = (zp, S)) (hSI : npInv S = some SI) (K : Mat n m)
    (hK : K = (((1 : ℝ) / (2 * n : ℕ)) • outerSum (rows fun k => t.sigmasF k - t.x)
      (rows fun k => t.hx (t.sigmasF k) - zp)) * SI) :
    ∃ s', s.update (some (vecAs true v)) R = .ok s' ∧
      s'.x = .d2 n n (of fun i j => t.x j + (K *ᵥ (v - zp)) i) ∧
      (1 < n → ∀ chol C dt, chol s'.P = .ok C → s'.predict chol dt = .error (.valueError, s')) := by
  have hy : Nd.sub (vecAs true v) (vecAs true zp) = .ok (vecAs true (v - zp)) := sub_vecAs true v zp
  obtain ⟨s', hs, hx'⟩ := ckf_update_to_residual false s t h _ R zp S hS hSI K hK hy
    (.d2 n n (of fun i j => t.x j + (K *ᵥ (v - zp)) i)) (by
      rw [hx]
      simp only [Nd.corr, NKF.correct, dot_vecAs, bind, Except.bind, Nd.add]
      exact Nd.broadcast_vec_col _ _ _)
  refine ⟨s', hs, hx', fun hn chol C dt hC => ?_⟩
  have h2 : n * 2 ≤ n * n := Nat.mul_le_mul_left n hn
  have : cubaturePoints chol s'.x s'.P = .error .valueError := by
    refine cubaturePoints_size (by omega) ?_ ?_ hC <;> (rw [hx']; simp only [Nd.size]; omega)
  simp only [NCKF.predict, this]

/-- The call with the arrays as given. -/
noncomputable def NCKF.call (chol : Mat n n → Except Err (Mat n n)) (s : NCKF n m) : SigmaCall m → Exec (NCKF n m)
  | .predict dt => s.predict chol dt
  | .update z _ R => s.update (some z) R
  | .missing => s.update none

/-- The call with the values. -/
noncomputable def CKF.call (chol : Mat n n → Except Err (Mat n n)) (t : CKF n m) : SigmaCall m → Exec (CKF n m)
  | .predict dt => t.predict chol dt
  | .update _ v R => t.update (some (.col v)) R
  | .missing => t.update none

/-- **C143, runs of a `CubatureKalmanFilter`.**  After a first `predict` of a new filter, and of any filter whose state has the
right number of entries, the filter computes what the mathematical filter computes through any sequence of calls with fitting
measurements. -/
theorem C143_ckf_run (col : Bool) (chol : Mat n n → Except Err (Mat n n)) (s : NCKF n m) (t : CKF n m)
    (h : CKFStores col s t) (dt : Option ℝ) (cs : List (SigmaCall m)) (hc : ∀ c ∈ cs, c.Fits true) :
    Agree (CKFStores false) (runList (NCKF.call chol) s (.predict dt :: cs)) (runList (CKF.call chol) t (.predict dt :: cs)) := by
  have weak : ∀ (s : NCKF n m) (t : CKF n m), CKFStores true s t → CKFStores false s t := fun s t h =>
    ⟨h.x, (fun hf => by cases hf), h.P, h.Q, h.R, h.dt, h.hx, h.fx, h.sigmasF, h.sigmasH, h.z, h.K, h.y, h.S, h.SI, h.xPrior,
      h.PPrior, h.xPost, h.PPost, h.logLik, h.lik, h.mahal, h.residualZ⟩
  simp only [runList, NCKF.call, CKF.call]
  rcases C143_ckf_predict col chol s t h dt with ⟨e, h1, h2⟩ | ⟨s', t', h1, h2, h'⟩
  · rw [h1, h2]
    refine ⟨rfl, ?_⟩
    cases col with
    | false => exact h
    | true => exact weak s t h
  · rw [h1, h2]
    refine Agree.mono weak ?_
    refine runList_agree cs (fun s t c hm h => ?_) s' t' h'
    cases c with
    | predict dt =>
      rcases C143_ckf_predict true chol s t h dt with ⟨e, h1, h2⟩ | ⟨s', t', h1, h2, h'⟩
      · simp only [NCKF.call, CKF.call, h1, h2]
        exact ⟨rfl, h⟩
      · simp only [NCKF.call, CKF.call, h1, h2]
        exact h'
    | update z v R => exact C143_ckf_update_partial s t h z v (hc _ hm) R
    | missing => exact C143_ckf_none true s t h .none

/-! ## `EnsembleKalmanFilter` -/

theorem measureRows_flat (hx : Vec n → Vec m) (sigmas : Mat N n) :
    NEnKF.measureRows m hx sigmas = .ok (rows fun i => hx (sigmas i)) := by
  unfold NEnKF.measureRows
  obtain ⟨s, hs, hg⟩ := fillRows_ok
    (f := fun i => if h : i < N then assignRow m (.d1 m (hx (sigmas ⟨i, h⟩))) else .error .indexError)
    (g := fun i => if h : i < N then hx (sigmas ⟨i, h⟩) else 0) N (by
      intro i hi
      simp [hi, assignRow_flat])
  rw [hs]
  simp only [Except.ok.injEq]
  funext i
  simp only [rows]
  rw [hg i i.2]
  simp

theorem moveRow_flat (K : Mat n m) (z e h : Vec m) (row : Vec n) :
    NEnKF.moveRow (.d2 n m K) (.d1 m z) e h row = .ok (row + K *ᵥ (z + e - h)) := by
  unfold NEnKF.moveRow
  simp only [ndAdd_flat, ndSub_flat, Nd.dot_mv]
  have : Nd.addInto (.d1 n row) (.d1 n (K *ᵥ (z + e - h))) = .ok (.d1 n (row + K *ᵥ (z + e - h))) := Nd.addInto_vecAs false _ _
  rw [this]
  simp only [Except.ok.injEq]
  funext j
  simp [Nd.get]

theorem moveRows_flat (K : Mat n m) (z : Vec m) (e h : Mat N m) (l : List (Fin N)) (hl : l.Nodup) (A : Mat N n) :
    NEnKF.moveRows (.d2 n m K) (.d1 m z) e h l A =
      .ok (rows fun i => if i ∈ l then A i + K *ᵥ (z + e i - h i) else A i) := by
  induction l generalizing A with
  | nil =>
    simp only [NEnKF.moveRows, List.not_mem_nil, if_false]
    rfl
  | cons a l ih =>
    have ⟨h1, h2⟩ := List.nodup_cons.1 hl
    simp only [NEnKF.moveRows, moveRow_flat]
    rw [ih h2]
    simp only [Except.ok.injEq]
    funext i
    simp only [rows]
    by_cases hia : i = a
    · subst hia
      simp [h1]
    · simp [hia]

theorem inv_mat (A : Mat n n) : Nd.inv (.d2 n n A) = match npInv A with
    | some B => .ok (.d2 n n B)
    | none => .error .linAlgError := by
  simp only [Nd.inv, dif_pos]
  cases npInv A <;> rfl

theorem reduceP_mat (P : Mat n n) (K : Mat n m) (S : Mat m m) :
    NEnKF.reduceP P (.d2 n m K) (.d2 m m S) = .ok (.d2 n n (P - K * S * Kᵀ)) := by
  simp only [NEnKF.reduceP, Nd.dot_mm, Nd.T, bind, Except.bind, Nd.sub, Nd.broadcast_d2]
  rfl

/-- **C143, `EnsembleKalmanFilter.update`** of a 1-D array of `dim_z` values computes what the mathematical filter computes, or
raises the same exception. -/
theorem C143_enkf_update_partial (s : NEnKF n m N) (t : EnKF n m N) (h : EnKFStores s t) (v : Vec m) (R : MatArg m)
    (e : Mat N m) : Agree EnKFStores (s.update (some (.d1 m v)) R e) (t.update (some v) R e) := by
  obtain ⟨⟩ := s
  obtain ⟨rfl, rfl, rfl, rfl, rfl, rfl, rfl, rfl, hz, rfl, rfl, rfl, rfl, rfl, rfl, rfl, hi⟩ := h
  have hz2 : ZFlat (some (.d1 m v)) fun i => some (v i) := .inr ⟨v, rfl, fun _ => rfl⟩
  simp only [NEnKF.update, EnKF.update, NEnKF.lenZ, measureRows_flat, ndAdd_mat, inv_mat, hi]
  by_cases hN : N = 1
  · simp only [hN, if_true]
    exact ⟨rfl, by fields⟩
  · simp only [hN, if_false]
    generalize npInv _ = q
    cases q with
    | none => exact ⟨rfl, by fields⟩
    | some SI =>
      simp only [Nd.dot_mm, moveRows_flat _ _ _ _ _ (List.nodup_finRange N), reduceP_mat, List.mem_finRange, if_true]
      have hg : ∀ A : Mat n n, (of fun i j => (Nd.d2 n n A).get i j : Mat n n) = A := by
        intro A
        ext i j
        simp [Nd.get]
      simp only [hg]
      show EnKFStores _ _
      fields

/-- **C143 is false for numbers in an `EnsembleKalmanFilter`**: even with one sensor a number raises `TypeError`. -/
theorem C143_enkf_number_refuted (s : NEnKF n m N) (a : ℝ) (R : MatArg m) (e : Mat N m) :
    s.update (some (.d0 a)) R e = .error (.typeError, s) := rfl

/-- **C143, `EnsembleKalmanFilter.update(None)`**, likewise. -/
theorem C143_enkf_none (s : NEnKF n m N) (t : EnKF n m N) (h : EnKFStores s t) (R : MatArg m)
    (e : Mat N m) : Agree EnKFStores (s.update none R e) (t.update none R e) := by
  obtain ⟨⟩ := s
  obtain ⟨rfl, rfl, rfl, rfl, rfl, rfl, rfl, rfl, hz, rfl, rfl, rfl, rfl, rfl, rfl, rfl, hi⟩ := h
  have hz2 : ZFlat none fun _ : Fin m => (none : Option ℝ) := .inl ⟨rfl, fun _ => rfl⟩
  show EnKFStores _ _
  fields

theorem fillRows_inv {f : ℕ → Except Err (Vec n)} {k : ℕ} {s : ℕ → Vec n} (h : fillRows f k = .ok s) : ∀ i < k, f i = .ok (s i) := by
  induction k generalizing s with
  | zero => simp
  | succ k ih =>
    simp only [fillRows] at h
    cases hs : fillRows f k with
    | error e => simp [hs] at h
    | ok s' =>
      simp only [hs] at h
      cases hf : f k with
      | error e => simp [hf] at h
      | ok r =>
        simp only [hf, Except.ok.injEq] at h
        subst h
        intro i hi
        rcases Nat.lt_succ_iff_lt_or_eq.1 hi with hi | rfl
        · rw [Function.update_of_ne (by omega), ih hs i hi]
        · simp [hf]

theorem measureRows_inv {k : ℕ} {hx : Vec n → Vec m} {sigmas : Mat N n} {B : Mat N k}
    (h : NEnKF.measureRows k hx sigmas = .ok B) (i : Fin N) : assignRow k (.d1 m (hx (sigmas i))) = .ok (B i) := by
  unfold NEnKF.measureRows at h
  generalize hs : fillRows _ N = q at h
  cases q with
  | error e => simp at h
  | ok s =>
    simp only [Except.ok.injEq] at h
    subst h
    have := fillRows_inv hs i i.2
    simp only [i.2, dif_pos] at this
    exact this

theorem moveRow_two {a b k : ℕ} (A : Mat n a) (Z : Mat k b) (e : Vec m) (h : Vec k) (row : Vec n) :
    ∃ er, NEnKF.moveRow (.d2 n a A) (.d2 k b Z) e h row = .error er := by
  unfold NEnKF.moveRow
  cases h1 : Nd.add (.d2 k b Z) (.d1 m e) with
  | error er => exact ⟨_, rfl⟩
  | ok c =>
    dsimp only
    cases h2 : Nd.sub c (.d1 k h) with
    | error er => exact ⟨_, rfl⟩
    | ok d =>
      dsimp only
      have n1 := (broadcast_shape _ h1).2.2
      have n2 := (broadcast_shape _ h2).2.2
      have hd : d.ndim = 2 := by
        rw [n2, n1]
        rfl
      cases d with
      | d0 a => simp [Nd.ndim, Nd.shape] at hd
      | d1 a v => simp [Nd.ndim, Nd.shape] at hd
      | d2 p q D =>
        by_cases hp : p = a
        · subst hp
          rw [Nd.dot_mm]
          dsimp only
          unfold Nd.addInto
          cases h3 : Nd.add (.d1 n row) (.d2 n q (A * D)) with
          | error er => exact ⟨_, rfl⟩
          | ok r =>
            have n3 := (broadcast_shape _ h3).2.2
            dsimp only
            rw [if_neg]
            · exact ⟨_, rfl⟩
            · intro hc
              have : r.ndim = 1 := by rw [Nd.ndim, hc]; rfl
              rw [this] at n3
              simp [Nd.ndim, Nd.shape] at n3
        · rw [Nd.dot_mm_ne hp]
          exact ⟨_, rfl⟩

theorem npInv_const {k : ℕ} (hk : 1 < k) {A : Mat k k} {c : ℝ} (h : ∀ i j, A i j = c) : npInv A = none := by
  have : A.det = 0 := Matrix.det_zero_of_row_eq (i := ⟨0, by omega⟩) (j := ⟨1, hk⟩) (by simp) (by
    funext j
    rw [h, h])
  simp [npInv, this]

theorem inv_ok {S SI : Nd} (h : Nd.inv S = .ok SI) : ∃ a B, SI = .d2 a a B := by
  cases S with
  | d0 a => simp [Nd.inv] at h
  | d1 a w => simp [Nd.inv] at h
  | d2 a c w =>
    by_cases hac : c = a
    · subst hac
      rw [inv_mat] at h
      cases hq : npInv w with
      | none => simp [hq] at h
      | some B =>
        simp only [hq, Except.ok.injEq] at h
        exact ⟨_, _, h.symm⟩
    · simp [Nd.inv, hac] at h

theorem ndAdd_mat_one {k : ℕ} (A : Mat k k) (r : Mat 1 1) :
    Nd.add (.d2 k k A) (.d2 1 1 r) = .ok (.d2 k k (of fun i j => A i j + r 0 0)) := by
  simp only [Nd.add, Nd.broadcast, Nd.rows, Nd.cols, Nd.bdim_one, Nd.ndim, Nd.shape, List.length_cons, List.length_nil, max_self]
  congr 2
  ext i j
  by_cases hk : k = 1
  · subst hk
    simp [Nd.bidx, Nd.get, Subsingleton.elim i 0, Subsingleton.elim j 0]
  · simp [Nd.bidx, Nd.get, hk]

/-- **C143: an `EnsembleKalmanFilter` accepts exactly the 1-D arrays of `dim_z` values**, except that with one sensor it also
accepts an empty array. -/
theorem C143_enkf_exactly (hN : 0 < N) (s s' : NEnKF n m N) (z : Nd) (R : MatArg m) (e : Mat N m)
    (hok : s.update (some z) R e = .ok s') : (∃ v : Vec m, z = .d1 m v) ∨ m = 1 ∧ ∃ v : Vec 0, z = .d1 0 v := by
  simp only [NEnKF.update] at hok
  cases hl : NEnKF.lenZ z with
  | error er => simp [hl] at hok
  | ok k =>
    simp only [hl] at hok
    cases hm : NEnKF.measureRows k s.hx s.sigmas with
    | error er => simp [hm] at hok
    | ok B =>
      simp only [hm] at hok
      by_cases hN1 : N = 1
      · simp [hN1] at hok
      simp only [hN1, if_false] at hok
      have hrow := measureRows_inv hm
      have hkm : m = k ∨ m = 1 := by
        have h0 := hrow ⟨0, hN⟩
        unfold assignRow at h0
        split_ifs at h0 with hc
        exact hc.2
      generalize hS : Nd.add (.d2 k k _) (.d2 m m _) = q at hok
      cases q with
      | error er => simp at hok
      | ok S =>
        dsimp only at hok
        cases hSI : Nd.inv S with
        | error er => simp [hSI] at hok
        | ok SI =>
          simp only [hSI] at hok
          cases hK : Nd.dot (.d2 n k (((1 : ℝ) / ((N : ℝ) - 1)) • outerSum (rows fun i => s.sigmas i - s.x)
              (rows fun i => B i - meanRows B))) SI with
          | error er =>
            simp only [hK] at hok
            cases hok
          | ok K =>
            simp only [hK] at hok
            cases z with
            | d0 a => simp [NEnKF.lenZ] at hl
            | d1 k' v =>
              simp only [NEnKF.lenZ, Except.ok.injEq] at hl
              subst hl
              by_cases h1 : m = k'
              · subst h1
                exact .inl ⟨v, rfl⟩
              · obtain rfl : m = 1 := hkm.resolve_left h1
                by_cases h0 : k' = 0
                · subst h0
                  exact .inr ⟨rfl, v, rfl⟩
                · exfalso
                  rw [ndAdd_mat_one] at hS
                  injection hS with hS
                  subst hS
                  have hc : ∀ i (a b : Fin k'), B i a = B i b := by
                    intro i a b
                    have h2 := hrow i
                    unfold assignRow at h2
                    split_ifs at h2
                    rw [← Except.ok.inj h2]
                    simp [Nd.bidx, Nd.cols]
                  have hm : ∀ (a b : Fin k'), meanRows B a = meanRows B b := by
                    intro a b
                    simp only [meanRows, hc _ a b]
                  rw [inv_mat, npInv_const (c := ((1 : ℝ) / ((N : ℝ) - 1)) * (outerSum (rows fun i => B i - meanRows B)
                    (rows fun i => B i - meanRows B)) ⟨0, by omega⟩ ⟨0, by omega⟩ + R.resolve s.R 0 0) (by omega)] at hSI
                  · cases hSI
                  · intro i j
                    simp only [of_apply, Matrix.smul_apply, smul_eq_mul, outerSum, Helpers.einsumOuter, rows, Pi.sub_apply]
                    congr 2
                    refine Finset.sum_congr rfl fun l _ => ?_
                    rw [hc l i ⟨0, by omega⟩, hc l j ⟨0, by omega⟩, hm i ⟨0, by omega⟩, hm j ⟨0, by omega⟩]
            | d2 k' b Z =>
              exfalso
              simp only [NEnKF.lenZ, Except.ok.injEq] at hl
              subst hl
              obtain ⟨a, A, rfl⟩ : ∃ a A, K = .d2 n a A := by
                obtain ⟨a, D, rfl⟩ := inv_ok hSI
                by_cases hk : a = k'
                · subst hk
                  rw [Nd.dot_mm] at hK
                  injection hK with hK
                  exact ⟨_, _, hK.symm⟩
                · rw [Nd.dot_mm_ne hk] at hK
                  cases hK
              obtain ⟨i, l, hil⟩ : ∃ i l, List.finRange N = i :: l := by
                cases hf : List.finRange N with
                | nil =>
                  have := congrArg List.length hf
                  simp at this
                  omega
                | cons i l => exact ⟨i, l, rfl⟩
              obtain ⟨er, her⟩ := moveRow_two A Z (e i) (B i) (s.sigmas i)
              simp only [hil, NEnKF.moveRows, her] at hok
              cases hok

/-- **C143 is false for column measurements of an `EnsembleKalmanFilter`**: `update` always raises. -/
theorem C143_enkf_column_refuted (hN : 0 < N) (s : NEnKF n m N) (v : Vec m) (R : MatArg m) (e : Mat N m) :
    ∃ er s', s.update (some (vecAs true v)) R e = .error (er, s') := by
  cases h : s.update (some (vecAs true v)) R e with
  | error er => exact ⟨er.1, er.2, rfl⟩
  | ok s' =>
    rcases C143_enkf_exactly hN s s' _ R e h with ⟨w, hw⟩ | ⟨-, w, hw⟩ <;> simp [vecAs] at hw

/-- **C143 is false for empty measurements of an `EnsembleKalmanFilter` with one sensor**: an empty array is accepted as a
measurement, stored in `z`, and changes neither the ensemble nor `P`; only `x` becomes the mean of the ensemble. -/
theorem C143_enkf_empty_refuted (hN : 1 < N) (s : NEnKF n 1 N) (v : Vec 0) (R : MatArg 1) (e : Mat N 1) :
    ∃ s', s.update (some (.d1 0 v)) R e = .ok s' ∧ s'.sigmas = s.sigmas ∧ s'.P = s.P ∧ s'.x = meanRows s.sigmas ∧
      s'.z = some (.d1 0 v) := by
  obtain ⟨B, hB⟩ : ∃ B : Mat N 0, NEnKF.measureRows 0 s.hx s.sigmas = .ok B := by
    unfold NEnKF.measureRows
    obtain ⟨g, hg, -⟩ := fillRows_ok (n := 0)
      (f := fun i => if h : i < N then assignRow 0 (.d1 1 (s.hx (s.sigmas ⟨i, h⟩))) else .error .indexError)
      (g := fun _ => 0) N (by
        intro i hi
        simp only [hi, dif_pos, assignRow, Nd.rows, Nd.cols]
        simp
        exact Subsingleton.elim _ _)
    rw [hg]
    exact ⟨_, rfl⟩
  have hinv : ∀ A : Mat 0 0, npInv A = some A⁻¹ := fun A => npInv_of_det_ne (by simp)
  have hz : ∀ w : Vec 1, Nd.add (.d1 0 v) (.d1 1 w) = .ok (.d1 0 0) := by
    intro w
    simp only [Nd.add, Nd.broadcast, Nd.rows, Nd.cols, Nd.bdim_one, Nd.ndim, Nd.shape, List.length_cons, List.length_nil,
      max_self]
    congr 2
    exact Subsingleton.elim _ _
  have hrow : ∀ (K : Mat n 0) (w : Vec 1) (h : Vec 0) (row : Vec n), NEnKF.moveRow (.d2 n 0 K) (.d1 0 v) w h row = .ok row := by
    intro K w h row
    have h2 := moveRow_flat K 0 0 h row
    simp only [NEnKF.moveRow, ndAdd_flat, add_zero] at h2
    simp only [NEnKF.moveRow, hz]
    rw [h2]
    congr 1
    simp [Subsingleton.elim h 0]
  have hrows : ∀ (K : Mat n 0) (l : List (Fin N)) (A : Mat N n), NEnKF.moveRows (.d2 n 0 K) (.d1 0 v) e B l A = .ok A := by
    intro K l
    induction l with
    | nil => exact fun A => rfl
    | cons i l ih =>
      intro A
      simp only [NEnKF.moveRows, hrow, ih]
      congr 1
      exact Function.update_eq_self i A
  have hN1 : N ≠ 1 := by omega
  simp only [NEnKF.update, NEnKF.lenZ, hB, hN1, if_false, ndAdd_mat_one, inv_mat, hinv, Nd.dot_mm, hrows, reduceP_mat]
  refine ⟨_, rfl, rfl, ?_, rfl, rfl⟩
  ext i j
  simp [Nd.get]

/-! ## The hypotheses can be met -/

/-- A plane position of which one coordinate is seen, with simplex points: predict, a number, a 1-D array, a missing reading. -/
example (dt : ℝ) (c : ℕ → ℝ) (sqrt : ∀ k, Mat k k → Except Err (Mat k k)) :
    Agree UKFStores
      (runList (NUKF.call fun x P => simplexNd 2 sqrt (.arr x) (.arr (.d2 2 2 P)))
        (NUKF.fresh 1 (SigmaPts.simplex 2 (sqrt 2)) dt (fun x _ => x 0) fun x _ => x)
        [.predict none, .update (.d0 (c 0)) (fun _ => c 0) .none, .predict (some 2),
          .update (.d1 1 fun _ => c 1) (fun _ => c 1) (.scalar 3), .missing])
      (runList UKF.call (UKF.fresh 1 (SigmaPts.simplex 2 (sqrt 2)) dt (fun x _ => x 0) fun x _ => x)
        [.predict none, .update (.d0 (c 0)) (fun _ => c 0) .none, .predict (some 2),
          .update (.d1 1 fun _ => c 1) (fun _ => c 1) (.scalar 3), .missing]) := by
  refine C143_ukf_run C143_points_simplex _ _ (C143_ukf_fresh _ _ _ _ _ _) _ ?_
  intro d hd
  simp only [List.mem_cons, List.not_mem_nil, or_false] at hd
  rcases hd with rfl | rfl | rfl | rfl | rfl
  · trivial
  · exact .number _ fun _ => rfl
  · trivial
  · exact .same
  · trivial

/-- The state of a new filter of two variables and one sensor, updated with `[[5.]]`, is a `2 × 2` matrix. -/
example (p : SigmaPts 2) (dt : ℝ) : ∃ s' A, (NUKF.fresh 1 p dt (fun _ _ => 0) fun x _ => x).update
    (some (.d2 1 1 (of fun _ _ => 5))) = .ok s' ∧ s'.x = .d2 2 2 A := by
  have hS : unscentedTransform (UKF.pushRows (fun _ _ => (0 : ℝ)) (0 : Mat p.num 2)) p.Wm p.Wc (some (1 : Mat 1 1)) none none =
      ((0 : Vec 1), (1 : Mat 1 1)) := by
    have h0 : UKF.pushRows (fun _ _ => (0 : ℝ)) (0 : Mat p.num 2) = (0 : Mat p.num 1) := rfl
    rw [h0]
    simp [unscentedTransform]
  obtain ⟨s', h1, h2⟩ := C143_ukf_one_refuted (NUKF.fresh 1 p dt (fun _ _ => 0) fun x _ => x)
    (UKF.fresh 1 p dt (fun _ _ => 0) fun x _ => x) (C143_ukf_fresh _ _ _ _ _ _) 5 .none none (SI := 1) 0 1 hS
    (by simp [UKF.fresh, npInv]) _ rfl
  exact ⟨s', _, h1, h2⟩

end Filterpy
