import Verif.Props.KalmanReachable
import Verif.Props.Kinematic
import Verif.Props.Discretization
import Mathlib.Algebra.Polynomial.Roots

/-!
# The filters `kinematic_kf` builds: which of them settle (C126)
-/

namespace Filterpy

open Matrix Filter Topology Kinematic Discretization Spec

/-- In the given ordering of the state, `M` treats every coordinate separately and in the same way, by `B`. -/
def Spec.Copies {dim o : ℕ} (ob : Bool) (M : Mat (dim * (o + 1)) (dim * (o + 1))) (B : Mat (o + 1) (o + 1)) : Prop :=
  ∀ p q i j, M (stateIdx dim o ob p i) (stateIdx dim o ob q j) = if p = q then B i j else 0

variable {dim o : ℕ} {ob : Bool}

theorem Spec.Copies.mulVec {M : Mat (dim * (o + 1)) (dim * (o + 1))} {B : Mat (o + 1) (o + 1)} (h : Copies ob M B)
    (x : Vec (dim * (o + 1))) (p : Fin dim) (i : Fin (o + 1)) :
    (M *ᵥ x) (stateIdx dim o ob p i) = (B *ᵥ fun j => x (stateIdx dim o ob p j)) i := by
  simp only [Matrix.mulVec, dotProduct]
  rw [sum_stateIdx ob, Finset.sum_eq_single p]
  · simp only [h p p, if_true]
  · intro q _ hq
    simp only [h p q, if_neg (Ne.symm hq), zero_mul, Finset.sum_const_zero]
  · simp

theorem Spec.Copies.transpose {M : Mat (dim * (o + 1)) (dim * (o + 1))} {B : Mat (o + 1) (o + 1)} (h : Copies ob M B) :
    Copies ob Mᵀ Bᵀ := by
  intro p q i j
  rw [transpose_apply, h, transpose_apply]
  exact if_congr eq_comm rfl rfl

theorem Spec.Copies.pow_mulVec {M : Mat (dim * (o + 1)) (dim * (o + 1))} {B : Mat (o + 1) (o + 1)} (h : Copies ob M B)
    (k : ℕ) (x : Vec (dim * (o + 1))) (p : Fin dim) :
    (fun i => (M ^ k *ᵥ x) (stateIdx dim o ob p i)) = B ^ k *ᵥ fun j => x (stateIdx dim o ob p j) := by
  induction k with
  | zero => simp
  | succ k ih =>
    funext i
    rw [pow_succ', ← mulVec_mulVec, h.mulVec, ih, pow_succ', ← mulVec_mulVec]

theorem vec_ext_idx {x y : Vec (dim * (o + 1))} (ob : Bool)
    (h : ∀ p i, x (stateIdx dim o ob p i) = y (stateIdx dim o ob p i)) : x = y := by
  funext a
  obtain ⟨⟨p, i⟩, rfl⟩ := (stateIdx_bijective dim o ob).2 a
  exact h p i

theorem transition_pow (o : ℕ) (dt : ℝ) (k : ℕ) : transitionNat o dt ^ k = transitionNat o (k * dt) := by
  induction k with
  | zero => simp [(C52_semigroup o 0 0).2]
  | succ k ih =>
    rw [pow_succ, ih, (C52_semigroup o _ _).1]
    congr 1; push_cast; ring

/-- A polynomial written in the basis `t^(o-i)/(o-i)!` that vanishes at infinitely many points has no coefficients. -/
theorem impulse_zero (o : ℕ) {v : Vec (o + 1)} {S : Set ℝ} (hS : S.Infinite) (h : ∀ t ∈ S, impulse o t ⬝ᵥ v = 0) : v = 0 := by
  classical
  set p : Polynomial ℝ := ∑ i : Fin (o + 1), Polynomial.C (v i / (Nat.factorial (o - (i : ℕ)) : ℝ)) * Polynomial.X ^ (o - (i : ℕ)) with hp
  have hev : ∀ t, p.eval t = impulse o t ⬝ᵥ v := by
    intro t
    rw [hp, Polynomial.eval_finsetSum]
    unfold dotProduct impulse
    refine Finset.sum_congr rfl fun i _ => ?_
    simp only [Polynomial.eval_mul, Polynomial.eval_C, Polynomial.eval_pow, Polynomial.eval_X]
    ring
  have hp0 : p = 0 := by
    refine Polynomial.eq_zero_of_infinite_isRoot p (hS.mono fun t ht => ?_)
    show p.IsRoot t
    rw [Polynomial.IsRoot.def, hev, h t ht]
  funext i
  have hc := congrArg (fun q => Polynomial.coeff q (o - (i : ℕ))) hp0
  simp only [hp, Polynomial.finsetSum_coeff, Polynomial.coeff_C_mul, Polynomial.coeff_X_pow, Polynomial.coeff_zero] at hc
  rw [Finset.sum_eq_single i] at hc
  · rw [if_pos rfl, mul_one, div_eq_zero_iff] at hc
    exact hc.resolve_right (Nat.cast_ne_zero.2 (Nat.factorial_ne_zero _))
  · intro j _ hj
    have hi := i.2; have hj2 := j.2
    rw [if_neg fun e => hj (Fin.ext (by omega)), mul_zero]
  · simp

theorem times_infinite {dt : ℝ} (hdt : dt ≠ 0) (c : ℝ) : (Set.range fun k : ℕ => c + k * dt).Infinite := by
  refine Set.infinite_range_of_injective fun a b h => ?_
  have : (a : ℝ) * dt = b * dt := by simpa using h
  exact_mod_cast mul_right_cancel₀ hdt this

/-- The noise entering one coordinate, `g gᵀ` with `g` proportional to the effect of an impulse, reaches every
derivative of it. -/
theorem impulse_reach {dt : ℝ} (hdt : dt ≠ 0) {c τ var : ℝ} (hc : c ≠ 0) (hv : var ≠ 0) {g : Vec (o + 1)}
    (hg : g = c • impulse o τ) {v : Vec (o + 1)}
    (h : ∀ k : ℕ, (var • vecMulVec g g) *ᵥ ((transitionNat o (k * dt))ᵀ *ᵥ v) = 0) : v = 0 := by
  refine impulse_zero o (times_infinite hdt τ) ?_
  rintro _ ⟨k, rfl⟩
  have h1 := congrArg (fun w => w (Fin.last o)) (h k)
  simp only [smul_mulVec, Pi.smul_apply, Pi.zero_apply, smul_eq_mul, vecMulVec_mulVec] at h1
  have hl : g (Fin.last o) = c := by simp [hg, impulse]
  have h2 : g ⬝ᵥ ((transitionNat o (k * dt))ᵀ *ᵥ v) = 0 := by
    simp only [MulOpposite.smul_eq_mul_unop, MulOpposite.unop_op, hl] at h1
    rcases mul_eq_zero.1 h1 with h1 | h1
    · exact absurd h1 hv
    · exact (mul_eq_zero.1 h1).resolve_left hc
  rw [impulse_shift, ← mul_right_inj' hc, mul_zero, ← h2, dotProduct_mulVec, vecMul_transpose, hg, mulVec_smul,
    smul_dotProduct, smul_eq_mul]

theorem copies_reachable {F Q : Mat (dim * (o + 1)) (dim * (o + 1))} {dt : ℝ} {q : Mat (o + 1) (o + 1)}
    (hF : Copies ob F (transitionNat o dt)) (hQ : Copies ob Q q)
    (h : ∀ v : Vec (o + 1), (∀ k : ℕ, q *ᵥ ((transitionNat o (k * dt))ᵀ *ᵥ v) = 0) → v = 0) : Reachable F Q := by
  intro v hv
  refine vec_ext_idx ob fun p i => ?_
  have := h (fun i => v (stateIdx dim o ob p i)) fun k => by
    funext i
    have h1 := congrFun (hv k) (stateIdx dim o ob p i)
    rw [hQ.mulVec, hF.transpose.pow_mulVec, ← transpose_pow, transition_pow] at h1
    exact h1
  exact congrFun this i

/-- A sensor from which every position can be computed observes every derivative as well. -/
theorem copies_observable {m : ℕ} {F : Mat (dim * (o + 1)) (dim * (o + 1))} {H : Mat m (dim * (o + 1))} {dt : ℝ}
    (hdt : dt ≠ 0) (hF : Copies ob F (transitionNat o dt))
    (hH : ∀ x, H *ᵥ x = 0 → ∀ p, x (stateIdx dim o ob p 0) = 0) : Observable F H := by
  intro x hx
  refine vec_ext_idx ob fun p i => ?_
  have key : (fun j : Fin (o + 1) => x (stateIdx dim o ob p (Fin.rev j))) = 0 := by
    refine impulse_zero o (times_infinite hdt 0) ?_
    rintro _ ⟨k, rfl⟩
    have h1 := hH _ (hx k) p
    have h2 := congrFun (hF.pow_mulVec k x p) 0
    simp only [h1, transition_pow] at h2
    refine Eq.trans ?_ h2.symm
    unfold Matrix.mulVec dotProduct
    simp only [zero_add]
    rw [← Equiv.sum_comp Fin.revPerm]
    refine Finset.sum_congr rfl fun j _ => ?_
    have hj : o - (o - (j : ℕ)) = j := by have := j.2; omega
    rw [transitionNat_apply, if_pos (by simp)]
    simp [impulse, Fin.val_rev, hj]
  have := congrFun key (Fin.rev i)
  simpa using this

/-! ## The matrices the library builds -/

theorem castSq {N N' : ℕ} (h : N' = N) (M : Mat N N) :
    (⟨N, M⟩ : SqMat) = ⟨N', M.submatrix (Fin.cast h) (Fin.cast h)⟩ := by
  subst h; rfl

theorem assemble_copies (q : Mat (o + 1) (o + 1)) (scale : ℝ) (dim : ℕ) (ob : Bool) :
    ∃ Q : Mat (dim * (o + 1)) (dim * (o + 1)), assemble (.ok ⟨o + 1, q⟩) scale dim ob = .ok ⟨dim * (o + 1), Q⟩ ∧
      Copies ob Q (scale • q) ∧ (q.PosSemidef → 0 ≤ scale → Q.PosSemidef) := by
  obtain ⟨⟨M, h1, h2, h3⟩, M', h1', h2', h3'⟩ := assemble_spec q scale dim
  cases ob with
  | true =>
    refine ⟨M, h1, fun p q i j => ?_, h3⟩
    have e : ∀ (p : Fin dim) (i : Fin (o + 1)), stateIdx dim o true p i = finProdFinEquiv (p, i) := by
      intro p i; apply Fin.ext; simp [stateIdx, finProdFinEquiv]; ring
    rw [e, e, h2]; rfl
  | false =>
    have hc : dim * (o + 1) = (o + 1) * dim := Nat.mul_comm _ _
    refine ⟨M'.submatrix (Fin.cast hc) (Fin.cast hc), ?_, fun p q i j => ?_, fun a b => (h3' a b).submatrix _⟩
    · rw [h1', castSq hc M']
    · have e : ∀ (p : Fin dim) (i : Fin (o + 1)), Fin.cast hc (stateIdx dim o false p i) = finProdFinEquiv (i, p) := by
        intro p i; apply Fin.ext; simp [stateIdx, finProdFinEquiv]; ring
      rw [submatrix_apply, e, e, h2']; rfl

theorem discrete_copies (ho : o = 1 ∨ o = 2 ∨ o = 3) (dt var : ℝ) (dim : ℕ) (ob : Bool) :
    ∃ Q : Mat (dim * (o + 1)) (dim * (o + 1)), QDiscreteWhiteNoise (o + 1) dt var dim ob = .ok ⟨_, Q⟩ ∧
      Copies ob Q (var • vecMulVec (pieceGain (o + 1) dt) (pieceGain (o + 1) dt)) ∧ (0 ≤ var → Q.PosSemidef) := by
  obtain ⟨Q, h1, h2, h3⟩ := assemble_copies (vecMulVec (pieceGain (o + 1) dt) (pieceGain (o + 1) dt)) var dim ob
  refine ⟨Q, ?_, h2, h3 (vecMulVec_psd _)⟩
  have := qDiscrete_spec (o + 1) (by omega) dt
  rw [QDiscreteWhiteNoise, ← h1, ← this]
  push_cast; rfl

theorem continuous_copies (ho : o = 1 ∨ o = 2 ∨ o = 3) {dt sd : ℝ} (hdt : 0 ≤ dt) (dim : ℕ) (ob : Bool) :
    ∃ Q : Mat (dim * (o + 1)) (dim * (o + 1)), QContinuousWhiteNoise (o + 1) dt sd dim ob = .ok ⟨_, Q⟩ ∧
      Copies ob Q (sd • noiseCov o dt) ∧ (0 ≤ sd → Q.PosSemidef) := by
  obtain ⟨Q, h1, h2, h3⟩ := assemble_copies (noiseCov o dt) sd dim ob
  refine ⟨Q, ?_, h2, h3 (noiseCov_psd o hdt)⟩
  rw [QContinuousWhiteNoise, qContinuous_spec o ho]; exact h1

theorem pieceGain_impulse (ho : o = 1 ∨ o = 2 ∨ o = 3) {dt : ℝ} (hdt : dt ≠ 0) :
    ∃ c τ : ℝ, c ≠ 0 ∧ pieceGain (o + 1) dt = c • impulse o τ := by
  rcases ho with rfl | ho
  · refine ⟨dt, dt / 2, hdt, ?_⟩
    funext i
    fin_cases i <;> simp [pieceGain, impulse]
    ring
  · refine ⟨1, dt, one_ne_zero, ?_⟩
    funext i
    rw [one_smul, pieceGain, if_neg (by omega), impulse]
    rfl

/-- Continuous white noise over a positive time leaves no direction of one coordinate undisturbed. -/
theorem noiseCov_kernel (o : ℕ) {dt : ℝ} (hdt : 0 < dt) {v : Vec (o + 1)} (h : noiseCov o dt *ᵥ v = 0) : v = 0 := by
  have h1 := noiseCov_quad o dt v
  rw [h, dotProduct_zero] at h1
  have hc : Continuous fun s => (impulse o s ⬝ᵥ v) ^ 2 := by
    unfold dotProduct
    have := impulse_continuous o
    fun_prop
  refine impulse_zero o (Set.Icc_infinite hdt) fun t ht => ?_
  by_contra hne
  have := intervalIntegral.integral_pos hdt hc.continuousOn (fun s _ => sq_nonneg _) ⟨t, ht, by positivity⟩
  linarith

/-- The filter `kinematic_kf` returns. -/
theorem kinematic_copies (dim o : ℕ) (hd : 1 ≤ dim) (dt : ℝ) (dimZ : ℕ) (hz : 1 ≤ dimZ) (ob : Bool) :
    ∃ kf : KF (dim * (o + 1)) dimZ 0, kinematicKf dim o dt dimZ ob = .ok ⟨_, _, kf⟩ ∧
      Copies ob kf.F (transitionNat o dt) ∧ kf.inv = npInv ∧ kf.alphaSq = 1 ∧
      ∀ (x : Vec (dim * (o + 1))) (r : Fin dimZ), (kf.H *ᵥ x) r = ∑ p : Fin dim, x (stateIdx dim o ob p 0) := by
  obtain ⟨kf, h1, h2⟩ := C53_H_partial dim o hd dt dimZ hz ob
  have h3 : kinematicKf dim o dt dimZ ob = .ok ⟨dim * (o + 1), dimZ,
      { KF.fresh (dim * (o + 1)) dimZ 0 with
        F := if ob then fByDim dim o dt else fByDeriv dim o dt
        H := hMat dim o dimZ ob }⟩ := by
    unfold kinematicKf
    rw [if_neg (by omega), if_neg (by omega), if_neg (by omega)]
    rfl
  have e := h1.symm.trans h3
  injection e with e
  simp only [Sigma.mk.injEq, heq_eq_eq, true_and] at e
  refine ⟨kf, h1, ?_, ?_, ?_, h2⟩
  · rw [e]
    exact fMat_apply dim o dt ob
  · rw [e]; rfl
  · rw [e]; simp [KF.fresh]

/-! ## Which filters settle -/

/-- `kf` settles: it has exactly one steady covariance and gain, and from every start the reported covariance and the
gain tend to them. -/
def Spec.Settles {n m l : ℕ} (expf : ℝ → ℝ) (kf : KF n m l) : Prop :=
  ∃ (P : Mat n n) (K : Mat n m), P.PosDef ∧ IsSteady expf kf P ∧
    (∀ P' : Mat n n, P'.PosSemidef → IsSteady expf kf P' → P' = P) ∧ AtFixedPoint { kf with P := P, K := K } ∧
    ∀ (x : Vec n) (P₀ : Mat n n) (z : ℕ → Vec m), P₀.PosSemidef → ∃ run : ℕ → KF n m l,
      (∀ k, ({ kf with x := x, P := P₀ } : KF n m l).run expf (cycles z k) = .ok (run k)) ∧
      Tendsto (fun k => (run k).P) atTop (𝓝 P) ∧ Tendsto (fun k => (run k).K) atTop (𝓝 K)

/-- `kf` gets lost: from every start the reported covariance exceeds every bound. -/
def Spec.GetsLost {n m l : ℕ} (expf : ℝ → ℝ) (kf : KF n m l) : Prop :=
  ∀ (x : Vec n) (P₀ : Mat n n) (z : ℕ → Vec m), P₀.PosSemidef → ∃ run : ℕ → KF n m l,
    (∀ k, ({ kf with x := x, P := P₀ } : KF n m l).run expf (cycles z k) = .ok (run k)) ∧
    ∀ B : Mat n n, ∃ k, ¬ CovLE (run k).P B

/-- The process noise the library offers for a kinematic model. -/
inductive Spec.KinematicNoise (dim o : ℕ) (dt : ℝ) (ob : Bool) (Q : Mat (dim * (o + 1)) (dim * (o + 1))) : Prop
  | discrete (var : ℝ) : 0 < var → dt ≠ 0 → QDiscreteWhiteNoise (o + 1) dt var dim ob = .ok ⟨_, Q⟩ → KinematicNoise dim o dt ob Q
  | continuous (sd : ℝ) : 0 < sd → 0 < dt → QContinuousWhiteNoise (o + 1) dt sd dim ob = .ok ⟨_, Q⟩ → KinematicNoise dim o dt ob Q

theorem order_of_discrete {dt var : ℝ} {q : SqMat} (h : QDiscreteWhiteNoise (o + 1) dt var dim ob = .ok q) :
    o = 1 ∨ o = 2 ∨ o = 3 := by
  by_contra hno
  rw [C50_dim _ (by omega)] at h
  cases h

theorem order_of_continuous {dt sd : ℝ} {q : SqMat} (h : QContinuousWhiteNoise (o + 1) dt sd dim ob = .ok q) :
    o = 1 ∨ o = 2 ∨ o = 3 := by
  by_contra hno
  rw [C51_dim _ (by omega)] at h
  cases h

/-- Both kinds of noise are proper covariances and reach every direction of the state. -/
theorem Spec.KinematicNoise.reaches {dt : ℝ} {F Q : Mat (dim * (o + 1)) (dim * (o + 1))} (h : KinematicNoise dim o dt ob Q)
    (hF : Copies ob F (transitionNat o dt)) : dt ≠ 0 ∧ Q.PosSemidef ∧ Reachable F Q := by
  cases h with
  | discrete var hv hdt h =>
    have ho := order_of_discrete h
    obtain ⟨Q', h1, h2, h3⟩ := discrete_copies ho dt var dim ob
    obtain rfl : Q = Q' := by
      have e := h.symm.trans h1
      injection e with e
      simpa using e
    obtain ⟨c, τ, hc, hg⟩ := pieceGain_impulse ho hdt
    exact ⟨hdt, h3 hv.le, copies_reachable hF h2 fun v hv' => impulse_reach hdt hc hv.ne' hg hv'⟩
  | continuous sd hv hdt h =>
    have ho := order_of_continuous h
    obtain ⟨Q', h1, h2, h3⟩ := continuous_copies (sd := sd) ho hdt.le dim ob
    obtain rfl : Q = Q' := by
      have e := h.symm.trans h1
      injection e with e
      simpa using e
    refine ⟨hdt.ne', h3 hv.le, copies_reachable hF h2 fun v hv' => ?_⟩
    have h0 := hv' 0
    rw [Nat.cast_zero, zero_mul, (C52_semigroup o 0 0).2, transpose_one, one_mulVec, smul_mulVec] at h0
    exact noiseCov_kernel o hdt ((smul_eq_zero.1 h0).resolve_left hv.ne')

/-- **C126.** A filter built by `kinematic_kf`, with `Q` from `Q_discrete_white_noise` or `Q_continuous_white_noise`
for the same model, any positive definite `R`, and a measurement matrix `H` from which every position can be
computed, settles: every derivative of every coordinate included. -/
theorem C126_settles_partial (expf : ℝ → ℝ) (dim o : ℕ) (hd : 1 ≤ dim) (dt : ℝ) (dimZ : ℕ) (hz : 1 ≤ dimZ) (ob : Bool) :
    ∃ kf : KF (dim * (o + 1)) dimZ 0, kinematicKf dim o dt dimZ ob = .ok ⟨_, _, kf⟩ ∧
      ∀ (Q : Mat (dim * (o + 1)) (dim * (o + 1))) (R : Mat dimZ dimZ) (H : Mat dimZ (dim * (o + 1))),
        KinematicNoise dim o dt ob Q → R.PosDef → (∀ x, H *ᵥ x = 0 → ∀ p, x (stateIdx dim o ob p 0) = 0) →
        Settles expf { kf with Q := Q, R := R, H := H } := by
  obtain ⟨kf, h1, hF, hi, ha, -⟩ := kinematic_copies dim o hd dt dimZ hz ob
  refine ⟨kf, h1, fun Q R H hQ hR hH => ?_⟩
  obtain ⟨hdt, hQp, hC⟩ := hQ.reaches hF
  have hD : Detectable (√kf.alphaSq • kf.F) H := by
    rw [ha, Real.sqrt_one, one_smul]
    exact (copies_observable hdt hF hH).detectable
  exact C125_settles expf { kf with Q := Q, R := R, H := H } hi (by rw [ha]; exact one_pos) hQp hR hC hD

/-- **C126 (one coordinate).** With one coordinate the `H` that `kinematic_kf` puts in will do. -/
theorem C126_one_partial (expf : ℝ → ℝ) (o : ℕ) (dt : ℝ) (dimZ : ℕ) (hz : 1 ≤ dimZ) (ob : Bool) :
    ∃ kf : KF (1 * (o + 1)) dimZ 0, kinematicKf 1 o dt dimZ ob = .ok ⟨_, _, kf⟩ ∧
      ∀ (Q : Mat (1 * (o + 1)) (1 * (o + 1))) (R : Mat dimZ dimZ),
        KinematicNoise 1 o dt ob Q → R.PosDef → Settles expf { kf with Q := Q, R := R } := by
  obtain ⟨kf, h1, hF, -, -, hH⟩ := kinematic_copies 1 o le_rfl dt dimZ hz ob
  obtain ⟨kf', h1', h2⟩ := C126_settles_partial expf 1 o le_rfl dt dimZ hz ob
  obtain rfl : kf = kf' := by
    have e := h1.symm.trans h1'
    injection e with e
    simpa using e
  refine ⟨kf, h1, fun Q R hQ hR => h2 Q R kf.H hQ hR fun x hx p => ?_⟩
  have := hH x ⟨0, hz⟩
  rw [hx, Pi.zero_apply, Fin.sum_univ_one] at this
  rw [Subsingleton.elim p 0]
  exact this.symm

/-- **C126 fails for several coordinates.** With two or more coordinates every row of the `H` that `kinematic_kf` puts
in measures the sum of the positions, so the filter gets lost: its covariance grows without bound. -/
theorem C126_sum_refuted (expf : ℝ → ℝ) (dim o : ℕ) (hd : 2 ≤ dim) (dt : ℝ) (dimZ : ℕ) (hz : 1 ≤ dimZ) (ob : Bool) :
    ∃ kf : KF (dim * (o + 1)) dimZ 0, kinematicKf dim o dt dimZ ob = .ok ⟨_, _, kf⟩ ∧
      ∀ (Q : Mat (dim * (o + 1)) (dim * (o + 1))) (R : Mat dimZ dimZ),
        KinematicNoise dim o dt ob Q → R.PosDef →
        GetsLost expf { kf with Q := Q, R := R } ∧ ¬ Settles expf { kf with Q := Q, R := R } := by
  obtain ⟨kf, h1, hF, hi, ha, hH⟩ := kinematic_copies dim o (by omega) dt dimZ hz ob
  refine ⟨kf, h1, fun Q R hQ hR => ?_⟩
  obtain ⟨hdt, hQp, hC⟩ := hQ.reaches hF
  have hD : ¬ Detectable (√kf.alphaSq • kf.F) kf.H := by
    rw [ha, Real.sqrt_one, one_smul]
    intro h
    set p0 : Fin dim := ⟨0, by omega⟩
    set p1 : Fin dim := ⟨1, by omega⟩
    have hp : p0 ≠ p1 := fun e => by simpa [p0, p1] using congrArg Fin.val e
    -- the first coordinate forward, the second backward
    obtain ⟨w, hw⟩ : ∃ w : Vec (dim * (o + 1)), ∀ p i, w (stateIdx dim o ob p i) =
        if i = 0 then (if p = p0 then 1 else if p = p1 then -1 else 0) else 0 := by
      let e := Equiv.ofBijective _ (stateIdx_bijective dim o ob)
      refine ⟨fun a => if (e.symm a).2 = 0 then (if (e.symm a).1 = p0 then 1 else if (e.symm a).1 = p1 then -1 else 0) else 0,
        fun p i => ?_⟩
      have : e.symm (stateIdx dim o ob p i) = (p, i) := e.symm_apply_apply (p, i)
      simp only [this]
    have hFw : kf.F *ᵥ w = w := by
      refine vec_ext_idx ob fun p i => ?_
      rw [hF.mulVec]
      unfold Matrix.mulVec dotProduct
      rw [Finset.sum_eq_single 0]
      · simp only [hw, if_true, transitionNat_apply]
        by_cases h0 : i = 0
        · subst h0; simp
        · have : ¬ (i : ℕ) ≤ ((0 : Fin (o + 1)) : ℕ) := fun h => h0 (Fin.ext (by simpa using h))
          rw [if_neg this, if_neg h0, zero_mul]
      · intro j _ hj
        simp only [hw, if_neg hj, mul_zero]
      · simp
    have hpow : ∀ k, kf.F ^ k *ᵥ w = w := by
      intro k
      induction k with
      | zero => simp
      | succ k ih => rw [pow_succ, ← mulVec_mulVec, hFw, ih]
    have hHw : kf.H *ᵥ w = 0 := by
      funext r
      rw [hH]
      simp only [hw, if_true, Pi.zero_apply]
      rw [← Finset.add_sum_erase _ _ (Finset.mem_univ p0), ← Finset.add_sum_erase _ _
        (Finset.mem_erase.2 ⟨hp.symm, Finset.mem_univ p1⟩), Finset.sum_eq_zero]
      · simp [hp.symm]
      · intro q hq
        simp only [Finset.mem_erase, Finset.mem_univ, and_true] at hq
        rw [if_neg hq.2, if_neg hq.1]
    have hlim := h w fun k => by rw [hpow, hHw]
    simp only [hpow] at hlim
    have h0 := tendsto_nhds_unique hlim tendsto_const_nhds
    have := hw p0 0
    rw [← h0] at this
    simp at this
  refine ⟨fun x P₀ z hP₀ => C125_unbounded expf { kf with Q := Q, R := R, x := x, P := P₀ } hi
    (by rw [ha]; exact one_pos) hP₀ hQp hR hC hD z, fun ⟨P, K, hP, hst, _⟩ => hD ?_⟩
  exact (C125_exists_iff expf { kf with Q := Q, R := R } hi (by rw [ha]; exact one_pos) hQp hR hC).1 ⟨P, hP.posSemidef, hst⟩

/-- The hypotheses are met: a constant acceleration model in the plane, with either noise, whose `H` was replaced. -/
example (expf : ℝ → ℝ) : ∃ (kf : KF (2 * (2 + 1)) 2 0) (Q : Mat (2 * (2 + 1)) (2 * (2 + 1))),
    kinematicKf 2 2 0.1 2 true = .ok ⟨_, _, kf⟩ ∧ QDiscreteWhiteNoise 3 0.1 4 2 true = .ok ⟨_, Q⟩ ∧
    Settles expf { kf with Q := Q, R := 1, H := Matrix.of fun r c => if (c : ℕ) = 3 * r then 1 else 0 } := by
  obtain ⟨kf, h1, h2⟩ := C126_settles_partial expf 2 2 (by norm_num) 0.1 2 (by norm_num) true
  obtain ⟨Q, h3, -⟩ := discrete_copies (o := 2) (by norm_num) 0.1 4 2 true
  have h3' : QDiscreteWhiteNoise 3 0.1 4 2 true = .ok ⟨_, Q⟩ := by rw [← h3]; norm_num
  refine ⟨kf, Q, h1, h3', h2 Q 1 _ (.discrete 4 (by norm_num) (by norm_num) h3) PosDef.one fun x hx p => ?_⟩
  have h0 := congrFun hx p
  simp only [Matrix.mulVec, dotProduct, Matrix.of_apply, Pi.zero_apply] at h0
  fin_cases p
  · simpa [Fin.sum_univ_succ, stateIdx] using h0
  · simpa [Fin.sum_univ_succ, stateIdx] using h0

end Filterpy
