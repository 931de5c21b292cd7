import Verif.Props.LeastSquares
import Verif.Props.KinematicSettles
import Verif.Props.KalmanMonotone
import Mathlib.Topology.Instances.Matrix
import Mathlib.Algebra.Polynomial.Roots

/-!
# Fitting a polynomial with a Kalman filter (C133)
-/

namespace Filterpy

open Matrix Filter Topology Kinematic Spec

variable {o l : ℕ}

/-- A filter for a signal that is a polynomial of degree `o` in time: the matrix of
`kinematic_state_transition(o, dt)`, a position sensor of variance `r`, no process noise, no fading. -/
structure Spec.PolyModel (dt r : ℝ) (s : KF (o + 1) 1 l) : Prop where
  F : s.F = transitionNat o dt
  H : s.H = Matrix.of fun _ j => if j = 0 then 1 else 0
  Q : s.Q = 0
  R : s.R = Matrix.of fun _ _ => r
  alpha : s.alphaSq = 1
  inv : s.inv = npInv

/-- The loop `predict(); update(z)` over the samples `z 0, …, z (n-1)`. -/
def sampleOps (z : ℕ → ℝ) (n : ℕ) : List (KFOp (o + 1) 1 l) :=
  (List.range n).flatMap fun i => [.predict .none none none .none, .update (some fun _ => z i) .none none]

/-- The derivatives at time 0 of a monomial basis: `t^j / j!`. -/
noncomputable def powers (o : ℕ) (t : ℝ) : Vec (o + 1) := fun j => t ^ (j : ℕ) / (Nat.factorial j : ℝ)

theorem powers_row (o : ℕ) (t : ℝ) : powers o t = fun j => transitionNat o t 0 j := by
  funext j; simp [transitionNat_apply, powers]

theorem powers_shift (o : ℕ) (t a : ℝ) : (transitionNat o a)ᵀ *ᵥ powers o t = powers o (t + a) := by
  funext j
  rw [powers_row, powers_row, ← (C52_semigroup o t a).1]
  simp only [mulVec, dotProduct, transpose_apply, Matrix.mul_apply]
  exact Finset.sum_congr rfl fun i _ => mul_comm _ _

theorem poly_powers (c : Vec (o + 1)) (t : ℝ) : poly c t = powers o t ⬝ᵥ c := by
  simp only [poly, powers, dotProduct]
  exact Finset.sum_congr rfl fun i _ => mul_comm _ _

theorem powers_zero (o : ℕ) : powers o 0 = fun j => if j = 0 then 1 else 0 := by
  funext j
  by_cases h : j = 0
  · simp [powers, h]
  · rw [if_neg h]; simp only [powers]
    rw [zero_pow (fun e => h (Fin.ext e)), zero_div]

theorem normalMat_sum (o : ℕ) (dt : ℝ) (n : ℕ) : normalMat o dt n =
    ∑ i ∈ Finset.range n, vecMulVec (powers o (sampleTime dt n i)) (powers o (sampleTime dt n i)) := by
  ext j k
  rw [Matrix.sum_apply]; rfl

/-- The right-hand side of the normal equations. -/
noncomputable def normalVec (o : ℕ) (dt : ℝ) (z : ℕ → ℝ) (n : ℕ) : Vec (o + 1) :=
  ∑ i ∈ Finset.range n, z i • powers o (sampleTime dt n i)

theorem normalMat_succ (o : ℕ) (dt : ℝ) (n : ℕ) : normalMat o dt (n + 1) =
    (transitionNat o (-dt))ᵀ * normalMat o dt n * transitionNat o (-dt) + vecMulVec (powers o 0) (powers o 0) := by
  rw [normalMat_sum, normalMat_sum, Finset.sum_range_succ, sampleTime_last, Matrix.mul_sum, Matrix.sum_mul]
  congr 1
  refine Finset.sum_congr rfl fun i _ => ?_
  rw [sampleTime_succ, mul_vecMulVec, vecMulVec_mul, powers_shift, ← mulVec_transpose, powers_shift, sub_eq_add_neg]

theorem normalVec_succ (o : ℕ) (dt : ℝ) (z : ℕ → ℝ) (n : ℕ) : normalVec o dt z (n + 1) =
    (transitionNat o (-dt))ᵀ *ᵥ normalVec o dt z n + z n • powers o 0 := by
  rw [normalVec, normalVec, Finset.sum_range_succ, sampleTime_last, mulVec_sum]
  congr 1
  refine Finset.sum_congr rfl fun i _ => ?_
  rw [sampleTime_succ, mulVec_smul, powers_shift, sub_eq_add_neg]

theorem normalEq_iff (o : ℕ) (dt : ℝ) (z : ℕ → ℝ) (n : ℕ) (c : Vec (o + 1)) :
    NormalEq o dt z n c ↔ normalMat o dt n *ᵥ c = normalVec o dt z n := by
  have key : ∀ j : Fin (o + 1), (normalVec o dt z n - normalMat o dt n *ᵥ c) j =
      (∑ i ∈ Finset.range n, (z i - poly c (sampleTime dt n i)) * sampleTime dt n i ^ (j : ℕ)) / (Nat.factorial j : ℝ) := by
    intro j
    rw [normalMat_sum, sum_mulVec, normalVec, ← Finset.sum_sub_distrib, Finset.sum_apply, Finset.sum_div]
    refine Finset.sum_congr rfl fun i _ => ?_
    rw [vecMulVec_mulVec, poly_powers]
    simp only [Pi.sub_apply, Pi.smul_apply, smul_eq_mul, MulOpposite.smul_eq_mul_unop, MulOpposite.unop_op, powers]
    ring
  constructor
  · intro h
    refine (sub_eq_zero.1 ?_).symm
    funext j
    rw [key, h j (by omega), zero_div]; rfl
  · intro h j hj
    have := key ⟨j, by omega⟩
    rw [h, sub_self, Pi.zero_apply, eq_comm, div_eq_zero_iff] at this
    exact this.resolve_right (Nat.cast_ne_zero.2 (Nat.factorial_ne_zero _))

/-- More samples than coefficients determine the polynomial. -/
theorem normalMat_pd (o : ℕ) (dt : ℝ) (hdt : dt ≠ 0) (n : ℕ) (hn : o < n) : (normalMat o dt n).PosDef := by
  have hq : ∀ v : Vec (o + 1), v ⬝ᵥ (normalMat o dt n *ᵥ v) =
      ∑ i ∈ Finset.range n, poly v (sampleTime dt n i) ^ 2 := by
    intro v
    rw [normalMat_sum, sum_mulVec, dotProduct_sum]
    refine Finset.sum_congr rfl fun i _ => ?_
    rw [vecMulVec_mulVec, op_smul_eq_smul, dotProduct_smul, poly_powers, smul_eq_mul, dotProduct_comm v, sq]
  refine PD.of_quad ?_ fun v hv => ?_
  · rw [normalMat_sum, transpose_sum]
    exact Finset.sum_congr rfl fun i _ => transpose_vecMulVec _ _
  · rw [hq]
    refine lt_of_le_of_ne (Finset.sum_nonneg fun _ _ => sq_nonneg _) fun h0 => hv ?_
    have h1 := (Finset.sum_eq_zero_iff_of_nonneg (fun i _ => sq_nonneg (poly v (sampleTime dt n i)))).1 h0.symm
    have h2 : ∀ i < n, poly v (sampleTime dt n i) = 0 := fun i hi =>
      pow_eq_zero_iff two_ne_zero |>.1 (h1 i (Finset.mem_range.2 hi))
    let p : Polynomial ℝ := ∑ j : Fin (o + 1), Polynomial.monomial (j : ℕ) (v j / (Nat.factorial j : ℝ))
    have hp : ∀ t, p.eval t = poly v t := by
      intro t
      simp only [p, Polynomial.eval_finset_sum, Polynomial.eval_monomial, poly]
      exact Finset.sum_congr rfl fun j _ => by ring
    have hd : p.natDegree < Fintype.card (Fin n) := by
      rw [Fintype.card_fin]
      refine lt_of_le_of_lt (Polynomial.natDegree_sum_le_of_forall_le _ _ fun j _ => ?_) hn
      exact (Polynomial.natDegree_monomial_le _).trans (by omega)
    have hz : p = 0 := Polynomial.eq_zero_of_natDegree_lt_card_of_eval_eq_zero p
      (f := fun i : Fin n => sampleTime dt n i) (fun i j hij => by
        have h := mul_right_cancel₀ hdt hij
        have : ((i : ℕ) : ℝ) = (j : ℕ) := by linarith
        exact Fin.ext (Nat.cast_injective this))
      (fun i => by rw [hp]; exact h2 i i.2) hd
    funext j
    have hc : p.coeff j = v j / (Nat.factorial j : ℝ) := by
      simp only [p, Polynomial.finset_sum_coeff, Polynomial.coeff_monomial]
      rw [Finset.sum_eq_single j]
      · simp
      · intro b _ hb; rw [if_neg]; exact fun e => hb (Fin.ext e)
      · simp
    rw [hz, Polynomial.coeff_zero, eq_comm, div_eq_zero_iff] at hc
    exact hc.resolve_right (Nat.cast_ne_zero.2 (Nat.factorial_ne_zero _))

theorem transition_neg (o : ℕ) (dt : ℝ) : transitionNat o (-dt) * transitionNat o dt = 1 ∧
    transitionNat o dt * transitionNat o (-dt) = 1 := by
  have h := (C52_semigroup o 0 0).2
  constructor
  · rw [(C52_semigroup o _ _).1, neg_add_cancel, h]
  · rw [(C52_semigroup o _ _).1, add_neg_cancel, h]

/-- One cycle, in information form. -/
theorem poly_step (expf : ℝ → ℝ) {dt r : ℝ} (hr : 0 < r) (s : KF (o + 1) 1 l) (hs : PolyModel dt r s)
    (hP : s.P.PosDef) (a : ℝ) :
    ∃ s', KF.run expf s [.predict .none none none .none, .update (some fun _ => a) .none none] = .ok s' ∧
      PolyModel dt r s' ∧ s'.P.PosDef ∧
      s'.P⁻¹ = (transitionNat o (-dt))ᵀ * s.P⁻¹ * transitionNat o (-dt) + r⁻¹ • vecMulVec (powers o 0) (powers o 0) ∧
      s'.P⁻¹ *ᵥ s'.x = (transitionNat o (-dt))ᵀ *ᵥ (s.P⁻¹ *ᵥ s.x) + r⁻¹ • (a • powers o 0) := by
  obtain ⟨g1, g2⟩ := transition_neg o dt
  set F := transitionNat o dt with hF
  set G := transitionNat o (-dt) with hG
  have hpred : s.predict .none none none .none = .ok { s with
      x := F *ᵥ s.x, P := F * s.P * Fᵀ, xPrior := F *ᵥ s.x, PPrior := F * s.P * Fᵀ } := by
    cases hB : s.B <;> simp [KF.predict, KF.control, hs.F, hs.Q, hs.alpha, MatArg.resolve, hB, hF]
  set s1 : KF (o + 1) 1 l := { s with
      x := F *ᵥ s.x, P := F * s.P * Fᵀ, xPrior := F *ᵥ s.x, PPrior := F * s.P * Fᵀ } with hs1
  have gt1 : Gᵀ * Fᵀ = 1 := by rw [← transpose_mul, g2, transpose_one]
  have gt2 : Fᵀ * Gᵀ = 1 := by rw [← transpose_mul, g1, transpose_one]
  have hi1 : s.P * s.P⁻¹ = 1 := mul_nonsing_inv _ (PD.isUnit_det hP)
  have hi : (F * s.P * Fᵀ)⁻¹ = Gᵀ * s.P⁻¹ * G := by
    refine inv_eq_right_inv ?_
    calc F * s.P * Fᵀ * (Gᵀ * s.P⁻¹ * G) = F * (s.P * ((Fᵀ * Gᵀ) * (s.P⁻¹ * G))) := by
          simp only [Matrix.mul_assoc]
      _ = F * ((s.P * s.P⁻¹) * G) := by rw [gt2, Matrix.one_mul, Matrix.mul_assoc]
      _ = 1 := by rw [hi1, Matrix.one_mul, g2]
  have hP1 : (F * s.P * Fᵀ).PosDef := by
    refine PSD.posDef_of_det (PSD.congr hP.posSemidef F) ?_
    rw [det_mul, det_mul, det_transpose]
    have hd : F.det ≠ 0 := fun h0 => by
      have := congrArg Matrix.det g1; rw [det_mul, h0, mul_zero, det_one] at this; exact zero_ne_one this
    exact mul_ne_zero (mul_ne_zero hd (PD.det_ne hP)) hd
  have hR : s.R = r • (1 : Mat 1 1) := by
    rw [hs.R]; ext i j; rw [Subsingleton.elim j i]; simp
  have hRpd : s.R.PosDef := by rw [hR]; exact PosDef.one.smul hr
  have hRi : s.R⁻¹ = r⁻¹ • (1 : Mat 1 1) := by
    rw [hR]; refine inv_eq_right_inv ?_
    rw [smul_mul_smul_comm, mul_inv_cancel₀ hr.ne', Matrix.one_mul, one_smul]
  have hH1 : s.Hᵀ * s.R⁻¹ * s.H = r⁻¹ • vecMulVec (powers o 0) (powers o 0) := by
    rw [hRi, Matrix.mul_smul, Matrix.mul_one, Matrix.smul_mul, powers_zero]
    congr 1
    ext i j
    simp [Matrix.mul_apply, hs.H, vecMulVec_apply]
  have hH2 : (s.Hᵀ * s.R⁻¹) *ᵥ (fun _ => a) = r⁻¹ • (a • powers o 0) := by
    rw [hRi, Matrix.mul_smul, Matrix.mul_one, smul_mulVec, powers_zero]
    congr 1
    funext i
    simp [mulVec, dotProduct, hs.H]
  obtain ⟨s', h1, -⟩ := update_pd s1 (fun _ => a) .none none hs.inv hP1 (show (s.R).PosDef from hRpd)
  obtain ⟨SI, k1, k2⟩ := KF.update_ok h1
  rw [show s1.inv = npInv from hs.inv] at k1
  obtain ⟨-, rfl⟩ := npInv_eq_some.1 k1
  obtain ⟨i1, i2, i3⟩ := info_step (H := s.H) hP1 hRpd (F *ᵥ s.x) (fun _ => a)
  refine ⟨s', ?_, ?_, ?_, ?_, ?_⟩
  · simp only [KF.run, KF.step, hpred, h1]
  · rw [k2]; exact ⟨hs.F, hs.H, hs.Q, hs.R, hs.alpha, hs.inv⟩
  · rw [k2]; exact i1
  · rw [k2, ← hH1, ← hi]; exact i2
  · have : s'.P⁻¹ *ᵥ s'.x = (F * s.P * Fᵀ)⁻¹ *ᵥ (F *ᵥ s.x) + (s.Hᵀ * s.R⁻¹) *ᵥ (fun _ => a) := by
      rw [k2]; exact i3
    rw [this, hi, hH2, mulVec_mulVec, Matrix.mul_assoc, g1, Matrix.mul_one, mulVec_mulVec]

theorem sampleOps_succ (z : ℕ → ℝ) (n : ℕ) : sampleOps (o := o) (l := l) z (n + 1) =
    sampleOps z n ++ [.predict .none none none .none, .update (some fun _ => z n) .none none] := by
  simp [sampleOps, List.range_succ]

/-- The loop, in information form. -/
theorem poly_run (expf : ℝ → ℝ) {dt r : ℝ} (hr : 0 < r) (s : KF (o + 1) 1 l) (hs : PolyModel dt r s)
    (hP : s.P.PosDef) (z : ℕ → ℝ) (n : ℕ) :
    ∃ s', KF.run expf s (sampleOps z n) = .ok s' ∧ PolyModel dt r s' ∧ s'.P.PosDef ∧
      s'.P⁻¹ = (transitionNat o (-(n * dt)))ᵀ * s.P⁻¹ * transitionNat o (-(n * dt)) + r⁻¹ • normalMat o dt n ∧
      s'.P⁻¹ *ᵥ s'.x = (transitionNat o (-(n * dt)))ᵀ *ᵥ (s.P⁻¹ *ᵥ s.x) + r⁻¹ • normalVec o dt z n := by
  induction n with
  | zero =>
    have h0 : transitionNat o (-((0 : ℕ) * dt)) = 1 := by
      rw [Nat.cast_zero, zero_mul, neg_zero, (C52_semigroup o 0 0).2]
    refine ⟨s, rfl, hs, hP, ?_, ?_⟩
    · rw [h0, normalMat_sum]; simp
    · rw [h0, normalVec]; simp
  | succ n ih =>
    obtain ⟨s1, h1, m1, p1, a1, b1⟩ := ih
    obtain ⟨s2, h2, m2, p2, a2, b2⟩ := poly_step expf hr s1 m1 p1 (z n)
    have hA : transitionNat o (-((n + 1 : ℕ) * dt)) = transitionNat o (-(n * dt)) * transitionNat o (-dt) := by
      rw [(C52_semigroup o _ _).1]; congr 1; push_cast; ring
    refine ⟨s2, ?_, m2, p2, ?_, ?_⟩
    · rw [sampleOps_succ, KF.run_append, h1]; exact h2
    · rw [a2, a1, hA, normalMat_succ, transpose_mul, Matrix.mul_add, Matrix.add_mul, Matrix.mul_smul,
        Matrix.smul_mul, smul_add, add_assoc]
      simp only [Matrix.mul_assoc]
    · rw [b2, b1, hA, normalVec_succ, transpose_mul, mulVec_add, mulVec_smul, smul_add, add_assoc,
        mulVec_mulVec]

theorem sse_quad (o : ℕ) (dt : ℝ) (z : ℕ → ℝ) (n : ℕ) (c : Vec (o + 1)) :
    sse dt z n c = c ⬝ᵥ (normalMat o dt n *ᵥ c) - 2 * (c ⬝ᵥ normalVec o dt z n) + ∑ i ∈ Finset.range n, z i ^ 2 := by
  rw [normalMat_sum, sum_mulVec, dotProduct_sum, normalVec, dotProduct_sum, Finset.mul_sum, sse,
    ← Finset.sum_sub_distrib, ← Finset.sum_add_distrib]
  refine Finset.sum_congr rfl fun i _ => ?_
  rw [vecMulVec_mulVec, op_smul_eq_smul, dotProduct_smul, dotProduct_smul, poly_powers, smul_eq_mul, smul_eq_mul,
    dotProduct_comm c]
  ring

/-- **C133.** After `n` samples the filter's estimate minimises, over all polynomials of degree `o`, the misfit to
the samples in units of the sensor's variance plus the squared distance, in units of the initial covariance, between
the polynomial at the start of the loop and the initial state; any other polynomial costs `(c - x)ᵀ P⁻¹ (c - x)`
more.  (`transitionNat o (-(n dt))` moves the polynomial's derivatives back to the start.) -/
theorem C133_penalised (expf : ℝ → ℝ) {dt r : ℝ} (hr : 0 < r) (s : KF (o + 1) 1 l) (hs : PolyModel dt r s)
    (hP : s.P.PosDef) (z : ℕ → ℝ) (n : ℕ) :
    ∃ s', KF.run expf s (sampleOps z n) = .ok s' ∧ s'.P.PosDef ∧
      ∀ c : Vec (o + 1),
        sse dt z n c / r + sqLen s.P (transitionNat o (-(n * dt)) *ᵥ c - s.x) =
          sse dt z n s'.x / r + sqLen s.P (transitionNat o (-(n * dt)) *ᵥ s'.x - s.x) + sqLen s'.P (c - s'.x) := by
  obtain ⟨s', h1, -, h3, h4, h5⟩ := poly_run expf hr s hs hP z n
  refine ⟨s', h1, h3, ?_⟩
  set A := transitionNat o (-(n * dt)) with hA
  have hPi : (s.P⁻¹)ᵀ = s.P⁻¹ := inv_symm (PD.symm hP)
  have hPi' : (s'.P⁻¹)ᵀ = s'.P⁻¹ := inv_symm (PD.symm h3)
  have key : ∀ c : Vec (o + 1), sse dt z n c / r + sqLen s.P (A *ᵥ c - s.x) =
      c ⬝ᵥ (s'.P⁻¹ *ᵥ c) - 2 * (c ⬝ᵥ (s'.P⁻¹ *ᵥ s'.x)) + ((∑ i ∈ Finset.range n, z i ^ 2) / r + s.x ⬝ᵥ (s.P⁻¹ *ᵥ s.x)) := by
    intro c
    have e1 : (A *ᵥ c) ⬝ᵥ (s.P⁻¹ *ᵥ (A *ᵥ c)) = c ⬝ᵥ ((Aᵀ * s.P⁻¹ * A) *ᵥ c) := by
      rw [Matrix.mul_assoc, ← mulVec_mulVec, ← mulVec_mulVec, dotProduct_mulVec c, vecMul_transpose]
    have e2 : (A *ᵥ c) ⬝ᵥ (s.P⁻¹ *ᵥ s.x) = c ⬝ᵥ (Aᵀ *ᵥ (s.P⁻¹ *ᵥ s.x)) := by
      rw [dotProduct_mulVec c, vecMul_transpose]
    rw [h5, h4, sqLen, quad_sub hPi, e1, e2, sse_quad, add_mulVec, smul_mulVec, dotProduct_add, dotProduct_add,
      dotProduct_smul, dotProduct_smul, smul_eq_mul, smul_eq_mul]
    ring
  intro c
  rw [key, key, sqLen, quad_sub hPi', dot_mulVec_symm hPi' c s'.x]
  ring

/-- Positive definite start: the penalised fit is the only minimum. -/
theorem C133_unique (expf : ℝ → ℝ) {dt r : ℝ} (hr : 0 < r) (s : KF (o + 1) 1 l) (hs : PolyModel dt r s)
    (hP : s.P.PosDef) (z : ℕ → ℝ) (n : ℕ) :
    ∃ s', KF.run expf s (sampleOps z n) = .ok s' ∧
      ∀ c : Vec (o + 1), c ≠ s'.x →
        sse dt z n s'.x / r + sqLen s.P (transitionNat o (-(n * dt)) *ᵥ s'.x - s.x) <
        sse dt z n c / r + sqLen s.P (transitionNat o (-(n * dt)) *ᵥ c - s.x) := by
  obtain ⟨s', h1, h2, h3⟩ := C133_penalised expf hr s hs hP z n
  refine ⟨s', h1, fun c hc => ?_⟩
  have : 0 < sqLen s'.P (c - s'.x) := PD.quad h2.inv (sub_ne_zero.2 hc)
  rw [h3 c]; linarith

theorem poly_tendsto_mulVec {k : ℕ} {J : ℝ → Mat k k} {e : ℝ → Vec k} {A : Mat k k} {b : Vec k} (hJ : Tendsto J atTop (𝓝 A))
    (he : Tendsto e atTop (𝓝 b)) : Tendsto (fun t => J t *ᵥ e t) atTop (𝓝 (A *ᵥ b)) := by
  refine tendsto_pi_nhds.2 fun i => ?_
  simp only [mulVec, dotProduct]
  exact tendsto_finsetSum _ fun j _ => (tendsto_pi_nhds.1 (tendsto_pi_nhds.1 hJ i) j).mul (tendsto_pi_nhds.1 he j)

/-- **C133.** Started with an initial covariance that is made larger and larger, the filter turns into a least
squares fit: once there are more samples than coefficients, its estimate tends to *the* least squares polynomial of
degree `o` and its covariance to `r` times the inverse of the normal matrix, whatever the initial state. -/
theorem C133_limit (expf : ℝ → ℝ) {dt r : ℝ} (hdt : dt ≠ 0) (hr : 0 < r) (s : KF (o + 1) 1 l)
    (hs : PolyModel dt r s) (hP : s.P.PosDef) (z : ℕ → ℝ) (n : ℕ) (hn : o < n) (c : Vec (o + 1)) (hc : IsFit dt z n c) :
    Tendsto (fun lam : ℝ => (KF.run expf { s with P := lam • s.P } (sampleOps z n)).left.x) atTop (𝓝 c) ∧
    Tendsto (fun lam : ℝ => (KF.run expf { s with P := lam • s.P } (sampleOps z n)).left.P) atTop
      (𝓝 (r • (normalMat o dt n)⁻¹)) := by
  have hN := normalMat_pd o dt hdt n hn
  have hu := PD.isUnit_det hN
  set A := transitionNat o (-(n * dt)) with hA
  set c0 : Vec (o + 1) := (normalMat o dt n)⁻¹ *ᵥ normalVec o dt z n with hc0
  have hne : NormalEq o dt z n c0 := (normalEq_iff o dt z n c0).2 (by
    rw [hc0, mulVec_mulVec, mul_nonsing_inv _ hu, one_mulVec])
  have hcc : c = c0 := by
    have h2 : ∀ i < n, poly (c - c0) (sampleTime dt n i) = 0 := fun i hi => hne.unique hc i hi
    have h3 : (c - c0) ⬝ᵥ (normalMat o dt n *ᵥ (c - c0)) = 0 := by
      rw [normalMat_sum, sum_mulVec, dotProduct_sum]
      refine Finset.sum_eq_zero fun i hi => ?_
      rw [vecMulVec_mulVec, op_smul_eq_smul, ← poly_powers, h2 i (Finset.mem_range.1 hi), zero_smul, dotProduct_zero]
    by_contra hne'
    exact (PD.quad hN (sub_ne_zero.2 hne')).ne' h3
  rw [hcc]
  let J : ℝ → Mat (o + 1) (o + 1) := fun lam => lam⁻¹ • (Aᵀ * s.P⁻¹ * A) + r⁻¹ • normalMat o dt n
  let e : ℝ → Vec (o + 1) := fun lam => lam⁻¹ • (Aᵀ *ᵥ (s.P⁻¹ *ᵥ s.x)) + r⁻¹ • normalVec o dt z n
  have hrun : ∀ lam : ℝ, 0 < lam → (KF.run expf { s with P := lam • s.P } (sampleOps z n)).left.P = (J lam)⁻¹ ∧
      (KF.run expf { s with P := lam • s.P } (sampleOps z n)).left.x = (J lam)⁻¹ *ᵥ e lam := by
    intro lam hl
    obtain ⟨s', h1, -, h3, h4, h5⟩ := poly_run expf hr { s with P := lam • s.P }
      ⟨hs.F, hs.H, hs.Q, hs.R, hs.alpha, hs.inv⟩ (hP.smul hl) z n
    have hi : (lam • s.P)⁻¹ = lam⁻¹ • s.P⁻¹ := by
      refine inv_eq_right_inv ?_
      rw [smul_mul_smul_comm, mul_inv_cancel₀ hl.ne', mul_nonsing_inv _ (PD.isUnit_det hP), one_smul]
    have h4' : s'.P⁻¹ = J lam := by
      rw [h4]; simp only [J]; rw [hi, Matrix.mul_smul, Matrix.smul_mul]
    have h5' : s'.P⁻¹ *ᵥ s'.x = e lam := by
      rw [h5]; simp only [e]; rw [hi, smul_mulVec, mulVec_smul]
    rw [h1]
    refine ⟨?_, ?_⟩
    · show s'.P = _
      rw [← h4', nonsing_inv_nonsing_inv _ (PD.isUnit_det h3)]
    · show s'.x = _
      rw [← h4', ← h5', mulVec_mulVec, nonsing_inv_mul _ (PD.isUnit_det h3.inv), one_mulVec]
  have hJ0 : (r⁻¹ • normalMat o dt n)⁻¹ = r • (normalMat o dt n)⁻¹ := by
    refine inv_eq_right_inv ?_
    rw [smul_mul_smul_comm, inv_mul_cancel₀ hr.ne', mul_nonsing_inv _ hu, one_smul]
  have hJl : Tendsto J atTop (𝓝 (r⁻¹ • normalMat o dt n)) := by
    have := (tendsto_inv_atTop_zero (𝕜 := ℝ)).smul_const (Aᵀ * s.P⁻¹ * A)
    rw [zero_smul] at this
    simpa [J] using this.add_const (r⁻¹ • normalMat o dt n)
  have hel : Tendsto e atTop (𝓝 (r⁻¹ • normalVec o dt z n)) := by
    have := (tendsto_inv_atTop_zero (𝕜 := ℝ)).smul_const (Aᵀ *ᵥ (s.P⁻¹ *ᵥ s.x))
    rw [zero_smul] at this
    simpa [e] using this.add_const (r⁻¹ • normalVec o dt z n)
  have hdet : (r⁻¹ • normalMat o dt n).det ≠ 0 := PD.det_ne (hN.smul (inv_pos.2 hr))
  have hJi : Tendsto (fun lam => (J lam)⁻¹) atTop (𝓝 (r • (normalMat o dt n)⁻¹)) := by
    rw [← hJ0]
    refine Tendsto.comp (g := fun M : Mat (o + 1) (o + 1) => M⁻¹) ?_ hJl
    exact (continuousAt_matrix_inv _ (by
      rw [Ring.inverse_eq_inv']; exact continuousAt_inv₀ hdet)).tendsto
  constructor
  · have h := poly_tendsto_mulVec hJi hel
    have e0 : (r • (normalMat o dt n)⁻¹) *ᵥ (r⁻¹ • normalVec o dt z n) = c0 := by
      rw [smul_mulVec, mulVec_smul, smul_smul, mul_inv_cancel₀ hr.ne', one_smul]
    rw [e0] at h
    exact h.congr' ((eventually_gt_atTop 0).mono fun lam hl => ((hrun lam hl).2).symm)
  · exact hJi.congr' ((eventually_gt_atTop 0).mono fun lam hl => ((hrun lam hl).1).symm)

/-- **C133.** In particular the limit is what `LeastSquaresFilter` computes from the same samples, and with
`R = noise_sigma²` its `errors()` are the limits of the square roots of the diagonal of `P`. -/
theorem C133_least_squares_filter (expf : ℝ → ℝ) {dt σ : ℝ} (hdt : 0 < dt) (hσ : 0 < σ) (ho : o ≤ 2)
    (s : KF (o + 1) 1 l) (hs : PolyModel dt (σ ^ 2) s) (hP : s.P.PosDef) (z : ℕ → ℝ) (n : ℕ) (hn : o < n) :
    ∃ (f : LSQ) (c std : Vec (o + 1)), LSQ.run dt o σ z n = .ok f ∧ f.x = List.ofFn c ∧
      f.errors = .ok (List.ofFn std, List.ofFn std) ∧
      Tendsto (fun lam : ℝ => (KF.run expf { s with P := lam • s.P } (sampleOps z n)).left.x) atTop (𝓝 c) ∧
      ∀ j, Tendsto (fun lam : ℝ => √((KF.run expf { s with P := lam • s.P } (sampleOps z n)).left.P j j)) atTop
        (𝓝 (std j)) := by
  obtain ⟨f, f1, -, c, f2, f3, -⟩ := C41_least_squares dt hdt.ne' o ho σ z n
  obtain ⟨f', g1, -, g2⟩ := C42_errors_partial dt hdt o ho σ z n hn
  rw [f1] at g1; cases g1
  obtain ⟨l1, l2⟩ := C133_limit expf hdt.ne' (pow_pos hσ 2) s hs hP z n hn c f3
  refine ⟨f, c, _, f1, f2, g2, l1, fun j => ?_⟩
  have h := ((continuous_id.matrix_elem j j).tendsto (σ ^ 2 • (normalMat o dt n)⁻¹)).comp l2
  have h' := (Real.continuous_sqrt.tendsto _).comp h
  have e : √(id (σ ^ 2 • (normalMat o dt n)⁻¹) j j) = σ * √((normalMat o dt n)⁻¹ j j) := by
    simp only [id, Matrix.smul_apply, smul_eq_mul]
    rw [Real.sqrt_mul (sq_nonneg σ), Real.sqrt_sq hσ.le]
  rw [e] at h'
  exact h'

/-- **C133.** A `LeastSquaresFilter` may be replaced by a Kalman filter at any time after the fit is determined:
give it the fit as `x` and `errors()` squared — with the correlations — as `P`, and from then on both report the same
estimate and the same standard deviations for ever. -/
theorem C133_handover (expf : ℝ → ℝ) {dt σ : ℝ} (hdt : 0 < dt) (hσ : 0 < σ) (ho : o ≤ 2)
    (s : KF (o + 1) 1 l) (hs : PolyModel dt (σ ^ 2) s) (z : ℕ → ℝ) (n : ℕ) (hn : o < n) (f : LSQ)
    (hf : LSQ.run dt o σ z n = .ok f) (hx : f.x = List.ofFn s.x) (hP : s.P = σ ^ 2 • (normalMat o dt n)⁻¹) (k : ℕ) :
    ∃ s' f', KF.run expf s (sampleOps (fun i => z (n + i)) k) = .ok s' ∧ LSQ.run dt o σ z (n + k) = .ok f' ∧
      f'.x = List.ofFn s'.x ∧ f'.errors = .ok (List.ofFn fun j => √(s'.P j j), List.ofFn fun j => √(s'.P j j)) ∧
      s'.P = σ ^ 2 • (normalMat o dt (n + k))⁻¹ := by
  have hr : 0 < σ ^ 2 := pow_pos hσ 2
  have inv0 : ∀ j, o < j → (σ ^ 2 • (normalMat o dt j)⁻¹)⁻¹ = (σ ^ 2)⁻¹ • normalMat o dt j := by
    intro j hj
    refine inv_eq_right_inv ?_
    rw [smul_mul_smul_comm, mul_inv_cancel₀ hr.ne', nonsing_inv_mul _ (PD.isUnit_det (normalMat_pd o dt hdt.ne' j hj)),
      one_smul]
  suffices h : ∃ s', KF.run expf s (sampleOps (fun i => z (n + i)) k) = .ok s' ∧ PolyModel dt (σ ^ 2) s' ∧ s'.P.PosDef ∧
      s'.P⁻¹ = (σ ^ 2)⁻¹ • normalMat o dt (n + k) ∧ s'.P⁻¹ *ᵥ s'.x = (σ ^ 2)⁻¹ • normalVec o dt z (n + k) by
    obtain ⟨s', h1, -, h3, h4, h5⟩ := h
    have hN := normalMat_pd o dt hdt.ne' (n + k) (by omega)
    have hP' : s'.P = σ ^ 2 • (normalMat o dt (n + k))⁻¹ := by
      rw [← nonsing_inv_nonsing_inv _ (PD.isUnit_det h3), h4, ← inv0 (n + k) (by omega),
        nonsing_inv_nonsing_inv _ (PD.isUnit_det (hN.inv.smul hr))]
    have hx' : normalMat o dt (n + k) *ᵥ s'.x = normalVec o dt z (n + k) := by
      rw [h4, smul_mulVec] at h5
      exact smul_right_injective _ (inv_ne_zero hr.ne') h5
    obtain ⟨f', f1, -, c, f2, f3, f4⟩ := C41_least_squares dt hdt.ne' o ho σ z (n + k)
    obtain ⟨f'', g1, -, g2⟩ := C42_errors_partial dt hdt o ho σ z (n + k) (by omega)
    rw [f1] at g1; cases g1
    refine ⟨s', f', h1, f1, ?_, ?_, hP'⟩
    · rw [f2, f4 (by omega) s'.x ((normalEq_iff o dt z (n + k) s'.x).2 hx').isFit]
    · have e : ∀ j, σ * √((normalMat o dt (n + k))⁻¹ j j) = √(s'.P j j) := by
        intro j
        rw [hP', Matrix.smul_apply, smul_eq_mul, Real.sqrt_mul (sq_nonneg σ), Real.sqrt_sq hσ.le]
      rw [g2]; simp only [e]
  induction k with
  | zero =>
    have hN := normalMat_pd o dt hdt.ne' n hn
    obtain ⟨f', f1, -, -, -, -, c, f2, f3⟩ := LSQ.run_spec dt hdt.ne' o ho σ z n
    rw [hf] at f1; cases f1
    have hc : c = s.x := List.ofFn_injective (f2.symm.trans hx)
    have hi : s.P⁻¹ = (σ ^ 2)⁻¹ • normalMat o dt n := by rw [hP, inv0 n hn]
    refine ⟨s, rfl, hs, by rw [hP]; exact hN.inv.smul hr, hi, ?_⟩
    rw [hi, smul_mulVec, ← hc, (normalEq_iff o dt z n c).1 f3]; rfl
  | succ k ih =>
    obtain ⟨s1, h1, m1, p1, a1, b1⟩ := ih
    obtain ⟨s2, h2, m2, p2, a2, b2⟩ := poly_step expf hr s1 m1 p1 (z (n + k))
    refine ⟨s2, ?_, m2, p2, ?_, ?_⟩
    · rw [sampleOps_succ, KF.run_append, h1]; exact h2
    · rw [a2, a1, show n + (k + 1) = n + k + 1 from rfl, normalMat_succ, Matrix.mul_smul, Matrix.smul_mul, smul_add]
    · rw [b2, b1, show n + (k + 1) = n + k + 1 from rfl, normalVec_succ, mulVec_smul, smul_add]

theorem kf_cast {o N : ℕ} (h : N = o + 1) (k0 : KF N 1 0) : ∃ kf : KF (o + 1) 1 0,
    (⟨N, 1, k0⟩ : Σ n m, KF n m 0) = ⟨o + 1, 1, kf⟩ ∧
      (∀ i j, kf.F i j = k0.F (Fin.cast h.symm i) (Fin.cast h.symm j)) ∧
      (∀ (x : Vec (o + 1)) i, (kf.H *ᵥ x) i = (k0.H *ᵥ fun j => x (Fin.cast h j)) i) ∧
      kf.alphaSq = k0.alphaSq ∧ (k0.inv = npInv → kf.inv = npInv) := by
  subst h
  exact ⟨k0, rfl, fun _ _ => rfl, fun _ _ => rfl, rfl, id⟩

/-- **C133.** `kinematic_kf(dim=1, order=o, dt=dt)`, in either ordering, is such a filter as soon as `Q` is set to
zero and `R` to the sensor's variance. -/
theorem C133_kinematic (dt r : ℝ) (o : ℕ) (ob : Bool) :
    ∃ kf : KF (o + 1) 1 0, kinematicKf 1 o dt 1 ob = .ok ⟨o + 1, 1, kf⟩ ∧
      PolyModel dt r { kf with Q := 0, R := Matrix.of fun _ _ => r } := by
  obtain ⟨k0, h1, hF, hi, ha, -⟩ := kinematic_copies 1 o le_rfl dt 1 le_rfl ob
  obtain ⟨k0', h1', hH⟩ := C53_H_partial 1 o le_rfl dt 1 le_rfl ob
  obtain rfl : k0 = k0' := by
    have e := h1.symm.trans h1'
    injection e with e
    simpa using e
  have hidx : ∀ i : Fin (o + 1), stateIdx 1 o ob 0 i = Fin.cast (one_mul _).symm i := by
    intro i; apply Fin.ext; cases ob <;> simp [stateIdx]
  obtain ⟨kf, e1, e2, e3, e4, e5⟩ := kf_cast (one_mul (o + 1)) k0
  refine ⟨kf, ?_, ?_, ?_, rfl, rfl, e4.trans ha, e5 hi⟩
  · rw [← e1]; exact h1
  · ext i j
    show kf.F i j = _
    rw [e2, ← hidx, ← hidx, hF 0 0 i j, if_pos rfl]
  · ext i j
    show kf.H i j = _
    have h := e3 (Pi.single j 1) i
    rw [hH, mulVec_single_one] at h
    rw [show kf.H i j = kf.H.col j i from rfl, h]
    rw [Fin.sum_univ_one, hidx]
    show (Pi.single j 1 : Vec (o + 1)) 0 = _
    simp [Pi.single_apply, eq_comm]

/-- Four samples and a constant velocity model with a vague start: the hypotheses of C133 are met, and the estimate
tends to what `LeastSquaresFilter` says. -/
example (expf : ℝ → ℝ) : ∃ (s : KF (1 + 1) 1 0), PolyModel 1 (2 ^ 2) s ∧ s.P.PosDef ∧
    ∃ (f : LSQ) (c : Vec 2), LSQ.run 1 1 2 (fun i => (i : ℝ) ^ 2) 4 = .ok f ∧ f.x = List.ofFn c ∧
      Tendsto (fun lam : ℝ => (KF.run expf { s with P := lam • s.P } (sampleOps (fun i => (i : ℝ) ^ 2) 4)).left.x) atTop
        (𝓝 c) := by
  refine ⟨{ KF.fresh (1 + 1) 1 0 with
      F := transitionNat 1 1, H := Matrix.of fun _ j => if j = 0 then 1 else 0, Q := 0,
      R := Matrix.of fun _ _ => 2 ^ 2 }, ⟨rfl, rfl, rfl, rfl, rfl, rfl⟩, PosDef.one, ?_⟩
  obtain ⟨f, c, -, h1, h2, -, h3, -⟩ := C133_least_squares_filter expf one_pos two_pos one_le_two
    { KF.fresh (1 + 1) 1 0 with
      F := transitionNat 1 1, H := Matrix.of fun _ j => if j = 0 then 1 else 0, Q := 0,
      R := Matrix.of fun _ _ => 2 ^ 2 } ⟨rfl, rfl, rfl, rfl, rfl, rfl⟩ PosDef.one (fun i => (i : ℝ) ^ 2) 4 (by norm_num)
  exact ⟨f, c, h1, h2, h3⟩

/-- A `LeastSquaresFilter` of order 2 after five samples hands over to a Kalman filter. -/
example (expf : ℝ → ℝ) (z : ℕ → ℝ) (k : ℕ) : ∃ (s : KF (2 + 1) 1 0) (f : LSQ), LSQ.run 1 2 3 z 5 = .ok f ∧
    f.x = List.ofFn s.x ∧
    ∃ s' f', KF.run expf s (sampleOps (fun i => z (5 + i)) k) = .ok s' ∧ LSQ.run 1 2 3 z (5 + k) = .ok f' ∧
      f'.x = List.ofFn s'.x := by
  obtain ⟨f, f1, -, c, f2, -⟩ := C41_least_squares 1 one_ne_zero 2 le_rfl 3 z 5
  let s : KF (2 + 1) 1 0 := { KF.fresh (2 + 1) 1 0 with
      F := transitionNat 2 1, H := Matrix.of fun _ j => if j = 0 then 1 else 0, Q := 0,
      R := Matrix.of fun _ _ => 3 ^ 2, x := c, P := (3 ^ 2 : ℝ) • (normalMat 2 1 5)⁻¹ }
  obtain ⟨s', f', h1, h2, h3, -⟩ := C133_handover expf one_pos (by norm_num : (0 : ℝ) < 3) le_rfl s
    ⟨rfl, rfl, rfl, rfl, rfl, rfl⟩ z 5 (by norm_num) f f1 f2 rfl k
  exact ⟨s, f, f1, f2, s', f', h1, h2, h3⟩

end Filterpy
