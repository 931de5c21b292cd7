import Verif.Props.KalmanPerfect
import Verif.Props.KalmanStochastic
import Mathlib.Analysis.Matrix.Spectrum

/-!
# Using the pseudo-inverse (C89)
-/

namespace Filterpy
open Matrix MeasureTheory Spec

variable {n m l : ℕ}

/-! ### The pseudo-inverse -/

/-- The Penrose equations: `G` is the pseudo-inverse of `A`. -/
structure Penrose (A G : Mat m m) : Prop where
  aga : A * G * A = A
  gag : G * A * G = G
  ag : (A * G)ᵀ = A * G
  ga : (G * A)ᵀ = G * A

/-- `numpy.linalg.pinv`: never raises and returns the pseudo-inverse. -/
def IsPinv (f : Mat m m → Option (Mat m m)) : Prop := ∀ A, ∃ G, f A = some G ∧ Penrose A G

theorem penrose_symm_exists {A : Mat m m} (hA : Aᵀ = A) : ∃ G, Penrose A G ∧ Gᵀ = G := by
  have hh : A.IsHermitian := by rw [IsHermitian, conjTranspose_eq_transpose_of_trivial, hA]
  obtain ⟨U, D, h1, h2⟩ : ∃ (U : Mat m m) (D : Fin m → ℝ), Uᵀ * U = 1 ∧ A = U * diagonal D * Uᵀ := by
    refine ⟨(hh.eigenvectorUnitary : Mat m m), hh.eigenvalues, ?_, ?_⟩
    · have := (Unitary.mem_iff.1 hh.eigenvectorUnitary.2).1
      rwa [star_eq_conjTranspose, conjTranspose_eq_transpose_of_trivial] at this
    · have := hh.spectral_theorem
      rw [Unitary.conjStarAlgAut_apply, star_eq_conjTranspose, conjTranspose_eq_transpose_of_trivial] at this
      exact this
  have hm : ∀ X Y : Fin m → ℝ, U * diagonal X * Uᵀ * (U * diagonal Y * Uᵀ) = U * diagonal (fun i => X i * Y i) * Uᵀ := by
    intro X Y
    calc _ = U * diagonal X * (Uᵀ * U) * diagonal Y * Uᵀ := by simp only [Matrix.mul_assoc]
      _ = _ := by rw [h1, Matrix.mul_one, Matrix.mul_assoc U, diagonal_mul_diagonal]
  have ht : ∀ X : Fin m → ℝ, (U * diagonal X * Uᵀ)ᵀ = U * diagonal X * Uᵀ := by
    intro X; simp [transpose_mul, Matrix.mul_assoc]
  refine ⟨U * diagonal (fun i => (D i)⁻¹) * Uᵀ, ⟨?_, ?_, ?_, ?_⟩, ht _⟩
  · rw [h2, hm, hm]; congr 3; funext i; exact mul_inv_mul_cancel (D i)
  · rw [h2, hm, hm]; congr 3; funext i; rcases eq_or_ne (D i) 0 with h | h <;> simp [h]
  · rw [h2, hm, ht]
  · rw [h2, hm, ht]

theorem mul_zero_of_gram {A B : Mat m m} (h : Aᵀ * (A * B) = 0) : A * B = 0 := by
  have h1 : (A * B)ᵀ * (A * B) = 0 := by rw [transpose_mul, Matrix.mul_assoc, h, Matrix.mul_zero]
  exact Matrix.conjTranspose_mul_self_eq_zero.1 (by rwa [conjTranspose_eq_transpose_of_trivial])

theorem penrose_exists (A : Mat m m) : ∃ G, Penrose A G := by
  obtain ⟨B, hB, hs⟩ := penrose_symm_exists (A := Aᵀ * A) (by simp [transpose_mul])
  have e1 : A * (1 - B * (Aᵀ * A)) = 0 := by
    apply mul_zero_of_gram
    have := hB.aga
    rw [Matrix.mul_sub, Matrix.mul_sub, Matrix.mul_one, sub_eq_zero]
    simpa only [Matrix.mul_assoc] using this.symm
  rw [Matrix.mul_sub, Matrix.mul_one, sub_eq_zero] at e1
  refine ⟨B * Aᵀ, ⟨?_, ?_, ?_, ?_⟩⟩
  · simpa only [Matrix.mul_assoc] using e1.symm
  · have := congrArg (· * Aᵀ) hB.gag
    simpa only [Matrix.mul_assoc] using this
  · simp only [transpose_mul, transpose_transpose, hs, Matrix.mul_assoc]
  · rw [Matrix.mul_assoc]; exact hB.ga

theorem isPinv_exists : ∃ f : Mat m m → Option (Mat m m), IsPinv f :=
  ⟨fun A => some (penrose_exists A).choose, fun A => ⟨_, rfl, (penrose_exists A).choose_spec⟩⟩

theorem Penrose.eq_inv {A G : Mat m m} (h : Penrose A G) (hd : A.det ≠ 0) : G = A⁻¹ := by
  have hu := isUnit_det_of_ne hd
  have h1 := congrArg (A⁻¹ * · * A⁻¹) h.aga
  simp only [Matrix.mul_assoc, mul_nonsing_inv _ hu, Matrix.mul_one] at h1
  rwa [← Matrix.mul_assoc, nonsing_inv_mul _ hu, Matrix.one_mul] at h1

/-! ### The gain with a singular `S` -/

/-- If `P - K Tᵀ - T Kᵀ + K S Kᵀ` is a covariance for every `K` then `T` vanishes where `S` does. -/
theorem cross_ker {P : Mat n n} {T : Mat n m} {S : Mat m m}
    (h : ∀ K : Mat n m, (P - K * Tᵀ - T * Kᵀ + K * S * Kᵀ).PosSemidef) {v : Vec m} (hv : S *ᵥ v = 0) :
    T *ᵥ v = 0 := by
  by_contra hne
  set w := T *ᵥ v with hw
  have hww : 0 < w ⬝ᵥ w := by
    have := dotProduct_self_star_pos_iff.2 hne
    simpa using this
  have key : ∀ t : ℝ, 0 ≤ w ⬝ᵥ (P *ᵥ w) - 2 * t * (w ⬝ᵥ w) ^ 2 := by
    intro t
    have h1 := PSD.quad (h (t • vecMulVec w v)) w
    have e1 : (t • vecMulVec w v) * Tᵀ = t • vecMulVec w w := by
      rw [Matrix.smul_mul, vecMulVec_mul, vecMul_transpose]
    have e2 : T * (t • vecMulVec w v)ᵀ = t • vecMulVec w w := by
      have := congrArg transpose e1
      rw [transpose_mul, transpose_transpose] at this
      rw [this, transpose_smul, transpose_vecMulVec]
    have e3 : (t • vecMulVec w v) * S * (t • vecMulVec w v)ᵀ = 0 := by
      rw [transpose_smul, transpose_vecMulVec, Matrix.mul_assoc, Matrix.mul_smul, mul_vecMulVec, hv]
      simp
    rw [e1, e2, e3, add_zero, sub_mulVec, sub_mulVec, smul_mulVec, vecMulVec_mulVec, op_smul_eq_smul, dotProduct_sub,
      dotProduct_sub, dotProduct_smul, dotProduct_smul, smul_eq_mul, smul_eq_mul] at h1
    linarith
  have := key ((w ⬝ᵥ (P *ᵥ w) + 1) / (2 * (w ⬝ᵥ w) ^ 2))
  have e : 2 * ((w ⬝ᵥ (P *ᵥ w) + 1) / (2 * (w ⬝ᵥ w) ^ 2)) * (w ⬝ᵥ w) ^ 2 = w ⬝ᵥ (P *ᵥ w) + 1 := by
    field_simp
  rw [e] at this
  linarith

theorem cross_gain {P : Mat n n} {T : Mat n m} {S G : Mat m m}
    (h : ∀ K : Mat n m, (P - K * Tᵀ - T * Kᵀ + K * S * Kᵀ).PosSemidef) (hG : S * G * S = S) :
    T * G * S = T := by
  have h1 : T * (1 - G * S) = 0 := by
    ext i j
    have h2 : S *ᵥ ((1 - G * S).col j) = 0 := by
      have : S * (1 - G * S) = 0 := by rw [Matrix.mul_sub, Matrix.mul_one, ← Matrix.mul_assoc, hG, sub_self]
      funext k
      exact congrFun (congrFun this k) j
    exact congrFun (cross_ker h h2) i
  rw [Matrix.mul_sub, Matrix.mul_one, sub_eq_zero, ← Matrix.mul_assoc] at h1
  exact h1.symm

/-- The gain `T G` is optimal whenever `T G S = T`. -/
theorem gain_optimal' {P : Mat n n} {T : Mat n m} {S G : Mat m m} (hS : Sᵀ = S) (hG : T * G * S = T) :
    (P - (T * G) * Tᵀ - T * (T * G)ᵀ + (T * G) * S * (T * G)ᵀ = P - (T * G) * Tᵀ) ∧
    ∀ K' : Mat n m, (P - K' * Tᵀ - T * K'ᵀ + K' * S * K'ᵀ) - (P - (T * G) * Tᵀ)
      = (K' - T * G) * S * (K' - T * G)ᵀ := by
  have h2 : S * (T * G)ᵀ = Tᵀ := by
    have := congrArg transpose hG
    rwa [transpose_mul, hS] at this
  have h3 : T * (T * G)ᵀ = T * G * Tᵀ := by
    nth_rw 1 [← hG]
    rw [Matrix.mul_assoc, h2]
  refine ⟨by rw [hG]; abel, fun K' => ?_⟩
  simp only [Matrix.sub_mul, transpose_sub, Matrix.mul_sub]
  rw [hG, Matrix.mul_assoc K' S (T * G)ᵀ, h2, h3]
  abel

/-- For the ordinary update: `K S = P Hᵀ` with the pseudo-inverse. -/
theorem pinv_gain {P : Mat n n} {H : Mat m n} {R : Mat m m} (hP : P.PosSemidef) (hR : R.PosSemidef) {G : Mat m m}
    (hG : (H * (P * Hᵀ) + R) * G * (H * (P * Hᵀ) + R) = H * (P * Hᵀ) + R) :
    P * Hᵀ * G * (H * (P * Hᵀ) + R) = P * Hᵀ := by
  refine cross_gain (P := P) (fun K => ?_) hG
  have := joseph_psd (H := H) hP hR K
  rwa [joseph_expand, show H * P = (P * Hᵀ)ᵀ by rw [transpose_mul, transpose_transpose, PSD.symm hP]] at this


/-! ### The property -/

variable {Ω : Type*} [MeasurableSpace Ω] {μ : Measure Ω} [IsProbabilityMeasure μ]

/-- **C89 (never raises).** With `kf.inv = np.linalg.pinv`, `update` and `update_correlated` never
raise, whatever the state, the model and the arguments. -/
theorem C89_total (s : KF n m l) (hf : IsPinv s.inv) (z : Option (Vec m)) (R : MatArg m) (H : Option (Mat m n)) :
    (∃ s', s.update z R H = .ok s' ∧ s'.inv = s.inv) ∧ ∃ s', s.updateCorrelated z R H = .ok s' ∧ s'.inv = s.inv := by
  cases z with
  | none => exact ⟨⟨_, rfl, rfl⟩, ⟨_, rfl, rfl⟩⟩
  | some z =>
    obtain ⟨G, h1, -⟩ := hf (H.getD s.H * (s.P * (H.getD s.H)ᵀ) + R.resolve s.R)
    obtain ⟨G', h2, -⟩ := hf (H.getD s.H * (s.P * (H.getD s.H)ᵀ) + H.getD s.H * s.M + s.Mᵀ * (H.getD s.H)ᵀ + R.resolve s.R)
    constructor
    · simp only [KF.update, h1]; exact ⟨_, rfl, rfl⟩
    · simp only [KF.updateCorrelated, h2]; exact ⟨_, rfl, rfl⟩

/-- **C89 (nothing changes otherwise).** A history of calls that the ordinary filter completes gives
exactly the same object with the pseudo-inverse. -/
theorem C89_agrees (expf : ℝ → ℝ) (s s' : KF n m l) (hs : s.inv = npInv) (f : Mat m m → Option (Mat m m)) (hf : IsPinv f)
    (ops : List (KFOp n m l)) (h : s.run expf ops = .ok s') :
    ({ s with inv := f }).run expf ops = .ok { s' with inv := f } := by
  have hi : ∀ {A G : Mat m m}, npInv A = some G → f A = some G := by
    intro A G hA
    obtain ⟨hd, rfl⟩ := npInv_eq_some.1 hA
    obtain ⟨G, h1, h2⟩ := hf A
    rw [h1, h2.eq_inv hd]
  induction ops generalizing s with
  | nil => obtain rfl := Except.ok.inj h; rfl
  | cons op ops ih =>
    simp only [KF.run] at h ⊢
    have key : ∀ {s1 : KF n m l}, s.step expf op = .ok s1 →
        ({ s with inv := f }).step expf op = .ok { s1 with inv := f } ∧ s1.inv = npInv := by
      intro s1 h1
      clear h ih
      cases op with
      | predict u B F Q =>
        simp only [KF.step, KF.predict] at h1 ⊢
        cases hc : KF.control (B.or s.B) u with
        | error e => simp [hc] at h1
        | ok bu => simp only [hc, Except.ok.injEq] at h1; subst h1; exact ⟨by simp, hs⟩
      | update z R H =>
        cases z with
        | none => cases h1; exact ⟨rfl, hs⟩
        | some z =>
          simp only [KF.step] at h1
          obtain ⟨SI, g1, rfl⟩ := KF.update_ok h1
          rw [hs] at g1
          simp only [KF.step, KF.update, hi g1]
          exact ⟨trivial, hs⟩
      | updateSequential start len zi Ri Hi =>
        simp only [KF.step] at h1 ⊢
        obtain ⟨hb, Ki, hd, hK, rfl⟩ := KF.updateSequential_ok h1
        obtain ⟨t1, hu⟩ := KF.updateSequential_total { s with inv := f } hb zi Ri Hi hd
        obtain ⟨hb', Ki', hd', hK', rfl⟩ := KF.updateSequential_ok hu
        obtain rfl : Ki = Ki' := hK.trans hK'.symm
        exact ⟨hu, hs⟩
      | predictSteadystate u B =>
        simp only [KF.step, KF.predictSteadystate] at h1 ⊢
        cases hc : KF.steadyControl (B.or s.B) u with
        | error e => simp [hc] at h1
        | ok bu => simp only [hc, Except.ok.injEq] at h1; subst h1; exact ⟨rfl, hs⟩
      | updateSteadystate z => cases z <;> (cases h1; exact ⟨rfl, hs⟩)
      | updateCorrelated z R H =>
        cases z with
        | none => cases h1; exact ⟨rfl, hs⟩
        | some z =>
          simp only [KF.step, KF.updateCorrelated, hs] at h1 ⊢
          cases hc : npInv (H.getD s.H * (s.P * (H.getD s.H)ᵀ) + H.getD s.H * s.M + s.Mᵀ * (H.getD s.H)ᵀ + R.resolve s.R) with
          | none => simp [hc] at h1
          | some SI =>
            simp only [hc, Except.ok.injEq] at h1
            simp only [hi hc]
            subst h1
            exact ⟨rfl, rfl⟩
      | readLogLik =>
        rcases s with ⟨x, P, Q, B, F, H, R, a, M, z, K, y, S, SI, xp, Pp, xq, Pq, ll, lk, mh, iv⟩
        cases ll <;> (cases h1; exact ⟨rfl, hs⟩)
      | readLik =>
        rcases s with ⟨x, P, Q, B, F, H, R, a, M, z, K, y, S, SI, xp, Pp, xq, Pq, ll, lk, mh, iv⟩
        cases lk <;> cases ll <;> (cases h1; exact ⟨rfl, hs⟩)
      | readMahal =>
        rcases s with ⟨x, P, Q, B, F, H, R, a, M, z, K, y, S, SI, xp, Pp, xq, Pq, ll, lk, mh, iv⟩
        cases mh with
        | some v => cases h1; exact ⟨rfl, hs⟩
        | none =>
          simp only [KF.step, KF.readMahal] at h1 ⊢
          split_ifs at h1 ⊢
          cases h1; exact ⟨rfl, hs⟩
      | setAlpha v =>
        simp only [KF.step, KF.setAlpha] at h1 ⊢
        split_ifs at h1 ⊢
        cases h1; exact ⟨rfl, hs⟩
    cases h1 : s.step expf op with
    | error e => rw [h1] at h; cases h
    | ok s1 =>
      rw [h1] at h
      obtain ⟨k1, k2⟩ := key h1
      rw [k1]
      exact ih s1 k2 h

/-- **C89 (optimality).** The statement of C03 without its assumption that `S` is invertible: with
`kf.inv = np.linalg.pinv`, `update` succeeds in every outcome, reports the covariance of its own
error, and no other linear correction has a smaller one.  The noise may be singular or zero and the
measurements redundant. -/
theorem C89_optimal (s : KF n m l) (X : Ω → Vec n) (v : Ω → Vec m) (R : MatArg m)
    (H : Option (Mat m n)) (hf : IsPinv s.inv)
    (hX : NoiseOK (fun ω => X ω - s.x) μ s.P) (hv : NoiseOK v μ (R.resolve s.R))
    (huncorr : covMat (fun ω => X ω - s.x) v μ = 0) :
    ∃ s' : Ω → KF n m l,
      (∀ ω, s.update (some ((H.getD s.H) *ᵥ X ω + v ω)) R H = .ok (s' ω)) ∧
      (∀ ω, NoiseOK (fun ω => X ω - (s' ω).x) μ (s' ω).P) ∧
      ∀ (ω : Ω) (K' : Mat n m),
        let err := fun ω => X ω - (s.x + K' *ᵥ (((H.getD s.H) *ᵥ X ω + v ω) - (H.getD s.H) *ᵥ s.x))
        (covMat err err μ - (s' ω).P).PosSemidef := by
  set H' := H.getD s.H with hH'
  set R' := R.resolve s.R with hR'
  have hok : ∀ ω, ∃ s', s.update (some (H' *ᵥ X ω + v ω)) R H = .ok s' := by
    intro ω
    obtain ⟨⟨s', h, -⟩, -⟩ := C89_total s hf (some (H' *ᵥ X ω + v ω)) R H
    exact ⟨s', h⟩
  choose s' hs' using hok
  have hP : s.P.PosSemidef := by rw [← hX.cov]; exact covMat_psd hX.sq
  have hR : R'.PosSemidef := by rw [← hv.cov]; exact covMat_psd hv.sq
  have hPs := PSD.symm hP
  have hSp : (H' * (s.P * H'ᵀ) + R').PosSemidef := S_psd hP hR
  obtain ⟨G, hG, hp⟩ := hf (H' * (s.P * H'ᵀ) + R')
  have hg := pinv_gain (H := H') hP hR hp.aga
  obtain ⟨g1, g2⟩ := gain_optimal' (P := s.P) (PSD.symm hSp) hg
  set K := s.P * H'ᵀ * G with hK
  have hval : ∀ ω, (s' ω).x = s.x + K *ᵥ (H' *ᵥ X ω + v ω - H' *ᵥ s.x) ∧
      (s' ω).P = s.P - K * (s.P * H'ᵀ)ᵀ := by
    intro ω
    obtain ⟨SI, h1, h2⟩ := KF.update_ok (hs' ω)
    obtain rfl : G = SI := Option.some.inj (hG.symm.trans h1)
    rw [h2]
    refine ⟨rfl, ?_⟩
    simp only [← hH', ← hR', ← hK]
    rw [joseph_expand, ← g1, show H' * s.P = (s.P * H'ᵀ)ᵀ by rw [transpose_mul, transpose_transpose, hPs]]
  have herr : ∀ K' : Mat n m, (fun ω => X ω - (s.x + K' *ᵥ ((H' *ᵥ X ω + v ω) - H' *ᵥ s.x)))
      = fun ω => (X ω - s.x) - K' *ᵥ (H' *ᵥ (X ω - s.x) + v ω) := by
    intro K'; funext ω
    rw [Matrix.mulVec_sub H', sub_add_eq_sub_sub,
      show H' *ᵥ X ω + v ω - H' *ᵥ s.x = H' *ᵥ X ω - H' *ᵥ s.x + v ω by abel]
  have hc : ∀ K' : Mat n m, NoiseOK (fun ω => (X ω - s.x) - K' *ᵥ (H' *ᵥ (X ω - s.x) + v ω)) μ
      (s.P - K' * (s.P * H'ᵀ)ᵀ - (s.P * H'ᵀ) * K'ᵀ + K' * (H' * (s.P * H'ᵀ) + R') * K'ᵀ) := by
    intro K'
    have := corr_cov hX hv huncorr H' K'
    simpa using this
  refine ⟨s', hs', fun ω => ?_, fun ω K' => ?_⟩
  · have : (fun ω => X ω - (s' ω).x) = fun ω => (X ω - s.x) - K *ᵥ (H' *ᵥ (X ω - s.x) + v ω) := by
      rw [← herr K]; funext ω; rw [(hval ω).1]
    rw [this, (hval ω).2, ← g1]
    exact hc K
  · simp only
    rw [herr K', (hval ω).2, (hc K').cov, g2 K']
    exact PSD.congr hSp _

/-- Squared Euclidean length. -/
def sumSq (v : Vec m) : ℝ := v ⬝ᵥ v

/-- **C89 (redundant perfect measurements).** With `R = 0`, a positive semidefinite `P` and any `H`,
for instance with repeated rows: after the update, `H x` is the possible value nearest to `z` (and is
`z` itself if that value is possible, i.e. some state `x + P w` has it), and `H x` is known exactly. -/
theorem C89_constraint (s s' : KF n m l) (hf : IsPinv s.inv) (z : Vec m) (R : MatArg m) (H : Option (Mat m n))
    (hP : s.P.PosSemidef) (hR : R.resolve s.R = 0) (h : s.update (some z) R H = .ok s') :
    (H.getD s.H) * s'.P = 0 ∧ (∃ w, s'.x = s.x + s.P *ᵥ w) ∧
      (∀ w, sumSq (z - (H.getD s.H) *ᵥ s'.x) ≤ sumSq (z - (H.getD s.H) *ᵥ (s.x + s.P *ᵥ w))) ∧
      ((∃ w, (H.getD s.H) *ᵥ (s.x + s.P *ᵥ w) = z) → (H.getD s.H) *ᵥ s'.x = z) := by
  obtain ⟨G, h1, rfl⟩ := KF.update_ok h
  obtain ⟨G', h2, hp⟩ := hf (H.getD s.H * (s.P * (H.getD s.H)ᵀ) + R.resolve s.R)
  obtain rfl : G = G' := Option.some.inj (h1.symm.trans h2)
  clear h1 h2 h
  simp only
  generalize H.getD s.H = A at *
  rw [hR] at hp ⊢
  have hPs := PSD.symm hP
  have hg := pinv_gain (H := A) hP PosSemidef.zero hp.aga
  rw [add_zero] at hp hg
  have hSs : (A * (s.P * Aᵀ))ᵀ = A * (s.P * Aᵀ) := by simp [transpose_mul, hPs, Matrix.mul_assoc]
  -- `S G` fixes everything of the form `H P w`
  have hfix : A * (s.P * Aᵀ) * G * (A * s.P) = A * s.P := by
    have h3 := pinv_gain (H := A) (G := Gᵀ) hP PosSemidef.zero (by
      have := congrArg transpose hp.aga
      simpa only [add_zero, transpose_mul, transpose_transpose, hPs, Matrix.mul_assoc] using this)
    have := congrArg transpose h3
    simpa only [add_zero, transpose_mul, transpose_transpose, hPs, Matrix.mul_assoc] using this
  have hx : A *ᵥ (s.x + (s.P * Aᵀ * G) *ᵥ (z - A *ᵥ s.x)) = A *ᵥ s.x + (A * (s.P * Aᵀ) * G) *ᵥ (z - A *ᵥ s.x) := by
    rw [mulVec_add, mulVec_mulVec]; simp only [Matrix.mul_assoc]
  have hw : ∀ w, A *ᵥ (s.x + s.P *ᵥ w) = A *ᵥ s.x + (A * (s.P * Aᵀ) * G) *ᵥ ((A * s.P) *ᵥ w) := by
    intro w
    rw [mulVec_add, mulVec_mulVec, mulVec_mulVec, hfix]
  refine ⟨?_, ⟨(Aᵀ * G) *ᵥ (z - A *ᵥ s.x), ?_⟩, fun w => ?_, ?_⟩
  · rw [joseph_expand, add_zero, hg]
    have : s.P - s.P * Aᵀ * G * (A * s.P) - s.P * Aᵀ * (s.P * Aᵀ * G)ᵀ + s.P * Aᵀ * (s.P * Aᵀ * G)ᵀ =
        s.P - s.P * Aᵀ * G * (A * s.P) := by abel
    rw [this, Matrix.mul_sub, sub_eq_zero]
    simpa only [Matrix.mul_assoc] using hfix.symm
  · rw [mulVec_mulVec, Matrix.mul_assoc]
  · rw [hx, hw]
    generalize hv : (A * s.P) *ᵥ w = b
    generalize hy : z - A *ᵥ s.x = y
    obtain ⟨p, hp1⟩ : ∃ p, p = A * (s.P * Aᵀ) * G := ⟨_, rfl⟩
    have i1 : pᵀ = p := by rw [hp1]; exact hp.ag
    have i2 : p * p = p := by
      rw [hp1, ← Matrix.mul_assoc, hp.aga]
    rw [← hp1, sub_add_eq_sub_sub, sub_add_eq_sub_sub, hy]
    -- the part outside the range of the projection `p` is orthogonal to the rest
    have e : y - p *ᵥ b = (y - p *ᵥ y) + p *ᵥ (y - b) := by rw [mulVec_sub]; abel
    have o : (y - p *ᵥ y) ⬝ᵥ (p *ᵥ (y - b)) = 0 := by
      rw [dotProduct_mulVec, ← mulVec_transpose, i1, mulVec_sub, mulVec_mulVec, i2, sub_self, zero_dotProduct]
    have q : 0 ≤ (p *ᵥ (y - b)) ⬝ᵥ (p *ᵥ (y - b)) := by
      simpa using dotProduct_star_self_nonneg (p *ᵥ (y - b))
    rw [e, sumSq, sumSq, add_dotProduct, dotProduct_add, dotProduct_add, o, dotProduct_comm (p *ᵥ (y - b)) (y - p *ᵥ y), o]
    linarith
  · rintro ⟨w, rfl⟩
    have : A *ᵥ (s.x + s.P *ᵥ w) - A *ᵥ s.x = (A * s.P) *ᵥ w := by
      rw [mulVec_add, mulVec_mulVec, add_sub_cancel_left]
    rw [hx, this, hw]

/-- **C89 (repeating a perfect measurement).** Where the ordinary filter raises (`C83_twice`), the
pseudo-inverse makes a second perfect measurement of the same quantity do nothing. -/
theorem C89_twice (s s' : KF n m l) (hf : IsPinv s.inv) (z z' : Vec m) (hP : s.P.PosSemidef) (hR : s.R = 0)
    (h : s.update (some z) = .ok s') :
    ∃ s'', s'.update (some z') = .ok s'' ∧ s''.x = s'.x ∧ s''.P = s'.P := by
  obtain ⟨h1, -⟩ := C89_constraint s s' hf z .none none hP hR h
  simp only [Option.getD_none] at h1
  obtain ⟨G, -, hs'⟩ := KF.update_ok h
  have e1 : s'.H = s.H := by rw [hs']
  have e2 : s'.R = 0 := by rw [hs']; exact hR
  have e3 : s'.inv = s.inv := by rw [hs']
  obtain ⟨G, h2, h3⟩ := hf (s.H * (s'.P * s.Hᵀ) + 0)
  have hS : s.H * (s'.P * s.Hᵀ) + 0 = 0 := by rw [← Matrix.mul_assoc, h1, Matrix.zero_mul, add_zero]
  have hG : G = 0 := by have := h3.gag; rwa [hS, Matrix.mul_zero, Matrix.zero_mul, eq_comm] at this
  refine ⟨_, by simp only [KF.update, Option.getD_none, MatArg.resolve, e1, e2, e3, h2]; rfl, ?_, ?_⟩ <;> simp [hG]

theorem updateSequential_raises (s : KF n m l) {start len : ℕ} (hb : start + len ≤ m) (hl : len ≠ 1) (z : Vec len)
    (h : npInv (s.H.submatrix (KF.sliceIdx hb) id * (s.P * (s.H.submatrix (KF.sliceIdx hb) id)ᵀ) +
      s.R.submatrix (KF.sliceIdx hb) (KF.sliceIdx hb)) = none) :
    ∃ e, s.updateSequential start z = .error (.linAlgError, e) := by
  simp only [KF.updateSequential, MatArg.resolve, Option.getD_none, dif_pos hb, dif_neg hl, h]
  exact ⟨_, rfl⟩

/-- **C89 (where it is not used).** `update_sequential` ignores `kf.inv`: two perfect measurements of
the same quantity, given at once, are processed by `update` but make `update_sequential` raise
`LinAlgError`. -/
theorem C89_sequential_refuted (f : Mat 2 2 → Option (Mat 2 2)) (hf : IsPinv f) :
    ∃ s : KF 1 2 0, s.inv = f ∧ s.P = 1 ∧ s.R = 0 ∧ (∃ s', s.update (some ![5, 5]) = .ok s' ∧ s'.x = ![5]) ∧
      ∃ e, s.updateSequential 0 (![5, 5] : Vec 2) = .error (.linAlgError, e) := by
  let s : KF 1 2 0 := { KF.fresh 1 2 0 with H := !![1; 1], R := 0, inv := f }
  obtain ⟨⟨s', h1, -⟩, -⟩ := C89_total s hf (some ![5, 5]) .none none
  refine ⟨s, rfl, rfl, rfl, ⟨s', h1, ?_⟩, ?_⟩
  · obtain ⟨-, -, -, h2⟩ := C89_constraint s s' hf ![5, 5] .none none PosSemidef.one rfl h1
    have h3 : s.H *ᵥ s'.x = ![5, 5] := h2 ⟨![5], by
      funext i; fin_cases i <;> simp [s, KF.fresh, mulVec, dotProduct]⟩
    funext i
    have h4 := congrFun h3 0
    simp only [s, mulVec, dotProduct, Fin.sum_univ_one] at h4
    obtain rfl : i = 0 := Subsingleton.elim _ _
    simpa using h4
  · have hd : npInv ((!![1; 1] : Mat 2 1) * ((1 : Mat 1 1) * (!![1; 1] : Mat 2 1)ᵀ) + 0) = none := by
      apply npInv_eq_none.2
      rw [det_fin_two]
      simp
      ring
    have e1 : (!![1; 1] : Mat 2 1).submatrix (KF.sliceIdx (le_refl (0 + 2))) id = !![1; 1] := by
      ext i j; fin_cases i <;> rfl
    refine updateSequential_raises s (le_refl (0 + 2)) (by norm_num) _ ?_
    rw [show s.H.submatrix (KF.sliceIdx (le_refl (0 + 2))) id = !![1; 1] from e1]
    exact hd

/-- Non-vacuity of C89: pseudo-inverses exist; a constant measured twice without noise. -/
example : ∃ (f : Mat 2 2 → Option (Mat 2 2)) (s s' : KF 1 2 0), IsPinv f ∧ s.inv = f ∧ s.P.PosSemidef ∧ s.R = 0 ∧
    s.update (some ![5, 5]) = .ok s' ∧ s'.x = ![5] := by
  obtain ⟨f, hf⟩ := isPinv_exists (m := 2)
  obtain ⟨s, h1, h2, h3, ⟨s', h4, h5⟩, -⟩ := C89_sequential_refuted f hf
  exact ⟨f, s, s', hf, h1, h2 ▸ PosSemidef.one, h3, h4, h5⟩

end Filterpy
