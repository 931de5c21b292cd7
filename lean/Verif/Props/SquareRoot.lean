import Verif.Lemmas.Sim
import Verif.Lemmas.Control
import Verif.Lemmas.Scalar1
import Verif.Lemmas.Kalman
import Verif.Spec.LinAlg
import Verif.Lemmas.QR
import Verif.Props.KalmanBasic

/-!
# SquareRootKalmanFilter: C28
-/

namespace Filterpy

open Matrix Spec

variable {n m l : ℕ}

theorem isQR_gram {p q : Type*} [Fintype p] [DecidableEq p] {M R : Matrix p q ℝ} (h : IsQR M R) :
    Rᵀ * R = Mᵀ * M := by
  obtain ⟨Q, h1, rfl⟩ := h
  rw [transpose_mul, Matrix.mul_assoc, ← Matrix.mul_assoc Qᵀ, h1, Matrix.one_mul]

/-- The calls compared.  `update` carries the *square root* `R2` of the noise; the Kalman filter
gets `R2 R2ᵀ`. -/
inductive SqrtOp (m l : ℕ)
  | predict (u : Option (Vec l))
  | update (z : Option (Vec m)) (R2 : MatArg m)

/-- The noise a square root argument stands for. -/
noncomputable def sqArg : MatArg m → MatArg m
  | .none => .none
  | .scalar c => .scalar (c ^ 2)
  | .mat A => .mat (A * Aᵀ)

noncomputable def SqrtOp.onSR (L : SqrtLib n m) (s : SRKF n m l) : SqrtOp m l → Exec (SRKF n m l)
  | .predict u => s.predict L (uZero u)
  | .update z R2 => .ok (s.update L z R2)

noncomputable def SqrtOp.onKF (s : KF n m l) : SqrtOp m l → Exec (KF n m l)
  | .predict u => s.predict (uNone u)
  | .update z R2 => s.update z (sqArg R2)

def SqrtOp.Shaped (n : ℕ) {m l : ℕ} (B : Option (Mat n l)) : SqrtOp m l → Prop
  | .predict u => CtrlShaped B u
  | .update .. => True

/-- A `SquareRootKalmanFilter` and a `KalmanFilter` describing the same system and estimate. -/
structure SqrtSame (a : SRKF n m l) (b : KF n m l) : Prop where
  x : a.x = b.x
  P : a.getP = b.P
  F : a.F = b.F
  Q : a.getQ = b.Q
  H : a.H = b.H
  R : a.getR = b.R
  B : a.B = b.B
  z : a.z = b.z
  K : a.K = b.K
  S : a.getS = b.S
  SI : a.getSI = b.SI
  xPrior : a.xPrior = b.xPrior
  PPrior : a.getPPrior = b.PPrior
  xPost : a.xPost = b.xPost
  alphaSq : b.alphaSq = 1
  inv : b.inv = npInv

theorem resolve_sqArg {a : MatArg m} {D : Mat m m} :
    (sqArg a).resolve (D * Dᵀ) = (a.resolve D) * (a.resolve D)ᵀ := by
  cases a with
  | none => rfl
  | scalar c =>
    simp only [sqArg, MatArg.resolve, transpose_smul, transpose_one, Matrix.smul_mul,
      Matrix.mul_smul, Matrix.one_mul, smul_smul, sq]
  | mat A => rfl

/-- One update of the square root filter, in terms of the covariance. -/
theorem sqrt_update_core {L : SqrtLib n m} (hL : SqrtLib.Valid L) (a : SRKF n m l) (R2 : Mat m m)
    (hd : (a.H * (a.getP * a.Hᵀ) + R2 * R2ᵀ).det ≠ 0) :
    let r := L.qrU (a.arrayU R2)
    let S := a.H * (a.getP * a.Hᵀ) + R2 * R2ᵀ
    let K := r.toBlocks₁₂ᵀ * L.pinv r.toBlocks₁₁ᵀ
    r.toBlocks₁₁ᵀ * r.toBlocks₁₁ᵀᵀ = S ∧
    (L.pinv r.toBlocks₁₁ᵀ)ᵀ * L.pinv r.toBlocks₁₁ᵀ = S⁻¹ ∧
    K = a.getP * a.Hᵀ * S⁻¹ ∧
    r.toBlocks₂₂ᵀ * r.toBlocks₂₂ᵀᵀ
      = (1 - K * a.H) * a.getP * (1 - K * a.H)ᵀ + K * (R2 * R2ᵀ) * Kᵀ := by
  intro r S K
  have hg := isQR_gram (hL.qrU (a.arrayU R2))
  have ht := hL.qrU_tri (a.arrayU R2)
  set A := r.toBlocks₁₁ with hA
  set Bk := r.toBlocks₁₂ with hB
  set C := r.toBlocks₂₂ with hC
  have hr : r = fromBlocks A Bk 0 C := by
    have := (fromBlocks_toBlocks r).symm
    rw [show r.toBlocks₂₁ = 0 from ht] at this
    exact this
  have hr' : L.qrU (a.arrayU R2) = fromBlocks A Bk 0 C := hr
  rw [hr'] at hg
  simp only [SRKF.arrayU, fromBlocks_transpose, transpose_zero, fromBlocks_multiply,
    transpose_transpose, Matrix.zero_mul, Matrix.mul_zero, add_zero, zero_add] at hg
  obtain ⟨g1, g2, g3, g4⟩ := fromBlocks_inj.1 hg
  have hPs : a.getPᵀ = a.getP := by simp [SRKF.getP, transpose_mul]
  have e1 : Aᵀ * A = S := by
    rw [g1]
    simp only [S, SRKF.getP, transpose_mul, Matrix.mul_assoc]
    rw [add_comm]
  have e3 : Bkᵀ * A = a.getP * a.Hᵀ := by
    rw [g3]; simp only [SRKF.getP, transpose_mul, Matrix.mul_assoc]
  have e4 : Bkᵀ * Bk + Cᵀ * C = a.getP := g4
  have hAd : A.det ≠ 0 := by
    intro h0
    apply hd
    change S.det = 0
    rw [← e1, det_mul, h0, mul_zero]
  have hAu : IsUnit A.det := isUnit_iff_ne_zero.2 hAd
  have hATd : Aᵀ.det ≠ 0 := by rw [det_transpose]; exact hAd
  have hp : L.pinv Aᵀ = (Aᵀ)⁻¹ := (inv_eq_right_inv (hL.pinv _ hATd)).symm
  have hSi : S⁻¹ = A⁻¹ * (Aᵀ)⁻¹ := by rw [← e1, Matrix.mul_inv_rev]
  have hATi : ((Aᵀ)⁻¹)ᵀ = A⁻¹ := by rw [← transpose_nonsing_inv, transpose_transpose]
  have hKe : K = a.getP * a.Hᵀ * S⁻¹ := by
    rw [hSi, ← e3]
    change Bkᵀ * L.pinv Aᵀ = _
    rw [hp, Matrix.mul_assoc, ← Matrix.mul_assoc A, mul_nonsing_inv _ hAu, Matrix.one_mul]
  refine ⟨by rw [transpose_transpose]; exact e1, ?_, hKe, ?_⟩
  · change (L.pinv Aᵀ)ᵀ * L.pinv Aᵀ = _
    rw [hp, hATi, hSi]
  · have hSu : IsUnit S.det := isUnit_iff_ne_zero.2 hd
    have hSs : (S⁻¹)ᵀ = S⁻¹ := by rw [hSi, transpose_mul, hATi, transpose_nonsing_inv]
    rw [joseph_opt hPs (rfl : S = _) (nonsing_inv_mul _ hSu) hSs hKe]
    have hKA : K * Aᵀ = Bkᵀ := by
      change Bkᵀ * L.pinv Aᵀ * Aᵀ = _
      rw [hp, Matrix.mul_assoc, nonsing_inv_mul _ (isUnit_iff_ne_zero.2 hATd), Matrix.mul_one]
    have : K * S * Kᵀ = Bkᵀ * Bk := by
      rw [← e1, ← Matrix.mul_assoc, hKA, Matrix.mul_assoc]
      congr 1
      rw [← transpose_transpose A, ← transpose_mul, hKA, transpose_transpose]
    rw [this, transpose_transpose, ← e4]
    abel

theorem sqrt_predict_core {L : SqrtLib n m} (hL : SqrtLib.Valid L) (a : SRKF n m l) :
    ((L.qrP a.arrayP).toRows₁)ᵀ * ((L.qrP a.arrayP).toRows₁)ᵀᵀ
      = a.F * a.getP * a.Fᵀ + a.getQ := by
  have hg := isQR_gram (hL.qrP a.arrayP)
  have ht := hL.qrP_tri a.arrayP
  set T := (L.qrP a.arrayP).toRows₁ with hT
  have hr : L.qrP a.arrayP = fromRows T 0 := by
    have := (fromRows_toRows (L.qrP a.arrayP)).symm
    rwa [ht] at this
  rw [hr] at hg
  simp only [SRKF.arrayP, transpose_fromRows, transpose_fromCols, transpose_transpose,
    fromCols_mul_fromRows, transpose_zero, Matrix.zero_mul, add_zero] at hg
  rw [transpose_transpose, hg]
  simp only [SRKF.getP, SRKF.getQ, transpose_mul, Matrix.mul_assoc]

theorem sqrt_step {L : SqrtLib n m} (hL : SqrtLib.Valid L) (a : SRKF n m l) (b : KF n m l)
    (h : SqrtSame a b) (op : SqrtOp m l) (hop : op.Shaped n b.B) (b1 : KF n m l)
    (hb1 : op.onKF b = .ok b1) :
    ∃ a1, op.onSR L a = .ok a1 ∧ SqrtSame a1 b1 ∧ b1.B = b.B ∧ a1.R12 = a.R12 := by
  cases op with
  | predict u =>
    obtain ⟨bu, h1, h2⟩ := control_agree hop
    simp only [SqrtOp.onKF, kf_predict_control h2, Except.ok.injEq] at hb1
    subst hb1
    refine ⟨{ a with
      x := a.F *ᵥ a.x + bu, P12 := ((L.qrP a.arrayP).toRows₁)ᵀ
      xPrior := a.F *ᵥ a.x + bu, P12Prior := ((L.qrP a.arrayP).toRows₁)ᵀ }, ?_, ?_, rfl, rfl⟩
    · simp only [SqrtOp.onSR, SRKF.predict, h.B, h1]
    · have hc := sqrt_predict_core hL a
      rw [h.F, h.P, h.Q] at hc
      have e : b.alphaSq • (b.F * b.P * b.Fᵀ) + b.Q = b.F * b.P * b.Fᵀ + b.Q := by
        rw [h.alphaSq, one_smul]
      rw [e]
      constructor
      · simp only [h.x, h.F]
      · exact hc
      · exact h.F
      · exact h.Q
      · exact h.H
      · exact h.R
      · exact h.B
      · exact h.z
      · exact h.K
      · exact h.S
      · exact h.SI
      · simp only [h.x, h.F]
      · exact hc
      · exact h.xPost
      · exact h.alphaSq
      · exact h.inv
  | update z R2 =>
    cases z with
    | none =>
      simp only [SqrtOp.onKF, KF.update, Except.ok.injEq] at hb1
      subst hb1
      refine ⟨_, rfl, ?_, rfl, rfl⟩
      exact ⟨h.x, h.P, h.F, h.Q, h.H, h.R, h.B, rfl, h.K, h.S, h.SI, h.xPrior, h.PPrior, h.x,
        h.alphaSq, h.inv⟩
    | some z =>
      obtain ⟨SI, g1, g2⟩ := KF.update_ok hb1
      rw [h.inv] at g1
      obtain ⟨hd, rfl⟩ := npInv_eq_some.1 g1
      have hR : (sqArg R2).resolve b.R = (R2.resolve a.R12) * (R2.resolve a.R12)ᵀ := by
        rw [← h.R]; exact resolve_sqArg
      simp only [Option.getD_none, hR, ← h.H, ← h.P] at hd g2
      obtain ⟨c1, c2, c3, c4⟩ := sqrt_update_core hL a (R2.resolve a.R12) hd
      refine ⟨_, rfl, ?_, by rw [g2], rfl⟩
      rw [g2]
      constructor
      · simp only [SRKF.update, c3, ← h.x]
      · simp only [SRKF.update, SRKF.getP]
        rw [c4, c3]; rfl
      · exact h.F
      · exact h.Q
      · rfl
      · exact h.R
      · exact h.B
      · rfl
      · simp only [SRKF.update, c3]
      · exact c1
      · exact c2
      · exact h.xPrior
      · exact h.PPrior
      · simp only [SRKF.update, c3, ← h.x]
      · exact h.alphaSq
      · exact h.inv

/-- **C28.** Whatever valid factors the library returns: for every sequence of
`predict`/`update` calls that a `KalmanFilter` with the same system completes, the
`SquareRootKalmanFilter` completes it with the same `x`, `P`, `K`, `S`, `SI`, `z`, `x_prior`,
`P_prior` and `x_post`. -/
theorem C28_square_root {L : SqrtLib n m} (hL : SqrtLib.Valid L) (a : SRKF n m l) (b : KF n m l)
    (h : SqrtSame a b) (ops : List (SqrtOp m l)) (hs : ∀ op ∈ ops, op.Shaped n b.B) (b' : KF n m l)
    (hb : runList SqrtOp.onKF b ops = .ok b') :
    ∃ a', runList (SqrtOp.onSR L) a ops = .ok a' ∧ SqrtSame a' b' := by
  induction ops generalizing a b with
  | nil =>
    simp only [runList, Except.ok.injEq] at hb
    subst hb
    exact ⟨a, rfl, h⟩
  | cons op ops ih =>
    simp only [runList] at hb
    cases hb1 : op.onKF b with
    | error e => rw [hb1] at hb; cases hb
    | ok b1 =>
      rw [hb1] at hb
      obtain ⟨a1, k1, k2, k3, -⟩ := sqrt_step hL a b h op (hs op (by simp)) b1 hb1
      obtain ⟨a', g1, g2⟩ := ih a1 b1 k2 (fun o ho => by rw [k3]; exact hs o (by simp [ho])) hb
      exact ⟨a', by simp only [runList, k1]; exact g1, g2⟩

/-- A nonsingular square root of the measurement noise, per call or stored. -/
def SqrtOp.GoodR {m l : ℕ} : SqrtOp m l → Prop
  | .update (some _) (.scalar c) => c ≠ 0
  | .update (some _) (.mat A) => A.det ≠ 0
  | _ => True

theorem mul_transpose_pd {k : ℕ} {A : Mat k k} (h : A.det ≠ 0) : (A * Aᵀ).PosDef := by
  have := PosDef.mul_mul_conjTranspose_same (PosDef.one (n := Fin k) (R := ℝ)) (B := A)
    (by
      rw [Matrix.vecMul_injective_iff_isUnit]
      exact (Matrix.isUnit_iff_isUnit_det _).2 (isUnit_iff_ne_zero.2 h))
  rwa [conjTranspose_eq_transpose_of_trivial, Matrix.mul_one] at this

/-- **C28.** With nonsingular noise square roots neither filter ever raises, and they agree. -/
theorem C28_square_root_total {L : SqrtLib n m} (hL : SqrtLib.Valid L) (a : SRKF n m l)
    (b : KF n m l) (h : SqrtSame a b) (hR : a.R12.det ≠ 0) (ops : List (SqrtOp m l))
    (hs : ∀ op ∈ ops, op.Shaped n b.B) (hg : ∀ op ∈ ops, op.GoodR) :
    ∃ a' b', runList (SqrtOp.onSR L) a ops = .ok a' ∧ runList SqrtOp.onKF b ops = .ok b' ∧
      SqrtSame a' b' := by
  induction ops generalizing a b with
  | nil => exact ⟨a, b, rfl, rfl, h⟩
  | cons op ops ih =>
    have hok : ∃ b1, op.onKF b = .ok b1 := by
      cases op with
      | predict u =>
        obtain ⟨bu, h1, h2⟩ := control_agree (show CtrlShaped b.B u from hs (.predict u) (by simp))
        exact ⟨_, kf_predict_control h2⟩
      | update z R2 =>
        cases z with
        | none => exact ⟨_, rfl⟩
        | some z =>
          have hR2 : (R2.resolve a.R12).det ≠ 0 := by
            have := hg _ (List.mem_cons_self)
            cases R2 with
            | none => exact hR
            | scalar c =>
              simp only [MatArg.resolve, det_smul, det_one, mul_one]
              exact pow_ne_zero _ this
            | mat A => exact this
          have hpd : ((sqArg R2).resolve b.R).PosDef := by
            rw [← h.R]
            rw [show a.getR = a.R12 * a.R12ᵀ from rfl, resolve_sqArg]
            exact mul_transpose_pd hR2
          have hP : b.P.PosSemidef := by
            rw [← h.P]
            have := posSemidef_self_mul_conjTranspose a.P12
            rwa [conjTranspose_eq_transpose_of_trivial] at this
          simp only [SqrtOp.onKF, KF.update, h.inv, Option.getD_none]
          rw [npInv_of_det_ne (PD.det_ne (S_pd hP hpd))]
          exact ⟨_, rfl⟩
    obtain ⟨b1, hb1⟩ := hok
    obtain ⟨a1, k1, k2, k3, k4⟩ := sqrt_step hL a b h op (hs op (by simp)) b1 hb1
    obtain ⟨a', b', g1, g2, g3⟩ := ih a1 b1 k2 (by rw [k4]; exact hR)
      (fun o ho => by rw [k3]; exact hs o (by simp [ho])) (fun o ho => hg o (by simp [ho]))
    exact ⟨a', b', by simp only [runList, k1]; exact g1, by simp only [runList, hb1]; exact g2, g3⟩

/-- **C28.** The reported covariance (and prior, `Q`, `R`, `S`) is symmetric positive
semidefinite in every state whatsoever. -/
theorem C28_psd (a : SRKF n m l) : a.getP.PosSemidef ∧ a.getPPrior.PosSemidef ∧
    a.getQ.PosSemidef ∧ a.getR.PosSemidef ∧ a.getS.PosSemidef := by
  have key : ∀ {k : ℕ} (A : Mat k k), (A * Aᵀ).PosSemidef := by
    intro k A
    have := posSemidef_self_mul_conjTranspose A
    rwa [conjTranspose_eq_transpose_of_trivial] at this
  exact ⟨key _, key _, key _, key _, key _⟩

/-- **C28.** Assigning a positive definite `P`, `Q` or `R` is read back exactly; assigning a
symmetric matrix that is not positive definite raises `LinAlgError` and leaves the factor. -/
theorem C28_setters {L : SqrtLib n m} (hL : SqrtLib.Valid L) (a : SRKF n m l) :
    (∀ P : Mat n n, P.PosDef → ∃ a', a.setP L P = .ok a' ∧ a'.getP = P) ∧
    (∀ Q : Mat n n, Q.PosDef → ∃ a', a.setQ L Q = .ok a' ∧ a'.getQ = Q) ∧
    (∀ R : Mat m m, R.PosDef → ∃ a', a.setR L R = .ok a' ∧ a'.getR = R) ∧
    (∀ P : Mat n n, Pᵀ = P → ¬ P.PosDef → a.setP L P = .error (.linAlgError, a)) ∧
    (∀ Q : Mat n n, Qᵀ = Q → ¬ Q.PosDef → a.setQ L Q = .error (.linAlgError, a)) ∧
    (∀ R : Mat m m, Rᵀ = R → ¬ R.PosDef → a.setR L R = .error (.linAlgError, a)) := by
  refine ⟨fun P h => ?_, fun P h => ?_, fun P h => ?_, fun P h h' => ?_, fun P h h' => ?_,
    fun P h h' => ?_⟩
  · obtain ⟨p, h1, h2⟩ := hL.cholX P h
    exact ⟨{ a with P12 := p }, by simp only [SRKF.setP, h1], h2⟩
  · obtain ⟨p, h1, h2⟩ := hL.cholX P h
    exact ⟨{ a with Q12 := p }, by simp only [SRKF.setQ, h1], h2⟩
  · obtain ⟨p, h1, h2⟩ := hL.cholZ P h
    exact ⟨{ a with R12 := p }, by simp only [SRKF.setR, h1], h2⟩
  · simp only [SRKF.setP, hL.cholX_err P h h']
  · simp only [SRKF.setQ, hL.cholX_err P h h']
  · simp only [SRKF.setR, hL.cholZ_err P h h']

/-! ## The library contract can be met -/

theorem qr_exists_sum (M : Matrix (Fin m ⊕ Fin n) (Fin m ⊕ Fin n) ℝ) :
    ∃ R, IsQR M R ∧ R.toBlocks₂₁ = 0 := by
  obtain ⟨R, ⟨Q, hQ, hM⟩, hR⟩ := qr_exists (M.submatrix finSumFinEquiv.symm finSumFinEquiv.symm)
  refine ⟨R.submatrix finSumFinEquiv finSumFinEquiv,
    ⟨Q.submatrix finSumFinEquiv finSumFinEquiv, ?_, ?_⟩, ?_⟩
  · rw [transpose_submatrix, submatrix_mul_equiv, hQ, submatrix_one_equiv]
  · rw [submatrix_mul_equiv, ← hM, submatrix_submatrix]
    simp
  · ext i j
    simp only [toBlocks₂₁, of_apply, submatrix_apply, finSumFinEquiv_apply_right,
      finSumFinEquiv_apply_left]
    apply hR
    rw [Fin.lt_def]; simp; omega

theorem qr_exists_tall (M : Matrix (Fin n ⊕ Fin n) (Fin n) ℝ) :
    ∃ R, IsQR M R ∧ R.toRows₂ = 0 := by
  obtain ⟨R, ⟨Q, hQ, hM⟩, hR⟩ := qr_exists_sum (fromCols M (0 : Matrix (Fin n ⊕ Fin n) (Fin n) ℝ))
  refine ⟨R.toCols₁, ⟨Q, hQ, ?_⟩, ?_⟩
  · have h := congrArg toCols₁ hM
    rw [toCols₁_fromCols] at h
    rw [h]
    rfl
  · ext i j
    exact congrFun (congrFun hR i) j

/-- A library meeting the contract exists. -/
theorem sqrtLib_exists (n m : ℕ) : ∃ L : SqrtLib n m, SqrtLib.Valid L := by
  classical
  choose qU hU1 hU2 using qr_exists_sum (m := m) (n := n)
  choose qP hP1 hP2 using qr_exists_tall (n := n)
  have hc : ∀ k (A : Mat k k), ∃ p, A.PosDef → p * pᵀ = A := by
    intro k A
    by_cases h : A.PosDef
    · obtain ⟨p, hp, -⟩ := chol_exists h.posSemidef
      exact ⟨p, fun _ => hp⟩
    · exact ⟨0, fun h' => absurd h' h⟩
  choose c hc using hc
  refine ⟨⟨qU, qP, fun A => A⁻¹, fun A => if A.PosDef then some (c n A) else none,
    fun A => if A.PosDef then some (c m A) else none⟩, ⟨hU1, hU2, hP1, hP2, ?_, ?_, ?_, ?_, ?_⟩⟩
  · intro A hA; exact mul_nonsing_inv _ (isUnit_iff_ne_zero.2 hA)
  · intro A hA; exact ⟨c n A, if_pos hA, hc n A hA⟩
  · intro A _ hA; exact if_neg hA
  · intro A hA; exact ⟨c m A, if_pos hA, hc m A hA⟩
  · intro A _ hA; exact if_neg hA

/-- **C28 refuted**: `P_post` returns the *prior* covariance.  Whatever the library, after one
measurement of a unit-variance state with unit noise the posterior covariance is `1/2` and
`P_post` still reports `1`. -/
theorem C28_P_post_refuted (L : SqrtLib 1 1) (hL : SqrtLib.Valid L) :
    let a : SRKF 1 1 0 := { SRKF.fresh 1 1 0 with H := 1 }
    (a.update L (some ![0])).getP = sc (1 / 2) ∧ (a.update L (some ![0])).getPPost = sc 1 := by
  intro a
  have hgp : a.getP = sc 1 := by simp [a, SRKF.getP, SRKF.fresh, sc_one, sc_mul, sc_transpose]
  have hH : a.H = sc 1 := by simp [a, sc_one]
  have hd : (a.H * (a.getP * a.Hᵀ) + (1 : Mat 1 1) * (1 : Mat 1 1)ᵀ).det ≠ 0 := by
    rw [hgp, hH, sc_one]
    simp only [sc_transpose, sc_mul, sc_add, sc_det]; norm_num
  obtain ⟨-, -, c3, c4⟩ := sqrt_update_core hL a 1 hd
  constructor
  · change _ * _ = _
    have e : (a.update L (some ![0])).P12 = ((L.qrU (a.arrayU 1)).toBlocks₂₂)ᵀ := rfl
    rw [e, c4, c3, hgp, hH, sc_one]
    simp only [sc_transpose, sc_mul, sc_add]
    rw [sc_inv _ (by norm_num)]
    simp only [sc_mul, sc_sub, sc_transpose, sc_add]
    norm_num
  · simp [SRKF.getPPost, SRKF.update, a, SRKF.fresh, sc_one, sc_mul, sc_transpose]

/-- **C20/C28 refuted** for the constructor: it never checks `dim_x` (it checks `dim_z` twice), so
`dim_x = 0` is accepted although the message says "dim_x must be 1 or greater". -/
theorem C28_init_refuted : ∃ f, SRKF.init 0 1 0 = .ok f ∧ f.n = 0 := ⟨_, rfl, rfl⟩

/-- **C28.** What the constructor does check: it raises `ValueError` exactly for `dim_z < 1`,
`dim_u < 0` or (inside numpy) a negative `dim_x`. -/
theorem C28_init_partial (dimX dimZ dimU : ℤ) :
    (SRKF.init dimX dimZ dimU = .error .valueError ↔ (dimX < 0 ∨ dimZ < 1 ∨ dimU < 0)) ∧
    (0 ≤ dimX → 1 ≤ dimZ → 0 ≤ dimU → ∃ s, SRKF.init dimX dimZ dimU = .ok s ∧ (s.n : ℤ) = dimX ∧
      (s.m : ℤ) = dimZ ∧ (s.l : ℤ) = dimU) := by
  constructor
  · unfold SRKF.init
    split_ifs <;> simp <;> omega
  · intro hx hz hu
    refine ⟨⟨dimX.toNat, dimZ.toNat, dimU.toNat, SRKF.fresh _ _ _⟩, ?_, by simp; omega, by simp; omega,
      by simp; omega⟩
    unfold SRKF.init
    rw [if_neg (by omega), if_neg (by omega), if_neg (by omega), if_neg (by omega)]

/-- Non-vacuity of C28: a library exists, and on a two-state system predict / measure / lose a
measurement / measure with another noise gives the Kalman filter's answer. -/
example : ∃ (L : SqrtLib 2 1) (a' : SRKF 2 1 1) (b' : KF 2 1 1), SqrtLib.Valid L ∧
    runList (SqrtOp.onSR L) { SRKF.fresh 2 1 1 with F := !![1, 1; 0, 1], H := !![1, 0] }
      [.predict none, .update (some ![1]) .none, .update none .none, .update (some ![2]) (.scalar 3)]
      = .ok a' ∧
    runList SqrtOp.onKF { KF.fresh 2 1 1 with F := !![1, 1; 0, 1], H := !![1, 0] }
      [.predict none, .update (some ![1]) .none, .update none .none, .update (some ![2]) (.scalar 3)]
      = .ok b' ∧ a'.x = b'.x ∧ a'.getP = b'.P := by
  obtain ⟨L, hL⟩ := sqrtLib_exists 2 1
  obtain ⟨a', b', h1, h2, h3⟩ := C28_square_root_total hL
    { SRKF.fresh 2 1 1 with F := !![1, 1; 0, 1], H := !![1, 0] }
    { KF.fresh 2 1 1 with F := !![1, 1; 0, 1], H := !![1, 0] }
    (by constructor <;> simp [SRKF.fresh, KF.fresh, SRKF.getP, SRKF.getQ, SRKF.getR, SRKF.getS,
          SRKF.getSI, SRKF.getPPrior])
    (by simp [SRKF.fresh])
    [.predict none, .update (some ![1]) .none, .update none .none, .update (some ![2]) (.scalar 3)]
    (by
      intro op hop
      simp only [List.mem_cons, List.not_mem_nil, or_false] at hop
      rcases hop with rfl | rfl | rfl | rfl <;> simp [SqrtOp.Shaped, CtrlShaped, KF.fresh])
    (by
      intro op hop
      simp only [List.mem_cons, List.not_mem_nil, or_false] at hop
      rcases hop with rfl | rfl | rfl | rfl <;> simp [SqrtOp.GoodR])
  exact ⟨L, a', b', hL, h1, h2, h3.x, h3.P⟩

end Filterpy
