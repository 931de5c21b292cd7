import Verif.Props.KalmanBasic
import Verif.Props.KalmanBatch
import Verif.Model.EKF
import Verif.Model.FadingKF
import Verif.Model.FixedLag
import Verif.Model.Stats
import Mathlib.LinearAlgebra.Matrix.Nondegenerate
import Mathlib.LinearAlgebra.Matrix.ToLinearEquiv

/-!
# Exactly when a measurement is refused (C119)

Every filter of the library inverts an innovation covariance; the smoothers invert a predicted covariance.  These theorems
say in terms of what is known and what is measured when that inversion fails, for singular `P`, `Q` and `R` as well.
-/

namespace Filterpy

open Matrix

variable {n m l : ℕ}

namespace Spec

/-- Some combination `w` of the measured quantities is already known exactly (`P Hᵀ w = 0`: it has variance zero and is
uncorrelated with the state) and is measured without noise (`R w = 0`). -/
def NothingToWeigh (P : Mat n n) (H : Mat m n) (R : Mat m m) : Prop :=
  ∃ w : Vec m, w ≠ 0 ∧ P *ᵥ (Hᵀ *ᵥ w) = 0 ∧ R *ᵥ w = 0

end Spec

open Spec

theorem psd_ker {A : Mat n n} (hA : A.PosSemidef) {v : Vec n} (h : v ⬝ᵥ (A *ᵥ v) = 0) : A *ᵥ v = 0 :=
  (hA.dotProduct_mulVec_zero_iff v).1 (by rw [star_trivial]; exact h)

theorem refused_iff {P : Mat n n} {H : Mat m n} {R : Mat m m} (hP : P.PosSemidef) (hR : R.PosSemidef) :
    (H * (P * Hᵀ) + R).det = 0 ↔ NothingToWeigh P H R := by
  rw [← exists_mulVec_eq_zero_iff]
  constructor
  · rintro ⟨w, hw, h⟩
    have e : w ⬝ᵥ ((H * (P * Hᵀ) + R) *ᵥ w) = (Hᵀ *ᵥ w) ⬝ᵥ (P *ᵥ (Hᵀ *ᵥ w)) + w ⬝ᵥ (R *ᵥ w) := by
      rw [add_mulVec, dotProduct_add, ← mulVec_mulVec, dotProduct_mulVec, ← mulVec_transpose, ← mulVec_mulVec]
    rw [h, dotProduct_zero] at e
    have h1 := PSD.quad hP (Hᵀ *ᵥ w)
    have h2 := PSD.quad hR w
    exact ⟨w, hw, psd_ker hP (by linarith), psd_ker hR (by linarith)⟩
  · rintro ⟨w, hw, h1, h2⟩
    exact ⟨w, hw, by rw [add_mulVec, h2, ← mulVec_mulVec, ← mulVec_mulVec, h1, mulVec_zero, add_zero]⟩

theorem npInv_none {A : Mat n n} (h : A.det = 0) : npInv A = none := by
  rw [npInv, if_pos h]

/-- **C119 (`KalmanFilter.update`).** `LinAlgError` is raised, and then nothing about the estimate has changed, exactly if
some combination of the measured quantities is known exactly beforehand and measured without noise. -/
theorem C119_update (s : KF n m l) (hinv : s.inv = npInv) (hP : s.P.PosSemidef) (z : Vec m) (R : MatArg m)
    (H : Option (Mat m n)) (hR : (R.resolve s.R).PosSemidef) :
    (NothingToWeigh s.P (H.getD s.H) (R.resolve s.R) → ∃ s', s.update (some z) R H = .error (.linAlgError, s') ∧
      s'.x = s.x ∧ s'.P = s.P ∧ s'.xPost = s.xPost ∧ s'.PPost = s.PPost ∧ s'.z = s.z) ∧
    (¬ NothingToWeigh s.P (H.getD s.H) (R.resolve s.R) → ∃ s', s.update (some z) R H = .ok s') := by
  rw [← refused_iff hP hR]
  constructor
  · intro h
    refine ⟨_, by simp only [KF.update, hinv, npInv_none h]; rfl, ?_, ?_, ?_, ?_, ?_⟩ <;> rfl
  · intro h
    exact ⟨_, by simp only [KF.update, hinv, npInv_of_det_ne h]; rfl⟩

/-- **C119 (`FadingKalmanFilter.update`).** -/
theorem C119_fading (s : FKF n m l) (hP : s.P.PosSemidef) (z : Vec m) (R : MatArg m)
    (hR : (R.resolve s.R).PosSemidef) :
    (NothingToWeigh s.P s.H (R.resolve s.R) → ∃ s', s.update (some z) R = .error (.linAlgError, s') ∧
      s'.x = s.x ∧ s'.P = s.P ∧ s'.xPost = s.xPost ∧ s'.PPost = s.PPost ∧ s'.z = s.z) ∧
    (¬ NothingToWeigh s.P s.H (R.resolve s.R) → ∃ s', s.update (some z) R = .ok s') := by
  rw [← refused_iff hP hR]
  constructor
  · intro h
    refine ⟨_, by simp only [FKF.update, npInv_none h]; rfl, ?_, ?_, ?_, ?_, ?_⟩ <;> rfl
  · intro h
    exact ⟨_, by simp only [FKF.update, npInv_of_det_ne h]; rfl⟩

/-- **C119 (`ExtendedKalmanFilter.update`).** The same with the Jacobian at the current state, for all measurement and
residual functions. -/
theorem C119_ekf (s : EKF n m l) (hP : s.P.PosSemidef) (z : Vec m) (HJ : Vec n → Mat m n) (hx : Vec n → Vec m)
    (R : MatArg m) (residual : Vec m → Vec m → Vec m) (hR : (R.resolve s.R).PosSemidef) :
    (NothingToWeigh s.P (HJ s.x) (R.resolve s.R) → ∃ s', s.update (some z) HJ hx R residual = .error (.linAlgError, s') ∧
      s'.x = s.x ∧ s'.P = s.P ∧ s'.xPost = s.xPost ∧ s'.PPost = s.PPost ∧ s'.z = s.z) ∧
    (¬ NothingToWeigh s.P (HJ s.x) (R.resolve s.R) → ∃ s', s.update (some z) HJ hx R residual = .ok s') := by
  rw [← refused_iff hP hR]
  constructor
  · intro h
    refine ⟨_, by simp only [EKF.update, npInv_none h]; rfl, ?_, ?_, ?_, ?_, ?_⟩ <;> rfl
  · intro h
    exact ⟨_, by simp only [EKF.update, npInv_of_det_ne h]; rfl⟩

/-- **C119 (nothing known exactly).** With a positive definite `P` only redundant noise-free sensors are refused: some
combination of the measurements involves neither the state nor noise. -/
theorem C119_redundant (s : KF n m l) (hinv : s.inv = npInv) (hP : s.P.PosDef) (z : Vec m) (R : MatArg m)
    (H : Option (Mat m n)) (hR : (R.resolve s.R).PosSemidef) :
    (∃ e s', s.update (some z) R H = .error (e, s')) ↔
      ∃ w : Vec m, w ≠ 0 ∧ (H.getD s.H)ᵀ *ᵥ w = 0 ∧ R.resolve s.R *ᵥ w = 0 := by
  have hk : NothingToWeigh s.P (H.getD s.H) (R.resolve s.R) ↔
      ∃ w : Vec m, w ≠ 0 ∧ (H.getD s.H)ᵀ *ᵥ w = 0 ∧ R.resolve s.R *ᵥ w = 0 := by
    constructor
    · rintro ⟨w, hw, h1, h2⟩
      refine ⟨w, hw, ?_, h2⟩
      by_contra hne
      have := PD.quad hP hne
      rw [h1, dotProduct_zero] at this
      exact lt_irrefl _ this
    · rintro ⟨w, hw, h1, h2⟩
      exact ⟨w, hw, by rw [h1, mulVec_zero], h2⟩
  obtain ⟨h1, h2⟩ := C119_update s hinv hP.posSemidef z R H hR
  rw [← hk]
  constructor
  · rintro ⟨e, s', h⟩
    by_contra hn
    obtain ⟨s'', h'⟩ := h2 hn
    rw [h'] at h
    cases h
  · intro h
    obtain ⟨s', h', -⟩ := h1 h
    exact ⟨_, s', h'⟩

/-- **C119 (`update_correlated`).** With the joint covariance of state error and measurement noise positive semidefinite
(`M` its off-diagonal block), the call is refused exactly if some combination of the measurements has an innovation that
is uncorrelated with both. -/
theorem C119_correlated (s : KF n m l) (hinv : s.inv = npInv) (z : Vec m) (R : MatArg m) (H : Option (Mat m n))
    (hP : s.Pᵀ = s.P) (hR : (R.resolve s.R)ᵀ = R.resolve s.R)
    (hJ : ∀ v w, 0 ≤ v ⬝ᵥ (s.P *ᵥ v) + 2 * (v ⬝ᵥ (s.M *ᵥ w)) + w ⬝ᵥ (R.resolve s.R *ᵥ w)) :
    ((∃ w : Vec m, w ≠ 0 ∧ s.P *ᵥ ((H.getD s.H)ᵀ *ᵥ w) + s.M *ᵥ w = 0 ∧
        s.Mᵀ *ᵥ ((H.getD s.H)ᵀ *ᵥ w) + R.resolve s.R *ᵥ w = 0) →
      ∃ s', s.updateCorrelated (some z) R H = .error (.linAlgError, s') ∧ s'.x = s.x ∧ s'.P = s.P ∧ s'.xPost = s.xPost ∧
        s'.PPost = s.PPost ∧ s'.z = s.z) ∧
    ((¬ ∃ w : Vec m, w ≠ 0 ∧ s.P *ᵥ ((H.getD s.H)ᵀ *ᵥ w) + s.M *ᵥ w = 0 ∧
        s.Mᵀ *ᵥ ((H.getD s.H)ᵀ *ᵥ w) + R.resolve s.R *ᵥ w = 0) →
      ∃ s', s.updateCorrelated (some z) R H = .ok s') := by
  set A := H.getD s.H with hA
  set R' := R.resolve s.R with hR'
  have key : (A * (s.P * Aᵀ) + A * s.M + s.Mᵀ * Aᵀ + R').det = 0 ↔ ∃ w : Vec m, w ≠ 0 ∧
      s.P *ᵥ (Aᵀ *ᵥ w) + s.M *ᵥ w = 0 ∧ s.Mᵀ *ᵥ (Aᵀ *ᵥ w) + R' *ᵥ w = 0 := by
    rw [← exists_mulVec_eq_zero_iff]
    have e : ∀ w, (A * (s.P * Aᵀ) + A * s.M + s.Mᵀ * Aᵀ + R') *ᵥ w =
        A *ᵥ (s.P *ᵥ (Aᵀ *ᵥ w) + s.M *ᵥ w) + (s.Mᵀ *ᵥ (Aᵀ *ᵥ w) + R' *ᵥ w) := by
      intro w
      simp only [add_mulVec, mulVec_add, mulVec_mulVec]
      abel
    constructor
    · rintro ⟨w, hw, h⟩
      rw [e] at h
      -- the joint form vanishes at `(Aᵀ w, w)`, a minimum
      set v := Aᵀ *ᵥ w with hv
      have h0 : v ⬝ᵥ (s.P *ᵥ v) + 2 * (v ⬝ᵥ (s.M *ᵥ w)) + w ⬝ᵥ (R' *ᵥ w) = 0 := by
        have h1 := congrArg (w ⬝ᵥ ·) h
        simp only [dotProduct_add, dotProduct_zero] at h1
        rw [dotProduct_mulVec w A, ← mulVec_transpose, ← hv, dotProduct_add, dotProduct_mulVec w s.Mᵀ,
          vecMul_transpose, dotProduct_comm (s.M *ᵥ w) v] at h1
        linarith
      have hgrad : ∀ a b, a ⬝ᵥ (s.P *ᵥ v + s.M *ᵥ w) + b ⬝ᵥ (s.Mᵀ *ᵥ v + R' *ᵥ w) = 0 := by
        intro a b
        by_contra hne
        set g := a ⬝ᵥ (s.P *ᵥ v + s.M *ᵥ w) + b ⬝ᵥ (s.Mᵀ *ᵥ v + R' *ᵥ w) with hg
        set q := a ⬝ᵥ (s.P *ᵥ a) + 2 * (a ⬝ᵥ (s.M *ᵥ b)) + b ⬝ᵥ (R' *ᵥ b) with hq
        have hq0 : 0 ≤ q := hJ a b
        have hexp : ∀ t : ℝ, 0 ≤ 2 * t * g + t ^ 2 * q := by
          intro t
          have h2 := hJ (v + t • a) (w + t • b)
          have s1 : v ⬝ᵥ (s.P *ᵥ a) = a ⬝ᵥ (s.P *ᵥ v) := by
            rw [dotProduct_mulVec, ← mulVec_transpose, hP, dotProduct_comm]
          have s2 : w ⬝ᵥ (R' *ᵥ b) = b ⬝ᵥ (R' *ᵥ w) := by
            rw [dotProduct_mulVec, ← mulVec_transpose, hR, dotProduct_comm]
          have s3 : b ⬝ᵥ (s.Mᵀ *ᵥ v) = v ⬝ᵥ (s.M *ᵥ b) := by
            rw [dotProduct_mulVec, vecMul_transpose, dotProduct_comm]
          simp only [mulVec_add, mulVec_smul, dotProduct_add, add_dotProduct, dotProduct_smul, smul_dotProduct,
            smul_eq_mul] at h2
          simp only [dotProduct_add] at hg
          rw [hg, hq]
          rw [s1, s2] at h2
          rw [s3]
          nlinarith [h2, h0]
        have hq1 : 0 < q + 1 := by linarith
        have := hexp (-g / (q + 1))
        have e2 : 2 * (-g / (q + 1)) * g + (-g / (q + 1)) ^ 2 * q = -(g ^ 2 * (q + 2)) / (q + 1) ^ 2 := by
          field_simp
          ring
        rw [e2] at this
        have hgpos : 0 < g ^ 2 := by positivity
        have : -(g ^ 2 * (q + 2)) / (q + 1) ^ 2 < 0 := div_neg_of_neg_of_pos (by nlinarith) (by positivity)
        linarith
      refine ⟨w, hw, ?_, ?_⟩
      · have := hgrad (s.P *ᵥ v + s.M *ᵥ w) 0
        rw [zero_dotProduct, add_zero] at this
        exact dotProduct_self_eq_zero.1 this
      · have := hgrad 0 (s.Mᵀ *ᵥ v + R' *ᵥ w)
        rw [zero_dotProduct, zero_add] at this
        exact dotProduct_self_eq_zero.1 this
    · rintro ⟨w, hw, h1, h2⟩
      exact ⟨w, hw, by rw [e, h1, h2, mulVec_zero, add_zero]⟩
  rw [← key]
  constructor
  · intro h
    refine ⟨_, by simp only [KF.updateCorrelated, hinv, ← hA, ← hR', npInv_none h]; rfl, ?_, ?_, ?_, ?_, ?_⟩ <;> rfl
  · intro h
    exact ⟨_, by simp only [KF.updateCorrelated, hinv, ← hA, ← hR', npInv_of_det_ne h]; rfl⟩

/-! ## The smoothers -/

theorem step_cases {P F Q : Mat n n} (hP : P.PosSemidef) (hQ : Q.PosSemidef) (x : Vec n) (nxt : KF.RtsOut n) :
    (NothingToWeigh P F Q → KF.rtsStep npInv x P F Q nxt = .error .linAlgError) ∧
    (¬ NothingToWeigh P F Q → ∃ o, KF.rtsStep npInv x P F Q nxt = .ok o) := by
  rw [← refused_iff hP hQ, ← Matrix.mul_assoc]
  constructor
  · intro h
    simp only [KF.rtsStep, npInv_none h]
  · intro h
    exact ⟨_, by simp only [KF.rtsStep, npInv_of_det_ne h]; rfl⟩

theorem rts_loop (L : List ((Vec n × Mat n n) × (Mat n n × Mat n n)))
    (hP : ∀ e ∈ L, e.1.2.PosSemidef) (hQ : ∀ e ∈ L, e.2.2.PosSemidef) :
    ((∀ i (h : i + 1 < L.length), ¬ NothingToWeigh L[i].1.2 L[i + 1].2.1 L[i + 1].2.2) →
      ∃ o, KF.rtsLoop npInv L = .ok o ∧ o.length = L.length) ∧
    ((∃ i, ∃ h : i + 1 < L.length, NothingToWeigh L[i].1.2 L[i + 1].2.1 L[i + 1].2.2) →
      KF.rtsLoop npInv L = .error .linAlgError) := by
  induction L with
  | nil => exact ⟨fun _ => ⟨[], rfl, rfl⟩, fun ⟨i, h, _⟩ => absurd h (by simp)⟩
  | cons e L ih =>
    cases L with
    | nil => exact ⟨fun _ => ⟨_, rfl, rfl⟩, fun ⟨i, h, _⟩ => absurd h (by simp)⟩
    | cons e' rest =>
      obtain ⟨ih1, ih2⟩ := ih (fun a ha => hP a (List.mem_cons_of_mem _ ha)) (fun a ha => hQ a (List.mem_cons_of_mem _ ha))
      have hPe := hP e List.mem_cons_self
      have hQe := hQ e' (List.mem_cons_of_mem _ List.mem_cons_self)
      by_cases hgood : ∀ i (h : i + 1 < (e' :: rest).length),
          ¬ NothingToWeigh (e' :: rest)[i].1.2 (e' :: rest)[i + 1].2.1 (e' :: rest)[i + 1].2.2
      · obtain ⟨o, ho, hlen⟩ := ih1 hgood
        obtain ⟨nxt, o', rfl⟩ : ∃ a b, o = a :: b := by
          cases o with
          | nil => simp at hlen
          | cons a b => exact ⟨a, b, rfl⟩
        obtain ⟨hb, hg⟩ := step_cases (F := e'.2.1) hPe hQe e.1.1 nxt
        constructor
        · intro h
          obtain ⟨r, hr⟩ := hg (h 0 (by simp))
          exact ⟨r :: nxt :: o', by simp only [KF.rtsLoop, ho, bind, Except.bind, hr], by simpa using hlen⟩
        · rintro ⟨i, h, hbad⟩
          cases i with
          | zero =>
            have := hb hbad
            simp only [KF.rtsLoop, ho, bind, Except.bind, this]
          | succ i => exact absurd hbad (hgood i (by simpa using h))
      · have hex : ∃ i, ∃ h : i + 1 < (e' :: rest).length,
            NothingToWeigh (e' :: rest)[i].1.2 (e' :: rest)[i + 1].2.1 (e' :: rest)[i + 1].2.2 := by
          by_contra hno
          exact hgood fun i h hb => hno ⟨i, h, hb⟩
        have herr := ih2 hex
        refine ⟨fun h => ?_, fun _ => by simp only [KF.rtsLoop, herr, bind, Except.bind]⟩
        obtain ⟨i, hi, hb⟩ := hex
        exact absurd hb (h (i + 1) (by simpa using hi))

/-- **C119 (`KalmanFilter.rts_smoother`).** The smoother fails exactly if, between two consecutive entries, some
direction of the predicted state is known exactly and is not disturbed by the process noise. -/
theorem C119_smoother (s : KF n m l) (Xs : List (Vec n)) (Ps : List (Mat n n)) (Fs Qs : Option (List (Mat n n)))
    (hlen : Xs.length = Ps.length) (hF : Xs.length ≤ (Fs.getD (List.replicate Xs.length s.F)).length)
    (hQ : Xs.length ≤ (Qs.getD (List.replicate Xs.length s.Q)).length) (hP : ∀ P ∈ Ps, P.PosSemidef)
    (hQs : ∀ Q ∈ Qs.getD (List.replicate Xs.length s.Q), Q.PosSemidef) :
    ((∀ i (h : i + 1 < Xs.length), ¬ NothingToWeigh (Ps[i]'(by omega))
        ((Fs.getD (List.replicate Xs.length s.F))[i + 1]'(by omega))
        ((Qs.getD (List.replicate Xs.length s.Q))[i + 1]'(by omega))) →
      ∃ o, s.rtsSmoother Xs Ps Fs Qs = .ok o ∧ o.length = Xs.length) ∧
    ((∃ i, ∃ h : i + 1 < Xs.length, NothingToWeigh (Ps[i]'(by omega))
        ((Fs.getD (List.replicate Xs.length s.F))[i + 1]'(by omega))
        ((Qs.getD (List.replicate Xs.length s.Q))[i + 1]'(by omega))) →
      s.rtsSmoother Xs Ps Fs Qs = .error .linAlgError) := by
  set F' := Fs.getD (List.replicate Xs.length s.F) with hF'
  set Q' := Qs.getD (List.replicate Xs.length s.Q) with hQ'
  by_cases hk : Xs.length < 2
  · refine ⟨fun _ => ?_, fun ⟨i, h, _⟩ => by omega⟩
    have e : s.rtsSmoother Xs Ps Fs Qs = KF.rtsLoop npInv ((Xs.zip Ps).map fun e => (e, (0, 0))) := by
      simp only [KF.rtsSmoother, ne_eq, hlen, not_true, if_false]
      rw [if_neg (by omega), if_pos (by omega)]
    have hl : ((Xs.zip Ps).map fun e => (e, ((0 : Mat n n), (0 : Mat n n)))).length = Xs.length := by simp [hlen]
    rw [e]
    obtain ⟨o, ho, hol⟩ := (rts_loop ((Xs.zip Ps).map fun e => (e, ((0 : Mat n n), (0 : Mat n n)))) (by
      intro e he
      obtain ⟨a, ha, rfl⟩ := List.mem_map.1 he
      exact hP _ (List.of_mem_zip ha).2) (by
      intro e he
      obtain ⟨a, ha, rfl⟩ := List.mem_map.1 he
      exact Matrix.PosSemidef.zero)).1 (fun i h => by omega)
    exact ⟨o, ho, hol.trans hl⟩
  · have e : s.rtsSmoother Xs Ps Fs Qs = KF.rtsLoop npInv ((Xs.zip Ps).zip (F'.zip Q')) := by
      simp only [KF.rtsSmoother, ne_eq, hlen, not_true, if_false]
      rw [← hlen, ← hF', ← hQ', if_neg (by omega), if_neg hk]
    have hl : ((Xs.zip Ps).zip (F'.zip Q')).length = Xs.length := by simp; omega
    rw [e]
    obtain ⟨h1, h2⟩ := rts_loop ((Xs.zip Ps).zip (F'.zip Q')) (fun e he => hP _ (List.of_mem_zip (List.of_mem_zip he).1).2)
      (fun e he => hQs _ (List.of_mem_zip (List.of_mem_zip he).2).2)
    refine ⟨fun h => ?_, fun ⟨i, h, hb⟩ => h2 ⟨i, by omega, by simpa using hb⟩⟩
    obtain ⟨o, ho, hol⟩ := h1 fun i hi => by simpa using h i (by omega)
    exact ⟨o, ho, hol.trans hl⟩

theorem rts_fun_loop (L : List ((Vec n × Mat n n) × (Mat n n × Mat n n)))
    (hP : ∀ e ∈ L, e.1.2.PosSemidef) (hQ : ∀ e ∈ L, e.2.2.PosSemidef) :
    ((∀ i (h : i + 1 < L.length), ¬ NothingToWeigh L[i].1.2 L[i].2.1 L[i].2.2) →
      ∃ o, KFun.rtsLoop L = .ok o ∧ o.length = L.length) ∧
    ((∃ i, ∃ h : i + 1 < L.length, NothingToWeigh L[i].1.2 L[i].2.1 L[i].2.2) →
      KFun.rtsLoop L = .error .linAlgError) := by
  induction L with
  | nil => exact ⟨fun _ => ⟨[], rfl, rfl⟩, fun ⟨i, h, _⟩ => absurd h (by simp)⟩
  | cons e L ih =>
    cases L with
    | nil => exact ⟨fun _ => ⟨_, rfl, rfl⟩, fun ⟨i, h, _⟩ => absurd h (by simp)⟩
    | cons e' rest =>
      obtain ⟨ih1, ih2⟩ := ih (fun a ha => hP a (List.mem_cons_of_mem _ ha)) (fun a ha => hQ a (List.mem_cons_of_mem _ ha))
      have hPe := hP e List.mem_cons_self
      have hQe := hQ e List.mem_cons_self
      by_cases hgood : ∀ i (h : i + 1 < (e' :: rest).length),
          ¬ NothingToWeigh (e' :: rest)[i].1.2 (e' :: rest)[i].2.1 (e' :: rest)[i].2.2
      · obtain ⟨o, ho, hlen⟩ := ih1 hgood
        obtain ⟨nxt, o', rfl⟩ : ∃ a b, o = a :: b := by
          cases o with
          | nil => simp at hlen
          | cons a b => exact ⟨a, b, rfl⟩
        obtain ⟨hb, hg⟩ := step_cases (F := e.2.1) hPe hQe e.1.1 nxt
        constructor
        · intro h
          obtain ⟨r, hr⟩ := hg (h 0 (by simp))
          exact ⟨r :: nxt :: o', by simp only [KFun.rtsLoop, ho, bind, Except.bind, hr], by simpa using hlen⟩
        · rintro ⟨i, h, hbad⟩
          cases i with
          | zero =>
            have := hb hbad
            simp only [KFun.rtsLoop, ho, bind, Except.bind, this]
          | succ i => exact absurd hbad (hgood i (by simpa using h))
      · have hex : ∃ i, ∃ h : i + 1 < (e' :: rest).length,
            NothingToWeigh (e' :: rest)[i].1.2 (e' :: rest)[i].2.1 (e' :: rest)[i].2.2 := by
          by_contra hno
          exact hgood fun i h hb => hno ⟨i, h, hb⟩
        have herr := ih2 hex
        refine ⟨fun h => ?_, fun _ => by simp only [KFun.rtsLoop, herr, bind, Except.bind]⟩
        obtain ⟨i, hi, hb⟩ := hex
        exact absurd hb (h (i + 1) (by simpa using hi))

/-- **C119 (the function `rts_smoother`).** The same, with the entry `k` of `Fs` and `Qs` for the step from `k` to
`k + 1`. -/
theorem C119_smoother_function (Xs : List (Vec n)) (Ps Fs Qs : List (Mat n n)) (hlen : Xs.length = Ps.length)
    (hF : Xs.length ≤ Fs.length + 1) (hQ : Xs.length ≤ Qs.length + 1) (hP : ∀ P ∈ Ps, P.PosSemidef)
    (hQs : ∀ Q ∈ Qs, Q.PosSemidef) :
    ((∀ i (h : i + 1 < Xs.length), ¬ NothingToWeigh (Ps[i]'(by omega)) (Fs[i]'(by omega)) (Qs[i]'(by omega))) →
      ∃ o, KFun.rtsSmoother Xs Ps Fs Qs = .ok o ∧ o.length = Xs.length) ∧
    ((∃ i, ∃ h : i + 1 < Xs.length, NothingToWeigh (Ps[i]'(by omega)) (Fs[i]'(by omega)) (Qs[i]'(by omega))) →
      KFun.rtsSmoother Xs Ps Fs Qs = .error .linAlgError) := by
  have e : KFun.rtsSmoother Xs Ps Fs Qs = KFun.rtsLoop ((Xs.zip Ps).zip ((Fs ++ [0]).zip (Qs ++ [0]))) := by
    simp only [KFun.rtsSmoother, ne_eq, hlen, not_true, if_false]
    rw [if_neg (by omega)]
  have hl : ((Xs.zip Ps).zip ((Fs ++ [0]).zip (Qs ++ [0]))).length = Xs.length := by simp; omega
  rw [e]
  obtain ⟨h1, h2⟩ := rts_fun_loop ((Xs.zip Ps).zip ((Fs ++ [0]).zip (Qs ++ [0])))
    (fun e he => hP _ (List.of_mem_zip (List.of_mem_zip he).1).2) (fun e he => by
      rcases List.mem_append.1 (List.of_mem_zip (List.of_mem_zip he).2).2 with h | h
      · exact hQs _ h
      · rw [List.mem_singleton.1 h]
        exact Matrix.PosSemidef.zero)
  have hget : ∀ i (h : i + 1 < Xs.length) (h' : i < ((Xs.zip Ps).zip ((Fs ++ [0]).zip (Qs ++ [0]))).length),
      ((Xs.zip Ps).zip ((Fs ++ [0]).zip (Qs ++ [0])))[i].1.2 = Ps[i]'(by omega) ∧
      ((Xs.zip Ps).zip ((Fs ++ [0]).zip (Qs ++ [0])))[i].2.1 = Fs[i]'(by omega) ∧
      ((Xs.zip Ps).zip ((Fs ++ [0]).zip (Qs ++ [0])))[i].2.2 = Qs[i]'(by omega) := by
    intro i h h'
    simp only [List.getElem_zip]
    exact ⟨trivial, List.getElem_append_left (by omega), List.getElem_append_left (by omega)⟩
  constructor
  · intro h
    obtain ⟨o, ho, hol⟩ := h1 fun i hi => by
      obtain ⟨a, b, c⟩ := hget i (by omega) (by omega)
      rw [a, b, c]
      exact h i (by omega)
    exact ⟨o, ho, hol.trans hl⟩
  · rintro ⟨i, h, hb⟩
    refine h2 ⟨i, by omega, ?_⟩
    obtain ⟨a, b, c⟩ := hget i (by omega) (by omega)
    rw [a, b, c]
    exact hb

/-- **C119 (`FixedLagSmoother.smooth`).** -/
theorem C119_fixed_lag (s : FLS n m l) (z : Vec m) (u : UArg l) (bu : Vec n) (xs : List (Vec n)) (N : ℕ)
    (hP : s.P.PosSemidef) (hQ : s.Q.PosSemidef) (hR : s.R.PosSemidef) (hu : FLS.control s.B u = .ok bu)
    (hxs : s.xSmooth = some xs) (hN : s.N = some N) :
    (NothingToWeigh (s.F * s.P * s.Fᵀ + s.Q) s.H s.R → ∃ s', s.smooth (z, u) = .error (.linAlgError, s') ∧
      s'.x = s.x ∧ s'.P = s.P ∧ s'.xSmooth = s.xSmooth ∧ s'.count = s.count) ∧
    (¬ NothingToWeigh (s.F * s.P * s.Fᵀ + s.Q) s.H s.R → ∃ s', s.smooth (z, u) = .ok s') := by
  have hPp : (s.F * s.P * s.Fᵀ + s.Q).PosSemidef := (PSD.congr hP s.F).add hQ
  rw [← refused_iff hPp hR, ← Matrix.mul_assoc]
  constructor
  · intro h
    refine ⟨_, by simp only [FLS.smooth, hu, FLS.priorOf, npInv_none h]; rfl, ?_, ?_, ?_, ?_⟩ <;> rfl
  · intro h
    exact ⟨_, by simp only [FLS.smooth, hu, FLS.priorOf, npInv_of_det_ne h, hxs, hN]; rfl⟩

/-- **C119 (`multivariate_multiply`).** The product of two Gaussians is refused exactly if they share a direction without
uncertainty. -/
theorem C119_multiply (m1 m2 : Vec n) (c1 c2 : Mat n n) (h1 : c1.PosSemidef) (h2 : c2.PosSemidef) :
    ((∃ w : Vec n, w ≠ 0 ∧ c1 *ᵥ w = 0 ∧ c2 *ᵥ w = 0) → Stats.multivariateMultiply m1 c1 m2 c2 = .error .linAlgError) ∧
    ((¬ ∃ w : Vec n, w ≠ 0 ∧ c1 *ᵥ w = 0 ∧ c2 *ᵥ w = 0) → ∃ r, Stats.multivariateMultiply m1 c1 m2 c2 = .ok r) := by
  have key := refused_iff (H := (1 : Mat n n)) h1 h2
  simp only [transpose_one, Matrix.mul_one, Matrix.one_mul, NothingToWeigh, one_mulVec] at key
  rw [← key]
  constructor
  · intro h
    simp only [Stats.multivariateMultiply, npInv_none h]
  · intro h
    exact ⟨_, by simp only [Stats.multivariateMultiply, npInv_of_det_ne h]; rfl⟩

/-! ## Whole histories -/

namespace Spec

/-- The call uses positive definite measurement noise (and semidefinite process noise). -/
def NoisyCall (R0 : Mat m m) : KFOp n m l → Prop
  | .predict _ _ _ Q => PSDArg Q
  | .update _ R _ => (R.resolve R0).PosDef
  | .updateCorrelated .. => False
  | .updateSequential _ _ _ Ri _ => ∀ D, D.PosDef → (Ri.resolve D).PosDef
  | _ => True

end Spec

theorem noisy_accepts {P : Mat n n} {H : Mat m n} {R : Mat m m} (hP : P.PosSemidef) (hR : R.PosDef) :
    (H * (P * Hᵀ) + R).det ≠ 0 := by
  rw [ne_eq, refused_iff hP hR.posSemidef]
  rintro ⟨w, hw, -, h⟩
  have := PD.quad hR hw
  rw [h, dotProduct_zero] at this
  exact lt_irrefl _ this

structure NoisyState (R0 : Mat m m) (s : KF n m l) : Prop where
  P : s.P.PosSemidef
  Q : s.Q.PosSemidef
  R : s.R = R0
  alpha : 0 ≤ s.alphaSq
  inv : s.inv = npInv

theorem control_err {B : Option (Mat n l)} {u : UArg l} {e : Err} (h : KF.control B u = .error e) : e = .shape := by
  unfold KF.control at h
  split at h <;> try cases h
  split_ifs at h
  cases h
  rfl

theorem steady_control_err {B : Option (Mat n l)} {u : UArg l} {e : Err} (h : KF.steadyControl B u = .error e) :
    e = .shape ∨ e = .typeError := by
  unfold KF.steadyControl at h
  split at h
  · cases h; exact Or.inr rfl
  · exact Or.inl (control_err h)

theorem noisy_step (expf : ℝ → ℝ) {R0 : Mat m m} (hR : R0.PosDef) {s : KF n m l} (h : NoisyState R0 s) {op : KFOp n m l}
    (ho : NoisyCall R0 op) :
    (∀ s', s.step expf op = .ok s' → NoisyState R0 s') ∧
      ∀ e s', s.step expf op = .error (e, s') → e ≠ .linAlgError ∧ e ≠ .nonFinite := by
  cases op with
  | predict u B F Q =>
    refine ⟨fun s' hs => ?_, fun e s' hs => ?_⟩
    · obtain ⟨x, rfl⟩ := KF.predict_ok hs
      exact ⟨((PSD.congr h.P (F.getD s.F)).smul h.alpha).add (PSDArg.resolve ho h.Q), h.Q, h.R, h.alpha, h.inv⟩
    · simp only [KF.step, KF.predict] at hs
      cases hc : KF.control (B.or s.B) u with
      | error e' =>
        simp only [hc, Except.error.injEq, Prod.mk.injEq] at hs
        obtain ⟨rfl, -⟩ := hs
        rw [control_err hc]
        exact ⟨by simp, by simp⟩
      | ok b => simp only [hc] at hs; cases hs
  | update z R H =>
    cases z with
    | none =>
      refine ⟨fun s' hs => ?_, fun e s' hs => by cases hs⟩
      simp only [KF.step, KF.update, Except.ok.injEq] at hs
      rw [← hs]
      exact ⟨h.P, h.Q, h.R, h.alpha, h.inv⟩
    | some z =>
      have ho' : (R.resolve s.R).PosDef := by rw [h.R]; exact ho
      refine ⟨fun s' hs => ?_, fun e s' hs => ?_⟩
      · obtain ⟨SI, _, rfl⟩ := KF.update_ok hs
        exact ⟨joseph_psd h.P ho'.posSemidef _, h.Q, h.R, h.alpha, h.inv⟩
      · simp only [KF.step, KF.update, h.inv, npInv_of_det_ne (noisy_accepts h.P ho')] at hs
        cases hs
  | updateSequential start len zi Ri Hi =>
    refine ⟨fun s' hs => ?_, fun e s' hs => ?_⟩
    · obtain ⟨hb, Ki, _, _, rfl⟩ := KF.updateSequential_ok hs
      have hRi := ho (s.R.submatrix (KF.sliceIdx hb) (KF.sliceIdx hb)) (by
        rw [h.R]
        exact hR.submatrix fun a b hab => by simpa [KF.sliceIdx, Fin.ext_iff] using hab)
      exact ⟨joseph_psd h.P hRi.posSemidef _, h.Q, h.R, h.alpha, h.inv⟩
    · simp only [KF.step, KF.updateSequential] at hs
      split_ifs at hs with hb hl hz
      · exfalso
        have hRi := ho (s.R.submatrix (KF.sliceIdx hb) (KF.sliceIdx hb)) (by
          rw [h.R]
          exact hR.submatrix fun a b hab => by simpa [KF.sliceIdx, Fin.ext_iff] using hab)
        have hd := noisy_accepts (H := Hi.getD (s.H.submatrix (KF.sliceIdx hb) id)) h.P hRi
        subst hl
        rw [det_fin_one] at hd
        exact hd hz
      · have hRi := ho (s.R.submatrix (KF.sliceIdx hb) (KF.sliceIdx hb)) (by
          rw [h.R]
          exact hR.submatrix fun a b hab => by simpa [KF.sliceIdx, Fin.ext_iff] using hab)
        simp only [npInv_of_det_ne (noisy_accepts (H := Hi.getD (s.H.submatrix (KF.sliceIdx hb) id)) h.P hRi)] at hs
        cases hs
      · cases hs
        rcases KF.sliceErr_cases Ri Hi with h | h <;> rw [h] <;> exact ⟨by simp, by simp⟩
  | predictSteadystate u B =>
    refine ⟨fun s' hs => ?_, fun e s' hs => ?_⟩
    · obtain ⟨x, rfl⟩ := KF.predictSteadystate_ok hs
      exact ⟨h.P, h.Q, h.R, h.alpha, h.inv⟩
    · simp only [KF.step, KF.predictSteadystate] at hs
      cases hc : KF.steadyControl (B.or s.B) u with
      | error e' =>
        simp only [hc, Except.error.injEq, Prod.mk.injEq] at hs
        obtain ⟨rfl, -⟩ := hs
        rcases steady_control_err hc with h | h <;> rw [h] <;> exact ⟨by simp, by simp⟩
      | ok b => simp only [hc] at hs; cases hs
  | updateSteadystate z =>
    refine ⟨fun s' hs => ?_, fun e s' hs => by cases hs⟩
    cases hs
    cases z <;> exact ⟨h.P, h.Q, h.R, h.alpha, h.inv⟩
  | updateCorrelated z R H => exact ho.elim
  | readLogLik =>
    refine ⟨fun s' hs => ?_, fun e s' hs => by cases hs⟩
    cases hs
    obtain ⟨v, hv⟩ := KF.readLogLik_state s
    rw [hv]
    exact ⟨h.P, h.Q, h.R, h.alpha, h.inv⟩
  | readLik =>
    refine ⟨fun s' hs => ?_, fun e s' hs => by cases hs⟩
    cases hs
    obtain ⟨v, w, hv⟩ := KF.readLik_state expf s
    rw [hv]
    exact ⟨h.P, h.Q, h.R, h.alpha, h.inv⟩
  | readMahal =>
    cases hm : s.readMahal with
    | error e =>
      refine ⟨fun s' hs => by (simp only [KF.step, hm] at hs; cases hs), fun e' s' hs => ?_⟩
      simp only [KF.step, hm, Except.error.injEq, Prod.mk.injEq] at hs
      obtain ⟨rfl, -⟩ := hs
      unfold KF.readMahal at hm
      split at hm
      · cases hm
      · simp only at hm
        split_ifs at hm
        cases hm
        exact ⟨by simp, by simp⟩
    | ok r =>
      refine ⟨fun s' hs => ?_, fun e' s' hs => by (simp only [KF.step, hm] at hs; cases hs)⟩
      simp only [KF.step, hm, Except.ok.injEq] at hs
      obtain ⟨v, hv⟩ := KF.readMahal_state hm
      rw [← hs, hv]
      exact ⟨h.P, h.Q, h.R, h.alpha, h.inv⟩
  | setAlpha v =>
    refine ⟨fun s' hs => ?_, fun e s' hs => ?_⟩
    · obtain ⟨_, rfl⟩ := KF.setAlpha_ok hs
      exact ⟨h.P, h.Q, h.R, sq_nonneg v, h.inv⟩
    · simp only [KF.step, KF.setAlpha] at hs
      split_ifs at hs
      cases hs
      exact ⟨by simp, by simp⟩

/-- **C119 (histories).** With positive definite measurement noise no history of calls raises `LinAlgError`
or divides by zero; what can still be raised is due to unsuitable arguments. -/
theorem C119_run (expf : ℝ → ℝ) (s : KF n m l) (hinv : s.inv = npInv) (hP : s.P.PosSemidef) (hQ : s.Q.PosSemidef)
    (hR : s.R.PosDef) (ha : 0 ≤ s.alphaSq) (ops : List (KFOp n m l)) (hops : ∀ op ∈ ops, NoisyCall s.R op) :
    ∀ e s', s.run expf ops = .error (e, s') → e ≠ .linAlgError ∧ e ≠ .nonFinite := by
  have key : ∀ (ops : List (KFOp n m l)) (v : KF n m l), NoisyState s.R v → (∀ op ∈ ops, NoisyCall s.R op) →
      ∀ e s', v.run expf ops = .error (e, s') → e ≠ .linAlgError ∧ e ≠ .nonFinite := by
    intro ops
    induction ops with
    | nil => intro v _ _ e s' h; cases h
    | cons op ops ih =>
      intro v hv hg e s' h
      obtain ⟨h1, h2⟩ := noisy_step expf hR hv (hg op List.mem_cons_self)
      cases hs : v.step expf op with
      | ok v' =>
        simp only [KF.run, hs] at h
        exact ih v' (h1 v' hs) (fun o ho => hg o (List.mem_cons_of_mem _ ho)) e s' h
      | error er =>
        simp only [KF.run, hs, Except.error.injEq] at h
        subst h
        exact h2 e s' hs
  exact key ops s ⟨hP, hQ, rfl, ha, hinv⟩ hops

/-! ## Non-vacuity -/

/-- Position and velocity, the position known exactly: a noise-free position measurement is refused, a noise-free
velocity measurement is not. -/
example : NothingToWeigh (!![0, 0; 0, 1] : Mat 2 2) (!![1, 0] : Mat 1 2) (0 : Mat 1 1) ∧
    ¬ NothingToWeigh (!![0, 0; 0, 1] : Mat 2 2) (!![0, 1] : Mat 1 2) (0 : Mat 1 1) ∧
    (!![0, 0; 0, 1] : Mat 2 2).PosSemidef := by
  refine ⟨⟨fun _ => 1, fun h => one_ne_zero (congrFun h 0), ?_, zero_mulVec _⟩, ?_, ?_⟩
  · ext i
    fin_cases i <;> simp [mulVec, dotProduct, Fin.sum_univ_two]
  · rintro ⟨w, hw, h, -⟩
    apply hw
    ext i
    have := congrFun h 1
    simp [mulVec, dotProduct, Fin.sum_univ_two] at this
    fin_cases i
    simpa using this
  · refine PSD.of_quad ?_ fun v => ?_
    · ext i j
      fin_cases i <;> fin_cases j <;> rfl
    · have : v ⬝ᵥ ((!![0, 0; 0, 1] : Mat 2 2) *ᵥ v) = v 1 ^ 2 := by
        simp [dotProduct, mulVec, Fin.sum_univ_two]
        ring
      rw [this]
      positivity

/-- A correlated measurement that is refused although `P` and `R` are positive definite: the measurement error is the
negative of the state error, so the measurement always reads the same. -/
example (z : Vec 1) : ∃ (s s' : KF 1 1 0), s.P.PosDef ∧ s.R.PosDef ∧
    (∀ v w : Vec 1, 0 ≤ v ⬝ᵥ (s.P *ᵥ v) + 2 * (v ⬝ᵥ (s.M *ᵥ w)) + w ⬝ᵥ (s.R *ᵥ w)) ∧
    s.updateCorrelated (some z) .none none = .error (.linAlgError, s') := by
  have hJ : ∀ v w : Vec 1, 0 ≤ v ⬝ᵥ ((1 : Mat 1 1) *ᵥ v) + 2 * (v ⬝ᵥ ((-1 : Mat 1 1) *ᵥ w)) + w ⬝ᵥ ((1 : Mat 1 1) *ᵥ w) := by
    intro v w
    simp [dotProduct, mulVec]
    nlinarith [sq_nonneg (v 0 - w 0)]
  let s : KF 1 1 0 := { KF.fresh 1 1 0 with H := 1, M := -1 }
  have hk : ∃ w : Vec 1, w ≠ 0 ∧ s.P *ᵥ (((none : Option (Mat 1 1)).getD s.H)ᵀ *ᵥ w) + s.M *ᵥ w = 0 ∧
      s.Mᵀ *ᵥ (((none : Option (Mat 1 1)).getD s.H)ᵀ *ᵥ w) + MatArg.none.resolve s.R *ᵥ w = 0 := by
    refine ⟨fun _ => 1, fun h => one_ne_zero (congrFun h 0), ?_, ?_⟩ <;> ext i <;> fin_cases i <;>
      simp [s, KF.fresh, MatArg.resolve, mulVec, dotProduct]
  obtain ⟨s', h, -⟩ := (C119_correlated s rfl z .none none (by simp [s, KF.fresh]) (by simp [s, KF.fresh, MatArg.resolve])
    (by simpa only [s, KF.fresh, MatArg.resolve] using hJ)).1 hk
  exact ⟨s, s', Matrix.PosDef.one, Matrix.PosDef.one, hJ, h⟩

example : (∀ op ∈ ([.predict .none none none .none, .update (some 1) .none none, .updateSequential 0 1 1 .none none,
    .readMahal] : List (KFOp 2 1 0)), NoisyCall (KF.fresh 2 1 0).R op) := by
  intro op hop
  simp only [List.mem_cons, List.not_mem_nil, or_false] at hop
  rcases hop with rfl | rfl | rfl | rfl
  · trivial
  · exact Matrix.PosDef.one
  · exact fun D h => h
  · trivial

end Filterpy
