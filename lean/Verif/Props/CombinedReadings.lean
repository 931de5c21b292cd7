import Verif.Props.KalmanMonotone
import Verif.Props.MMAEPosterior
import Verif.Props.Stats
import Verif.Props.GH

/-!
# Repeated readings may be combined first (C134)
-/

namespace Filterpy

open Matrix Spec

variable {n m l N : ℕ}

/-- Readings of the same quantity, each with its own covariance. -/
abbrev Spec.Readings (m : ℕ) := List (Vec m × Mat m m)

/-- The total information in the readings: the sum of the inverse covariances. -/
noncomputable def Spec.totalInfo (rs : Readings m) : Mat m m := (rs.map fun e => e.2⁻¹).sum

/-- The covariance of the combined reading. -/
noncomputable def Spec.fusedCov (rs : Readings m) : Mat m m := (totalInfo rs)⁻¹

/-- The combined reading: the average weighted by the inverse covariances. -/
noncomputable def Spec.fusedVal (rs : Readings m) : Vec m := fusedCov rs *ᵥ (rs.map fun e => e.2⁻¹ *ᵥ e.1).sum

theorem totalInfo_pd {rs : Readings m} (h0 : rs ≠ []) (h : ∀ e ∈ rs, e.2.PosDef) : (totalInfo rs).PosDef := by
  induction rs with
  | nil => exact absurd rfl h0
  | cons e rs ih =>
    rw [totalInfo, List.map_cons, List.sum_cons]
    by_cases hr : rs = []
    · subst hr; simpa using (h e (by simp)).inv
    · exact (h e (by simp)).inv.add (ih hr fun f hf => h f (by simp [hf]))

theorem fusedCov_pd {rs : Readings m} (h0 : rs ≠ []) (h : ∀ e ∈ rs, e.2.PosDef) : (fusedCov rs).PosDef :=
  (totalInfo_pd h0 h).inv

theorem fused_normal {rs : Readings m} (h0 : rs ≠ []) (h : ∀ e ∈ rs, e.2.PosDef) :
    (fusedCov rs)⁻¹ *ᵥ fusedVal rs = (rs.map fun e => e.2⁻¹ *ᵥ e.1).sum := by
  have hu := PD.isUnit_det (fusedCov_pd h0 h)
  rw [fusedVal, mulVec_mulVec, nonsing_inv_mul _ hu, one_mulVec]

theorem fusedCov_inv {rs : Readings m} (h0 : rs ≠ []) (h : ∀ e ∈ rs, e.2.PosDef) : (fusedCov rs)⁻¹ = totalInfo rs := by
  rw [fusedCov, nonsing_inv_nonsing_inv _ (PD.isUnit_det (totalInfo_pd h0 h))]

/-- The squared distances of a point to all the readings. -/
theorem readings_quad (rs : Readings m) (h : ∀ e ∈ rs, e.2.PosDef) (y : Vec m) :
    (rs.map fun e => (e.1 - y) ⬝ᵥ (e.2⁻¹ *ᵥ (e.1 - y))).sum =
      (rs.map fun e => e.1 ⬝ᵥ (e.2⁻¹ *ᵥ e.1)).sum - 2 * (y ⬝ᵥ (rs.map fun e => e.2⁻¹ *ᵥ e.1).sum)
        + y ⬝ᵥ (totalInfo rs *ᵥ y) := by
  induction rs with
  | nil => simp [totalInfo]
  | cons e rs ih =>
    have hs : (e.2⁻¹)ᵀ = e.2⁻¹ := inv_symm (PD.symm (h e (by simp)))
    simp only [List.map_cons, List.sum_cons, totalInfo] at ih ⊢
    rw [ih fun f hf => h f (by simp [hf]), quad_sub hs, add_mulVec, dotProduct_add, dotProduct_add,
      dot_mulVec_symm hs e.1 y]
    ring

/-- As functions of the quantity measured, the probability of all the readings and that of the combined reading are
proportional. -/
theorem readings_density (rs : Readings m) (h0 : rs ≠ []) (h : ∀ e ∈ rs, e.2.PosDef) :
    ∃ c : ℝ, 0 < c ∧ ∀ y : Vec m, (rs.map fun e => gaussDensity y e.2 e.1).prod =
      c * gaussDensity y (fusedCov rs) (fusedVal rs) := by
  have hC := fusedCov_pd h0 h
  have hnorm : ∀ {A : Mat m m}, A.PosDef → 0 < (Real.sqrt ((2 * Real.pi) ^ m * A.det))⁻¹ := by
    intro A hA
    have := hA.det_pos
    positivity
  have hprod : ∀ (rs : Readings m), (∀ e ∈ rs, e.2.PosDef) → ∀ y : Vec m, (rs.map fun e => gaussDensity y e.2 e.1).prod =
      (rs.map fun e => (Real.sqrt ((2 * Real.pi) ^ m * e.2.det))⁻¹).prod *
        Real.exp (-(1/2) * (rs.map fun e => (e.1 - y) ⬝ᵥ (e.2⁻¹ *ᵥ (e.1 - y))).sum) := by
    intro rs h y
    induction rs with
    | nil => simp
    | cons e rs ih =>
      simp only [List.map_cons, List.prod_cons, List.sum_cons]
      rw [ih fun f hf => h f (by simp [hf]), gaussDensity, mul_add, Real.exp_add]
      ring
  have hpos : 0 < (rs.map fun e => (Real.sqrt ((2 * Real.pi) ^ m * e.2.det))⁻¹).prod := by
    refine List.prod_pos fun a ha => ?_
    obtain ⟨e, he, rfl⟩ := List.mem_map.1 ha
    exact hnorm (h e he)
  have hs : ((fusedCov rs)⁻¹)ᵀ = (fusedCov rs)⁻¹ := inv_symm (PD.symm hC)
  have hN := fused_normal h0 h
  have hI := fusedCov_inv h0 h
  set k := (rs.map fun e => e.1 ⬝ᵥ (e.2⁻¹ *ᵥ e.1)).sum - fusedVal rs ⬝ᵥ ((fusedCov rs)⁻¹ *ᵥ fusedVal rs) with hk
  have hq : ∀ y, (rs.map fun e => (e.1 - y) ⬝ᵥ (e.2⁻¹ *ᵥ (e.1 - y))).sum =
      (fusedVal rs - y) ⬝ᵥ ((fusedCov rs)⁻¹ *ᵥ (fusedVal rs - y)) + k := by
    intro y
    rw [readings_quad rs h, quad_sub hs, ← hN, ← hI, hk, dot_mulVec_symm hs (fusedVal rs) y]
    ring
  refine ⟨(rs.map fun e => (Real.sqrt ((2 * Real.pi) ^ m * e.2.det))⁻¹).prod * Real.exp (-(1/2) * k) /
    (Real.sqrt ((2 * Real.pi) ^ m * (fusedCov rs).det))⁻¹, ?_, fun y => ?_⟩
  · exact div_pos (mul_pos hpos (Real.exp_pos _)) (hnorm hC)
  · have hne := (hnorm hC).ne'
    rw [hprod rs h, hq, gaussDensity, mul_add, Real.exp_add]
    generalize (Real.sqrt ((2 * Real.pi) ^ m * (fusedCov rs).det))⁻¹ = g at hne ⊢
    field_simp

/-- The user's calls on a bank (or, below, on one filter) for these readings. -/
def readingOps (H : Option (Mat m n)) (rs : Readings m) :
    List (MmaeOp (Option (Vec m)) (MatArg m) (Mat m n) (UArg l)) :=
  rs.map fun e => .update (some e.1) (.mat e.2) H

/-- One filter alone: it accepts the readings, and what it then knows. -/
theorem readings_solo (H0 H : Option (Mat m n)) (rs : Readings m) (s : KF n m l) (v : ℝ) (hinv : s.inv = npInv) (hP : s.P.PosDef)
    (h : ∀ e ∈ rs, e.2.PosDef) :
    ∃ s' L, runList (soloStep (kfClass Real.exp n m l) H0) (s, v) (readingOps H rs) = .ok (s', v * L) ∧ s'.P.PosDef ∧
      s'.P⁻¹ = s.P⁻¹ + ((H.or H0).getD s.H)ᵀ * totalInfo rs * (H.or H0).getD s.H ∧
      s'.P⁻¹ *ᵥ s'.x = s.P⁻¹ *ᵥ s.x + ((H.or H0).getD s.H)ᵀ *ᵥ (rs.map fun e => e.2⁻¹ *ᵥ e.1).sum ∧
      ∀ X, gaussDensity s.x s.P X * (rs.map fun e => gaussDensity ((H.or H0).getD s.H *ᵥ X) e.2 e.1).prod =
        gaussDensity s'.x s'.P X * L := by
  induction rs generalizing s v with
  | nil =>
    refine ⟨s, 1, by simp [readingOps, runList], hP, by simp [totalInfo], by simp, fun X => by simp⟩
  | cons e rs ih =>
    have he := h e (by simp)
    obtain ⟨s1, h1, -, -, hB⟩ := C02_bayes_product s e.1 (.mat e.2) (H.or H0) hinv hP he
    obtain ⟨s1', h1', hS, -⟩ := update_pd s e.1 (.mat e.2) (H.or H0) hinv hP he
    obtain rfl := Except.ok.inj (h1.symm.trans h1')
    obtain ⟨s1', h1', hll, hlik, -⟩ := C17_values_after_update Real.exp s e.1 (.mat e.2) (H.or H0) hinv hP he
    obtain rfl := Except.ok.inj (h1.symm.trans h1')
    obtain ⟨SI, g1, g2⟩ := KF.update_ok h1
    rw [hinv] at g1
    obtain ⟨-, rfl⟩ := npInv_eq_some.1 g1
    obtain ⟨i1, i2, i3⟩ := info_step (H := (H.or H0).getD s.H) hP he s.x e.1
    obtain ⟨a, b, hst⟩ := KF.readLik_state (expf := Real.exp) s1
    have hS' : s1.S.PosDef := by rw [hS]; exact S_pd hP.posSemidef he
    have hval : (s1.readLik Real.exp).1 = gaussDensity ((H.or H0).getD s.H *ᵥ s.x) s1.S e.1 := by
      rw [hlik, if_neg (Real.exp_ne_zero _), hll, Real.exp_log, hS, Matrix.mul_assoc]
      rw [Matrix.mul_assoc]
      have := gaussDensity_pos ((H.or H0).getD s.H *ᵥ s.x) e.1 hS'
      rw [hS] at this
      exact this
    set s2 := (s1.readLik Real.exp).2 with hs2
    have eP : s2.P = s1.P := by rw [hst]
    have ex : s2.x = s1.x := by rw [hst]
    have eH : s2.H = s.H := by rw [hst]; show s1.H = s.H; rw [g2]
    have einv : s2.inv = npInv := by rw [hst]; show s1.inv = npInv; rw [g2]; exact hinv
    have e1 : s1.P⁻¹ = s.P⁻¹ + ((H.or H0).getD s.H)ᵀ * e.2⁻¹ * (H.or H0).getD s.H := by rw [g2]; exact i2
    have e2 : s1.P⁻¹ *ᵥ s1.x = s.P⁻¹ *ᵥ s.x + (((H.or H0).getD s.H)ᵀ * e.2⁻¹) *ᵥ e.1 := by rw [g2]; exact i3
    have e3 : s1.P.PosDef := by rw [g2]; exact i1
    obtain ⟨s', L, r1, r2, r3, r4, r5⟩ := ih s2 (v * (s1.readLik Real.exp).1) einv (by rw [eP]; exact e3)
      fun f hf => h f (by simp [hf])
    refine ⟨s', (s1.readLik Real.exp).1 * L, ?_, r2, ?_, ?_, fun X => ?_⟩
    · have hstep : soloStep (kfClass Real.exp n m l) H0 (s, v) (.update (some e.1) (.mat e.2) H) =
          .ok (s2, v * (s1.readLik Real.exp).1) := by
        have : (kfClass Real.exp n m l).update s (some e.1, .mat e.2, H.or H0) = .ok s1 := h1
        simp only [soloStep, this]; rfl
      simp only [readingOps, List.map_cons, runList, hstep]
      rw [← mul_assoc]; exact r1
    · rw [r3, eP, eH, e1, totalInfo, totalInfo, List.map_cons, List.sum_cons, Matrix.mul_add, Matrix.add_mul, add_assoc]
    · rw [r4, eP, ex, eH, e2, List.map_cons, List.sum_cons, mulVec_add, mulVec_mulVec, add_assoc]
    · have h5 := r5 X
      rw [ex, eP, eH] at h5
      have hBX := hB X
      simp only [MatArg.resolve] at hBX
      rw [List.map_cons, List.prod_cons, ← mul_assoc, hBX, hval, mul_right_comm, h5]
      ring

theorem eq_of_info {P P' : Mat n n} {x x' : Vec n} (hP : P.PosDef) (hP' : P'.PosDef) (h : P⁻¹ = P'⁻¹)
    (hx : P⁻¹ *ᵥ x = P'⁻¹ *ᵥ x') : x = x' ∧ P = P' := by
  have hPP : P = P' := by
    rw [← nonsing_inv_nonsing_inv _ (PD.isUnit_det hP), h, nonsing_inv_nonsing_inv _ (PD.isUnit_det hP')]
  subst hPP
  have := congrArg (P *ᵥ ·) hx
  simp only [mulVec_mulVec, mul_nonsing_inv _ (PD.isUnit_det hP), one_mulVec] at this
  exact ⟨this, rfl⟩

/-- **C134, evidence.**  The product of the likelihoods one filter reports for the readings is the likelihood it
reports for the combined reading times a number that depends on the readings alone — not on the filter. -/
theorem C134_evidence (rs : Readings m) (h0 : rs ≠ []) (h : ∀ e ∈ rs, e.2.PosDef) :
    ∃ c : ℝ, 0 < c ∧ ∀ (H0 H : Option (Mat m n)) (s : KF n m l), s.inv = npInv → s.P.PosDef →
      ∃ s₁ s₂ L₁ L₂,
        runList (soloStep (kfClass Real.exp n m l) H0) (s, 1) (readingOps H rs) = .ok (s₁, L₁) ∧
        runList (soloStep (kfClass Real.exp n m l) H0) (s, 1) (readingOps H [(fusedVal rs, fusedCov rs)]) = .ok (s₂, L₂) ∧
        s₁.x = s₂.x ∧ s₁.P = s₂.P ∧ L₁ = c * L₂ := by
  obtain ⟨c, hc, hcy⟩ := readings_density rs h0 h
  have hC := fusedCov_pd h0 h
  refine ⟨c, hc, fun H0 H s hinv hP => ?_⟩
  obtain ⟨s₁, L₁, a1, a2, a3, a4, a5⟩ := readings_solo H0 H rs s 1 hinv hP h
  obtain ⟨s₂, L₂, b1, b2, b3, b4, b5⟩ := readings_solo H0 H [(fusedVal rs, fusedCov rs)] s 1 hinv hP (by simpa using hC)
  have e3 : s₁.P⁻¹ = s₂.P⁻¹ := by
    rw [a3, b3]; simp only [totalInfo, List.map_cons, List.map_nil, List.sum_cons, List.sum_nil, add_zero]
    rw [fusedCov_inv h0 h]; rfl
  have e4 : s₁.P⁻¹ *ᵥ s₁.x = s₂.P⁻¹ *ᵥ s₂.x := by
    rw [a4, b4]; simp only [List.map_cons, List.map_nil, List.sum_cons, List.sum_nil, add_zero]
    rw [fused_normal h0 h]
  obtain ⟨ex, eP⟩ := eq_of_info a2 b2 e3 e4
  rw [one_mul] at a1 b1
  refine ⟨s₁, s₂, L₁, L₂, a1, b1, ex, eP, ?_⟩
  have h1 := a5 0
  have h2 := b5 0
  rw [hcy] at h1
  simp only [List.map_cons, List.map_nil, List.prod_cons, List.prod_nil, mul_one] at h2
  have hpos := gaussDensity_pos s₁.x 0 a2
  rw [← ex, ← eP] at h2
  refine mul_left_cancel₀ hpos.ne' ?_
  rw [← h1, mul_left_comm, h2]; ring

/-- **C134.**  Readings of the same quantity that arrive together may be combined first: feeding them to `update`
one after the other, each with its own `R`, leaves the same `x` and `P` as one `update` with the average weighted by
the inverse covariances and with the combined covariance. -/
theorem C134_fuse (rs : Readings m) (h0 : rs ≠ []) (h : ∀ e ∈ rs, e.2.PosDef) (H : Option (Mat m n)) (s : KF n m l)
    (hinv : s.inv = npInv) (hP : s.P.PosDef) :
    ∃ s₁ s₂, updates s (rs.map fun e => (e.1, .mat e.2, H)) = .ok s₁ ∧
      s.update (some (fusedVal rs)) (.mat (fusedCov rs)) H = .ok s₂ ∧ s₁.x = s₂.x ∧ s₁.P = s₂.P := by
  obtain ⟨s₁, a1, a2, a3, a4⟩ := updates_info (rs.map fun e => ((e.1, .mat e.2, H) : Meas n m)) s hinv hP (by
    intro e he
    obtain ⟨f, hf, rfl⟩ := List.mem_map.1 he
    exact h f hf)
  obtain ⟨s₂, b1, b2, b3, b4⟩ := updates_info [((fusedVal rs, .mat (fusedCov rs), H) : Meas n m)] s hinv hP (by
    intro e he
    rw [List.mem_singleton.1 he]
    exact fusedCov_pd h0 h)
  have l1 : ∀ rs : Readings m, ((rs.map fun e => ((e.1, .mat e.2, H) : Meas n m)).map (Meas.info s.R s.H)).sum =
      (H.getD s.H)ᵀ * totalInfo rs * H.getD s.H := by
    intro rs
    induction rs with
    | nil => simp [totalInfo]
    | cons e rs ih =>
      simp only [List.map_cons, List.sum_cons, totalInfo] at ih ⊢
      rw [ih, Matrix.mul_add, Matrix.add_mul]; rfl
  have l2 : ∀ rs : Readings m, ((rs.map fun e => ((e.1, .mat e.2, H) : Meas n m)).map (Meas.infoVec s.R s.H)).sum =
      (H.getD s.H)ᵀ *ᵥ (rs.map fun e => e.2⁻¹ *ᵥ e.1).sum := by
    intro rs
    induction rs with
    | nil => simp
    | cons e rs ih =>
      simp only [List.map_cons, List.sum_cons] at ih ⊢
      rw [ih, mulVec_add, mulVec_mulVec]; rfl
  have k1 := l1 [(fusedVal rs, fusedCov rs)]
  have k2 := l2 [(fusedVal rs, fusedCov rs)]
  simp only [List.map_cons, List.map_nil] at k1 k2
  obtain ⟨ex, eP⟩ := eq_of_info a2 b2
    (by rw [a3, b3, l1, List.map_cons, List.map_nil, k1]
        simp only [totalInfo, List.map_cons, List.map_nil, List.sum_cons, List.sum_nil, add_zero]
        rw [fusedCov_inv h0 h]; rfl)
    (by rw [a4, b4, l2, List.map_cons, List.map_nil, k2]
        simp only [List.sum_cons, List.sum_nil, add_zero]
        rw [fused_normal h0 h])
  refine ⟨s₁, s₂, a1, ?_, ex, eP⟩
  simp only [updates, runList] at b1
  split at b1
  · rename_i t ht; rw [ht, Except.ok.inj b1]
  · exact absurd b1 (by simp)

/-- The combined reading of `k` equally good ones is their average, with the covariance divided by `k`. -/
theorem fused_equal (zs : List (Vec m)) (h0 : zs ≠ []) (R : Mat m m) (hR : R.PosDef) :
    fusedCov (zs.map fun z => (z, R)) = (1 / (zs.length : ℝ)) • R ∧
      fusedVal (zs.map fun z => (z, R)) = (1 / (zs.length : ℝ)) • zs.sum := by
  have hk : (zs.length : ℝ) ≠ 0 := by
    rw [Nat.cast_ne_zero]; exact fun e => h0 (List.length_eq_zero_iff.1 e)
  have hu := PD.isUnit_det hR
  have i1 : totalInfo (zs.map fun z => (z, R)) = (zs.length : ℝ) • R⁻¹ := by
    rw [totalInfo, List.map_map]
    clear h0 hk
    induction zs with
    | nil => simp
    | cons z zs ih =>
      rw [List.map_cons, List.sum_cons, ih, List.length_cons]
      push_cast
      rw [add_smul, one_smul, add_comm]; rfl
  have i2 : ((zs.map fun z => (z, R)).map fun e => e.2⁻¹ *ᵥ e.1).sum = R⁻¹ *ᵥ zs.sum := by
    rw [List.map_map]
    clear h0 hk i1
    induction zs with
    | nil => simp
    | cons z zs ih => rw [List.map_cons, List.sum_cons, ih, List.sum_cons, mulVec_add]; rfl
  have e1 : fusedCov (zs.map fun z => (z, R)) = (1 / (zs.length : ℝ)) • R := by
    rw [fusedCov, i1]
    refine inv_eq_right_inv ?_
    rw [smul_mul_smul_comm, nonsing_inv_mul _ hu, mul_one_div_cancel hk, one_smul]
  refine ⟨e1, ?_⟩
  rw [fusedVal, e1, i2, smul_mulVec, mulVec_mulVec, mul_nonsing_inv _ hu, one_mulVec]

/-- **C134, averaging.**  `k` readings of the same sensor fed one after the other are worth exactly their average with
the covariance `R / k`. -/
theorem C134_average (zs : List (Vec m)) (h0 : zs ≠ []) (s : KF n m l) (hinv : s.inv = npInv) (hP : s.P.PosDef)
    (hR : s.R.PosDef) :
    ∃ s₁ s₂, updates s (zs.map fun z => (z, .none, none)) = .ok s₁ ∧
      s.update (some ((1 / (zs.length : ℝ)) • zs.sum)) (.mat ((1 / (zs.length : ℝ)) • s.R)) none = .ok s₂ ∧
      s₁.x = s₂.x ∧ s₁.P = s₂.P := by
  obtain ⟨s₁, a1, a2, a3, a4⟩ := updates_info (zs.map fun z => ((z, .none, none) : Meas n m)) s hinv hP (by
    intro e he
    obtain ⟨f, hf, rfl⟩ := List.mem_map.1 he
    exact hR)
  obtain ⟨t₁, s₂, b1, b2, b3, b4⟩ := C134_fuse (zs.map fun z => (z, s.R)) (by simpa using h0) (by
    intro e he
    obtain ⟨f, hf, rfl⟩ := List.mem_map.1 he
    exact hR) none s hinv hP
  obtain ⟨t', c1, c2, c3, c4⟩ := updates_info ((zs.map fun z => (z, s.R)).map fun e => ((e.1, .mat e.2, none) : Meas n m))
    s hinv hP (by
      intro e he
      rw [List.map_map] at he
      obtain ⟨f, hf, rfl⟩ := List.mem_map.1 he
      exact hR)
  obtain rfl := Except.ok.inj (b1.symm.trans c1)
  obtain ⟨e1, e2⟩ := fused_equal zs h0 s.R hR
  rw [e1, e2] at b2
  obtain ⟨ex, eP⟩ := eq_of_info a2 c2
    (by rw [a3, c3, List.map_map, List.map_map, List.map_map]; rfl)
    (by rw [a4, c4, List.map_map, List.map_map, List.map_map]; rfl)
  exact ⟨s₁, s₂, a1, b2, ex.trans b3, eP.trans b4⟩

/-- **C134, `multivariate_multiply`.**  Two readings may be combined with `multivariate_multiply` before they are given
to the filter. -/
theorem C134_multiply (z₁ z₂ : Vec m) {R₁ R₂ : Mat m m} (h1 : R₁.PosDef) (h2 : R₂.PosDef) (H : Option (Mat m n))
    (s : KF n m l) (hinv : s.inv = npInv) (hP : s.P.PosDef) :
    ∃ z R s₁ s₂, Stats.multivariateMultiply z₁ R₁ z₂ R₂ = .ok (z, R) ∧
      updates s [(z₁, .mat R₁, H), (z₂, .mat R₂, H)] = .ok s₁ ∧ s.update (some z) (.mat R) H = .ok s₂ ∧
      s₁.x = s₂.x ∧ s₁.P = s₂.P := by
  obtain ⟨z, R, e1, e2, e3, e4⟩ := C60_precision z₁ z₂ h1 h2
  have hrs : ∀ e ∈ ([(z₁, R₁), (z₂, R₂)] : Readings m), e.2.PosDef := by
    intro e he
    simp only [List.mem_cons, List.not_mem_nil, or_false] at he
    rcases he with rfl | rfl
    · exact h1
    · exact h2
  obtain ⟨s₁, s₂, a1, a2, a3, a4⟩ := C134_fuse [(z₁, R₁), (z₂, R₂)] (by simp) hrs H s hinv hP
  have hR : fusedCov [(z₁, R₁), (z₂, R₂)] = R := by
    rw [e2]; simp [fusedCov, totalInfo]
  have hz : fusedVal [(z₁, R₁), (z₂, R₂)] = z := by
    have := fused_normal (by simp) hrs
    rw [fusedCov_inv (by simp) hrs] at this
    have hi : totalInfo [(z₁, R₁), (z₂, R₂)] = R₁⁻¹ + R₂⁻¹ := by simp [totalInfo]
    rw [hi] at this
    have hpd : (R₁⁻¹ + R₂⁻¹).PosDef := h1.inv.add h2.inv
    have h5 : (R₁⁻¹ + R₂⁻¹) *ᵥ fusedVal [(z₁, R₁), (z₂, R₂)] = (R₁⁻¹ + R₂⁻¹) *ᵥ z := by
      rw [this, e4]; simp
    have := congrArg ((R₁⁻¹ + R₂⁻¹)⁻¹ *ᵥ ·) h5
    simpa only [mulVec_mulVec, nonsing_inv_mul _ (PD.isUnit_det hpd), one_mulVec] using this
  rw [hR, hz] at a2
  exact ⟨z, R, s₁, s₂, e1, a1, a2, a3, a4⟩

theorem bayesRule_scale {N : ℕ} (w L : Vec N) {c : ℝ} (hc : c ≠ 0) : BayesRule w (fun i => c * L i) = BayesRule w L := by
  funext i
  simp only [BayesRule]
  have : ∑ j, w j * (c * L j) = c * ∑ j, w j * L j := by
    rw [Finset.mul_sum]; exact Finset.sum_congr rfl fun j _ => by ring
  rw [this, mul_left_comm, mul_div_mul_left _ _ hc]

/-- After an update the bank's estimate is made of its filters and probabilities. -/
theorem bank_after {s s' : MMAE (KF n m l) n N (Option (Vec m)) (Mat m n)}
    {ops : List (MmaeOp (Option (Vec m)) (MatArg m) (Mat m n) (UArg l))} {z R H}
    (h : runList (MmaeOp.run (kfClass Real.exp n m l)) s (ops ++ [.update z R H]) = .ok s') :
    s'.x = MixMean s'.p (fun i => (s'.filters i).x) ∧
      s'.P = MMAE.bankP (ζ := Option (Vec m)) (ρ := MatArg m) (η := Mat m n) (kfClass Real.exp n m l) s'.x s'.filters s'.p := by
  rw [runList_append] at h
  split at h
  · rename_i t ht
    simp only [runList] at h
    split at h
    · rename_i u hu
      obtain rfl := Except.ok.inj h
      obtain ⟨f, -, -, e⟩ := mmae_update (show t.update _ z R H = .ok u from hu)
      rw [e]
      exact ⟨rfl, rfl⟩
    · exact absurd h (by simp)
  · exact absurd h (by simp)

/-- **C134, banks.**  The same holds for a bank of Kalman filters (`MMAEFilterBank`): given all the readings or the
combined one, it ends with the same probabilities, the same estimate and the same covariance. -/
theorem C134_bank (rs : Readings m) (h0 : rs ≠ []) (h : ∀ e ∈ rs, e.2.PosDef) (H : Option (Mat m n))
    (s : MMAE (KF n m l) n N (Option (Vec m)) (Mat m n)) (hp : IsDist s.p)
    (hs : ∀ i, (s.filters i).inv = npInv ∧ (s.filters i).P.PosDef) :
    ∃ s₁ s₂, runList (MmaeOp.run (kfClass Real.exp n m l)) s (readingOps H rs) = .ok s₁ ∧
      s.update (kfClass Real.exp n m l) (some (fusedVal rs)) (.mat (fusedCov rs)) H = .ok s₂ ∧
      s₁.p = s₂.p ∧ s₁.x = s₂.x ∧ s₁.P = s₂.P ∧
      ∀ i, (s₁.filters i).x = (s₂.filters i).x ∧ (s₁.filters i).P = (s₂.filters i).P := by
  obtain ⟨c, hc, hsolo⟩ := C134_evidence (n := n) (l := l) rs h0 h
  choose f₁ f₂ L₁ L₂ a1 a2 a3 a4 a5 using fun i => hsolo s.H H (s.filters i) (hs i).1 (hs i).2
  have hpos := kf_posLik3 (n := n) (m := m) (l := l) Real.exp fun t => (Real.exp_pos t).le
  obtain ⟨s₁, r1⟩ := mmae_runs _ hpos s hp (readingOps H rs) (fun _ => 1) fun i => ⟨_, a1 i⟩
  obtain ⟨s₂, r2⟩ := mmae_runs _ hpos s hp (readingOps H [(fusedVal rs, fusedCov rs)]) (fun _ => 1) fun i => ⟨_, a2 i⟩
  have hr2 : s.update (kfClass Real.exp n m l) (some (fusedVal rs)) (.mat (fusedCov rs)) H = .ok s₂ := by
    simp only [readingOps, List.map_cons, List.map_nil, runList] at r2
    split at r2
    · rename_i t ht; rw [← Except.ok.inj r2]; exact ht
    · exact absurd r2 (by simp)
  obtain ⟨M₁, m1, m2, -⟩ := C33_bayes _ s s₁ _ r1
  obtain ⟨M₂, n1, n2, -⟩ := C33_bayes _ s s₂ _ r2
  have g1 : ∀ i, s₁.filters i = f₁ i ∧ M₁ i = L₁ i := fun i =>
    Prod.mk.inj (Except.ok.inj ((m1 i).symm.trans (a1 i)))
  have g2 : ∀ i, s₂.filters i = f₂ i ∧ M₂ i = L₂ i := fun i =>
    Prod.mk.inj (Except.ok.inj ((n1 i).symm.trans (a2 i)))
  rw [if_pos (by
    obtain ⟨e, t, rfl⟩ := List.exists_cons_of_ne_nil h0
    simp [readingOps, MmaeOp.isUpdate])] at m2
  rw [if_pos (by simp [readingOps, MmaeOp.isUpdate])] at n2
  have hM : M₁ = fun i => c * M₂ i := by
    funext i; rw [(g1 i).2, (g2 i).2, a5]
  have ep : s₁.p = s₂.p := by rw [m2, n2, hM, bayesRule_scale _ _ hc.ne']
  have ef : ∀ i, (s₁.filters i).x = (s₂.filters i).x ∧ (s₁.filters i).P = (s₂.filters i).P := fun i => by
    rw [(g1 i).1, (g2 i).1]; exact ⟨a3 i, a4 i⟩
  have hops : readingOps (l := l) H rs = readingOps H rs.dropLast ++ [.update (some (rs.getLast h0).1) (.mat (rs.getLast h0).2) H] := by
    conv_lhs => rw [← List.dropLast_append_getLast h0]
    simp [readingOps]
  rw [hops] at r1
  obtain ⟨x1, P1⟩ := bank_after r1
  obtain ⟨x2, P2⟩ := bank_after (ops := []) r2
  have ex : s₁.x = s₂.x := by
    rw [x1, x2, ep]; simp only [fun i => (ef i).1]
  refine ⟨s₁, s₂, by rw [hops]; exact r1, hr2, ep, ex, ?_, ef⟩
  rw [P1, P2, ex, ep]
  simp only [MMAE.bankP]
  refine Finset.sum_congr rfl fun i _ => ?_
  simp only [show ∀ f : KF n m l, (kfClass Real.exp n m l).x f = f.x from fun _ => rfl,
    show ∀ f : KF n m l, (kfClass Real.exp n m l).P f = f.P from fun _ => rfl, (ef i).1, (ef i).2]

/-- Three readings of a position, with different accuracies, and a constant velocity filter. -/
example : ∃ s₁ s₂, updates cvKF ([(![1], 1), (![2], (2 : ℝ) • 1), (![4], (3 : ℝ) • 1)].map
      fun e : Vec 1 × Mat 1 1 => (e.1, .mat e.2, none)) = .ok s₁ ∧
    cvKF.update (some (fusedVal [(![1], 1), (![2], (2 : ℝ) • 1), (![4], (3 : ℝ) • 1)]))
      (.mat (fusedCov [(![1], 1), (![2], (2 : ℝ) • 1), (![4], (3 : ℝ) • 1)])) none = .ok s₂ ∧ s₁.x = s₂.x ∧ s₁.P = s₂.P := by
  refine C134_fuse _ (by simp) (fun e he => ?_) none cvKF rfl PosDef.one
  simp only [List.mem_cons, List.not_mem_nil, or_false] at he
  rcases he with rfl | rfl | rfl
  · exact PosDef.one
  · exact PosDef.one.smul two_pos
  · exact PosDef.one.smul three_pos

/-- A bank of two filters that disagree about the initial state. -/
example : ∃ s : MMAE (KF 2 1 1) 2 2 (Option (Vec 1)) (Mat 1 2), IsDist s.p ∧
    (∀ i, (s.filters i).inv = npInv ∧ (s.filters i).P.PosDef) ∧ (s.filters 0).x ≠ (s.filters 1).x := by
  refine ⟨⟨![cvKF, { cvKF with x := 1 }], fun _ => 1 / 2, none, none, 0, 1, 0, 1, 0, 1⟩,
    ⟨fun _ => by norm_num, by norm_num⟩, fun i => ?_, fun e => ?_⟩
  · fin_cases i
    · exact ⟨rfl, PosDef.one⟩
    · exact ⟨rfl, PosDef.one⟩
  · have := congrFun e 0
    simp [cvKF, KF.fresh] at this

end Filterpy
