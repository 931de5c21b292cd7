import Verif.Props.KalmanPinv
import Verif.Props.KalmanSmooth

/-!
# The filter and the smoother are the best linear estimators, also for singular noise (C03, C11, C12)
-/

namespace Filterpy

open MeasureTheory ProbabilityTheory Matrix Spec KF

variable {Ω : Type*} [MeasurableSpace Ω] {μ : Measure Ω} [IsProbabilityMeasure μ]
variable {n m l k a b : ℕ}

/-! ## Specification -/

/-- One time step of the system: it moves to `F X + w` and is then measured as `H X + v`, unless the
measurement is missing. -/
structure Leg (Ω : Type*) (n m : ℕ) where
  F : Mat n n
  Q : Mat n n
  H : Mat m n
  R : Mat m m
  w : Ω → Vec n
  v : Option (Ω → Vec m)

/-- The true states after each step. -/
noncomputable def truth (X : Ω → Vec n) : List (Leg Ω n m) → List (Ω → Vec n)
  | [] => []
  | e :: es => (fun ω => e.F *ᵥ X ω + e.w ω) :: truth (fun ω => e.F *ᵥ X ω + e.w ω) es

/-- The measurements. -/
noncomputable def readings (X : Ω → Vec n) : List (Leg Ω n m) → List (Option (Ω → Vec m))
  | [] => []
  | e :: es => (e.v.map fun v ω => e.H *ᵥ (e.F *ᵥ X ω + e.w ω) + v ω) ::
      readings (fun ω => e.F *ᵥ X ω + e.w ω) es

/-- The estimators that can be computed from the measurements `Z` by affine operations. -/
inductive AffineIn (Z : List (Option (Ω → Vec m))) : {k : ℕ} → (Ω → Vec k) → Prop
  | const {k : ℕ} (c : Vec k) : AffineIn Z (fun _ => c)
  | reading (z : Ω → Vec m) (h : some z ∈ Z) : AffineIn Z z
  | mulVec {j k : ℕ} (A : Mat k j) (Y : Ω → Vec j) (h : AffineIn Z Y) : AffineIn Z (fun ω => A *ᵥ Y ω)
  | add {k : ℕ} (Y Y' : Ω → Vec k) (h : AffineIn Z Y) (h' : AffineIn Z Y') : AffineIn Z (fun ω => Y ω + Y' ω)

/-- Both square integrable, and uncorrelated. -/
structure Unc (μ : Measure Ω) (D : Ω → Vec a) (Y : Ω → Vec b) : Prop where
  left : SqInt D μ
  right : SqInt Y μ
  cov : covMat D Y μ = 0

/-- Uncorrelated with all the noise of these steps. -/
def UncAll (μ : Measure Ω) (D : Ω → Vec a) (es : List (Leg Ω n m)) : Prop :=
  ∀ e ∈ es, Unc μ D e.w ∧ ∀ v ∈ e.v, Unc μ D v

/-- The noise of a step is as the filter believes. -/
structure LegOK (μ : Measure Ω) (e : Leg Ω n m) : Prop where
  w : NoiseOK e.w μ e.Q
  v : ∀ v ∈ e.v, NoiseOK v μ e.R ∧ Unc μ e.w v

/-- The noises of two steps are uncorrelated. -/
def LegUnc (μ : Measure Ω) (e e' : Leg Ω n m) : Prop := UncAll μ e.w [e'] ∧ ∀ v ∈ e.v, UncAll μ v [e']

/-! ## Closure properties -/

namespace Unc
variable {D : Ω → Vec a} {Y Y' : Ω → Vec b}

omit [IsProbabilityMeasure μ] in
theorem symm (h : Unc μ D Y) : Unc μ Y D := ⟨h.right, h.left, by rw [covMat_transpose, h.cov, transpose_zero]⟩

theorem add (h : Unc μ D Y) (h' : Unc μ D Y') : Unc μ D (fun ω => Y ω + Y' ω) :=
  ⟨h.left, h.right.add h'.right, by rw [covMat_add_right h.left h.right h'.right, h.cov, h'.cov, add_zero]⟩

theorem sub (h : Unc μ D Y) (h' : Unc μ D Y') : Unc μ D (fun ω => Y ω - Y' ω) :=
  ⟨h.left, h.right.sub h'.right, by rw [covMat_sub_right h.left h.right h'.right, h.cov, h'.cov, sub_zero]⟩

theorem mulVec (h : Unc μ D Y) (A : Mat k b) : Unc μ D (fun ω => A *ᵥ Y ω) :=
  ⟨h.left, h.right.mulVec A, by rw [covMat_mulVec_right h.left h.right, h.cov, Matrix.zero_mul]⟩

theorem const (h : SqInt D μ) (c : Vec b) : Unc μ D (fun _ => c) := by
  refine ⟨h, SqInt.const c, ?_⟩
  ext i j
  simp only [covMat, of_apply, Matrix.zero_apply]
  exact covariance_const_right _

end Unc

theorem AffineIn.unc {Z : List (Option (Ω → Vec m))} {D : Ω → Vec a} (hD : SqInt D μ)
    (h : ∀ z, some z ∈ Z → Unc μ D z) {Y : Ω → Vec k} (hY : AffineIn Z Y) : Unc μ D Y := by
  induction hY with
  | const c => exact Unc.const hD c
  | reading z hz => exact h z hz
  | mulVec A Y _ ih => exact ih.mulVec A
  | add Y Y' _ _ ih ih' => exact ih.add ih'

omit [MeasurableSpace Ω] in
theorem AffineIn.sub {Z : List (Option (Ω → Vec m))} {Y Y' : Ω → Vec k} (h : AffineIn Z Y) (h' : AffineIn Z Y') :
    AffineIn Z (fun ω => Y ω - Y' ω) := by
  have := h.add _ _ (h'.mulVec (-1 : Mat k k))
  simpa [sub_eq_add_neg, neg_mulVec] using this

/-! ## The recursions, for all outcomes at once -/

/-- One update in all outcomes: `K` solves `K S = P Hᵀ`. -/
def Upd (e : Leg Ω n m) (X x : Ω → Vec n) (P : Mat n n) (x1 : Ω → Vec n) (P1 : Mat n n) : Prop :=
  match e.v with
  | none => x1 = x ∧ P1 = P
  | some v => ∃ K : Mat n m, K * (e.H * (P * e.Hᵀ) + e.R) = P * e.Hᵀ ∧
      (x1 = fun ω => x ω + K *ᵥ (e.H *ᵥ X ω + v ω - e.H *ᵥ x ω)) ∧
      P1 = (1 - K * e.H) * P * (1 - K * e.H)ᵀ + K * e.R * Kᵀ

/-- All filtered estimates. -/
def Filt : (X x : Ω → Vec n) → Mat n n → List (Leg Ω n m) → List ((Ω → Vec n) × Mat n n) → Prop
  | _, _, _, [], outs => outs = []
  | X, x, P, e :: es, outs => ∃ x1 P1 outs', outs = (x1, P1) :: outs' ∧
      Upd e (fun ω => e.F *ᵥ X ω + e.w ω) (fun ω => e.F *ᵥ x ω) (e.F * P * e.Fᵀ + e.Q) x1 P1 ∧
      Filt (fun ω => e.F *ᵥ X ω + e.w ω) x1 P1 es outs'

/-- All smoothed estimates. -/
def Smoo : List (Leg Ω n m) → List ((Ω → Vec n) × Mat n n) → List ((Ω → Vec n) × Mat n n) → Prop
  | _ :: e' :: es, o :: outs, s :: s' :: sm => (∃ C : Mat n n, C * (e'.F * o.2 * e'.Fᵀ + e'.Q) = o.2 * e'.Fᵀ ∧
      (s.1 = fun ω => o.1 ω + C *ᵥ (s'.1 ω - e'.F *ᵥ o.1 ω)) ∧
      s.2 = o.2 + C * (s'.2 - (e'.F * o.2 * e'.Fᵀ + e'.Q)) * Cᵀ) ∧ Smoo (e' :: es) outs (s' :: sm)
  | [_], outs, sm => sm = outs
  | [], _, sm => sm = []
  | _, _, _ => False

theorem unc_error {e : Leg Ω n m} {X x x1 : Ω → Vec n} {P P1 : Mat n n} (h : Upd e X x P x1 P1) {D : Ω → Vec a}
    (hD : Unc μ D (fun ω => X ω - x ω)) (hv : ∀ v ∈ e.v, Unc μ D v) : Unc μ D (fun ω => X ω - x1 ω) := by
  unfold Upd at h
  cases he : e.v with
  | none => rw [he] at h; obtain ⟨rfl, -⟩ := h; exact hD
  | some v =>
    rw [he] at h
    obtain ⟨K, -, rfl, -⟩ := h
    have := hD.sub (((hD.mulVec e.H).add (hv v he)).mulVec K)
    convert this using 2
    rw [Matrix.mulVec_sub e.H, sub_add_eq_sub_sub]
    congr 2; abel

/-- Whatever is uncorrelated with the prediction error at a step and with the noise from there on is
uncorrelated with the smoothed errors. -/
theorem unc_smoothed (es : List (Leg Ω n m)) {e : Leg Ω n m} {X x x1 : Ω → Vec n} {P P1 : Mat n n} {outs sm}
    (hu : Upd e X x P x1 P1) (hf : Filt X x1 P1 es outs) (hs : Smoo (e :: es) ((x1, P1) :: outs) sm)
    {D : Ω → Vec a} (hD : Unc μ D (fun ω => X ω - x ω)) (hv : ∀ v ∈ e.v, Unc μ D v) (hes : UncAll μ D es) :
    ∀ p ∈ (X :: truth X es).zip sm, Unc μ D (fun ω => p.1 ω - p.2.1 ω) := by
  induction es generalizing e X x x1 P P1 outs sm with
  | nil =>
    have h1 := unc_error hu hD hv
    cases hf
    simp only [Smoo] at hs
    subst hs
    intro p hp
    simp only [truth, List.zip_cons_cons, List.zip_nil_left, List.mem_singleton] at hp
    subst hp
    exact h1
  | cons e' es ih =>
    obtain ⟨x2, P2, outs', rfl, hu', hf'⟩ := hf
    have h1 := unc_error hu hD hv
    match sm, hs with
    | s :: s' :: sm, hs =>
      obtain ⟨⟨C, -, c2, -⟩, hs'⟩ := hs
      obtain ⟨w1, w2⟩ := hes e' (by simp)
      have hp : Unc μ D (fun ω => e'.F *ᵥ X ω + e'.w ω - e'.F *ᵥ x1 ω) := by
        convert (h1.mulVec e'.F).add w1 using 2
        rw [mulVec_sub]; abel
      have key := ih hu' hf' hs' hp w2 (fun e he => hes e (by simp [he]))
      intro p hpm
      simp only [truth, List.zip_cons_cons, List.mem_cons] at hpm
      rcases hpm with rfl | hpm
      · have h3 := key ((fun ω => e'.F *ᵥ X ω + e'.w ω), s') (by simp)
        convert h1.sub ((hp.sub h3).mulVec C) using 2
        simp only [c2]
        rw [sub_add_eq_sub_sub]
        congr 2
        abel
      · exact key p (by simpa [truth] using hpm)

/-- Whatever is uncorrelated with the state and the noise from there on is uncorrelated with the
measurements. -/
theorem unc_readings (es : List (Leg Ω n m)) {X : Ω → Vec n} {D : Ω → Vec a} (hD : Unc μ D X) (hes : UncAll μ D es) :
    ∀ z, some z ∈ readings X es → Unc μ D z := by
  induction es generalizing X with
  | nil => intro z hz; simp [readings] at hz
  | cons e es ih =>
    obtain ⟨w1, w2⟩ := hes e (by simp)
    have hX := (hD.mulVec e.F).add w1
    intro z hz
    simp only [readings, List.mem_cons] at hz
    rcases hz with hz | hz
    · rw [eq_comm, Option.map_eq_some_iff] at hz
      obtain ⟨v, hv, rfl⟩ := hz
      exact (hX.mulVec e.H).add (w2 v hv)
    · exact ih hX (fun e he => hes e (by simp [he])) z hz

/-- One update: the new error has the covariance computed, and is uncorrelated with the old estimate,
the new estimate and the measurement. -/
theorem upd_ok {e : Leg Ω n m} {X x x1 : Ω → Vec n} {P P1 : Mat n n} (h : Upd e X x P x1 P1)
    (hE : NoiseOK (fun ω => X ω - x ω) μ P) (hx : Unc μ (fun ω => X ω - x ω) x)
    (hv : ∀ v ∈ e.v, NoiseOK v μ e.R ∧ Unc μ (fun ω => X ω - x ω) v ∧ Unc μ v x) :
    NoiseOK (fun ω => X ω - x1 ω) μ P1 ∧ Unc μ (fun ω => X ω - x1 ω) x1 ∧
      ∀ v ∈ e.v, Unc μ (fun ω => X ω - x1 ω) (fun ω => e.H *ᵥ X ω + v ω) := by
  unfold Upd at h
  cases he : e.v with
  | none => rw [he] at h; obtain ⟨rfl, rfl⟩ := h; exact ⟨hE, hx, by simp⟩
  | some v =>
    rw [he] at h
    obtain ⟨K, hK, rfl, rfl⟩ := h
    obtain ⟨nv, cv, vx⟩ := hv v he
    have hPs : Pᵀ = P := by rw [← hE.cov]; exact covMat_transpose.symm
    have e1 : (fun ω => X ω - (x ω + K *ᵥ (e.H *ᵥ X ω + v ω - e.H *ᵥ x ω))) =
        fun ω => (X ω - x ω) - K *ᵥ (e.H *ᵥ (X ω - x ω) + v ω) := by
      funext ω
      rw [Matrix.mulVec_sub e.H, sub_add_eq_sub_sub]
      congr 2; abel
    have c0 := corr_cov hE nv cv.cov e.H K
    simp only [add_zero, Matrix.mul_zero, transpose_zero, Matrix.zero_mul] at c0
    have sv : SqInt (fun ω => e.H *ᵥ (X ω - x ω) + v ω) μ := (hE.sq.mulVec e.H).add nv.sq
    -- the new error is uncorrelated with the residual
    have o1 : Unc μ (fun ω => (X ω - x ω) - K *ᵥ (e.H *ᵥ (X ω - x ω) + v ω)) (fun ω => e.H *ᵥ (X ω - x ω) + v ω) := by
      refine ⟨c0.sq, sv, ?_⟩
      have c1 : covMat (fun ω => X ω - x ω) (fun ω => e.H *ᵥ (X ω - x ω) + v ω) μ = P * e.Hᵀ := by
        rw [covMat_add_right hE.sq (hE.sq.mulVec e.H) nv.sq, covMat_mulVec_right hE.sq hE.sq, hE.cov, cv.cov, add_zero]
      have c2 : covMat (fun ω => e.H *ᵥ (X ω - x ω) + v ω) (fun ω => e.H *ᵥ (X ω - x ω) + v ω) μ
          = e.H * (P * e.Hᵀ) + e.R := by
        rw [covMat_add_left (hE.sq.mulVec e.H) nv.sq sv, covMat_mulVec_left hE.sq sv, c1,
          covMat_add_right nv.sq (hE.sq.mulVec e.H) nv.sq, covMat_mulVec_right nv.sq hE.sq, cv.symm.cov, nv.cov,
          Matrix.zero_mul, zero_add]
      rw [covMat_sub_left hE.sq (sv.mulVec K) sv, covMat_mulVec_left sv sv, c1, c2, hK, sub_self]
    have o2 : Unc μ (fun ω => (X ω - x ω) - K *ᵥ (e.H *ᵥ (X ω - x ω) + v ω)) x :=
      (hx.symm.sub ((((hx.symm.mulVec e.H).add vx.symm)).mulVec K)).symm
    refine ⟨?_, ?_, ?_⟩
    · rw [e1, joseph_expand, show e.H * P = (P * e.Hᵀ)ᵀ by rw [transpose_mul, transpose_transpose, hPs]]
      exact c0
    · rw [e1]
      convert o2.add (o1.mulVec K) using 2
      rw [Matrix.mulVec_sub e.H]
      congr 2; abel
    · intro v' hv'
      obtain rfl : v = v' := Option.some.inj hv'
      rw [e1]
      convert o1.add (o2.mulVec e.H) using 2
      rw [Matrix.mulVec_sub e.H]
      abel

/-- **The theorem on the recursions**: every smoothed estimate has the covariance computed for it and an
error uncorrelated with all measurements. -/
theorem smoothed_ok (es : List (Leg Ω n m)) {X x : Ω → Vec n} {P : Mat n n} {outs sm} (hf : Filt X x P es outs)
    (hs : Smoo es outs sm) (hX : SqInt X μ) (hE : NoiseOK (fun ω => X ω - x ω) μ P)
    (hx : Unc μ (fun ω => X ω - x ω) x) (uX : UncAll μ X es) (ux : UncAll μ x es)
    (ok : ∀ e ∈ es, LegOK μ e) (pw : es.Pairwise (LegUnc μ)) :
    ∀ p ∈ (truth X es).zip sm, NoiseOK (fun ω => p.1 ω - p.2.1 ω) μ p.2.2 ∧
      ∀ z, some z ∈ readings X es → Unc μ (fun ω => p.1 ω - p.2.1 ω) z := by
  induction es generalizing X x P outs sm with
  | nil => intro p hp; simp [truth] at hp
  | cons e es ih =>
    obtain ⟨x1, P1, outs', rfl, hu, hf'⟩ := hf
    have ok1 := ok e (by simp)
    obtain ⟨wX, vX⟩ := uX e (by simp)
    obtain ⟨wx, vx⟩ := ux e (by simp)
    have pw1 : ∀ e' ∈ es, LegUnc μ e e' := (List.pairwise_cons.1 pw).1
    have pw2 := (List.pairwise_cons.1 pw).2
    have uw : UncAll μ e.w es := fun e' he' => (pw1 e' he').1 e' (by simp)
    have uv : ∀ v ∈ e.v, UncAll μ v es := fun v hv e' he' => (pw1 e' he').2 v hv e' (by simp)
    -- prediction
    have uE : Unc μ (fun ω => X ω - x ω) e.w := (wX.symm.sub wx.symm).symm
    have eE : (fun ω => e.F *ᵥ X ω + e.w ω - e.F *ᵥ x ω) = fun ω => e.F *ᵥ (X ω - x ω) + (1 : Mat n n) *ᵥ e.w ω := by
      funext ω; rw [mulVec_sub, one_mulVec]; abel
    have nE : NoiseOK (fun ω => e.F *ᵥ X ω + e.w ω - e.F *ᵥ x ω) μ (e.F * P * e.Fᵀ + e.Q) := by
      have := noise_mulVec_add hE ok1.w uE.cov e.F (1 : Mat n n)
      rw [eE]
      simpa using this
    have oE : Unc μ (fun ω => e.F *ᵥ X ω + e.w ω - e.F *ᵥ x ω) (fun ω => e.F *ᵥ x ω) := by
      rw [eE]
      simp only [one_mulVec]
      exact ((hx.symm.mulVec e.F).add wx).symm.mulVec e.F
    have uE' : ∀ v ∈ e.v, NoiseOK v μ e.R ∧ Unc μ (fun ω => e.F *ᵥ X ω + e.w ω - e.F *ᵥ x ω) v ∧
        Unc μ v (fun ω => e.F *ᵥ x ω) := by
      intro v hv
      obtain ⟨nv, wv⟩ := ok1.v v hv
      refine ⟨nv, ?_, (vx v hv).symm.mulVec e.F⟩
      rw [eE]
      simp only [one_mulVec]
      exact ((((vX v hv).symm.sub (vx v hv).symm).mulVec e.F).add wv.symm).symm
    -- update
    obtain ⟨n1, o1, z1⟩ := upd_ok hu nE oE uE'
    have hX' : SqInt (fun ω => e.F *ᵥ X ω + e.w ω) μ := (hX.mulVec e.F).add ok1.w.sq
    have uX' : UncAll μ (fun ω => e.F *ᵥ X ω + e.w ω) es := by
      intro e' he'
      obtain ⟨a1, a2⟩ := uX e' (by simp [he'])
      obtain ⟨b1, b2⟩ := uw e' he'
      exact ⟨((a1.symm.mulVec e.F).add b1.symm).symm, fun v hv => (((a2 v hv).symm.mulVec e.F).add (b2 v hv).symm).symm⟩
    have ux1 : UncAll μ x1 es := by
      have key : ∀ {b : ℕ} {Y : Ω → Vec b}, Unc μ Y X → Unc μ Y x → Unc μ Y e.w → (∀ v ∈ e.v, Unc μ Y v) → Unc μ Y x1 := by
        intro b Y y1 y2 y3 y4
        have y5 : Unc μ Y (fun ω => e.F *ᵥ X ω + e.w ω - e.F *ᵥ x ω) :=
          ((y1.mulVec e.F).add y3).sub (y2.mulVec e.F)
        have y6 := unc_error hu y5 y4
        have y7 := ((y1.mulVec e.F).add y3).sub y6
        simpa using y7
      intro e' he'
      obtain ⟨a1, a2⟩ := uX e' (by simp [he'])
      obtain ⟨b1, b2⟩ := uw e' he'
      obtain ⟨c1, c2⟩ := ux e' (by simp [he'])
      refine ⟨(key a1.symm c1.symm b1.symm fun v hv => ((uv v hv) e' he').1.symm).symm, fun v' hv' =>
        (key (a2 v' hv').symm (c2 v' hv').symm (b2 v' hv').symm fun v hv => (((uv v hv) e' he').2 v' hv').symm).symm⟩
    -- the first measurement
    have uz : ∀ v ∈ e.v, UncAll μ (fun ω => e.H *ᵥ (e.F *ᵥ X ω + e.w ω) + v ω) es := by
      intro v hv e' he'
      obtain ⟨a1, a2⟩ := uX' e' he'
      obtain ⟨b1, b2⟩ := uv v hv e' he'
      exact ⟨((a1.symm.mulVec e.H).add b1.symm).symm, fun v hv => (((a2 v hv).symm.mulVec e.H).add (b2 v hv).symm).symm⟩
    cases es with
    | nil =>
      cases hf'
      simp only [Smoo] at hs
      subst hs
      intro p hp
      simp only [truth, List.zip_cons_cons, List.zip_nil_left, List.mem_singleton] at hp
      subst hp
      refine ⟨n1, fun z hz => ?_⟩
      simp only [readings, List.mem_cons, List.not_mem_nil, or_false] at hz
      rw [eq_comm, Option.map_eq_some_iff] at hz
      obtain ⟨v, hv, rfl⟩ := hz
      exact z1 v hv
    | cons e' es =>
      match sm, hs with
      | s :: s' :: sm, hs =>
        obtain ⟨⟨C, hC, c2, c3⟩, hs'⟩ := hs
        have IH := ih hf' hs' hX' n1 o1 uX' ux1 (fun e he => ok e (by simp [he])) pw2
        obtain ⟨x2, P2, outs'', rfl, hu', hf''⟩ := hf'
        have un1 : UncAll μ (fun ω => e.F *ᵥ X ω + e.w ω - x1 ω) (e' :: es) := fun e'' he'' =>
          ⟨((uX' e'' he'').1.symm.sub (ux1 e'' he'').1.symm).symm,
            fun v hv => (((uX' e'' he'').2 v hv).symm.sub ((ux1 e'' he'').2 v hv).symm).symm⟩
        obtain ⟨w1, v1⟩ := un1 e' (by simp)
        have eE' : (fun ω => e'.F *ᵥ (e.F *ᵥ X ω + e.w ω) + e'.w ω - e'.F *ᵥ x1 ω) =
            fun ω => e'.F *ᵥ (e.F *ᵥ X ω + e.w ω - x1 ω) + e'.w ω := by
          funext ω; rw [mulVec_sub]; abel
        have nE' : NoiseOK (fun ω => e'.F *ᵥ (e.F *ᵥ X ω + e.w ω) + e'.w ω - e'.F *ᵥ x1 ω) μ
            (e'.F * P1 * e'.Fᵀ + e'.Q) := by
          have := noise_mulVec_add n1 (ok e' (by simp)).w w1.cov e'.F (1 : Mat n n)
          rw [eE']
          simpa using this
        have cx : covMat (fun ω => e.F *ᵥ X ω + e.w ω - x1 ω)
            (fun ω => e'.F *ᵥ (e.F *ᵥ X ω + e.w ω) + e'.w ω - e'.F *ᵥ x1 ω) μ = P1 * e'.Fᵀ := by
          rw [eE', covMat_add_right n1.sq (n1.sq.mulVec e'.F) w1.right, covMat_mulVec_right n1.sq n1.sq, n1.cov, w1.cov,
            add_zero]
        -- the part of the error that the next state does not tell us about
        have sd : SqInt (fun ω => (e.F *ᵥ X ω + e.w ω - x1 ω) -
            C *ᵥ (e'.F *ᵥ (e.F *ᵥ X ω + e.w ω) + e'.w ω - e'.F *ᵥ x1 ω)) μ := n1.sq.sub (nE'.sq.mulVec C)
        have dE : Unc μ (fun ω => (e.F *ᵥ X ω + e.w ω - x1 ω) -
            C *ᵥ (e'.F *ᵥ (e.F *ᵥ X ω + e.w ω) + e'.w ω - e'.F *ᵥ x1 ω))
            (fun ω => e'.F *ᵥ (e.F *ᵥ X ω + e.w ω) + e'.w ω - e'.F *ᵥ x1 ω) := by
          refine ⟨sd, nE'.sq, ?_⟩
          rw [covMat_sub_left n1.sq (nE'.sq.mulVec C) nE'.sq, covMat_mulVec_left nE'.sq nE'.sq, cx, nE'.cov, hC, sub_self]
        have pw3 : ∀ e'' ∈ es, LegUnc μ e' e'' := (List.pairwise_cons.1 pw2).1
        -- closure: anything uncorrelated with the error and the next process noise
        have dU : ∀ {b : ℕ} {Y : Ω → Vec b}, Unc μ (fun ω => e.F *ᵥ X ω + e.w ω - x1 ω) Y → Unc μ e'.w Y →
            Unc μ (fun ω => e'.F *ᵥ (e.F *ᵥ X ω + e.w ω) + e'.w ω - e'.F *ᵥ x1 ω) Y ∧
            Unc μ (fun ω => (e.F *ᵥ X ω + e.w ω - x1 ω) -
              C *ᵥ (e'.F *ᵥ (e.F *ᵥ X ω + e.w ω) + e'.w ω - e'.F *ᵥ x1 ω)) Y := by
          intro b Y y1 y2
          have y3 : Unc μ (fun ω => e'.F *ᵥ (e.F *ᵥ X ω + e.w ω) + e'.w ω - e'.F *ᵥ x1 ω) Y := by
            rw [eE']; exact ((y1.symm.mulVec e'.F).add y2.symm).symm
          exact ⟨y3, (y1.symm.sub (y3.symm.mulVec C)).symm⟩
        have dv : ∀ v ∈ e'.v, Unc μ (fun ω => (e.F *ᵥ X ω + e.w ω - x1 ω) -
            C *ᵥ (e'.F *ᵥ (e.F *ᵥ X ω + e.w ω) + e'.w ω - e'.F *ᵥ x1 ω)) v :=
          fun v hv => (dU (v1 v hv) ((ok e' (by simp)).v v hv).2).2
        have des : UncAll μ (fun ω => (e.F *ᵥ X ω + e.w ω - x1 ω) -
            C *ᵥ (e'.F *ᵥ (e.F *ᵥ X ω + e.w ω) + e'.w ω - e'.F *ᵥ x1 ω)) es := by
          intro e'' he''
          obtain ⟨a1, a2⟩ := un1 e'' (by simp [he''])
          obtain ⟨b1, b2⟩ := (pw3 e'' he'').1 e'' (by simp)
          exact ⟨(dU a1 b1).2, fun v hv => (dU (a2 v hv) (b2 v hv)).2⟩
        have dS := unc_smoothed es hu' hf'' hs' dE dv des
        -- the first measurement
        have z0 : ∀ v ∈ e.v, ∀ p ∈ (truth (fun ω => e.F *ᵥ X ω + e.w ω) (e' :: es)).zip (s' :: sm),
            Unc μ (fun ω => p.1 ω - p.2.1 ω) (fun ω => e.H *ᵥ (e.F *ᵥ X ω + e.w ω) + v ω) := by
          intro v hv p hp
          have u1 := uz v hv
          refine (unc_smoothed es hu' hf'' hs' (dU (z1 v hv) (u1 e' (by simp)).1.symm).1.symm (u1 e' (by simp)).2
            (fun e he => u1 e (by simp [he])) p ?_).symm
          simpa only [truth] using hp
        intro p hp
        simp only [truth, List.zip_cons_cons, List.mem_cons] at hp
        rcases hp with rfl | hp
        · obtain ⟨nS, zS⟩ := IH ((fun ω => e'.F *ᵥ (e.F *ᵥ X ω + e.w ω) + e'.w ω), s') (by simp [truth])
          have dS0 := dS ((fun ω => e'.F *ᵥ (e.F *ᵥ X ω + e.w ω) + e'.w ω), s') (by simp)
          have zS0 := fun v hv => z0 v hv ((fun ω => e'.F *ᵥ (e.F *ᵥ X ω + e.w ω) + e'.w ω), s') (by simp [truth])
          simp only at nS zS dS0 zS0
          have eS : (fun ω => e.F *ᵥ X ω + e.w ω - s.1 ω) = fun ω => ((e.F *ᵥ X ω + e.w ω - x1 ω) -
              C *ᵥ (e'.F *ᵥ (e.F *ᵥ X ω + e.w ω) + e'.w ω - e'.F *ᵥ x1 ω)) +
              C *ᵥ (e'.F *ᵥ (e.F *ᵥ X ω + e.w ω) + e'.w ω - s'.1 ω) := by
            funext ω
            simp only [c2, mulVec_sub]
            abel
          have hPs : P1ᵀ = P1 := by rw [← n1.cov]; exact covMat_transpose.symm
          have cd : covMat (fun ω => (e.F *ᵥ X ω + e.w ω - x1 ω) -
              C *ᵥ (e'.F *ᵥ (e.F *ᵥ X ω + e.w ω) + e'.w ω - e'.F *ᵥ x1 ω)) (fun ω => (e.F *ᵥ X ω + e.w ω - x1 ω) -
              C *ᵥ (e'.F *ᵥ (e.F *ᵥ X ω + e.w ω) + e'.w ω - e'.F *ᵥ x1 ω)) μ =
              P1 - C * (e'.F * P1 * e'.Fᵀ + e'.Q) * Cᵀ := by
            rw [covMat_sub_right sd n1.sq (nE'.sq.mulVec C), covMat_mulVec_right sd nE'.sq, dE.cov, Matrix.zero_mul, sub_zero,
              covMat_sub_left n1.sq (nE'.sq.mulVec C) n1.sq, covMat_mulVec_left nE'.sq n1.sq, n1.cov, covMat_transpose, cx]
            have hPp : (e'.F * P1 * e'.Fᵀ + e'.Q)ᵀ = e'.F * P1 * e'.Fᵀ + e'.Q := by
              rw [← nE'.cov]; exact covMat_transpose.symm
            have := congrArg transpose hC
            rw [transpose_mul, hPp] at this
            rw [Matrix.mul_assoc C, this]
          refine ⟨?_, fun z hz => ?_⟩
          · simp only
            rw [eS]
            refine ⟨sd.add (nS.sq.mulVec C), ?_, ?_⟩
            · rw [meanVec_add sd (nS.sq.mulVec C), meanVec_sub n1.sq (nE'.sq.mulVec C), meanVec_mulVec nE'.sq,
                meanVec_mulVec nS.sq, n1.mean, nE'.mean, nS.mean]
              simp
            · have o := dS0.mulVec C
              rw [covMat_add_left sd o.right (sd.add o.right), covMat_add_right sd sd o.right,
                covMat_add_right o.right sd o.right, o.cov, o.symm.cov, cd, covMat_mulVec_left nS.sq o.right,
                covMat_mulVec_right nS.sq nS.sq, nS.cov, c3]
              simp only [Matrix.mul_sub, Matrix.sub_mul, Matrix.mul_assoc]
              abel
          · simp only
            rw [eS]
            simp only [readings, List.mem_cons] at hz
            rcases hz with hz | hz | hz
            · rw [eq_comm, Option.map_eq_some_iff] at hz
              obtain ⟨v, hv, rfl⟩ := hz
              have g1 := (dU (z1 v hv) (uz v hv e' (by simp)).1.symm).2
              exact (g1.symm.add ((zS0 v hv).symm.mulVec C)).symm
            all_goals
              have dX : Unc μ (fun ω => (e.F *ᵥ X ω + e.w ω - x1 ω) -
                  C *ᵥ (e'.F *ᵥ (e.F *ᵥ X ω + e.w ω) + e'.w ω - e'.F *ᵥ x1 ω))
                  (fun ω => e'.F *ᵥ (e.F *ᵥ X ω + e.w ω) + e'.w ω) := by
                have g2 := dE.add ((dU o1 (ux1 e' (by simp)).1.symm).2.mulVec e'.F)
                simpa using g2
              have gz := zS z (by simp only [readings, List.mem_cons]; tauto)
              refine (Unc.add (Unc.symm ?_) (gz.symm.mulVec C)).symm
            · rw [eq_comm, Option.map_eq_some_iff] at hz
              obtain ⟨v, hv, rfl⟩ := hz
              exact (dX.mulVec e'.H).add (dv v hv)
            · exact unc_readings es dX des z hz
        · obtain ⟨g1, g2⟩ := IH p (by simpa only [truth, List.zip_cons_cons, List.mem_cons] using hp)
          refine ⟨g1, fun z hz => ?_⟩
          simp only [readings, List.mem_cons] at hz
          rcases hz with hz | hz
          · rw [eq_comm, Option.map_eq_some_iff] at hz
            obtain ⟨v, hv, rfl⟩ := hz
            exact z0 v hv p (by simpa only [truth, List.zip_cons_cons, List.mem_cons] using hp)
          · exact g2 z (by simpa only [readings, List.mem_cons] using hz)

/-! ## Affine in the measurements -/

omit [MeasurableSpace Ω] in
theorem affine_filt (es : List (Leg Ω n m)) {Z : List (Option (Ω → Vec m))} {X x : Ω → Vec n} {P : Mat n n} {outs}
    (hf : Filt X x P es outs) (hx : AffineIn Z x) (hZ : ∀ z, some z ∈ readings X es → some z ∈ Z) :
    ∀ o ∈ outs, AffineIn Z o.1 := by
  induction es generalizing X x P outs with
  | nil => cases hf; simp
  | cons e es ih =>
    obtain ⟨x1, P1, outs', rfl, hu, hf'⟩ := hf
    have h1 : AffineIn Z x1 := by
      unfold Upd at hu
      cases he : e.v with
      | none => rw [he] at hu; obtain ⟨rfl, -⟩ := hu; exact hx.mulVec e.F
      | some v =>
        rw [he] at hu
        obtain ⟨K, -, rfl, -⟩ := hu
        have hz := AffineIn.reading _ (hZ _ (by simp only [readings, he, Option.map_some, List.mem_cons]; exact .inl rfl))
        exact (hx.mulVec e.F).add _ _ ((hz.sub ((hx.mulVec e.F).mulVec e.H)).mulVec K)
    intro o ho
    rcases List.mem_cons.1 ho with rfl | ho
    · exact h1
    · exact ih hf' h1 (fun z hz => hZ z (by simp only [readings, List.mem_cons]; exact .inr hz)) o ho

omit [MeasurableSpace Ω] in
theorem affine_smoo (es : List (Leg Ω n m)) {Z : List (Option (Ω → Vec m))} {outs sm} (hs : Smoo es outs sm)
    (ho : ∀ o ∈ outs, AffineIn Z o.1) : ∀ s ∈ sm, AffineIn Z s.1 := by
  induction es generalizing outs sm with
  | nil => simp only [Smoo] at hs; subst hs; simp
  | cons e es ih =>
    cases es with
    | nil => simp only [Smoo] at hs; subst hs; exact ho
    | cons e' es =>
      match outs, sm, hs with
      | o :: outs, s :: s' :: sm, hs =>
        obtain ⟨⟨C, -, c2, -⟩, hs'⟩ := hs
        have h1 := ih hs' (fun o h => ho o (by simp [h]))
        have h2 := ho o (by simp)
        intro p hp
        rcases List.mem_cons.1 hp with rfl | hp
        · rw [c2]
          exact h2.add _ _ (((h1 s' (by simp)).sub (h2.mulVec e'.F)).mulVec C)
        · exact h1 p hp

/-- If the error is uncorrelated with the data, no other affine estimator has a smaller error
covariance. -/
theorem best_of_unc {Z : List (Option (Ω → Vec m))} {X x : Ω → Vec n} {P : Mat n n} (hx : AffineIn Z x)
    (hE : NoiseOK (fun ω => X ω - x ω) μ P) (hu : ∀ z, some z ∈ Z → Unc μ (fun ω => X ω - x ω) z) {Y : Ω → Vec n}
    (hY : AffineIn Z Y) :
    (covMat (fun ω => X ω - Y ω) (fun ω => X ω - Y ω) μ - P).PosSemidef := by
  have o := (hx.sub hY).unc hE.sq hu
  have e : (fun ω => X ω - Y ω) = fun ω => (X ω - x ω) + (x ω - Y ω) := by funext ω; abel
  rw [e, covMat_add_left hE.sq o.right (hE.sq.add o.right), covMat_add_right hE.sq hE.sq o.right,
    covMat_add_right o.right hE.sq o.right, o.cov, o.symm.cov, hE.cov]
  have := covMat_psd o.right
  simpa using this

/-! ## From the program to the recursions -/

/-- The inverse routines C89 is about: the default one, and the pseudo-inverse. -/
def GoodInv (f : Mat k k → Option (Mat k k)) : Prop := f = npInv ∨ IsPinv f

theorem good_gain {f : Mat m m → Option (Mat m m)} (hf : GoodInv f) {P : Mat n n} {H : Mat m n} {R G : Mat m m}
    (hP : P.PosSemidef) (hR : R.PosSemidef) (h : f (H * (P * Hᵀ) + R) = some G) :
    P * Hᵀ * G * (H * (P * Hᵀ) + R) = P * Hᵀ := by
  rcases hf with rfl | hf
  · obtain ⟨hd, rfl⟩ := npInv_eq_some.1 h
    rw [Matrix.mul_assoc, nonsing_inv_mul _ (isUnit_det_of_ne hd), Matrix.mul_one]
  · obtain ⟨G', h1, h2⟩ := hf (H * (P * Hᵀ) + R)
    obtain rfl : G = G' := Option.some.inj (h.symm.trans h1)
    exact pinv_gain hP hR h2.aga

/-- The rows `batch_filter` works on in the outcome `ω`. -/
noncomputable def legRows (ω : Ω) (X : Ω → Vec n) : List (Leg Ω n m) → List (BatchRow n m l)
  | [] => []
  | e :: es => ⟨e.v.map fun v => e.H *ᵥ (e.F *ᵥ X ω + e.w ω) + v ω, e.F, .mat e.Q, e.H, .mat e.R, none, .scalar 0⟩ ::
      legRows ω (fun ω => e.F *ᵥ X ω + e.w ω) es

/-- The lists of matrices given to `batch_filter`. -/
def legArgs (es : List (Leg Ω n m)) : BatchArgs n m l :=
  { Fs := some (es.map (·.F)), Qs := some (es.map fun e => .mat e.Q), Hs := some (es.map (·.H)),
    Rs := some (es.map fun e => .mat e.R) }

/-- The measurements in the outcome `ω`. -/
noncomputable def seen (X : Ω → Vec n) (es : List (Leg Ω n m)) (ω : Ω) : List (Option (Vec m)) :=
  (readings X es).map (Option.map fun z => z ω)

omit [MeasurableSpace Ω] in
theorem readings_length (es : List (Leg Ω n m)) (X : Ω → Vec n) : (readings X es).length = es.length := by
  induction es generalizing X with
  | nil => rfl
  | cons e es ih => simp [readings, ih]

omit [MeasurableSpace Ω] in
theorem batchRows_legs (s : KF n m l) (hB : s.B = none) (es : List (Leg Ω n m)) (X : Ω → Vec n) (ω : Ω) :
    s.batchRows (seen X es ω) (legArgs es) = legRows ω X es := by
  simp only [KF.batchRows, legArgs, Option.getD_some, Option.getD_none, hB, seen, List.length_map, readings_length]
  induction es generalizing X with
  | nil => rfl
  | cons e es ih =>
    simp only [readings, List.map_cons, List.length_cons, List.replicate_succ, zip7, legRows, Option.map_map]
    rw [ih]
    rfl

omit [MeasurableSpace Ω] in
/-- The filtered values in all outcomes. -/
theorem filt_of_run [Nonempty Ω] {f : Mat m m → Option (Mat m m)} (hi : GoodInv f) (es : List (Leg Ω n m))
    (hpsd : ∀ e ∈ es, e.Q.PosSemidef ∧ e.R.PosSemidef) {X x : Ω → Vec n} {P : Mat n n} (hP : P.PosSemidef)
    {kf : Ω → KF n m l} (hk : ∀ ω, (kf ω).x = x ω ∧ (kf ω).P = P ∧ (kf ω).alphaSq = 1 ∧ (kf ω).B = none ∧ (kf ω).inv = f)
    {r : Ω → List (BatchOut n) × KF n m l} (h : ∀ ω, batchLoop false (kf ω) (legRows ω X es) = .ok (r ω)) :
    ∃ outs, Filt X x P es outs ∧ ∀ ω, (r ω).1.map (fun o => (o.mean, o.cov)) = outs.map fun o => (o.1 ω, o.2) := by
  induction es generalizing X x P kf r with
  | nil =>
    refine ⟨[], rfl, fun ω => ?_⟩
    have := h ω
    simp only [legRows, batchLoop, Except.ok.injEq] at this
    rw [← this]; rfl
  | cons e es ih =>
    obtain ⟨hQ, hR⟩ := hpsd e (by simp)
    have hPp : (e.F * P * e.Fᵀ + e.Q).PosSemidef := (PSD.congr hP _).add hQ
    -- the two calls
    have hstep : ∀ ω, ∃ s2 r', (∃ s1, (kf ω).predict (.scalar 0) none (some e.F) (.mat e.Q) = .ok s1 ∧
        s1.update (e.v.map fun v => e.H *ᵥ (e.F *ᵥ X ω + e.w ω) + v ω) (.mat e.R) (some e.H) = .ok s2) ∧
        batchLoop false s2 (legRows ω (fun ω => e.F *ᵥ X ω + e.w ω) es) = .ok r' ∧
        (r ω).1.map (fun o => (o.mean, o.cov)) = (s2.x, s2.P) :: r'.1.map (fun o => (o.mean, o.cov)) := by
      intro ω
      have hω := h ω
      simp only [legRows, batchLoop, Bool.false_eq_true, if_false] at hω
      cases h1 : (kf ω).predict (.scalar 0) none (some e.F) (.mat e.Q) with
      | error er => rw [h1] at hω; cases hω
      | ok s1 =>
        rw [h1] at hω
        simp only [Bind.bind, Except.bind] at hω
        cases h2 : s1.update (e.v.map fun v => e.H *ᵥ (e.F *ᵥ X ω + e.w ω) + v ω) (.mat e.R) (some e.H) with
        | error er => rw [h2] at hω; cases hω
        | ok s2 =>
          rw [h2] at hω
          simp only at hω
          cases h3 : batchLoop false s2 (legRows ω (fun ω => e.F *ᵥ X ω + e.w ω) es) with
          | error er => rw [h3] at hω; cases hω
          | ok r' =>
            rw [h3] at hω
            simp only [Except.ok.injEq] at hω
            exact ⟨s2, r', ⟨s1, rfl, h2⟩, h3, by rw [← hω]; rfl⟩
    choose s2 r' hs2 hr' hr using hstep
    choose s1 hp hu using hs2
    have h1 : ∀ ω, (s1 ω).x = e.F *ᵥ x ω ∧ (s1 ω).P = e.F * P * e.Fᵀ + e.Q ∧ (s1 ω).alphaSq = 1 ∧ (s1 ω).B = none ∧
        (s1 ω).inv = f := by
      intro ω
      obtain ⟨k1, k2, k3, k4, k5⟩ := hk ω
      have := hp ω
      simp only [KF.predict, k4, Option.or_none, KF.control, Except.ok.injEq] at this
      rw [← this]
      simp only [Option.getD_some, MatArg.resolve, k1, k2, k3, one_smul]
      exact ⟨trivial, trivial, trivial, trivial, k5⟩
    obtain ⟨x1, P1, hupd, hP1, h2⟩ : ∃ x1 P1, Upd e (fun ω => e.F *ᵥ X ω + e.w ω) (fun ω => e.F *ᵥ x ω)
        (e.F * P * e.Fᵀ + e.Q) x1 P1 ∧ P1.PosSemidef ∧
        ∀ ω, (s2 ω).x = x1 ω ∧ (s2 ω).P = P1 ∧ (s2 ω).alphaSq = 1 ∧ (s2 ω).B = none ∧ (s2 ω).inv = f := by
      cases hv : e.v with
      | none =>
        refine ⟨_, _, by rw [Upd, hv]; exact ⟨rfl, rfl⟩, hPp, fun ω => ?_⟩
        have := hu ω
        simp only [hv, Option.map_none, KF.update, Except.ok.injEq] at this
        rw [← this]
        exact h1 ω
      | some v =>
        have h3 : ∀ ω, ∃ SI, f (e.H * ((e.F * P * e.Fᵀ + e.Q) * e.Hᵀ) + e.R) = some SI ∧
            (s2 ω).x = e.F *ᵥ x ω + ((e.F * P * e.Fᵀ + e.Q) * e.Hᵀ * SI) *ᵥ
              (e.H *ᵥ (e.F *ᵥ X ω + e.w ω) + v ω - e.H *ᵥ (e.F *ᵥ x ω)) ∧
            (s2 ω).P = (1 - (e.F * P * e.Fᵀ + e.Q) * e.Hᵀ * SI * e.H) * (e.F * P * e.Fᵀ + e.Q) *
              (1 - (e.F * P * e.Fᵀ + e.Q) * e.Hᵀ * SI * e.H)ᵀ +
              (e.F * P * e.Fᵀ + e.Q) * e.Hᵀ * SI * e.R * ((e.F * P * e.Fᵀ + e.Q) * e.Hᵀ * SI)ᵀ ∧
            (s2 ω).alphaSq = 1 ∧ (s2 ω).B = none ∧ (s2 ω).inv = f := by
          intro ω
          have := hu ω
          rw [hv] at this
          obtain ⟨SI, g1, g2⟩ := KF.update_ok this
          obtain ⟨k1, k2, k3, k4, k5⟩ := h1 ω
          simp only [Option.getD_some, MatArg.resolve, k2, k5] at g1
          refine ⟨SI, g1, ?_⟩
          rw [g2]
          simp only [Option.getD_some, MatArg.resolve, k1, k2]
          exact ⟨trivial, trivial, k3, k4, k5⟩
        obtain ⟨SI, hSI, -⟩ := h3 (Classical.arbitrary Ω)
        refine ⟨_, _, by
          simp only [Upd, hv]
          exact ⟨_, good_gain hi hPp hR hSI, rfl, rfl⟩, joseph_psd hPp hR _, fun ω => ?_⟩
        obtain ⟨SI', hSI', g⟩ := h3 ω
        obtain rfl : SI = SI' := Option.some.inj (hSI.symm.trans hSI')
        exact g
    obtain ⟨outs, g1, g2⟩ := ih (fun e he => hpsd e (by simp [he])) hP1 h2 hr'
    refine ⟨(x1, P1) :: outs, ⟨x1, P1, outs, rfl, hupd, g1⟩, fun ω => ?_⟩
    rw [hr ω, g2 ω, (h2 ω).1, (h2 ω).2.1]
    rfl

omit [MeasurableSpace Ω] in
theorem filt_length (es : List (Leg Ω n m)) {X x : Ω → Vec n} {P : Mat n n} {outs} (h : Filt X x P es outs) :
    outs.length = es.length := by
  induction es generalizing X x P outs with
  | nil => cases h; rfl
  | cons e es ih =>
    obtain ⟨x1, P1, outs', rfl, -, h'⟩ := h
    simp [ih h']

omit [MeasurableSpace Ω] in
theorem filt_psd (es : List (Leg Ω n m)) (hpsd : ∀ e ∈ es, e.Q.PosSemidef ∧ e.R.PosSemidef) {X x : Ω → Vec n}
    {P : Mat n n} (hP : P.PosSemidef) {outs} (h : Filt X x P es outs) : ∀ o ∈ outs, o.2.PosSemidef := by
  induction es generalizing X x P outs with
  | nil => cases h; simp
  | cons e es ih =>
    obtain ⟨x1, P1, outs', rfl, hu, h'⟩ := h
    obtain ⟨hQ, hR⟩ := hpsd e (by simp)
    have hPp : (e.F * P * e.Fᵀ + e.Q).PosSemidef := (PSD.congr hP _).add hQ
    have h1 : P1.PosSemidef := by
      unfold Upd at hu
      cases hv : e.v with
      | none => rw [hv] at hu; rw [hu.2]; exact hPp
      | some v => rw [hv] at hu; obtain ⟨K, -, -, rfl⟩ := hu; exact joseph_psd hPp hR K
    intro o ho
    rcases List.mem_cons.1 ho with rfl | ho
    · exact h1
    · exact ih (fun e he => hpsd e (by simp [he])) h1 h' o ho

theorem rtsLoop_ne (f : Mat n n → Option (Mat n n)) (L : List ((Vec n × Mat n n) × (Mat n n × Mat n n))) (x) :
    rtsLoop f (x :: L) ≠ .ok [] := by
  induction L generalizing x with
  | nil => simp [rtsLoop]
  | cons y L ih =>
    intro h
    simp only [rtsLoop, Bind.bind, Except.bind] at h
    cases ht : rtsLoop f (y :: L) with
    | error e => rw [ht] at h; cases h
    | ok tl =>
      rw [ht] at h
      cases tl with
      | nil => exact ih y ht
      | cons nxt tl =>
        simp only at h
        cases hq : rtsStep f x.1.1 x.1.2 y.2.1 y.2.2 nxt <;> rw [hq] at h <;> simp at h

omit [MeasurableSpace Ω] in
/-- The smoothed values in all outcomes. -/
theorem smoo_of_run [Nonempty Ω] {f : Mat n n → Option (Mat n n)} (hi : GoodInv f) (es : List (Leg Ω n m))
    (hpsd : ∀ e ∈ es, e.Q.PosSemidef) {outs : List ((Ω → Vec n) × Mat n n)} (hl : outs.length = es.length)
    (ho : ∀ o ∈ outs, o.2.PosSemidef) {r : Ω → List (RtsOut n)}
    (h : ∀ ω, rtsLoop f ((outs.map fun o => (o.1 ω, o.2)).zip ((es.map (·.F)).zip (es.map (·.Q)))) = .ok (r ω)) :
    ∃ sm, Smoo es outs sm ∧ ∀ ω, (r ω).map (fun o => (o.x, o.P)) = sm.map fun o => (o.1 ω, o.2) := by
  induction es generalizing outs r with
  | nil =>
    refine ⟨[], rfl, fun ω => ?_⟩
    have := h ω
    simp only [List.map_nil, List.zip_nil_right, rtsLoop, Except.ok.injEq] at this
    rw [← this]; rfl
  | cons e es ih =>
    match outs, hl with
    | o :: outs, hl =>
      cases es with
      | nil =>
        obtain rfl : outs = [] := List.length_eq_zero_iff.1 (by simpa using hl)
        refine ⟨[o], rfl, fun ω => ?_⟩
        have := h ω
        simp only [List.map_cons, List.map_nil, List.zip_cons_cons, List.zip_nil_right, rtsLoop, Except.ok.injEq] at this
        rw [← this]; rfl
      | cons e' es =>
        match outs, hl with
        | o' :: outs, hl =>
          have hstep : ∀ ω, ∃ nxt tl q, rtsLoop f (((o' :: outs).map fun o => (o.1 ω, o.2)).zip
              (((e' :: es).map (·.F)).zip ((e' :: es).map (·.Q)))) = .ok (nxt :: tl) ∧
              rtsStep f (o.1 ω) o.2 e'.F e'.Q nxt = .ok q ∧ r ω = q :: nxt :: tl := by
            intro ω
            have hω := h ω
            simp only [List.map_cons, List.zip_cons_cons, rtsLoop, Bind.bind, Except.bind] at hω
            simp only [List.map_cons, List.zip_cons_cons]
            cases ht : rtsLoop f (((o'.1 ω, o'.2), e'.F, e'.Q) ::
                (outs.map fun o => (o.1 ω, o.2)).zip ((es.map (·.F)).zip (es.map (·.Q)))) with
            | error er => rw [ht] at hω; cases hω
            | ok tl =>
              rw [ht] at hω
              cases tl with
              | nil => exact absurd ht (rtsLoop_ne _ _ _)
              | cons nxt tl =>
                simp only at hω
                cases hq : rtsStep f (o.1 ω) o.2 e'.F e'.Q nxt with
                | error er => rw [hq] at hω; cases hω
                | ok q =>
                  rw [hq] at hω
                  simp only [Except.ok.injEq] at hω
                  exact ⟨nxt, tl, q, rfl, hq, hω.symm⟩
          choose nxt tl q h1 h2 h3 using hstep
          obtain ⟨sm, g1, g2⟩ := ih (fun e he => hpsd e (by simp [he])) (by simpa using hl)
            (fun o h => ho o (by simp [h])) h1
          match sm, g1, g2 with
          | [], g1, g2 => exact absurd (g2 (Classical.arbitrary Ω)) (by simp)
          | s' :: sm, g1, g2 =>
            have hnx : ∀ ω, (nxt ω).x = s'.1 ω ∧ (nxt ω).P = s'.2 := by
              intro ω
              have := g2 ω
              simp only [List.map_cons, List.cons.injEq, Prod.mk.injEq] at this
              exact this.1
            have hq : ∀ ω, ∃ G, f (e'.F * o.2 * e'.Fᵀ + e'.Q) = some G ∧
                (q ω).x = o.1 ω + (o.2 * e'.Fᵀ * G) *ᵥ (s'.1 ω - e'.F *ᵥ o.1 ω) ∧
                (q ω).P = o.2 + o.2 * e'.Fᵀ * G * (s'.2 - (e'.F * o.2 * e'.Fᵀ + e'.Q)) * (o.2 * e'.Fᵀ * G)ᵀ := by
              intro ω
              have := h2 ω
              simp only [rtsStep] at this
              cases hG : f (e'.F * o.2 * e'.Fᵀ + e'.Q) with
              | none => simp [hG] at this
              | some G =>
                simp only [hG, Except.ok.injEq] at this
                refine ⟨G, rfl, ?_⟩
                rw [← this, (hnx ω).1, (hnx ω).2]
                exact ⟨rfl, rfl⟩
            obtain ⟨G, hG, -⟩ := hq (Classical.arbitrary Ω)
            refine ⟨((fun ω => o.1 ω + (o.2 * e'.Fᵀ * G) *ᵥ (s'.1 ω - e'.F *ᵥ o.1 ω)),
              o.2 + o.2 * e'.Fᵀ * G * (s'.2 - (e'.F * o.2 * e'.Fᵀ + e'.Q)) * (o.2 * e'.Fᵀ * G)ᵀ) :: s' :: sm,
              ⟨⟨o.2 * e'.Fᵀ * G, ?_, rfl, rfl⟩, g1⟩, fun ω => ?_⟩
            · have := good_gain hi (H := e'.F) (R := e'.Q) (G := G) (ho o (by simp)) (hpsd e' (by simp))
                (by rw [← Matrix.mul_assoc]; exact hG)
              rwa [← Matrix.mul_assoc e'.F] at this
            · obtain ⟨G', hG', k1, k2⟩ := hq ω
              obtain rfl : G = G' := Option.some.inj (hG.symm.trans hG')
              rw [h3 ω, List.map_cons, k1, k2, g2 ω]
              rfl

omit [MeasurableSpace Ω] in
theorem smoo_length (es : List (Leg Ω n m)) {outs sm : List ((Ω → Vec n) × Mat n n)} (hl : outs.length = es.length)
    (h : Smoo es outs sm) : sm.length = es.length := by
  induction es generalizing outs sm with
  | nil => simp only [Smoo] at h; subst h; rfl
  | cons e es ih =>
    cases es with
    | nil => simp only [Smoo] at h; subst h; exact hl
    | cons e' es =>
      match outs, sm, h with
      | o :: outs, s :: s' :: sm, h =>
        have := ih (by simpa using hl) h.2
        simpa using this

omit [MeasurableSpace Ω] in
/-- Smoothed values always exist (use the pseudo-inverse), and the last one is the filtered one. -/
theorem smoo_exists (es : List (Leg Ω n m)) (hpsd : ∀ e ∈ es, e.Q.PosSemidef) {outs : List ((Ω → Vec n) × Mat n n)}
    (hl : outs.length = es.length) (ho : ∀ o ∈ outs, o.2.PosSemidef) :
    ∃ sm, Smoo es outs sm ∧ sm.getLast? = outs.getLast? := by
  induction es generalizing outs with
  | nil =>
    obtain rfl : outs = [] := List.length_eq_zero_iff.1 hl
    exact ⟨[], rfl, rfl⟩
  | cons e es ih =>
    match outs, hl with
    | o :: outs, hl =>
      cases es with
      | nil =>
        obtain rfl : outs = [] := List.length_eq_zero_iff.1 (by simpa using hl)
        exact ⟨[o], rfl, rfl⟩
      | cons e' es =>
        obtain ⟨sm, g1, g2⟩ := ih (fun e he => hpsd e (by simp [he])) (outs := outs) (by simpa using hl)
          (fun o h => ho o (by simp [h]))
        have h3 := smoo_length _ (by simpa using hl) g1
        match sm, h3, g1, g2 with
        | s' :: sm, h3, g1, g2 =>
          obtain ⟨G, hG⟩ := penrose_exists (e'.F * (o.2 * e'.Fᵀ) + e'.Q)
          have hK := pinv_gain (H := e'.F) (ho o (by simp)) (hpsd e' (by simp)) hG.aga
          rw [← Matrix.mul_assoc e'.F] at hK
          refine ⟨(_, _) :: s' :: sm, ⟨⟨o.2 * e'.Fᵀ * G, hK, rfl, rfl⟩, g1⟩, ?_⟩
          match outs, hl with
          | o' :: outs, _ => simpa [List.getLast?_cons_cons] using g2

omit [MeasurableSpace Ω] in
/-- `rts_smoother` runs its loop on the filtered values. -/
theorem rtsSmoother_loop {s : KF n m l} {Xs : List (Vec n)} {Ps Fs Qs : List (Mat n n)} {f : Mat n n → Option (Mat n n)}
    {r : List (RtsOut n)} (h1 : Xs.length = Ps.length) (h2 : Fs.length = Xs.length) (h3 : Qs.length = Xs.length)
    (h : s.rtsSmoother Xs Ps (some Fs) (some Qs) f = .ok r) : rtsLoop f ((Xs.zip Ps).zip (Fs.zip Qs)) = .ok r := by
  rw [rtsSmoother, if_neg (by simpa using h1)] at h
  simp only [Option.getD_some] at h
  rw [if_neg (by omega)] at h
  split_ifs at h with hk
  · match Xs, Ps, Fs, Qs, h1, h2, h3 with
    | [], [], [], [], _, _, _ => exact h
    | [x], [P], [F], [Q], _, _, _ => exact h
    | _ :: _ :: _, _, _, _, _, _, _ => simp at hk
  · exact h

/-! ## The theorems -/

/-- A system that is as the filter believes: the initial error has covariance `P`, the noises have
covariances `Q` and `R` (which may be singular or zero) and everything is uncorrelated. -/
structure Believed (μ : Measure Ω) (s : KF n m l) (X : Ω → Vec n) (es : List (Leg Ω n m)) : Prop where
  start : NoiseOK (fun ω => X ω - s.x) μ s.P
  startUnc : UncAll μ X es
  legs : ∀ e ∈ es, LegOK μ e
  psd : ∀ e ∈ es, e.R.PosSemidef
  unc : es.Pairwise (LegUnc μ)

/-- `x` estimates `X` from the measurements `Z` with error covariance `P`, and no other estimator that is
affine in the measurements has a smaller error covariance. -/
structure BestLinear (μ : Measure Ω) (Z : List (Option (Ω → Vec m))) (X x : Ω → Vec n) (P : Mat n n) : Prop where
  affine : AffineIn Z x
  honest : NoiseOK (fun ω => X ω - x ω) μ P
  best : ∀ Y, AffineIn Z Y → (covMat (fun ω => X ω - Y ω) (fun ω => X ω - Y ω) μ - P).PosSemidef

/-- A run of `batch_filter` in a system as believed: the filtered values, and what any smoothed values
satisfy. -/
theorem believed_run (s : KF n m l) (hs : s.alphaSq = 1 ∧ s.B = none) (hi : GoodInv s.inv)
    (X : Ω → Vec n) (es : List (Leg Ω n m)) (hb : Believed μ s X es)
    (r : Ω → List (BatchOut n) × KF n m l) (hr : ∀ ω, s.batchFilter (seen X es ω) (legArgs es) = .ok (r ω)) :
    ∃ outs : List ((Ω → Vec n) × Mat n n), Filt X (fun _ => s.x) s.P es outs ∧
      (∀ ω, (r ω).1.map (fun o => (o.mean, o.cov)) = outs.map fun o => (o.1 ω, o.2)) ∧ outs.length = es.length ∧
      (∀ e ∈ es, e.Q.PosSemidef) ∧ (∀ o ∈ outs, o.2.PosSemidef) ∧
      ∀ S, Smoo es outs S → ∀ p ∈ (truth X es).zip S, BestLinear μ (readings X es) p.1 p.2.1 p.2.2 := by
  have hne : Nonempty Ω := μ.nonempty_of_neZero
  have hP : s.P.PosSemidef := by rw [← hb.start.cov]; exact covMat_psd hb.start.sq
  have hpsd : ∀ e ∈ es, e.Q.PosSemidef ∧ e.R.PosSemidef := by
    intro e he
    refine ⟨?_, hb.psd e he⟩
    have := (hb.legs e he).w
    rw [← this.cov]; exact covMat_psd this.sq
  obtain ⟨outs, g1, g2⟩ := filt_of_run (x := fun _ => s.x) (kf := fun _ => s) hi es hpsd hP
    (fun _ => ⟨rfl, rfl, hs.1, hs.2, rfl⟩) (X := X) (r := r) (fun ω => by
      rw [← batchRows_legs s hs.2]; exact hr ω)
  have hX : SqInt X μ := by
    have := hb.start.sq.add (SqInt.const s.x)
    simpa using this
  refine ⟨outs, g1, g2, filt_length es g1, fun e he => (hpsd e he).1, filt_psd es hpsd hP g1, fun S k1 p hp => ?_⟩
  obtain ⟨h1, h2⟩ := smoothed_ok es g1 k1 hX hb.start (Unc.const hb.start.sq s.x) hb.startUnc
    (fun e he => ⟨(Unc.const (hb.legs e he).w.sq s.x).symm, fun v hv => (Unc.const ((hb.legs e he).v v hv).1.sq s.x).symm⟩)
    hb.legs hb.unc p hp
  have h3 := affine_smoo es k1 (affine_filt es g1 (AffineIn.const s.x) fun z hz => hz) p.2 (List.of_mem_zip hp).2
  exact ⟨h3, h1, fun Y hY => best_of_unc h3 h1 h2 hY⟩

/-- **C11 (second moments).** The statement of C11 without densities: the process and measurement noise
may have singular covariances (like those of `Q_discrete_white_noise`) and need not be Gaussian.  If
`batch_filter` and `rts_smoother` succeed, then at every time the smoothed state and covariance are the
best linear estimate from *all* the measurements and its error covariance.  Both the default inverse and
the pseudo-inverse may be used. -/
theorem C11_best_linear (s : KF n m l) (hs : s.alphaSq = 1 ∧ s.B = none) (hi : GoodInv s.inv)
    (f : Mat n n → Option (Mat n n)) (hf : GoodInv f) (X : Ω → Vec n) (es : List (Leg Ω n m)) (hb : Believed μ s X es)
    (r : Ω → List (BatchOut n) × KF n m l) (hr : ∀ ω, s.batchFilter (seen X es ω) (legArgs es) = .ok (r ω))
    (q : Ω → List (RtsOut n)) (hq : ∀ ω, (r ω).2.rtsSmoother ((r ω).1.map (·.mean)) ((r ω).1.map (·.cov))
      (some (es.map (·.F))) (some (es.map (·.Q))) f = .ok (q ω)) :
    ∃ S : List ((Ω → Vec n) × Mat n n), S.length = es.length ∧
      (∀ ω, (q ω).map (fun o => (o.x, o.P)) = S.map fun o => (o.1 ω, o.2)) ∧
      ∀ p ∈ (truth X es).zip S, BestLinear μ (readings X es) p.1 p.2.1 p.2.2 := by
  obtain ⟨outs, g1, g2, hl, hpsd, ho, hsm⟩ := believed_run s hs hi X es hb r hr
  have hne : Nonempty Ω := μ.nonempty_of_neZero
  have e1 : ∀ ω, (r ω).1.map (·.mean) = outs.map fun o => o.1 ω := by
    intro ω
    have := congrArg (List.map Prod.fst) (g2 ω)
    simpa [List.map_map, Function.comp_def] using this
  have e2 : ∀ ω, (r ω).1.map (·.cov) = outs.map fun o => o.2 := by
    intro ω
    have := congrArg (List.map Prod.snd) (g2 ω)
    simpa [List.map_map, Function.comp_def] using this
  obtain ⟨S, k1, k2⟩ := smoo_of_run hf es hpsd hl ho (r := q) (fun ω => by
    have := hq ω
    rw [e1, e2] at this
    have := rtsSmoother_loop (by simp) (by simp [hl]) (by simp [hl]) this
    rwa [List.zip_map'] at this)
  exact ⟨S, smoo_length es hl k1, k2, hsm S k1⟩

theorem getLast?_zip_mem {α β : Type*} {as : List α} {bs : List β} (h : as.length = bs.length) {y : β}
    (hy : bs.getLast? = some y) : ∃ x, as.getLast? = some x ∧ (x, y) ∈ as.zip bs := by
  induction as generalizing bs with
  | nil => obtain rfl : bs = [] := List.length_eq_zero_iff.1 h.symm; simp at hy
  | cons a as ih =>
    match bs, h with
    | b :: bs, h =>
      cases as with
      | nil =>
        obtain rfl : bs = [] := List.length_eq_zero_iff.1 (by simpa using h.symm)
        simp only [List.getLast?_singleton, Option.some.injEq] at hy
        exact ⟨a, rfl, by simp [hy]⟩
      | cons a' as =>
        match bs, h with
        | b' :: bs, h =>
          obtain ⟨x, h1, h2⟩ := ih (bs := b' :: bs) (by simpa using h) (by simpa [List.getLast?_cons_cons] using hy)
          exact ⟨x, by simpa [List.getLast?_cons_cons] using h1, by rw [List.zip_cons_cons]; exact List.mem_cons_of_mem _ h2⟩

omit [MeasurableSpace Ω] in
theorem truth_length (es : List (Leg Ω n m)) (X : Ω → Vec n) : (truth X es).length = es.length := by
  induction es generalizing X with
  | nil => rfl
  | cons e es ih => simp [truth, ih]

/-- **C03 (all measurements).** The last filtered state of `batch_filter` is the best estimate of the
last state among all estimators that are affine in the measurements so far, not only among those that
correct the same prior; its covariance is the reported one.  The noise covariances may be singular. -/
theorem C03_best_linear (s : KF n m l) (hs : s.alphaSq = 1 ∧ s.B = none) (hi : GoodInv s.inv)
    (X : Ω → Vec n) (es : List (Leg Ω n m)) (hne : es ≠ []) (hb : Believed μ s X es)
    (r : Ω → List (BatchOut n) × KF n m l) (hr : ∀ ω, s.batchFilter (seen X es ω) (legArgs es) = .ok (r ω)) :
    ∃ (x : Ω → Vec n) (P : Mat n n) (Xk : Ω → Vec n), (truth X es).getLast? = some Xk ∧
      (∀ ω, ((r ω).1.map fun o => (o.mean, o.cov)).getLast? = some (x ω, P)) ∧
      BestLinear μ (readings X es) Xk x P := by
  obtain ⟨outs, g1, g2, hl, hpsd, ho, hsm⟩ := believed_run s hs hi X es hb r hr
  obtain ⟨S, k1, k2⟩ := smoo_exists es hpsd hl ho
  have hS := smoo_length es hl k1
  obtain ⟨o, h1⟩ : ∃ o, outs.getLast? = some o := by
    have : outs ≠ [] := by
      rintro rfl
      exact hne (List.length_eq_zero_iff.1 hl.symm)
    exact ⟨_, List.getLast?_eq_some_getLast this⟩
  obtain ⟨Xk, h2, h3⟩ := getLast?_zip_mem (as := truth X es) (by rw [truth_length, hS]) (k2.trans h1)
  refine ⟨o.1, o.2, Xk, h2, fun ω => ?_, hsm S k1 _ h3⟩
  rw [g2 ω, List.getLast?_map, h1]
  rfl

/-! ## C12 for singular covariances -/

/-- Each covariance is bounded by the prediction of the previous one. -/
def CovSteps : Mat n n → List ((Vec n × Mat n n) × (Mat n n × Mat n n)) → Prop
  | _, [] => True
  | P, e :: es => e.2.2.PosSemidef ∧ e.1.2.PosSemidef ∧ (e.2.1 * P * e.2.1ᵀ + e.2.2 - e.1.2).PosSemidef ∧
      CovSteps e.1.2 es

theorem rts_reduces {f : Mat n n → Option (Mat n n)} (hf : GoodInv f)
    (es : List ((Vec n × Mat n n) × (Mat n n × Mat n n))) {e : (Vec n × Mat n n) × (Mat n n × Mat n n)}
    (he : e.1.2.PosSemidef) (h : CovSteps e.1.2 es) {r : List (RtsOut n)} (hr : rtsLoop f (e :: es) = .ok r) :
    List.Forall₂ (fun c o => o.P.PosSemidef ∧ (c - o.P).PosSemidef) ((e :: es).map fun e => e.1.2) r := by
  induction es generalizing e r with
  | nil =>
    simp only [rtsLoop, Except.ok.injEq] at hr
    subst hr
    exact .cons ⟨he, by simpa using PosSemidef.zero⟩ .nil
  | cons e' es ih =>
    obtain ⟨hQ, hP', hle, h⟩ := h
    simp only [rtsLoop, Bind.bind, Except.bind] at hr
    cases ht : rtsLoop f (e' :: es) with
    | error er => rw [ht] at hr; cases hr
    | ok tl =>
      rw [ht] at hr
      have ih := ih hP' h ht
      cases tl with
      | nil => exact absurd ht (rtsLoop_ne _ _ _)
      | cons nxt tl =>
        simp only [rtsStep] at hr
        cases hG : f (e'.2.1 * e.1.2 * e'.2.1ᵀ + e'.2.2) with
        | none => simp [hG] at hr
        | some G =>
          simp only [hG, Except.ok.injEq] at hr
          subst hr
          rw [List.map_cons]
          refine .cons ?_ ih
          rw [List.map_cons, List.forall₂_cons] at ih
          obtain ⟨⟨h1, h2⟩, -⟩ := ih
          have hG' : f (e'.2.1 * (e.1.2 * e'.2.1ᵀ) + e'.2.2) = some G := by rw [← hG, Matrix.mul_assoc]
          have hC := good_gain hf he hQ hG'
          rw [← Matrix.mul_assoc e'.2.1] at hC
          simp only
          generalize e.1.2 * e'.2.1ᵀ * G = C at hC ⊢
          refine ⟨?_, ?_⟩
          · have hS := he.1
            have e1 : e.1.2 + C * (nxt.P - (e'.2.1 * e.1.2 * e'.2.1ᵀ + e'.2.2)) * Cᵀ =
                ((1 - C * e'.2.1) * e.1.2 * (1 - C * e'.2.1)ᵀ + C * e'.2.2 * Cᵀ) + C * nxt.P * Cᵀ := by
              rw [joseph_expand, ← Matrix.mul_assoc e'.2.1, hC]
              have e2 : C * (e'.2.1 * e.1.2) = e.1.2 * e'.2.1ᵀ * Cᵀ := by
                have hSy : (e'.2.1 * e.1.2 * e'.2.1ᵀ + e'.2.2)ᵀ = e'.2.1 * e.1.2 * e'.2.1ᵀ + e'.2.2 :=
                  PSD.symm ((PSD.congr he _).add hQ)
                have e3 : e'.2.1 * e.1.2 = (e'.2.1 * e.1.2 * e'.2.1ᵀ + e'.2.2) * Cᵀ := by
                  have := congrArg transpose hC
                  rw [transpose_mul, hSy, transpose_mul, transpose_transpose, PSD.symm he] at this
                  exact this.symm
                rw [e3, ← Matrix.mul_assoc, hC]
              rw [e2, Matrix.mul_sub, Matrix.sub_mul, hC]
              abel
            rw [e1]
            exact (joseph_psd he hQ C).add (PSD.congr h1 C)
          · have e1 : e.1.2 - (e.1.2 + C * (nxt.P - (e'.2.1 * e.1.2 * e'.2.1ᵀ + e'.2.2)) * Cᵀ) =
                C * ((e'.2.1 * e.1.2 * e'.2.1ᵀ + e'.2.2 - e'.1.2) + (e'.1.2 - nxt.P)) * Cᵀ := by
              rw [sub_add_sub_cancel, Matrix.mul_sub, Matrix.mul_sub, Matrix.sub_mul, Matrix.sub_mul]; abel
            rw [e1]
            exact PSD.congr (hle.add h2) C

/-- A successful update with either inverse: the covariance stays positive semidefinite and does not
grow. -/
theorem update_good_le {s s' : KF n m l} (hi : GoodInv s.inv) (hP : s.P.PosSemidef) {z R H}
    (hR : (MatArg.resolve R s.R).PosSemidef) (h : s.update z R H = .ok s') :
    s'.P.PosSemidef ∧ (s.P - s'.P).PosSemidef ∧ s'.inv = s.inv ∧ s'.alphaSq = s.alphaSq ∧ s'.Q = s.Q ∧
      s'.R = s.R := by
  cases z with
  | none =>
    simp only [KF.update, Except.ok.injEq] at h
    subst h
    exact ⟨hP, by simpa [KF.updateNone] using PosSemidef.zero, rfl, rfl, rfl, rfl⟩
  | some z =>
    obtain ⟨SI, h1, rfl⟩ := KF.update_ok h
    refine ⟨joseph_psd hP hR _, ?_, rfl, rfl, rfl, rfl⟩
    have hC := good_gain hi hP hR h1
    simp only
    generalize s.P * (H.getD s.H)ᵀ * SI = C at hC ⊢
    have hS := S_psd (H := H.getD s.H) hP hR
    have e2 : C * (H.getD s.H * s.P) = s.P * (H.getD s.H)ᵀ * Cᵀ := by
      have := congrArg transpose hC
      rw [transpose_mul, PSD.symm hS, transpose_mul, transpose_transpose, PSD.symm hP] at this
      rw [← this, ← Matrix.mul_assoc, hC]
    have e1 : s.P - ((1 - C * H.getD s.H) * s.P * (1 - C * H.getD s.H)ᵀ + C * MatArg.resolve R s.R * Cᵀ) =
        C * (H.getD s.H * (s.P * (H.getD s.H)ᵀ) + MatArg.resolve R s.R) * Cᵀ := by
      rw [joseph_expand, e2, hC]
      abel
    rw [e1]
    exact PSD.congr hS C

theorem batch_covSteps (rows : List (BatchRow n m l)) {s : KF n m l} (hi : GoodInv s.inv) (ha : s.alphaSq = 1)
    (hP : s.P.PosSemidef) (hpsd : ∀ r ∈ rows, (r.Q.resolve s.Q).PosSemidef ∧ (r.R.resolve s.R).PosSemidef)
    {outs : List (BatchOut n) × KF n m l} (h : batchLoop false s rows = .ok outs) :
    outs.1.length = rows.length ∧ CovSteps s.P ((outs.1.map fun o => (o.mean, o.cov)).zip
      (rows.map fun r => (r.F, r.Q.resolve s.Q))) := by
  induction rows generalizing s outs with
  | nil =>
    simp only [batchLoop, Except.ok.injEq] at h
    subst h
    exact ⟨rfl, trivial⟩
  | cons r rows ih =>
    obtain ⟨hQ, hR⟩ := hpsd r (by simp)
    simp only [batchLoop, Bool.false_eq_true, if_false] at h
    cases h1 : s.predict r.u r.B (some r.F) r.Q with
    | error er => rw [h1] at h; cases h
    | ok s1 =>
      rw [h1] at h
      simp only [Bind.bind, Except.bind] at h
      cases h2 : s1.update r.z r.R (some r.H) with
      | error er => rw [h2] at h; cases h
      | ok s2 =>
        rw [h2] at h
        simp only at h
        cases h3 : batchLoop false s2 rows with
        | error er => rw [h3] at h; cases h
        | ok r' =>
          rw [h3] at h
          simp only [Except.ok.injEq] at h
          subst h
          obtain ⟨x, rfl⟩ := predict_ok h1
          simp only [Option.getD_some, ha, one_smul] at h1 h2
          have hPp : (r.F * s.P * r.Fᵀ + r.Q.resolve s.Q).PosSemidef := (PSD.congr hP _).add hQ
          have hg := fun h h' h'' => update_good_le h h' h'' h2
          obtain ⟨k1, k2, k3, k4, k5, k6⟩ := hg hi hPp hR
          simp only at k2 k3 k4 k5 k6
          obtain ⟨h4, h5⟩ := ih (s := s2) (k3 ▸ hi) k4 k1 (fun r' hr' => by
            rw [k5, k6]; exact hpsd r' (by simp [hr'])) h3
          refine ⟨by simp [h4], ?_⟩
          simp only [List.map_cons, List.zip_cons_cons, CovSteps]
          rw [k5] at h5
          exact ⟨hQ, k1, k2, h5⟩

theorem map_zip_cov {outs : List (BatchOut n)} {rows : List (BatchRow n m l)} (g : BatchRow n m l → Mat n n × Mat n n)
    (h : outs.length = rows.length) :
    ((outs.map fun o => (o.mean, o.cov)).zip (rows.map g)).map (fun e => e.1.2) = outs.map (·.cov) := by
  induction outs generalizing rows with
  | nil => rfl
  | cons o outs ih =>
    match rows, h with
    | r :: rows, h => simp only [List.map_cons, List.zip_cons_cons]; rw [ih (by simpa using h)]

/-- **C12 (singular covariances).** The statement of C12 for covariances that are only positive
semidefinite, and for the pseudo-inverse: whenever `batch_filter` and `rts_smoother` succeed, every
smoothed covariance is positive semidefinite and does not exceed the filtered covariance of the same
step. -/
theorem C12_singular (s : KF n m l) (zs : List (Option (Vec m))) (a : BatchArgs n m l) (hi : GoodInv s.inv)
    (f : Mat n n → Option (Mat n n)) (hf : GoodInv f) (ha : s.alphaSq = 1) (hP : s.P.PosSemidef)
    (hpsd : ∀ r ∈ s.batchRows zs a, (r.Q.resolve s.Q).PosSemidef ∧ (r.R.resolve s.R).PosSemidef)
    (outs : List (BatchOut n)) (s' : KF n m l) (h : s.batchFilter zs a = .ok (outs, s')) (sm : List (RtsOut n))
    (hs : s'.rtsSmoother (outs.map (·.mean)) (outs.map (·.cov)) (some ((s.batchRows zs a).map (·.F)))
      (some ((s.batchRows zs a).map fun r => r.Q.resolve s.Q)) f = .ok sm) :
    List.Forall₂ (fun o c => c.P.PosSemidef ∧ (o.cov - c.P).PosSemidef) outs sm := by
  obtain ⟨h1, h2⟩ := batch_covSteps _ hi ha hP hpsd h
  simp only at h1 h2
  have := rtsSmoother_loop (by simp) (by simp [h1]) (by simp [h1]) hs
  rw [List.zip_map', List.zip_map'] at this
  generalize s.batchRows zs a = rows at *
  match outs, rows, h1 with
  | [], [], _ =>
    simp only [List.map_nil, List.zip_nil_left, rtsLoop, Except.ok.injEq] at this
    subst this
    exact .nil
  | o :: outs, r :: rows, h1 =>
    simp only [List.map_cons, List.zip_cons_cons, CovSteps] at h2 this
    have := rts_reduces hf _ h2.2.1 h2.2.2.2 this
    have e : ((((o.mean, o.cov), r.F, r.Q.resolve s.Q) :: (outs.map fun o => (o.mean, o.cov)).zip
        (rows.map fun r => (r.F, r.Q.resolve s.Q))).map fun e => e.1.2) = (o :: outs).map (·.cov) := by
      rw [List.map_cons, List.map_cons]
      congr 1
      have hl : outs.length = rows.length := by simpa using h1
      exact map_zip_cov _ hl
    rw [e] at this
    exact (List.forall₂_map_left_iff.1 this)

/-! ## The hypotheses can be met -/

omit [MeasurableSpace Ω] in
theorem batch_legs_total {f : Mat m m → Option (Mat m m)} (hf : IsPinv f) (es : List (Leg Ω n m)) (X : Ω → Vec n) (ω : Ω)
    (s : KF n m l) (hs : s.inv = f ∧ s.B = none) : ∃ r, batchLoop false s (legRows ω X es) = .ok r ∧
      r.1.length = es.length := by
  induction es generalizing X s with
  | nil => exact ⟨_, rfl, rfl⟩
  | cons e es ih =>
    simp only [legRows, batchLoop, Bool.false_eq_true, if_false]
    have h1 : s.predict (.scalar 0) none (some e.F) (.mat e.Q) = .ok { s with
        x := e.F *ᵥ s.x
        P := s.alphaSq • (e.F * s.P * e.Fᵀ) + e.Q
        xPrior := e.F *ᵥ s.x
        PPrior := s.alphaSq • (e.F * s.P * e.Fᵀ) + e.Q } := by
      simp only [KF.predict, hs.2, Option.or_none, KF.control, Option.getD_some, MatArg.resolve]
    rw [h1]
    simp only [Bind.bind, Except.bind]
    generalize hs1 : ({ s with
        x := e.F *ᵥ s.x
        P := s.alphaSq • (e.F * s.P * e.Fᵀ) + e.Q
        xPrior := e.F *ᵥ s.x
        PPrior := s.alphaSq • (e.F * s.P * e.Fᵀ) + e.Q } : KF n m l) = s1
    have hi : s1.inv = f ∧ s1.B = none := by rw [← hs1]; exact hs
    have h2 : ∃ s2, s1.update (e.v.map fun v => e.H *ᵥ (e.F *ᵥ X ω + e.w ω) + v ω) (.mat e.R) (some e.H) = .ok s2 ∧
        s2.inv = f ∧ s2.B = none := by
      cases e.v with
      | none => exact ⟨_, rfl, hi⟩
      | some v =>
        obtain ⟨G, hG, -⟩ := hf (e.H * (s1.P * e.Hᵀ) + e.R)
        simp only [Option.map_some, KF.update, Option.getD_some, MatArg.resolve, hi.1, hG]
        exact ⟨_, rfl, rfl, hi.2⟩
    obtain ⟨s2, h2, h3⟩ := h2
    rw [h2]
    obtain ⟨r, hr, hl⟩ := ih (fun ω => e.F *ᵥ X ω + e.w ω) s2 h3
    simp only [hr]
    exact ⟨_, rfl, by simp [hl]⟩

theorem rtsLoop_total {f : Mat n n → Option (Mat n n)} (hf : IsPinv f)
    (es : List ((Vec n × Mat n n) × (Mat n n × Mat n n))) : ∃ r, rtsLoop f es = .ok r := by
  match es with
  | [] => exact ⟨_, rfl⟩
  | [e] => exact ⟨_, rfl⟩
  | e :: e' :: es =>
    obtain ⟨tl, h⟩ := rtsLoop_total hf (e' :: es)
    simp only [rtsLoop, h, Bind.bind, Except.bind]
    match tl, h with
    | [], h => exact ⟨_, rfl⟩
    | nxt :: tl, h =>
      obtain ⟨G, hG, -⟩ := hf (e'.2.1 * e.1.2 * e'.2.1ᵀ + e'.2.2)
      simp only [rtsStep, hG]
      exact ⟨_, rfl⟩

omit [MeasurableSpace Ω] in
/-- **C11 (no failure).** With `kf.inv = np.linalg.pinv` and `rts_smoother(..., inv=np.linalg.pinv)` neither
call raises, so that `C11_best_linear` applies to every system that is as the filter believes. -/
theorem C11_pinv_total (s : KF n m l) (hB : s.B = none) (hi : IsPinv s.inv) (f : Mat n n → Option (Mat n n))
    (hf : IsPinv f) (X : Ω → Vec n) (es : List (Leg Ω n m)) :
    ∃ (r : Ω → List (BatchOut n) × KF n m l) (q : Ω → List (RtsOut n)),
      (∀ ω, s.batchFilter (seen X es ω) (legArgs es) = .ok (r ω)) ∧
      ∀ ω, (r ω).2.rtsSmoother ((r ω).1.map (·.mean)) ((r ω).1.map (·.cov))
        (some (es.map (·.F))) (some (es.map (·.Q))) f = .ok (q ω) := by
  have h : ∀ ω, ∃ (r : List (BatchOut n) × KF n m l) (q : List (RtsOut n)),
      s.batchFilter (seen X es ω) (legArgs es) = .ok r ∧
      r.2.rtsSmoother (r.1.map (·.mean)) (r.1.map (·.cov)) (some (es.map (·.F))) (some (es.map (·.Q))) f = .ok q := by
    intro ω
    obtain ⟨r, hr, hl⟩ := batch_legs_total hi es X ω s ⟨rfl, hB⟩
    refine ⟨r, ?_⟩
    rw [KF.batchFilter, batchRows_legs s hB, hr]
    have hsm : ∃ q, r.2.rtsSmoother (r.1.map (·.mean)) (r.1.map (·.cov)) (some (es.map (·.F))) (some (es.map (·.Q))) f
        = .ok q := by
      rw [rtsSmoother, if_neg (by simp)]
      simp only [Option.getD_some, List.length_map]
      rw [if_neg (by omega)]
      split_ifs
      · exact rtsLoop_total hf _
      · exact rtsLoop_total hf _
    obtain ⟨q, hq⟩ := hsm
    exact ⟨q, rfl, hq⟩
  choose r q h1 h2 using h
  exact ⟨r, q, h1, h2⟩

/-- The two steps of a constant that is measured twice: the process noise is zero. -/
noncomputable def twice : List (Leg (Fin 4) 1 1) :=
  [⟨1, 0, 1, 1, fun _ => 0, some (walsh 1)⟩, ⟨1, 0, 1, 1, fun _ => 0, some (walsh 2)⟩]

theorem walsh_unc (i j : Fin 3) (h : i ≠ j) : Unc mu4 (walsh i) (walsh j) :=
  ⟨(walsh_ok i).sq, (walsh_ok j).sq, walsh_uncorr i j h⟩

theorem twice_believed : Believed mu4 walkKF (walsh 0) twice := by
  have h0 : SqInt (fun _ : Fin 4 => (0 : Vec 1)) mu4 := SqInt.const 0
  have hn : NoiseOK (fun _ : Fin 4 => (0 : Vec 1)) mu4 0 := by
    refine ⟨h0, ?_, ?_⟩
    · ext i; simp [meanVec]
    · ext i j; simp [covMat]
  have hc : ∀ i, Unc mu4 (walsh i) (fun _ => (0 : Vec 1)) := fun i => Unc.const (walsh_ok i).sq 0
  have hz : Unc mu4 (fun _ : Fin 4 => (0 : Vec 1)) (fun _ : Fin 4 => (0 : Vec 1)) := Unc.const h0 0
  refine ⟨?_, ?_, ?_, ?_, ?_⟩
  · have he : (fun ω => walsh 0 ω - walkKF.x) = walsh 0 := by
      funext ω; simp [walkKF, KF.fresh]
    rw [he]
    simpa [walkKF, KF.fresh] using walsh_ok 0
  · intro e he
    simp only [twice, List.mem_cons, List.not_mem_nil, or_false] at he
    rcases he with rfl | rfl
    · exact ⟨hc 0, fun v hv => by obtain rfl := Option.some.inj hv; exact walsh_unc 0 1 (by decide)⟩
    · exact ⟨hc 0, fun v hv => by obtain rfl := Option.some.inj hv; exact walsh_unc 0 2 (by decide)⟩
  · intro e he
    simp only [twice, List.mem_cons, List.not_mem_nil, or_false] at he
    rcases he with rfl | rfl
    · exact ⟨hn, fun v hv => by obtain rfl := Option.some.inj hv; exact ⟨walsh_ok 1, (hc 1).symm⟩⟩
    · exact ⟨hn, fun v hv => by obtain rfl := Option.some.inj hv; exact ⟨walsh_ok 2, (hc 2).symm⟩⟩
  · intro e he
    simp only [twice, List.mem_cons, List.not_mem_nil, or_false] at he
    rcases he with rfl | rfl <;> exact PosSemidef.one
  · simp only [twice, List.pairwise_cons, List.mem_cons, List.not_mem_nil, or_false, forall_eq]
    refine ⟨⟨?_, ?_⟩, by simp⟩
    · intro e he
      obtain rfl := List.mem_singleton.1 he
      exact ⟨hz, fun v hv => by obtain rfl := Option.some.inj hv; exact (hc 2).symm⟩
    · intro v hv e he
      obtain rfl := Option.some.inj hv
      obtain rfl := List.mem_singleton.1 he
      exact ⟨hc 1, fun v hv => by obtain rfl := Option.some.inj hv; exact walsh_unc 1 2 (by decide)⟩

/-- A constant measured twice, without process noise and with noise that is not Gaussian: all hypotheses
of `C11_best_linear` and `C03_best_linear` are met. -/
example : ∃ (s : KF 1 1 1) (f : Mat 1 1 → Option (Mat 1 1)) (r : Fin 4 → List (BatchOut 1) × KF 1 1 1) (q : Fin 4 → List (RtsOut 1)),
    (s.alphaSq = 1 ∧ s.B = none) ∧ GoodInv s.inv ∧ GoodInv f ∧ Believed mu4 s (walsh 0) twice ∧
    (∀ ω, s.batchFilter (seen (walsh 0) twice ω) (legArgs twice) = .ok (r ω)) ∧
    ∀ ω, (r ω).2.rtsSmoother ((r ω).1.map (·.mean)) ((r ω).1.map (·.cov))
        (some (twice.map (·.F))) (some (twice.map (·.Q))) f = .ok (q ω) := by
  obtain ⟨f, hf⟩ := isPinv_exists (m := 1)
  have hb := twice_believed
  obtain ⟨r, q, h1, h2⟩ := C11_pinv_total (l := 1) { walkKF with inv := f } rfl hf f hf (walsh 0) twice
  exact ⟨{ walkKF with inv := f }, f, r, q, ⟨rfl, rfl⟩, Or.inr hf, Or.inr hf, ⟨hb.1, hb.2, hb.3, hb.4, hb.5⟩, h1, h2⟩

end Filterpy
