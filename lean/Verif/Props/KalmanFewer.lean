import Verif.Props.KalmanMonotone
import Verif.Props.KalmanEvidence

/-!
# Leaving out measurements never makes the filter surer: C111
-/

namespace Filterpy
open Matrix

variable {n m l : ℕ}

/-- The second history is the first one with some measurements left out, either by not making the `update` call or by
passing `None`; the calls present in both are the same up to noise covariances that are at least as large in the second,
and whatever data. -/
inductive Spec.Fewer (R : Mat m m) : List (KFOp n m l) → List (KFOp n m l) → Prop
  | nil : Fewer R [] []
  | same {a b : KFOp n m l} {as bs : List (KFOp n m l)} : OpLE a b → Fewer R as bs → Fewer R (a :: as) (b :: bs)
  | dropped {z : Vec m} {R₁ : MatArg m} {H : Option (Mat m n)} {as bs : List (KFOp n m l)} :
      (R₁.resolve R).PosSemidef → Fewer R as bs → Fewer R (.update (some z) R₁ H :: as) bs
  | missing {z : Vec m} {R₁ R₂ : MatArg m} {H H₂ : Option (Mat m n)} {as bs : List (KFOp n m l)} :
      (R₁.resolve R).PosSemidef → Fewer R as bs → Fewer R (.update (some z) R₁ H :: as) (.update none R₂ H₂ :: bs)

open Spec

theorem FilterLE.extra {expf : ℝ → ℝ} {s t s' : KF n m l} (h : FilterLE s t) {z : Vec m} {R₁ : MatArg m}
    {H : Option (Mat m n)} (hR : (R₁.resolve s.R).PosSemidef) (hs : s.step expf (.update (some z) R₁ H) = .ok s') :
    FilterLE s' t := by
  obtain ⟨SI, h1, rfl⟩ := KF.update_ok hs
  rw [h.inv] at h1
  obtain ⟨hd, rfl⟩ := npInv_eq_some.1 h1
  refine { h with P := ?_ }
  have := joseph_mono (H.getD s.H) h.P (R := R₁.resolve s.R) ⟨hR, by rw [sub_self]; exact PosSemidef.zero⟩ hd 0
  simpa using this

theorem step_R {expf : ℝ → ℝ} {s s' : KF n m l} {a b : KFOp n m l} (hab : OpLE a b) (hs : s.step expf a = .ok s') :
    s'.R = s.R := by
  cases a <;> cases b <;> simp only [OpLE] at hab <;> simp only [KF.step] at hs
  · obtain ⟨x, rfl⟩ := KF.predict_ok hs
    rfl
  · rename_i z R H z' R' H'
    cases z with
    | none => cases hs; rfl
    | some z =>
      obtain ⟨SI, h1, rfl⟩ := KF.update_ok hs
      rfl

/-- **C111.** Take any history of `predict`, `update(z)` and `update(None)` calls and leave out any of the
measurements, by not calling `update` or by passing `None`: whatever the data, the filter with all the measurements ends
with a covariance at most that of the filter without them, and so with at most its variances. -/
theorem C111_fewer (expf : ℝ → ℝ) {s t s' t' : KF n m l} (h : FilterLE s t) (ops ops' : List (KFOp n m l))
    (hops : Fewer s.R ops ops') (hs : s.run expf ops = .ok s') (ht : t.run expf ops' = .ok t') :
    (t'.P - s'.P).PosSemidef ∧ ∀ i, s'.P i i ≤ t'.P i i := by
  have key : FilterLE s' t' := by
    generalize hR : s.R = R at hops
    induction hops generalizing s t with
    | nil => cases hs; cases ht; exact h
    | @same a b as bs hab _ ih =>
      simp only [KF.run] at hs ht
      cases h1 : s.step expf a with
      | error e => rw [h1] at hs; cases hs
      | ok s1 =>
        cases h2 : t.step expf b with
        | error e => rw [h2] at ht; cases ht
        | ok t1 =>
          rw [h1] at hs; rw [h2] at ht
          exact ih (h.step hab h1 h2) hs ht ((step_R hab h1).trans hR)
    | @dropped z R₁ H as bs hp _ ih =>
      rw [KF.run] at hs
      cases h1 : s.step expf (.update (some z) R₁ H) with
      | error e => rw [h1] at hs; cases hs
      | ok s1 =>
        rw [h1] at hs
        obtain ⟨SI, -, rfl⟩ := KF.update_ok h1
        exact ih (h.extra (hR ▸ hp) h1) hs ht hR
    | @missing z R₁ R₂ H H₂ as bs hp _ ih =>
      rw [KF.run] at hs
      cases h1 : s.step expf (.update (some z) R₁ H) with
      | error e => rw [h1] at hs; cases hs
      | ok s1 =>
        rw [h1] at hs
        have h3 := h.extra (hR ▸ hp) h1
        obtain ⟨SI, -, rfl⟩ := KF.update_ok h1
        refine ih (t := t.updateNone) { h3 with } hs ht hR
  refine ⟨key.P.2, fun i => ?_⟩
  have := key.P.2.diag_nonneg (i := i)
  simp only [Matrix.sub_apply] at this
  linarith

/-- Calls that cannot fail: controls of the right shape, covariances that are covariances, measurements with noise in
every direction. -/
def Spec.SafeCall (B : Option (Mat n l)) (Q : Mat n n) (R : Mat m m) : KFOp n m l → Prop
  | .predict u B' _ Q₁ => (Q₁.resolve Q).PosSemidef ∧ ∃ b, KF.control (B'.or B) u = .ok b
  | .update z R₁ _ => z ≠ none → (R₁.resolve R).PosDef
  | _ => False

/-- **C111 (nothing fails).** With positive definite measurement noise no such history raises an exception, so that the
comparison of `C111_fewer` applies to every choice of measurements. -/
theorem C111_succeeds (expf : ℝ → ℝ) (s : KF n m l) (hinv : s.inv = npInv) (hP : s.P.PosSemidef) (ha : 0 ≤ s.alphaSq)
    (ops : List (KFOp n m l)) (hops : ∀ op ∈ ops, SafeCall s.B s.Q s.R op) :
    ∃ s', s.run expf ops = .ok s' ∧ s'.P.PosSemidef := by
  induction ops generalizing s with
  | nil => exact ⟨s, rfl, hP⟩
  | cons op ops ih =>
    have hop := hops op (by simp)
    have htl : ∀ s1 : KF n m l, s.step expf op = .ok s1 → s1.inv = s.inv → s1.P.PosSemidef → s1.alphaSq = s.alphaSq →
        s1.B = s.B → s1.Q = s.Q → s1.R = s.R → ∃ s', s.run expf (op :: ops) = .ok s' ∧ s'.P.PosSemidef := by
      intro s1 h1 h2 h3 h4 h5 h6 h7
      rw [KF.run, h1]
      exact ih s1 (h2.trans hinv) h3 (h4 ▸ ha) fun o ho => by
        rw [h5, h6, h7]; exact hops o (List.mem_cons_of_mem _ ho)
    cases op <;> simp only [SafeCall] at hop
    · rename_i u B F Q
      obtain ⟨hQ, b, hb⟩ := hop
      obtain ⟨s1, h1⟩ : ∃ s1, s.predict u B F Q = .ok s1 := by simp only [KF.predict, hb]; exact ⟨_, rfl⟩
      obtain ⟨x, rfl⟩ := KF.predict_ok h1
      refine htl _ h1 rfl ?_ rfl rfl rfl rfl
      exact (PSD.smul (PSD.congr hP _) ha).add hQ
    · rename_i z R H
      cases z with
      | none => exact htl _ rfl rfl hP rfl rfl rfl rfl
      | some z =>
        obtain ⟨s1, h1, -, -, -, h2, -, h3, h4, -, h5, h6, h7⟩ := update_semi s z R H hinv hP (hop (by simp))
        exact htl s1 h1 h6 h2 h7 h4 h3 h5

/-- Two of three measurements are left out, one by passing `None` and one by not calling `update`. -/
example (z₁ z₂ z₃ z₃' : Vec 1) : FilterLE cvKF cvKF ∧
    let ops : List (KFOp 2 1 1) := [.predict .none none none .none, .update (some z₁) .none none,
      .predict .none none none .none, .update (some z₂) (.scalar 3) none, .update (some z₃) .none none]
    Fewer cvKF.R ops [.predict .none none none .none, .update none .none none, .predict .none none none .none,
        .update (some z₃') .none none] ∧
      ∀ op ∈ ops, SafeCall cvKF.B cvKF.Q cvKF.R op := by
  have h0 : ∀ k : ℕ, CovLE (1 : Mat k k) 1 := fun k => ⟨PosSemidef.one, by rw [sub_self]; exact PosSemidef.zero⟩
  refine ⟨⟨h0 2, h0 2, h0 1, rfl, rfl, rfl, ?_, rfl, rfl⟩, ?_, ?_⟩
  · simp [cvKF, KF.fresh]
  · refine .same ⟨rfl, trivial⟩ (.missing PosSemidef.one (.same ⟨rfl, trivial⟩ (.dropped ?_ (.same ⟨by simp, rfl, trivial⟩ .nil))))
    exact PSD.smul PosSemidef.one (by norm_num)
  · have h1 : (1 : Mat 1 1).PosDef := PosDef.one
    have h3 : ((3 : ℝ) • (1 : Mat 1 1)).PosDef := PosDef.one.smul (by norm_num)
    intro op hop
    simp only [List.mem_cons, List.not_mem_nil, or_false] at hop
    rcases hop with rfl | rfl | rfl | rfl | rfl
    · exact ⟨PosSemidef.one, _, rfl⟩
    · exact fun _ => h1
    · exact ⟨PosSemidef.one, _, rfl⟩
    · exact fun _ => h3
    · exact fun _ => h1

end Filterpy
