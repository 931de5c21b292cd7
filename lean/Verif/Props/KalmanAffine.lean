import Verif.Props.KalmanBasic
import Verif.Lemmas.Sim
import Mathlib.Tactic.Module

/-!
# Estimates are affine in the data, covariances do not depend on it (C76)
-/

namespace Filterpy
open Matrix

variable {n m l : ℕ}

/-- The control argument of the third run is the blend of the other two. -/
inductive UBlend (t : ℝ) : UArg l → UArg l → UArg l → Prop
  | none : UBlend t .none .none .none
  | scalar (a b : ℝ) : UBlend t (.scalar a) (.scalar b) (.scalar ((1 - t) * a + t * b))
  | vec (a b : Vec l) : UBlend t (.vec a) (.vec b) (.vec ((1 - t) • a + t • b))

/-- The measurement of the third run is the blend of the other two; it may be missing in all. -/
inductive ZBlend (t : ℝ) : Option (Vec m) → Option (Vec m) → Option (Vec m) → Prop
  | none : ZBlend t .none .none .none
  | some (a b : Vec m) : ZBlend t (.some a) (.some b) (.some ((1 - t) • a + t • b))

/-- Three calls of the same method with the same matrix arguments; the data of the third is the
blend `(1 - t) a + t b` of the data of the other two. -/
inductive OpBlend (t : ℝ) : KFOp n m l → KFOp n m l → KFOp n m l → Prop
  | predict {u u' u''} (B F Q) (h : UBlend t u u' u'') :
      OpBlend t (.predict u B F Q) (.predict u' B F Q) (.predict u'' B F Q)
  | update {z z' z''} (R H) (h : ZBlend t z z' z'') :
      OpBlend t (.update z R H) (.update z' R H) (.update z'' R H)
  | updateSequential (start len : ℕ) (a b : Vec len) (R H) :
      OpBlend t (.updateSequential start len a R H) (.updateSequential start len b R H)
        (.updateSequential start len ((1 - t) • a + t • b) R H)
  | predictSteadystate {u u' u''} (B) (h : UBlend t u u' u'') :
      OpBlend t (.predictSteadystate u B) (.predictSteadystate u' B) (.predictSteadystate u'' B)
  | updateSteadystate {z z' z''} (h : ZBlend t z z' z'') :
      OpBlend t (.updateSteadystate z) (.updateSteadystate z') (.updateSteadystate z'')
  | updateCorrelated {z z' z''} (R H) (h : ZBlend t z z' z'') :
      OpBlend t (.updateCorrelated z R H) (.updateCorrelated z' R H) (.updateCorrelated z'' R H)

/-- Two filters with equal matrices (model, covariances, gains), whatever their estimates. -/
structure SameMatrices (a b : KF n m l) : Prop where
  P : b.P = a.P
  Q : b.Q = a.Q
  B : b.B = a.B
  F : b.F = a.F
  H : b.H = a.H
  R : b.R = a.R
  alpha : b.alphaSq = a.alphaSq
  M : b.M = a.M
  K : b.K = a.K
  S : b.S = a.S
  SI : b.SI = a.SI
  PPrior : b.PPrior = a.PPrior
  PPost : b.PPost = a.PPost
  inv : b.inv = a.inv

/-- The third filter has the matrices of the other two, and the blend of their estimates and
residuals. -/
structure Blend (t : ℝ) (a b c : KF n m l) : Prop where
  ab : SameMatrices a b
  ac : SameMatrices a c
  x : c.x = (1 - t) • a.x + t • b.x
  y : c.y = (1 - t) • a.y + t • b.y
  xPrior : c.xPrior = (1 - t) • a.xPrior + t • b.xPrior
  xPost : c.xPost = (1 - t) • a.xPost + t • b.xPost

/-- Outcomes of three runs: all normal and blended, or all with the same exception. -/
def Blend3 (t : ℝ) : Exec (KF n m l) → Exec (KF n m l) → Exec (KF n m l) → Prop
  | .ok a, .ok b, .ok c => Blend t a b c
  | .error a, .error b, .error c => a.1 = b.1 ∧ a.1 = c.1 ∧ Blend t a.2 b.2 c.2
  | _, _, _ => False

theorem control_blend {t : ℝ} {u u' u'' : UArg l} (h : UBlend t u u' u'') (B : Option (Mat n l)) :
    (∃ e, KF.control B u = .error e ∧ KF.control B u' = .error e ∧ KF.control B u'' = .error e) ∨
    (KF.control B u = .ok none ∧ KF.control B u' = .ok none ∧ KF.control B u'' = .ok none) ∨
    ∃ a b, KF.control B u = .ok (some a) ∧ KF.control B u' = .ok (some b) ∧
      KF.control B u'' = .ok (some ((1 - t) • a + t • b)) := by
  cases B with
  | none => right; left; exact ⟨rfl, rfl, rfl⟩
  | some B =>
    cases h with
    | none => right; left; exact ⟨rfl, rfl, rfl⟩
    | scalar a b =>
      by_cases hl : l = 1
      · right; right
        refine ⟨fun i => a * B i ⟨0, by omega⟩, fun i => b * B i ⟨0, by omega⟩,
          by simp only [KF.control, hl, dif_pos], by simp only [KF.control, hl, dif_pos], ?_⟩
        simp only [KF.control, hl, dif_pos]
        congr 2
        funext i
        simp only [Pi.add_apply, Pi.smul_apply, smul_eq_mul]; ring
      · left
        exact ⟨.shape, by simp only [KF.control, dif_neg hl], by simp only [KF.control, dif_neg hl],
          by simp only [KF.control, dif_neg hl]⟩
    | vec a b =>
      right; right
      refine ⟨_, _, rfl, rfl, ?_⟩
      simp only [KF.control, mulVec_add, mulVec_smul]

theorem steadyControl_blend {t : ℝ} {u u' u'' : UArg l} (h : UBlend t u u' u'')
    (B : Option (Mat n l)) :
    (∃ e, KF.steadyControl B u = .error e ∧ KF.steadyControl B u' = .error e ∧
      KF.steadyControl B u'' = .error e) ∨
    (KF.steadyControl B u = .ok none ∧ KF.steadyControl B u' = .ok none ∧
      KF.steadyControl B u'' = .ok none) ∨
    ∃ a b, KF.steadyControl B u = .ok (some a) ∧ KF.steadyControl B u' = .ok (some b) ∧
      KF.steadyControl B u'' = .ok (some ((1 - t) • a + t • b)) := by
  cases h with
  | none =>
    cases B with
    | none => right; left; exact ⟨rfl, rfl, rfl⟩
    | some B => left; exact ⟨.typeError, rfl, rfl, rfl⟩
  | scalar a b =>
    simp only [KF.steadyControl_of_ne B (u := UArg.scalar _) (by simp)]
    exact control_blend (.scalar a b) B
  | vec a b =>
    simp only [KF.steadyControl_of_ne B (u := UArg.vec _) (by simp)]
    exact control_blend (.vec a b) B

/-- The gain `update_sequential` computes. -/
noncomputable def seqGain {k : ℕ} (P : Mat n n) (Ri : Mat k k) (Hi : Mat k n) : Except Err (Mat n k) :=
  if hl : k = 1 then
    if (Hi * (P * Hiᵀ) + Ri) ⟨0, by omega⟩ ⟨0, by omega⟩ = 0 then .error .nonFinite
    else .ok ((1.0 / (Hi * (P * Hiᵀ) + Ri) ⟨0, by omega⟩ ⟨0, by omega⟩) • (P * Hiᵀ))
  else match npInv (Hi * (P * Hiᵀ) + Ri) with
    | none => .error .linAlgError
    | some SIi => .ok (P * Hiᵀ * SIi)

theorem updateSequential_eq (s : KF n m l) {start len : ℕ} (hb : start + len ≤ m) (zi : Vec len)
    (Ri : MatArg len) (Hi : Option (Mat len n)) :
    s.updateSequential start zi Ri Hi =
      match seqGain s.P (Ri.resolve (s.R.submatrix (KF.sliceIdx hb) (KF.sliceIdx hb)))
          (Hi.getD (s.H.submatrix (KF.sliceIdx hb) id)) with
      | .error e => .error (e, { s with
          y := KF.sliceSet hb s.y (zi - Hi.getD (s.H.submatrix (KF.sliceIdx hb) id) *ᵥ s.x) })
      | .ok Ki => .ok { s with
          y := KF.sliceSet hb s.y (zi - Hi.getD (s.H.submatrix (KF.sliceIdx hb) id) *ᵥ s.x)
          K := fun i => KF.sliceSet hb (s.K i) (Ki i)
          x := s.x + Ki *ᵥ (zi - Hi.getD (s.H.submatrix (KF.sliceIdx hb) id) *ᵥ s.x)
          P := (1 - Ki * Hi.getD (s.H.submatrix (KF.sliceIdx hb) id)) * s.P *
            (1 - Ki * Hi.getD (s.H.submatrix (KF.sliceIdx hb) id))ᵀ +
            Ki * Ri.resolve (s.R.submatrix (KF.sliceIdx hb) (KF.sliceIdx hb)) * Kiᵀ
          z := KF.sliceSet hb s.z (fun i => some (zi i))
          xPost := s.x + Ki *ᵥ (zi - Hi.getD (s.H.submatrix (KF.sliceIdx hb) id) *ᵥ s.x)
          PPost := (1 - Ki * Hi.getD (s.H.submatrix (KF.sliceIdx hb) id)) * s.P *
            (1 - Ki * Hi.getD (s.H.submatrix (KF.sliceIdx hb) id))ᵀ +
            Ki * Ri.resolve (s.R.submatrix (KF.sliceIdx hb) (KF.sliceIdx hb)) * Kiᵀ } := by
  rw [KF.updateSequential, dif_pos hb]
  rfl

theorem sliceSet_blend {start len : ℕ} (hb : start + len ≤ m) (t : ℝ) (a b : Vec m) (p q : Vec len) :
    KF.sliceSet hb ((1 - t) • a + t • b) ((1 - t) • p + t • q) =
      (1 - t) • KF.sliceSet hb a p + t • KF.sliceSet hb b q := by
  funext j
  simp only [KF.sliceSet, Pi.add_apply, Pi.smul_apply]
  split <;> rfl

theorem blend_step {t : ℝ} (expf : ℝ → ℝ) {a b c : KF n m l} (h : Blend t a b c)
    {oa ob oc : KFOp n m l} (ho : OpBlend t oa ob oc) :
    Blend3 t (a.step expf oa) (b.step expf ob) (c.step expf oc) := by
  rcases a with ⟨xa, P, Q, B, F, H, R, al, M, za, K, ya, S, SI, xpa, PP, xqa, PQ, lla, la, ma, iv⟩
  rcases b with ⟨xb, Pb, Qb, Bb, Fb, Hb, Rb, alb, Mb, zb, Kb, yb, Sb, SIb, xpb, PPb, xqb, PQb, llb, lb, mb, ivb⟩
  rcases c with ⟨xc, Pc, Qc, Bc, Fc, Hc, Rc, alc, Mc, zc, Kc, yc, Sc, SIc, xpc, PPc, xqc, PQc, llc, lc, mc, ivc⟩
  obtain ⟨⟨h1, h2, h3, h4, h5, h6, h7, h8, h9, h10, h11, h12, h13, h14⟩,
    ⟨g1, g2, g3, g4, g5, g6, g7, g8, g9, g10, g11, g12, g13, g14⟩, k1, k2, k3, k4⟩ := h
  simp only at h1 h2 h3 h4 h5 h6 h7 h8 h9 h10 h11 h12 h13 h14 g1 g2 g3 g4 g5 g6 g7 g8 g9 g10 g11 g12 g13 g14 k1 k2 k3 k4
  subst h1 h2 h3 h4 h5 h6 h7 h8 h9 h10 h11 h12 h13 h14 g1 g2 g3 g4 g5 g6 g7 g8 g9 g10 g11 g12 g13 g14 k1 k2 k3 k4
  have sm {k : ℕ} (A : Mat k n) (a b : Vec n) :
      A *ᵥ ((1 - t) • a + t • b) = (1 - t) • (A *ᵥ a) + t • (A *ᵥ b) := by
    rw [mulVec_add, mulVec_smul, mulVec_smul]
  have sm' {k j : ℕ} (A : Mat k j) (a b : Vec j) :
      A *ᵥ ((1 - t) • a + t • b) = (1 - t) • (A *ᵥ a) + t • (A *ᵥ b) := by
    rw [mulVec_add, mulVec_smul, mulVec_smul]
  have hy {k : ℕ} (A : Mat k n) (z z' : Vec k) : (1 - t) • z + t • z' - A *ᵥ ((1 - t) • xa + t • xb) =
      (1 - t) • (z - A *ᵥ xa) + t • (z' - A *ᵥ xb) := by rw [sm]; module
  have hx {k : ℕ} (A : Mat n k) (r r' : Vec k) :
      (1 - t) • xa + t • xb + A *ᵥ ((1 - t) • r + t • r') =
      (1 - t) • (xa + A *ᵥ r) + t • (xb + A *ᵥ r') := by rw [sm']; module
  cases ho with
  | predict B F Q hu =>
    simp only [KF.step, KF.predict]
    rcases control_blend hu (B.or Bc) with ⟨e, e1, e2, e3⟩ | ⟨e1, e2, e3⟩ | ⟨p, q, e1, e2, e3⟩ <;>
      simp only [e1, e2, e3, Blend3]
    · exact ⟨trivial, trivial, ⟨by constructor <;> rfl, by constructor <;> rfl, rfl, rfl, rfl, rfl⟩⟩
    · exact ⟨by constructor <;> rfl, by constructor <;> rfl, sm _ _ _, rfl, sm _ _ _, rfl⟩
    · have : (F.getD Fc) *ᵥ ((1 - t) • xa + t • xb) + ((1 - t) • p + t • q) =
        (1 - t) • ((F.getD Fc) *ᵥ xa + p) + t • ((F.getD Fc) *ᵥ xb + q) := by rw [sm]; module
      exact ⟨by constructor <;> rfl, by constructor <;> rfl, this, rfl, this, rfl⟩
  | update R H hz =>
    cases hz with
    | none =>
      simp only [KF.step, KF.update, KF.updateNone, Blend3]
      exact ⟨by constructor <;> rfl, by constructor <;> rfl, rfl, by simp, rfl, rfl⟩
    | some z z' =>
      simp only [KF.step, KF.update]
      cases hi : ivc (H.getD Hc * (Pc * (H.getD Hc)ᵀ) + R.resolve Rc) with
      | none =>
        simp only [Blend3]
        exact ⟨trivial, trivial, ⟨by constructor <;> rfl, by constructor <;> rfl, rfl, hy _ _ _, rfl, rfl⟩⟩
      | some SI' =>
        simp only [Blend3, hy]
        exact ⟨by constructor <;> rfl, by constructor <;> rfl, hx _ _ _, rfl, rfl, hx _ _ _⟩
  | updateSequential start len z z' R H =>
    by_cases hb : start + len ≤ m
    · simp only [KF.step, updateSequential_eq _ hb]
      cases seqGain Pc (R.resolve (Rc.submatrix (KF.sliceIdx hb) (KF.sliceIdx hb)))
          (H.getD (Hc.submatrix (KF.sliceIdx hb) id)) with
      | error e =>
        simp only [Blend3, hy, sliceSet_blend]
        exact ⟨trivial, trivial, ⟨by constructor <;> rfl, by constructor <;> rfl, rfl, rfl, rfl, rfl⟩⟩
      | ok Ki =>
        simp only [Blend3, hy, sliceSet_blend]
        exact ⟨by constructor <;> rfl, by constructor <;> rfl, hx _ _ _, rfl, rfl, hx _ _ _⟩
    · simp only [KF.step, KF.updateSequential, dif_neg hb, Blend3]
      exact ⟨trivial, trivial, ⟨by constructor <;> rfl, by constructor <;> rfl, rfl, rfl, rfl, rfl⟩⟩
  | predictSteadystate B hu =>
    simp only [KF.step, KF.predictSteadystate]
    rcases steadyControl_blend hu (B.or Bc) with ⟨e, e1, e2, e3⟩ | ⟨e1, e2, e3⟩ | ⟨p, q, e1, e2, e3⟩ <;>
      simp only [e1, e2, e3, Blend3]
    · exact ⟨trivial, trivial, ⟨by constructor <;> rfl, by constructor <;> rfl, rfl, rfl, rfl, rfl⟩⟩
    · exact ⟨by constructor <;> rfl, by constructor <;> rfl, sm _ _ _, rfl, sm _ _ _, rfl⟩
    · have : Fc *ᵥ ((1 - t) • xa + t • xb) + ((1 - t) • p + t • q) =
        (1 - t) • (Fc *ᵥ xa + p) + t • (Fc *ᵥ xb + q) := by rw [sm]; module
      exact ⟨by constructor <;> rfl, by constructor <;> rfl, this, rfl, this, rfl⟩
  | updateSteadystate hz =>
    cases hz with
    | none =>
      simp only [KF.step, KF.updateSteadystate, KF.updateNone, Blend3]
      exact ⟨by constructor <;> rfl, by constructor <;> rfl, rfl, by simp, rfl, rfl⟩
    | some z z' =>
      simp only [KF.step, KF.updateSteadystate, Blend3, hy]
      exact ⟨by constructor <;> rfl, by constructor <;> rfl, hx _ _ _, rfl, rfl, hx _ _ _⟩
  | updateCorrelated R H hz =>
    cases hz with
    | none =>
      simp only [KF.step, KF.updateCorrelated, KF.updateNone, Blend3]
      exact ⟨by constructor <;> rfl, by constructor <;> rfl, rfl, by simp, rfl, rfl⟩
    | some z z' =>
      simp only [KF.step, KF.updateCorrelated]
      cases hi : ivc (H.getD Hc * (Pc * (H.getD Hc)ᵀ) + H.getD Hc * Mc + Mcᵀ * (H.getD Hc)ᵀ +
          R.resolve Rc) with
      | none =>
        simp only [Blend3]
        exact ⟨trivial, trivial, ⟨by constructor <;> rfl, by constructor <;> rfl, rfl, hy _ _ _, rfl, rfl⟩⟩
      | some SI' =>
        simp only [Blend3, hy]
        exact ⟨by constructor <;> rfl, by constructor <;> rfl, hx _ _ _, rfl, rfl, hx _ _ _⟩

/-- Histories of the same calls with blended data. -/
inductive HistBlend (t : ℝ) : List (KFOp n m l) → List (KFOp n m l) → List (KFOp n m l) → Prop
  | nil : HistBlend t [] [] []
  | cons {a b c as bs cs} (h : OpBlend t a b c) (hs : HistBlend t as bs cs) :
      HistBlend t (a :: as) (b :: bs) (c :: cs)

theorem blend_run {t : ℝ} (expf : ℝ → ℝ) {oa ob oc : List (KFOp n m l)} (ho : HistBlend t oa ob oc)
    {a b c : KF n m l} (h : Blend t a b c) :
    Blend3 t (a.run expf oa) (b.run expf ob) (c.run expf oc) := by
  induction ho generalizing a b c with
  | nil => exact h
  | cons h1 _ ih =>
    have hstep := blend_step expf h h1
    simp only [KF.run]
    revert hstep
    cases a.step expf _ <;> cases b.step expf _ <;> cases c.step expf _ <;> intro hstep <;>
      first | exact hstep.elim | exact hstep | exact ih hstep

/-- **C76 (superposition).** Run the same sequence of calls (any of the predict and update methods, with
any matrix arguments) from three filters that differ only in the estimate and see different controls
and measurements; if the start and the data of the third are the blend `(1 - t) a + t b` of the other
two, then so are its estimate, prior, posterior and residual at the end.  The covariances, gains and
innovation covariance are the same in all three, and so is the exception if one is raised. -/
theorem C76_affine (expf : ℝ → ℝ) (t : ℝ) (s : KF n m l) (xa xb : Vec n)
    {oa ob oc : List (KFOp n m l)} (ho : HistBlend t oa ob oc) :
    Blend3 t (KF.run expf { s with x := xa, xPrior := xa, xPost := xa } oa)
      (KF.run expf { s with x := xb, xPrior := xb, xPost := xb } ob)
      (KF.run expf { s with x := (1 - t) • xa + t • xb, xPrior := (1 - t) • xa + t • xb,
                            xPost := (1 - t) • xa + t • xb } oc) := by
  refine blend_run expf ho ⟨by constructor <;> rfl, by constructor <;> rfl, rfl, ?_, rfl, rfl⟩
  simp only; module

/-- The same call with possibly different data. -/
def SameCall (a b : KFOp n m l) : Prop := ∃ c, OpBlend 0 a b c

/-- **C76 (covariances do not depend on the data).** Two filters that agree in all matrices, put
through the same sequence of calls with different estimates, controls and measurements: they end the
same way and again agree in all matrices. -/
theorem C76_covariance_independent (expf : ℝ → ℝ) {a b : KF n m l} (h : SameMatrices a b)
    {oa ob : List (KFOp n m l)} (ho : List.Forall₂ SameCall oa ob) :
    Agree SameMatrices (a.run expf oa) (b.run expf ob) := by
  obtain ⟨oc, hc⟩ : ∃ oc, HistBlend 0 oa ob oc := by
    induction ho with
    | nil => exact ⟨_, .nil⟩
    | cons h1 _ ih =>
      obtain ⟨c, hc⟩ := h1
      obtain ⟨cs, hcs⟩ := ih
      exact ⟨_, .cons hc hcs⟩
  have hb : Blend 0 a b a := ⟨h, by constructor <;> rfl, by module, by module, by module, by module⟩
  have := blend_run expf hc hb
  revert this
  cases a.run expf oa <;> cases b.run expf ob <;> cases a.run expf oc <;> intro h <;>
    first | exact h.elim | exact h.1 | exact ⟨h.1, h.2.2.1⟩

/-- A history with a control, a measurement and a missing measurement, blended half and half. -/
example (expf : ℝ → ℝ) (a b : Vec 1) : Blend3 (1/2)
    (KF.run expf { cvKF with x := ![1, 2], xPrior := ![1, 2], xPost := ![1, 2] }
      [.predict (.vec ![3]) none none .none, .update (some a) .none none, .update none .none none])
    (KF.run expf { cvKF with x := ![5, 4], xPrior := ![5, 4], xPost := ![5, 4] }
      [.predict (.vec ![1]) none none .none, .update (some b) .none none, .update none .none none])
    (KF.run expf { cvKF with x := (1 - 1/2 : ℝ) • ![1, 2] + (1/2 : ℝ) • ![5, 4],
                             xPrior := (1 - 1/2 : ℝ) • ![1, 2] + (1/2 : ℝ) • ![5, 4],
                             xPost := (1 - 1/2 : ℝ) • ![1, 2] + (1/2 : ℝ) • ![5, 4] }
      [.predict (.vec ((1 - 1/2 : ℝ) • ![3] + (1/2 : ℝ) • ![1])) none none .none,
       .update (some ((1 - 1/2 : ℝ) • a + (1/2 : ℝ) • b)) .none none, .update none .none none]) :=
  C76_affine expf (1/2) cvKF _ _
    (.cons (.predict _ _ _ (.vec _ _)) (.cons (.update _ _ (.some _ _)) (.cons (.update _ _ .none) .nil)))

end Filterpy
