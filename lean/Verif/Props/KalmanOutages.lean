import Verif.Props.KalmanUnseen
import Verif.Props.KalmanFewer
import Verif.Props.KalmanSettles

/-!
# Outages: when the uncertainty stays bounded: C122
-/

namespace Filterpy
open Matrix

variable {n m l : ℕ}

/-- Every displacement of the initial state that none of the measurements depends on has disappeared by the end of the
history. -/
def Spec.Reveals (F : Mat n n) (H : Mat m n) (ops : List (KFOp n m l)) : Prop :=
  ∀ v : Vec n, Unseen F H v ops → carried F v ops = 0

/-- The same call up to the data: the controls and the numbers measured may differ, not whether there is a measurement. -/
def Spec.SameCall : KFOp n m l → KFOp n m l → Prop
  | .predict _ _ F Q, .predict _ _ F' Q' => F = F' ∧ Q = Q'
  | .update (some _) R H, .update (some _) R' H' => R = R' ∧ H = H'
  | .update none _ _, .update none _ _ => True
  | _, _ => False

/-- The second filter has the model of the first (its state, covariance and everything recorded may differ). -/
structure Spec.SharesModel (s t : KF n m l) : Prop where
  F : t.F = s.F
  Q : t.Q = s.Q
  H : t.H = s.H
  R : t.R = s.R
  alpha : t.alphaSq = s.alphaSq
  inv : t.inv = s.inv

open Spec

/-- The displacements left over after a history, starting from those in `W`. -/
def remains (F : Mat n n) (H : Mat m n) : Submodule ℝ (Vec n) → List (KFOp n m l) → Submodule ℝ (Vec n)
  | W, [] => W
  | W, .predict _ _ F' _ :: ops => remains F H (W.map (Matrix.toLin' (F'.getD F))) ops
  | W, .update (some _) _ H' :: ops => remains F H (W ⊓ (Matrix.toLin' (H'.getD H)).ker) ops
  | W, _ :: ops => remains F H W ops

theorem remains_mem {F : Mat n n} {H : Mat m n} {B : Option (Mat n l)} {Q : Mat n n} {R : Mat m m}
    (ops : List (KFOp n m l)) (hops : ∀ op ∈ ops, SafeCall B Q R op) (W : Submodule ℝ (Vec n)) {w : Vec n}
    (hw : w ∈ remains F H W ops) : ∃ v ∈ W, Unseen F H v ops ∧ carried F v ops = w := by
  induction ops generalizing W with
  | nil => exact ⟨w, hw, trivial, rfl⟩
  | cons op ops ih =>
    have hop := hops op (by simp)
    have ih := ih fun o ho => hops o (List.mem_cons_of_mem _ ho)
    cases op <;> simp only [SafeCall] at hop
    · obtain ⟨v, ⟨v0, h0, rfl⟩, h1, h2⟩ := ih _ hw
      rw [Matrix.toLin'_apply] at h1 h2
      exact ⟨v0, h0, ⟨trivial, h1⟩, h2⟩
    · rename_i z R₁ H'
      cases z with
      | none =>
        obtain ⟨v, h0, h1, h2⟩ := ih _ hw
        exact ⟨v, h0, ⟨trivial, h1⟩, h2⟩
      | some z =>
        obtain ⟨v, ⟨h0, h3⟩, h1, h2⟩ := ih _ hw
        exact ⟨v, h0, ⟨by simpa [Blind] using h3, h1⟩, h2⟩

theorem run_affine (expf : ℝ → ℝ) (s : KF n m l) (hinv : s.inv = npInv) (ha : 0 ≤ s.alphaSq)
    (ops : List (KFOp n m l)) (hops : ∀ op ∈ ops, SafeCall s.B s.Q s.R op) (W : Submodule ℝ (Vec n))
    (A N : Mat n n) (hN : N.PosSemidef) (hA : ∀ v, A *ᵥ v ∈ W) :
    ∃ A' N' : Mat n n, N'.PosSemidef ∧ (∀ v, A' *ᵥ v ∈ remains s.F s.H W ops) ∧
      ∀ (P : Mat n n) (t t' : KF n m l) (ops' : List (KFOp n m l)), SharesModel s t → CovLE t.P (A * P * Aᵀ + N) →
        List.Forall₂ SameCall ops ops' → t.run expf ops' = .ok t' → CovLE t'.P (A' * P * A'ᵀ + N') := by
  induction ops generalizing W A N with
  | nil =>
    refine ⟨A, N, hN, hA, fun P t t' ops' hm hP hf h => ?_⟩
    cases hf
    cases h
    exact hP
  | cons op ops ih =>
    have hop := hops op (by simp)
    have ih := ih fun o ho => hops o (List.mem_cons_of_mem _ ho)
    cases op <;> simp only [SafeCall] at hop
    · rename_i u B F Q
      obtain ⟨hQ, -⟩ := hop
      obtain ⟨A', N', hN', hA', key⟩ := ih (W.map (Matrix.toLin' (F.getD s.F)))
        (√s.alphaSq • (F.getD s.F * A)) (s.alphaSq • (F.getD s.F * N * (F.getD s.F)ᵀ) + Q.resolve s.Q)
        (predCov_psd ha hN hQ) (fun v => by
          rw [smul_mulVec, ← mulVec_mulVec]
          exact Submodule.smul_mem _ _ ⟨A *ᵥ v, hA v, Matrix.toLin'_apply _ _⟩)
      refine ⟨A', N', hN', hA', fun P t t' ops' hm hP hf h => ?_⟩
      cases hf with
      | @cons _ op' _ ops' h1 h2 =>
      cases op' <;> simp only [SameCall] at h1
      obtain ⟨rfl, rfl⟩ := h1
      simp only [KF.run, KF.step] at h
      split at h
      · rename_i t1 ht1
        obtain ⟨x, rfl⟩ := KF.predict_ok ht1
        refine key P _ t' ops' ?_ ?_ h2 h
        · exact ⟨hm.F, hm.Q, hm.H, hm.R, hm.alpha, hm.inv⟩
        dsimp only
        rw [hm.F, hm.Q, hm.alpha]
        have := ((hP.congr (F.getD s.F)).smul ha).add (CovLE.refl hQ)
        convert this using 1
        rw [transpose_smul, Matrix.smul_mul, Matrix.smul_mul, Matrix.mul_smul, smul_smul,
          Real.mul_self_sqrt ha, Matrix.mul_add, Matrix.add_mul, smul_add, add_assoc]
        simp only [transpose_mul, Matrix.mul_assoc]
      · cases h
    · rename_i z R H
      cases z with
      | none =>
        obtain ⟨A', N', hN', hA', key⟩ := ih W A N hN hA
        refine ⟨A', N', hN', hA', fun P t t' ops' hm hP hf h => ?_⟩
        cases hf with
        | @cons _ op' _ ops' h1 h2 =>
        cases op' <;> simp only [SameCall] at h1
        rename_i z' R' H'
        cases z' with
        | some z' => exact h1.elim
        | none => exact key P t.updateNone t' ops' ⟨hm.F, hm.Q, hm.H, hm.R, hm.alpha, hm.inv⟩ hP h2 h
      | some z =>
        have hR := hop (by simp)
        obtain ⟨K, hK⟩ := gain_removes W (H.getD s.H)
        obtain ⟨A', N', hN', hA', key⟩ := ih (W ⊓ (Matrix.toLin' (H.getD s.H)).ker)
          ((1 - K * H.getD s.H) * A)
          ((1 - K * H.getD s.H) * N * (1 - K * H.getD s.H)ᵀ + K * R.resolve s.R * Kᵀ)
          (joseph_psd hN hR.posSemidef K) (fun v => by
            rw [← mulVec_mulVec]
            obtain ⟨h1, h2⟩ := hK _ (hA v)
            exact ⟨h1, by simpa using h2⟩)
        refine ⟨A', N', hN', hA', fun P t t' ops' hm hP hf h => ?_⟩
        cases hf with
        | @cons _ op' _ ops' h1 h2 =>
        cases op' <;> simp only [SameCall] at h1
        rename_i z' R' H'
        cases z' with
        | none => exact h1.elim
        | some z' =>
        obtain ⟨rfl, rfl⟩ := h1
        simp only [KF.run, KF.step] at h
        split at h
        · rename_i t1 ht1
          obtain ⟨SI, hSI, rfl⟩ := KF.update_ok ht1
          rw [hm.inv, hinv, hm.H, hm.R] at hSI
          obtain ⟨hd, rfl⟩ := npInv_eq_some.1 hSI
          refine key P _ t' ops' ?_ ?_ h2 h
          · exact ⟨hm.F, hm.Q, hm.H, hm.R, hm.alpha, hm.inv⟩
          dsimp only
          rw [hm.H, hm.R]
          have := joseph_mono (H.getD s.H) hP (CovLE.refl hR.posSemidef) hd K
          convert this using 1
          rw [Matrix.mul_add, Matrix.add_mul, ← add_assoc]
          simp only [transpose_mul, Matrix.mul_assoc]
        · cases h

/-- **C122 (sufficient).** If a history of calls reveals the state then there is one covariance that bounds what the
filter reports at the end of it, whatever the initial state, the initial covariance and the data. -/
theorem C122_revealed (expf : ℝ → ℝ) (s : KF n m l) (hinv : s.inv = npInv) (ha : 0 ≤ s.alphaSq)
    (ops : List (KFOp n m l)) (hops : ∀ op ∈ ops, SafeCall s.B s.Q s.R op) (hr : Reveals s.F s.H ops) :
    ∃ N : Mat n n, N.PosSemidef ∧ ∀ (t t' : KF n m l) (ops' : List (KFOp n m l)), SharesModel s t → t.P.PosSemidef →
      List.Forall₂ SameCall ops ops' → t.run expf ops' = .ok t' → t'.P.PosSemidef ∧ (N - t'.P).PosSemidef := by
  obtain ⟨A, N, hN, hA, key⟩ := run_affine expf s hinv ha ops hops ⊤ 1 0 PosSemidef.zero (fun _ => Submodule.mem_top)
  have hA0 : A = 0 := by
    ext i j
    obtain ⟨v, -, h1, h2⟩ := remains_mem ops hops ⊤ (hA (Pi.single j 1))
    have := congrFun (h2.symm.trans (hr v h1)) i
    simpa using this
  refine ⟨N, hN, fun t t' ops' hm hP hf h => ?_⟩
  have := key t.P t t' ops' hm (by simpa using CovLE.refl hP) hf h
  rw [hA0] at this
  have h2 : CovLE t'.P N := by simpa using this
  exact h2

theorem carry_smul (F : Mat n n) (c : ℝ) (v : Vec n) (op : KFOp n m l) : carry F (c • v) op = c • carry F v op := by
  cases op <;> simp [carry, mulVec_smul]

theorem carried_smul (F : Mat n n) (c : ℝ) (v : Vec n) (ops : List (KFOp n m l)) :
    carried F (c • v) ops = c • carried F v ops := by
  induction ops generalizing v with
  | nil => rfl
  | cons op ops ih => rw [carried, carried, carry_smul, ih]

theorem unseen_smul {F : Mat n n} {H : Mat m n} (c : ℝ) {v : Vec n} {ops : List (KFOp n m l)} (h : Unseen F H v ops) :
    Unseen F H (c • v) ops := by
  induction ops generalizing v with
  | nil => trivial
  | cons op ops ih =>
    refine ⟨?_, by rw [carry_smul]; exact ih h.2⟩
    have h1 := h.1
    cases op with
    | update z R H' => cases z <;> simp_all [Blind, mulVec_smul]
    | updateCorrelated z R H' => cases z <;> simp_all [Blind, mulVec_smul]
    | updateSequential start len z R H' =>
      intro hl
      rw [mulVec_smul, h1 hl, smul_zero]
    | updateSteadystate z => simp_all [Blind, mulVec_smul]
    | _ => trivial

theorem safe_sound {B : Option (Mat n l)} {Q : Mat n n} {R : Mat m m} {op : KFOp n m l} (h : SafeCall B Q R op) :
    SoundCall Q R op := by
  cases op <;> simp only [SafeCall] at h
  · exact h.1
  · exact fun hz => (h hz).posSemidef

theorem outer_quad (v c : Vec n) : c ⬝ᵥ (vecMulVec v v *ᵥ c) = (c ⬝ᵥ v) ^ 2 := by
  rw [vecMulVec_mulVec, dotProduct_smul, MulOpposite.smul_eq_mul_unop, MulOpposite.unop_op, dotProduct_comm v c, sq]

theorem outer_psd (v : Vec n) : (vecMulVec v v).PosSemidef := by
  simpa using posSemidef_vecMulVec_self_star v

/-- **C122 (exactly).** After a history of `predict` and `update` calls the reported variances lie below one bound,
however uncertain the filter was before it, if and only if the history reveals the state: every displacement of the
initial state that none of the measurements taken depends on has been forgotten by the model itself. -/
theorem C122_window (expf : ℝ → ℝ) (s : KF n m l) (hinv : s.inv = npInv) (ha : 1 ≤ s.alphaSq)
    (ops : List (KFOp n m l)) (hops : ∀ op ∈ ops, SafeCall s.B s.Q s.R op) :
    Reveals s.F s.H ops ↔
      ∃ b : ℝ, ∀ P : Mat n n, P.PosSemidef →
        ∃ t', KF.run expf { s with P := P } ops = .ok t' ∧ ∀ i, t'.P i i ≤ b := by
  constructor
  · intro hr
    obtain ⟨N, hN, key⟩ := C122_revealed expf s hinv (zero_le_one.trans ha) ops hops hr
    refine ⟨∑ i, N i i, fun P hP => ?_⟩
    obtain ⟨t', ht, -⟩ := C111_succeeds expf { s with P := P } hinv hP (zero_le_one.trans ha) ops hops
    refine ⟨t', ht, fun i => ?_⟩
    have hself : List.Forall₂ SameCall ops ops := by
      refine List.forall₂_same.2 fun op hop => ?_
      have := hops op hop
      cases op <;> simp only [SafeCall] at this
      · exact ⟨rfl, rfl⟩
      · rename_i z _ _
        cases z with
        | none => trivial
        | some z => exact ⟨rfl, rfl⟩
    have h1 := (key { s with P := P } t' ops ⟨rfl, rfl, rfl, rfl, rfl, rfl⟩ hP hself ht).2.diag_nonneg (i := i)
    rw [Matrix.sub_apply, sub_nonneg] at h1
    exact h1.trans (Finset.single_le_sum (f := fun i => N i i) (fun j _ => hN.diag_nonneg) (Finset.mem_univ i))
  · rintro ⟨b, hb⟩ v hv
    by_contra hne
    obtain ⟨i, hi⟩ := Function.ne_iff.1 hne
    rw [Pi.zero_apply] at hi
    set w := carried s.F v ops with hw
    have hw2 : 0 < w i ^ 2 := by positivity
    obtain ⟨c, hc⟩ : ∃ c : ℝ, b < c ^ 2 * w i ^ 2 := by
      refine ⟨(|b| + 1) / w i, ?_⟩
      rw [div_pow, div_mul_cancel₀ _ hw2.ne']
      have := le_abs_self b
      nlinarith [abs_nonneg b]
    obtain ⟨t', ht, hle⟩ := hb (vecMulVec (c • v) (c • v)) (outer_psd _)
    have := C110_never_certain expf (s := { s with P := vecMulVec (c • v) (c • v) }) ha
      (fun d => (outer_quad _ d).ge) ops (unseen_smul c hv) (fun op ho => safe_sound (hops op ho)) ht (Pi.single i 1)
    rw [carried_smul, ← hw] at this
    have h2 := hle i
    simp [mul_pow] at this
    linarith

/-! ## Schedules with outages -/

/-- The two calls of one cycle; `z = none` if the measurement is missing. -/
def Spec.cycleCalls (u : UArg l) (z : Option (Vec m)) : List (KFOp n m l) :=
  [.predict u none none .none, .update z .none none]

/-- The calls of the `L` cycles that follow the first `k` ones. -/
def Spec.cyclesFrom (u : ℕ → UArg l) (z : ℕ → Option (Vec m)) (k L : ℕ) : List (KFOp n m l) :=
  (List.range L).flatMap fun i => cycleCalls (u (k + i)) (z (k + i))

theorem reveals_same {F : Mat n n} {H : Mat m n} {ops ops' : List (KFOp n m l)} (h : List.Forall₂ SameCall ops ops')
    (hr : Reveals F H ops') : Reveals F H ops := by
  have key : ∀ v, (Unseen F H v ops → Unseen F H v ops') ∧ carried F v ops = carried F v ops' := by
    clear hr
    induction h with
    | nil => exact fun v => ⟨id, rfl⟩
    | @cons a b as bs hab _ ih =>
      intro v
      have h1 : carry F v a = carry F v b ∧ (Blind H v a → Blind H v b) := by
        cases a <;> cases b <;> simp only [SameCall] at hab
        · obtain ⟨rfl, rfl⟩ := hab; exact ⟨rfl, id⟩
        · rename_i z R H z' R' H'
          cases z <;> cases z' <;> simp only at hab
          · exact ⟨rfl, id⟩
          · obtain ⟨rfl, rfl⟩ := hab; exact ⟨rfl, id⟩
      obtain ⟨i1, i2⟩ := ih (carry F v a)
      refine ⟨fun hv => ⟨h1.2 hv.1, ?_⟩, ?_⟩
      · rw [← h1.1]; exact i1 hv.2
      · rw [carried, carried, ← h1.1]; exact i2
  intro v hv
  rw [(key v).2]
  exact hr v ((key v).1 hv)

theorem run_shares (expf : ℝ → ℝ) {s s' : KF n m l} (ops : List (KFOp n m l))
    (hops : ∀ op ∈ ops, SafeCall s.B s.Q s.R op) (h : s.run expf ops = .ok s') : SharesModel s s' ∧ s'.B = s.B := by
  induction ops generalizing s with
  | nil => cases h; exact ⟨⟨rfl, rfl, rfl, rfl, rfl, rfl⟩, rfl⟩
  | cons op ops ih =>
    have hop := hops op (by simp)
    rw [KF.run] at h
    cases h1 : s.step expf op with
    | error e => rw [h1] at h; cases h
    | ok s1 =>
      rw [h1] at h
      have k : SharesModel s s1 ∧ s1.B = s.B := by
        cases op <;> simp only [SafeCall] at hop
        · obtain ⟨x, rfl⟩ := KF.predict_ok h1
          exact ⟨⟨rfl, rfl, rfl, rfl, rfl, rfl⟩, rfl⟩
        · rename_i z R H
          cases z with
          | none => cases h1; exact ⟨⟨rfl, rfl, rfl, rfl, rfl, rfl⟩, rfl⟩
          | some z =>
            obtain ⟨SI, -, rfl⟩ := KF.update_ok h1
            exact ⟨⟨rfl, rfl, rfl, rfl, rfl, rfl⟩, rfl⟩
      obtain ⟨k1, k2⟩ := k
      obtain ⟨j1, j2⟩ := ih (fun o ho => by
        rw [k1.Q, k1.R, k2]; exact hops o (List.mem_cons_of_mem _ ho)) h
      exact ⟨⟨j1.F.trans k1.F, j1.Q.trans k1.Q, j1.H.trans k1.H, j1.R.trans k1.R, j1.alpha.trans k1.alpha,
        j1.inv.trans k1.inv⟩, j2.trans k2⟩

theorem cycles_safe {s : KF n m l} (hQ : s.Q.PosSemidef) (hR : s.R.PosDef) {u : ℕ → UArg l}
    (hu : ∀ k, ∃ b, KF.control s.B (u k) = .ok b) (z : ℕ → Option (Vec m)) (k L : ℕ) :
    ∀ op ∈ (cyclesFrom u z k L : List (KFOp n m l)), SafeCall s.B s.Q s.R op := by
  intro op hop
  simp only [cyclesFrom, cycleCalls, List.mem_flatMap, List.mem_cons, List.not_mem_nil, or_false] at hop
  obtain ⟨i, -, rfl | rfl⟩ := hop
  · exact ⟨hQ, by simpa using hu (k + i)⟩
  · exact fun _ => hR

theorem cycles_same (u u' : ℕ → UArg l) {z z' : ℕ → Option (Vec m)} (k k' L : ℕ)
    (h : ∀ i < L, (z (k + i)).isSome = (z' (k' + i)).isSome) :
    List.Forall₂ SameCall (cyclesFrom u z k L : List (KFOp n m l)) (cyclesFrom u' z' k' L) := by
  have key : ∀ is : List ℕ, (∀ i ∈ is, (z (k + i)).isSome = (z' (k' + i)).isSome) →
      List.Forall₂ SameCall (is.flatMap fun i => (cycleCalls (u (k + i)) (z (k + i)) : List (KFOp n m l)))
        (is.flatMap fun i => cycleCalls (u' (k' + i)) (z' (k' + i))) := by
    intro is
    induction is with
    | nil => exact fun _ => .nil
    | cons i is ih =>
      intro hi
      refine .cons ⟨rfl, rfl⟩ (.cons ?_ (ih fun j hj => hi j (List.mem_cons_of_mem _ hj)))
      have := hi i (by simp)
      revert this
      cases z (k + i) <;> cases z' (k' + i) <;> simp [SameCall]
  exact key _ fun i hi => h i (List.mem_range.1 hi)

theorem cyclesFrom_add (u : ℕ → UArg l) (z : ℕ → Option (Vec m)) (k a b : ℕ) :
    (cyclesFrom u z k (a + b) : List (KFOp n m l)) = cyclesFrom u z k a ++ cyclesFrom u z (k + a) b := by
  rw [cyclesFrom, List.range_add, List.flatMap_append, List.flatMap_map]
  simp only [cyclesFrom, add_assoc]

/-- **C122 (outages).** Fix the model and a number `L` of cycles. There is one bound for all variances reported after
`L` cycles or more, from every initial state, every initial covariance, with all data and controls, and with every
pattern of missing measurements that leaves every `L` consecutive cycles revealing. -/
theorem C122_outages (expf : ℝ → ℝ) (s : KF n m l) (hinv : s.inv = npInv) (ha : 0 ≤ s.alphaSq) (hQ : s.Q.PosSemidef)
    (hR : s.R.PosDef) (L : ℕ) :
    ∃ b : ℝ, ∀ (x : Vec n) (P : Mat n n) (u : ℕ → UArg l) (z : ℕ → Option (Vec m)), P.PosSemidef →
      (∀ k, ∃ c, KF.control s.B (u k) = .ok c) →
      (∀ k, Reveals s.F s.H (cyclesFrom u z k L : List (KFOp n m l))) →
      ∀ k, L ≤ k → ∃ t', ({ s with x := x, P := P } : KF n m l).run expf (cyclesFrom u z 0 k) = .ok t' ∧
        ∀ i, t'.P i i ≤ b := by
  classical
  let tmpl : Finset ℕ → List (KFOp n m l) := fun S =>
    cyclesFrom (fun _ => .none) (fun i => if i ∈ S then some 0 else none) 0 L
  have hu0 : ∀ k : ℕ, ∃ c, KF.control s.B (UArg.none : UArg l) = .ok c := fun _ => by
    cases s.B <;> exact ⟨_, rfl⟩
  have each : ∀ S, ∃ b : ℝ, 0 ≤ b ∧ (Reveals s.F s.H (tmpl S) → ∀ (t t' : KF n m l) (ops' : List (KFOp n m l)),
      SharesModel s t → t.P.PosSemidef → List.Forall₂ SameCall (tmpl S) ops' → t.run expf ops' = .ok t' →
        ∀ i, t'.P i i ≤ b) := by
    intro S
    by_cases hr : Reveals s.F s.H (tmpl S)
    · obtain ⟨N, hN, key⟩ := C122_revealed expf s hinv ha (tmpl S) (cycles_safe hQ hR hu0 _ _ _) hr
      refine ⟨∑ i, N i i, Finset.sum_nonneg fun i _ => hN.diag_nonneg, fun _ t t' ops' hm hP hf h i => ?_⟩
      have h1 := (key t t' ops' hm hP hf h).2.diag_nonneg (i := i)
      rw [Matrix.sub_apply, sub_nonneg] at h1
      exact h1.trans (Finset.single_le_sum (f := fun i => N i i) (fun j _ => hN.diag_nonneg) (Finset.mem_univ i))
    · exact ⟨0, le_rfl, fun h => (hr h).elim⟩
  choose b hb0 hb using each
  refine ⟨∑ S ∈ (Finset.range L).powerset, b S, fun x P u z hP hu hr k hk => ?_⟩
  obtain ⟨j, rfl⟩ := Nat.exists_eq_add_of_le' hk
  set t : KF n m l := { s with x := x, P := P } with ht
  obtain ⟨t1, h1, hP1⟩ := C111_succeeds expf t hinv hP ha _ (cycles_safe (s := t) hQ hR hu z 0 j)
  obtain ⟨hm, hB⟩ := run_shares expf _ (cycles_safe (s := t) hQ hR hu z 0 j) h1
  have hm' : SharesModel s t1 := ⟨hm.F, hm.Q, hm.H, hm.R, hm.alpha, hm.inv⟩
  have hsafe := cycles_safe (s := t) hQ hR hu z j L
  obtain ⟨t2, h2, -⟩ := C111_succeeds expf t1 (hm.inv.trans hinv) hP1 (by rw [hm.alpha]; exact ha)
    (cyclesFrom u z j L) (by rw [hB, hm.Q, hm.R]; exact hsafe)
  refine ⟨t2, ?_, fun i => ?_⟩
  · rw [cyclesFrom_add, KF.run_append, h1]
    simpa using h2
  · let S := (Finset.range L).filter fun i => (z (j + i)).isSome
    have hf : List.Forall₂ SameCall (tmpl S) (cyclesFrom u z j L) := by
      refine cycles_same _ _ _ _ _ fun i hi => ?_
      by_cases hz : (z (j + i)).isSome <;> simp [S, hi, hz]
    refine (hb S (reveals_same hf (hr j)) t1 t2 _ hm' hP1 hf h2 i).trans ?_
    exact Finset.single_le_sum (f := b) (fun S _ => hb0 S) (Finset.mem_powerset.2 (Finset.filter_subset _ _))

theorem unseen_append {F : Mat n n} {H : Mat m n} {v : Vec n} {a b : List (KFOp n m l)} :
    Unseen F H v (a ++ b) ↔ Unseen F H v a ∧ Unseen F H (carried F v a) b := by
  induction a generalizing v with
  | nil => simp [Unseen, carried]
  | cons op a ih => simp only [List.cons_append, Unseen, carried, ih, and_assoc]

theorem carried_append (F : Mat n n) (v : Vec n) (a b : List (KFOp n m l)) :
    carried F v (a ++ b) = carried F (carried F v a) b := by
  induction a generalizing v with
  | nil => rfl
  | cons op a ih => simp only [List.cons_append, carried, ih]

theorem carried_zero (F : Mat n n) (a : List (KFOp n m l)) : carried F 0 a = 0 := by
  have := carried_smul F 0 0 a
  simpa using this

theorem carried_cycles (F : Mat n n) (v : Vec n) (u : ℕ → UArg l) (z : ℕ → Option (Vec m)) (k L : ℕ) :
    carried F v (cyclesFrom u z k L : List (KFOp n m l)) = F ^ L *ᵥ v := by
  induction L with
  | zero => simp [cyclesFrom, carried]
  | succ L ih =>
    rw [cyclesFrom_add, carried_append, ih, pow_succ', ← mulVec_mulVec]
    simp [cyclesFrom, cycleCalls, carried, carry]

theorem unseen_cycles {F : Mat n n} {H : Mat m n} {v : Vec n} {u : ℕ → UArg l} {z : ℕ → Option (Vec m)} {k L : ℕ} :
    Unseen F H v (cyclesFrom u z k L : List (KFOp n m l)) ↔
      ∀ i < L, (z (k + i)).isSome → H *ᵥ (F ^ (i + 1) *ᵥ v) = 0 := by
  induction L with
  | zero => simp [cyclesFrom, Unseen]
  | succ L ih =>
    rw [cyclesFrom_add, unseen_append, ih, carried_cycles]
    have : Unseen F H (F ^ L *ᵥ v) (cyclesFrom u z (k + L) 1 : List (KFOp n m l)) ↔
        ((z (k + L)).isSome → H *ᵥ (F ^ (L + 1) *ᵥ v) = 0) := by
      rw [pow_succ', ← mulVec_mulVec]
      simp only [cyclesFrom, cycleCalls, List.range_one, List.flatMap_cons, List.flatMap_nil, List.append_nil, add_zero,
        Unseen, Blind, carry, Option.getD_none, true_and, and_true]
      cases z (k + L) <;> simp
    rw [this]
    constructor
    · rintro ⟨h1, h2⟩ i hi
      rcases Nat.lt_succ_iff_lt_or_eq.1 hi with h | rfl
      · exact h1 i h
      · exact h2
    · exact fun h => ⟨fun i hi => h i (hi.trans L.lt_succ_self), h L L.lt_succ_self⟩

/-- **C122 (what it means).** Some cycles reveal the state exactly if the measurements actually taken, without noise,
determine where the model takes the state by their end. -/
theorem C122_reveals_iff (F : Mat n n) (H : Mat m n) (u : ℕ → UArg l) (z : ℕ → Option (Vec m)) (k L : ℕ) :
    Reveals F H (cyclesFrom u z k L : List (KFOp n m l)) ↔
      ∀ v v' : Vec n, (∀ i < L, (z (k + i)).isSome → H *ᵥ (F ^ (i + 1) *ᵥ v) = H *ᵥ (F ^ (i + 1) *ᵥ v')) →
        F ^ L *ᵥ v = F ^ L *ᵥ v' := by
  simp only [Reveals, unseen_cycles, carried_cycles]
  constructor
  · intro h v v' hv
    have := h (v - v') fun i hi hz => by rw [mulVec_sub, mulVec_sub, hv i hi hz, sub_self]
    rwa [mulVec_sub, sub_eq_zero] at this
  · intro h v hv
    have := h v 0 fun i hi hz => by rw [hv i hi hz]; simp
    simpa using this

/-- **C122 (recovery).** If the model is observable, `n` consecutive cycles with a measurement (`n` the number of state
variables) anywhere among them make any cycles revealing: after an outage of any length the filter recovers in `n`
cycles. -/
theorem C122_recovers {F : Mat n n} {H : Mat m n} (hO : Spec.Observable F H) (u : ℕ → UArg l)
    (z : ℕ → Option (Vec m)) (k L j : ℕ) (hj : j + n ≤ L) (hz : ∀ i < n, (z (k + j + i)).isSome) :
    Reveals F H (cyclesFrom u z k L : List (KFOp n m l)) := by
  intro v hv
  rw [unseen_cycles] at hv
  rw [carried_cycles]
  have h0 : F ^ (j + 1) *ᵥ v = 0 := by
    refine observable_first hO _ fun i hi => ?_
    rw [mulVec_mulVec v (F ^ i), ← pow_add, show i + (j + 1) = j + i + 1 by ring]
    exact hv (j + i) (by omega) (by rw [← add_assoc]; exact hz i hi)
  rcases Nat.eq_zero_or_pos n with rfl | hn
  · exact Subsingleton.elim _ _
  obtain ⟨d, rfl⟩ : ∃ d, L = d + (j + 1) := ⟨L - (j + 1), by omega⟩
  rw [pow_add, ← mulVec_mulVec, h0, mulVec_zero]

/-- **C122 (no measurements needed).** A covariance that the prediction does not increase bounds everything the filter
reports if it bounds the initial covariance, whichever measurements arrive. -/
theorem C122_stable (expf : ℝ → ℝ) {s : KF n m l} (hinv : s.inv = npInv) (ha : 0 ≤ s.alphaSq) {X : Mat n n}
    (h0 : CovLE s.P X) (ops : List (KFOp n m l)) (hops : ∀ op ∈ ops, SafeCall s.B s.Q s.R op)
    (hX : ∀ u B F Q, KFOp.predict u B F Q ∈ ops →
      CovLE (s.alphaSq • (F.getD s.F * X * (F.getD s.F)ᵀ) + Q.resolve s.Q) X) :
    ∃ s', s.run expf ops = .ok s' ∧ CovLE s'.P X := by
  induction ops generalizing s with
  | nil => exact ⟨s, rfl, h0⟩
  | cons op ops ih =>
    have hop := hops op (by simp)
    have htl : ∀ s1 : KF n m l, s.step expf op = .ok s1 → s1.inv = s.inv → CovLE s1.P X → s1.alphaSq = s.alphaSq →
        s1.F = s.F → s1.B = s.B → s1.Q = s.Q → s1.R = s.R → ∃ s', s.run expf (op :: ops) = .ok s' ∧ CovLE s'.P X := by
      intro s1 h1 h2 h3 h4 h5 h6 h7 h8
      rw [KF.run, h1]
      refine ih (h2.trans hinv) (h4 ▸ ha) h3 (fun o ho => ?_) (fun u B F Q hm => ?_)
      · rw [h6, h7, h8]; exact hops o (List.mem_cons_of_mem _ ho)
      · rw [h4, h5, h7]; exact hX u B F Q (List.mem_cons_of_mem _ hm)
    cases op <;> simp only [SafeCall] at hop
    · rename_i u B F Q
      obtain ⟨hQ, b, hb⟩ := hop
      obtain ⟨s1, h1⟩ : ∃ s1, s.predict u B F Q = .ok s1 := by simp only [KF.predict, hb]; exact ⟨_, rfl⟩
      obtain ⟨x, rfl⟩ := KF.predict_ok h1
      refine htl _ h1 rfl ?_ rfl rfl rfl rfl rfl
      exact (((h0.congr (F.getD s.F)).smul ha).add (CovLE.refl hQ)).trans (hX u B F Q (by simp))
    · rename_i z R H
      cases z with
      | none => exact htl _ rfl rfl h0 rfl rfl rfl rfl rfl
      | some z =>
        have hR := hop (by simp)
        obtain ⟨s1, h1, -⟩ := update_semi s z R H hinv h0.1 hR
        have h2 := h1
        obtain ⟨SI, hSI, rfl⟩ := KF.update_ok h1
        refine htl _ h2 rfl ?_ rfl rfl rfl rfl rfl
        rw [hinv] at hSI
        obtain ⟨hd, rfl⟩ := npInv_eq_some.1 hSI
        have := joseph_mono (H.getD s.H) h0 (CovLE.refl hR.posSemidef) hd 0
        simpa using this

/-- A quarter turn per step, and a sensor for the first coordinate. -/
noncomputable def turnKF : KF 2 1 1 := { KF.fresh 2 1 1 with F := !![0, -1; 1, 0], H := !![1, 0] }

theorem turn_observable : Spec.Observable turnKF.F turnKF.H := by
  intro x hx
  have h0 := congrFun (hx 0) 0
  have h1 := congrFun (hx 1) 0
  simp [turnKF, mulVec, dotProduct, Fin.sum_univ_two] at h0 h1
  ext i
  fin_cases i
  · simpa using h0
  · simpa using h1

theorem run_cons_ok {expf : ℝ → ℝ} {s s' : KF n m l} {op : KFOp n m l} {ops : List (KFOp n m l)}
    (h : s.run expf (op :: ops) = .ok s') : ∃ s1, s.step expf op = .ok s1 ∧ s1.run expf ops = .ok s' := by
  rw [KF.run] at h
  cases h1 : s.step expf op with
  | error e => rw [h1] at h; cases h
  | ok s1 => rw [h1] at h; exact ⟨s1, rfl, h⟩

/-- The model of `turnKF`, with independent coordinates of variances `a` and `b`. -/
structure Turn (t : KF 2 1 1) (a b : ℝ) : Prop where
  F : t.F = !![0, -1; 1, 0]
  Q : t.Q = 1
  H : t.H = !![1, 0]
  alpha : t.alphaSq = 1
  P : t.P = !![a, 0; 0, b]

theorem Turn.predict {t t' : KF 2 1 1} {a b : ℝ} (h : Turn t a b) (ht : t.predict .none none none .none = .ok t') :
    Turn t' (b + 1) (a + 1) := by
  obtain ⟨x, rfl⟩ := KF.predict_ok ht
  refine ⟨h.F, h.Q, h.H, h.alpha, ?_⟩
  dsimp only
  rw [Option.getD_none, MatArg.resolve, h.F, h.Q, h.alpha, h.P, one_fin_two]
  ext i j
  fin_cases i <;> fin_cases j <;> simp [vecMul, dotProduct, Fin.sum_univ_two]

theorem Turn.update {t t' : KF 2 1 1} {a b : ℝ} (h : Turn t a b) {y : Vec 1}
    (ht : t.update (some y) .none none = .ok t') : ∃ a', Turn t' a' b := by
  obtain ⟨SI, -, rfl⟩ := KF.update_ok ht
  have e1 : SI = !![SI 0 0] := by ext i j; fin_cases i; fin_cases j; rfl
  have e2 : t.R = !![t.R 0 0] := by ext i j; fin_cases i; fin_cases j; rfl
  rw [e1]
  generalize SI 0 0 = σ
  refine ⟨(1 - a * σ) * a * (1 - a * σ) + a * σ * t.R 0 0 * (a * σ), h.F, h.Q, h.H, h.alpha, ?_⟩
  dsimp only
  rw [Option.getD_none, MatArg.resolve, h.H, h.P, e2, one_fin_two]
  generalize t.R 0 0 = ρ
  have eK : (!![a, 0; 0, b] * (!![1, 0] : Mat 1 2)ᵀ * !![σ] : Mat 2 1) = !![a * σ; 0] := by
    ext i j
    fin_cases i <;> fin_cases j <;> simp [Matrix.mul_apply, vecMul, dotProduct, Fin.sum_univ_two]
  have eT : ((!![1, 0; 0, 1] : Mat 2 2) - (!![a * σ; 0] : Mat 2 1) * (!![1, 0] : Mat 1 2)) = !![1 - a * σ, 0; 0, 1] := by
    ext i j
    fin_cases i <;> fin_cases j <;> simp
  rw [eK, eT]
  ext i j
  fin_cases i <;> fin_cases j <;> simp [vecMul, dotProduct, Fin.sum_univ_two]

/-- **C122 (regular measurements are not enough).** The model is observable, and with all its measurements the
variances stay bounded; with every second measurement missing, a variance grows without bound: after `2 k` cycles it is
`1 + 2 k`. -/
theorem C122_regular_not_enough (expf : ℝ → ℝ) (z : ℕ → Option (Vec 1)) (hz : ∀ k, (z k).isSome ↔ k % 2 = 1) :
    Spec.Observable turnKF.F turnKF.H ∧
    ∀ k, ∃ t', turnKF.run expf (cyclesFrom (fun _ => .none) z 0 (2 * k)) = .ok t' ∧ t'.P 1 1 = 1 + 2 * k := by
  refine ⟨turn_observable, fun k => ?_⟩
  have hu : ∀ k : ℕ, ∃ c, KF.control turnKF.B (UArg.none : UArg 1) = .ok c := fun _ => by
    cases turnKF.B <;> exact ⟨_, rfl⟩
  have hsafe := cycles_safe (s := turnKF) (by exact PosSemidef.one) (by exact PosDef.one) hu z
  suffices H : ∃ t', turnKF.run expf (cyclesFrom (fun _ => .none) z 0 (2 * k)) = .ok t' ∧ t'.P.PosSemidef ∧
      ∃ a, Turn t' a (1 + 2 * k) by
    obtain ⟨t', h1, -, a, h2⟩ := H
    exact ⟨t', h1, by rw [h2.P]; rfl⟩
  induction k with
  | zero =>
    refine ⟨turnKF, rfl, PosSemidef.one, 1, rfl, rfl, rfl, ?_, ?_⟩
    · simp [turnKF, KF.fresh]
    · simp [turnKF, KF.fresh, one_fin_two]
  | succ k ih =>
    obtain ⟨t, h1, hP, a0, T⟩ := ih
    obtain ⟨hm, hB⟩ := run_shares expf _ (hsafe 0 (2 * k)) h1
    obtain ⟨t', h2, hP'⟩ := C111_succeeds expf t hm.inv hP (by rw [hm.alpha]; simp [turnKF, KF.fresh])
      (cyclesFrom (fun _ => .none) z (2 * k) 2) (by rw [hB, hm.Q, hm.R]; exact hsafe _ _)
    refine ⟨t', ?_, hP', ?_⟩
    · rw [mul_add, mul_one, cyclesFrom_add, KF.run_append, h1]
      simpa using h2
    · have z0 : z (2 * k) = none := by
        have := hz (2 * k)
        cases hzk : z (2 * k) <;> simp_all
      obtain ⟨y, z1⟩ : ∃ y, z (2 * k + 1) = some y := Option.isSome_iff_exists.1 ((hz _).2 (by omega))
      have e : (cyclesFrom (fun _ => .none) z (2 * k) 2 : List (KFOp 2 1 1)) = [.predict .none none none .none,
          .update none .none none, .predict .none none none .none, .update (some y) .none none] := by
        simp [cyclesFrom, cycleCalls, List.range_succ, z0, z1]
      rw [e] at h2
      obtain ⟨t1, g1, h2⟩ := run_cons_ok h2
      obtain ⟨t2, g2, h2⟩ := run_cons_ok h2
      obtain ⟨t3, g3, h2⟩ := run_cons_ok h2
      obtain ⟨t4, g4, h2⟩ := run_cons_ok h2
      cases h2
      have T1 := T.predict g1
      have T2 : Turn t2 (1 + 2 * k + 1) (a0 + 1) := by
        cases g2
        exact ⟨T1.F, T1.Q, T1.H, T1.alpha, T1.P⟩
      obtain ⟨a, T4⟩ := (T2.predict g3).update g4
      refine ⟨a, ?_⟩
      convert T4 using 1
      push_cast; ring

/-- The hypotheses of `C122_window`, `C122_outages` and `C122_recovers` are met: three cycles of the constant velocity
filter, the first without a measurement, reveal the state. -/
example (z : ℕ → Option (Vec 1)) (h0 : z 0 = none) (h1 : ∀ k, 0 < k → (z k).isSome) :
    cvKF.inv = npInv ∧ 1 ≤ cvKF.alphaSq ∧ cvKF.Q.PosSemidef ∧ cvKF.R.PosDef ∧
      (∀ op ∈ (cyclesFrom (fun _ => .none) z 0 3 : List (KFOp 2 1 1)), SafeCall cvKF.B cvKF.Q cvKF.R op) ∧
      (∀ k, Reveals cvKF.F cvKF.H (cyclesFrom (fun _ => .none) z k 3 : List (KFOp 2 1 1))) ∧ z 0 = none := by
  have hQ : cvKF.Q.PosSemidef := PosSemidef.one
  have hR : cvKF.R.PosDef := PosDef.one
  have hO : Spec.Observable cvKF.F cvKF.H := by
    intro x hx
    have h0 := congrFun (hx 0) 0
    have h1 := congrFun (hx 1) 0
    simp [cvKF, mulVec, dotProduct, Fin.sum_univ_two] at h0 h1
    ext i
    fin_cases i
    · simpa using h0
    · simpa [h0] using h1
  refine ⟨rfl, by simp [cvKF, KF.fresh], hQ, hR, ?_, fun k => ?_, h0⟩
  · exact cycles_safe hQ hR (fun _ => by cases cvKF.B <;> exact ⟨_, rfl⟩) z 0 3
  · exact C122_recovers hO _ z k 3 1 (by norm_num) fun i _ => h1 _ (by omega)

/-- The hypotheses of `C122_stable` are met: half of a scalar state is lost in every step. -/
example (z : ℕ → Option (Vec 1)) (k : ℕ) :
    let s : KF 1 1 1 := { KF.fresh 1 1 1 with F := !![1 / 2] }
    CovLE s.P ((2 : ℝ) • 1) ∧
      (∀ op ∈ (cyclesFrom (fun _ => .none) z 0 k : List (KFOp 1 1 1)), SafeCall s.B s.Q s.R op) ∧
      ∀ u B F Q, KFOp.predict u B F Q ∈ (cyclesFrom (fun _ => .none) z 0 k : List (KFOp 1 1 1)) →
        CovLE (s.alphaSq • (F.getD s.F * ((2 : ℝ) • 1) * (F.getD s.F)ᵀ) + Q.resolve s.Q) ((2 : ℝ) • 1) := by
  intro s
  have hB : s.B = none := rfl
  refine ⟨⟨PosSemidef.one, ?_⟩, cycles_safe PosSemidef.one PosDef.one (fun _ => ⟨none, by rw [hB]; rfl⟩) z 0 k, ?_⟩
  · have : (2 : ℝ) • (1 : Mat 1 1) - s.P = 1 := by
      ext i j; fin_cases i; fin_cases j; simp [s, KF.fresh]; norm_num
    rw [this]; exact PosSemidef.one
  · intro u B F Q hm
    simp only [cyclesFrom, cycleCalls, List.mem_flatMap, List.mem_cons, List.not_mem_nil, or_false] at hm
    obtain ⟨i, -, hm | hm⟩ := hm
    · cases hm
      have e : s.alphaSq • (s.F * ((2 : ℝ) • 1) * s.Fᵀ) + s.Q = (3 / 2 : ℝ) • (1 : Mat 1 1) := by
        ext i j; fin_cases i; fin_cases j; simp [s, KF.fresh, vecMul, dotProduct]; norm_num
      simp only [Option.getD_none, MatArg.resolve, e]
      refine ⟨PSD.smul PosSemidef.one (by norm_num), ?_⟩
      rw [← sub_smul]
      exact PSD.smul PosSemidef.one (by norm_num)
    · cases hm

end Filterpy
