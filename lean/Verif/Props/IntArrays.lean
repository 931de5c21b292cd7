import Verif.Model.IntArrays
import Verif.Lemmas.Sim
import Verif.Lemmas.Kalman
import Verif.Lemmas.Bank
import Verif.Props.FilterBooks
import Verif.Props.KalmanBasic
import Verif.Props.DiscreteBayes

/-!
# C121: arrays of whole numbers
-/

namespace Filterpy

open Matrix

/-! ## Truncation -/

theorem truncZ_of_int (k : ℤ) : truncZ (k : ℝ) = k := by
  unfold truncZ
  split_ifs <;> simp

/-- A cell of an integer array keeps exactly the whole numbers. -/
theorem truncZ_eq_iff (v : ℝ) : truncZ v = v ↔ ∃ k : ℤ, v = k := by
  constructor
  · intro h
    unfold truncZ at h
    split_ifs at h
    · exact ⟨_, h.symm⟩
    · exact ⟨_, h.symm⟩
  · rintro ⟨k, rfl⟩
    exact truncZ_of_int k

theorem truncZ_small {v : ℝ} (h : |v| < 1) : truncZ v = 0 := by
  rw [abs_lt] at h
  unfold truncZ
  split_ifs with h0
  · have : ⌊v⌋ = 0 := Int.floor_eq_iff.2 (by simpa using ⟨h0, h.2⟩)
    simp [this]
  · have : ⌈v⌉ = 0 := Int.ceil_eq_iff.2 (by simpa using ⟨h.1, (not_le.1 h0).le⟩)
    simp [this]

theorem store_false (v : ℝ) : store false v = v := rfl

/-! ## `KalmanFilter` -/

namespace Spec

variable {n m l : ℕ}

/-- The two filters agree in every attribute except possibly the stored copy of the last measurement. -/
def SameButZ (a b : KF n m l) : Prop := a = { b with z := a.z }

/-- The call is `update_sequential`. -/
def IsSequential : KFOp n m l → Prop
  | .updateSequential .. => True
  | _ => False

/-- A call after which the state estimate of a filter with control matrix `B` still is an array of integers if it was
before: a prediction with integer matrices, a missing measurement, a steady-state update in integers, or a reading. -/
def KeepsInts (B : Option (Mat n l)) (c : KFOp n m l × Dtypes) : Prop :=
  match c.1 with
  | .predict u B' _ _ => c.2.F = true ∧ (KF.control (B'.or B) u ≠ .ok none → c.2.Bu = true)
  | .predictSteadystate u B' => c.2.F = true ∧ (KF.steadyControl (B'.or B) u ≠ .ok none → c.2.Bu = true)
  | .update z _ _ => z = none
  | .updateCorrelated z _ _ => z = none
  | .updateSteadystate z => z = none ∨ (c.2.K = true ∧ c.2.z = true ∧ c.2.H = true)
  | .updateSequential .. => False
  | _ => True

end Spec

namespace IntKF

variable {n m l : ℕ} {expf : ℝ → ℝ}

theorem run_eq_runList (s : KF n m l) (cs : List (KFOp n m l × Dtypes)) :
    s.run expf (cs.map Prod.fst) = runList (fun t c => KF.step expf t c.1) s cs := by
  induction cs generalizing s with
  | nil => rfl
  | cons c cs ih =>
    simp only [List.map_cons, KF.run, runList]
    cases s.step expf c.1 with
    | error e => rfl
    | ok s' => exact ih s'

/-- A call other than `update_sequential`. -/
theorem step_other {s : IntKF n m l} {c : KFOp n m l × Dtypes} (h : ¬ Spec.IsSequential c.1) :
    s.step expf c = match s.kf.step expf c.1 with
      | .error e => .error (e.1, { s with kf := e.2, yInt := s.yAfter c.2 c.1 })
      | .ok kf => .ok ⟨kf, s.xAfter c.2 c.1, s.yAfter c.2 c.1, s.zAfter c.2 c.1⟩ := by
  obtain ⟨op, d⟩ := c
  cases op <;> first | rfl | exact absurd trivial h

theorem step_sequential {s : IntKF n m l} {start len : ℕ} {zi : Vec len} {Ri Hi} {d : Dtypes} :
    s.step expf (.updateSequential start len zi Ri Hi, d) = s.updateSequential start zi Ri Hi := rfl

theorem seqGain_ne_type {len : ℕ} {A : Mat n len} {S : Mat len len} (hg : seqGain A S = .error .typeError) : False := by
  unfold seqGain at hg
  by_cases hl : len = 1
  · rw [dif_pos hl] at hg
    dsimp only at hg
    split_ifs at hg
    simp at hg
  · rw [dif_neg hl] at hg
    split at hg <;> simp at hg

theorem sequential_eq (s : KF n m l) {start len : ℕ} (h : start + len ≤ m) (zi : Vec len) (Ri : MatArg len)
    (Hi : Option (Mat len n)) :
    s.updateSequential start zi Ri Hi =
      let R := Ri.resolve (s.R.submatrix (KF.sliceIdx h) (KF.sliceIdx h))
      let H := Hi.getD (s.H.submatrix (KF.sliceIdx h) id)
      let yi := zi - H *ᵥ s.x
      let s1 := { s with y := KF.sliceSet h s.y yi }
      match seqGain (s.P * Hᵀ) (H * (s.P * Hᵀ) + R) with
      | .error e => .error (e, s1)
      | .ok Ki =>
        .ok { s1 with
          K := fun i => KF.sliceSet h (s.K i) (Ki i)
          x := s.x + Ki *ᵥ yi, P := (1 - Ki * H) * s.P * (1 - Ki * H)ᵀ + Ki * R * Kiᵀ
          z := KF.sliceSet h s.z (fun i => some (zi i))
          xPost := s.x + Ki *ᵥ yi, PPost := (1 - Ki * H) * s.P * (1 - Ki * H)ᵀ + Ki * R * Kiᵀ } := by
  unfold KF.updateSequential
  rw [dif_pos h]
  rfl

/-- `update_sequential` with the float arrays `x`, `y`. -/
theorem sequential_float {s : IntKF n m l} (hx : s.xInt = false) (hy : s.yInt = false) {start len : ℕ} (zi : Vec len)
    (Ri Hi) : Agree (fun a b => Spec.SameButZ a.kf b ∧ a.xInt = false ∧ a.yInt = false ∧ a.zInt = s.zInt ∧
        (s.zInt = false → a.kf = b))
      (s.updateSequential start zi Ri Hi) (s.kf.updateSequential start zi Ri Hi) := by
  obtain ⟨kf, xi, yi, zInt⟩ := s
  dsimp only at hx hy
  subst hx hy
  by_cases h : start + len ≤ m
  · rw [sequential_eq kf h]
    unfold updateSequential
    rw [dif_pos h]
    dsimp only [store_false, Bool.false_eq_true, if_false]
    generalize seqGain _ _ = g
    cases g with
    | error e => exact ⟨rfl, rfl, rfl, rfl, rfl, fun _ => rfl⟩
    | ok Ki =>
      refine ⟨rfl, rfl, rfl, rfl, ?_⟩
      rintro rfl
      rfl
  · unfold updateSequential KF.updateSequential
    rw [dif_neg h, dif_neg h]
    exact ⟨rfl, rfl, rfl, rfl, rfl, fun _ => rfl⟩

/-- `z` is only ever written. -/
theorem step_sameButZ {a b : KF n m l} (h : Spec.SameButZ a b) (op : KFOp n m l) :
    Agree Spec.SameButZ (a.step expf op) (b.step expf op) := by
  rw [h]
  generalize a.z = w
  cases op with
  | predict u B F Q =>
    simp only [KF.step, KF.predict]
    generalize KF.control (B.or b.B) u = c
    cases c <;> simp only [Agree, Spec.SameButZ, true_and]
  | update z R H =>
    simp only [KF.step, KF.update]
    cases z with
    | none => rfl
    | some z =>
      dsimp only
      split <;> simp only [Agree, Spec.SameButZ, true_and]
  | updateSequential start len zi Ri Hi =>
    simp only [KF.step]
    by_cases h : start + len ≤ m
    · rw [sequential_eq _ h, sequential_eq _ h]
      dsimp only
      generalize seqGain _ _ = g
      cases g
      · exact ⟨rfl, rfl⟩
      · exact rfl
    · unfold KF.updateSequential
      rw [dif_neg h, dif_neg h]
      exact ⟨rfl, rfl⟩
  | predictSteadystate u B =>
    simp only [KF.step, KF.predictSteadystate]
    generalize KF.steadyControl (B.or b.B) u = c
    cases c <;> simp only [Agree, Spec.SameButZ, true_and]
  | updateSteadystate z =>
    cases z <;> rfl
  | updateCorrelated z R H =>
    simp only [KF.step, KF.updateCorrelated]
    cases z with
    | none => rfl
    | some z =>
      dsimp only
      split <;> simp only [Agree, Spec.SameButZ, true_and]
  | readLogLik =>
    obtain ⟨x, P, Q, B, F, H, R, al, M, z, K, y, S, SI, xp, Pp, xq, Pq, ll, lk, mh, inv⟩ := b
    cases ll <;> rfl
  | readLik =>
    obtain ⟨x, P, Q, B, F, H, R, al, M, z, K, y, S, SI, xp, Pp, xq, Pq, ll, lk, mh, inv⟩ := b
    cases lk <;> cases ll <;> rfl
  | readMahal =>
    obtain ⟨x, P, Q, B, F, H, R, al, M, z, K, y, S, SI, xp, Pp, xq, Pq, ll, lk, mh, inv⟩ := b
    cases mh with
    | some v => rfl
    | none =>
      by_cases hd : y ⬝ᵥ (SI *ᵥ y) < 0
      · simp only [KF.step, KF.readMahal, if_pos hd, Agree, Spec.SameButZ, true_and]
      · simp only [KF.step, KF.readMahal, if_neg hd, Agree, Spec.SameButZ]
  | setAlpha v =>
    simp only [KF.step, KF.setAlpha]
    split_ifs
    · exact ⟨rfl, rfl⟩
    · exact rfl

/-- **C121** (no calls of `update_sequential`).  Whatever arrays the user supplies, integers or floats, every history
of the other methods gives the same attributes and the same exceptions. -/
theorem C121_kf (expf : ℝ → ℝ) (s : IntKF n m l) (cs : List (KFOp n m l × Dtypes))
    (h : ∀ c ∈ cs, ¬ Spec.IsSequential c.1) :
    Agree (fun a b => a.kf = b) (s.run expf cs) (s.kf.run expf (cs.map Prod.fst)) := by
  rw [run_eq_runList]
  refine runList_agree cs ?_ s s.kf rfl
  rintro s t c hc rfl
  rw [step_other (h c hc)]
  cases s.kf.step expf c.1 with
  | ok kf => exact rfl
  | error e => exact ⟨rfl, rfl⟩

/-- **C121** (a state of floats).  If the filter starts with a state estimate of floats, every history of calls, with
`update_sequential`, gives the same as if all arrays held floats, whatever the dtypes of the matrices, control inputs
and measurements; only the stored copy `z` of the measurement can differ, and it does not if the measurements are floats. -/
theorem C121_kf_float (expf : ℝ → ℝ) (s : IntKF n m l) (hx : s.xInt = false) (hy : s.yInt = false)
    (cs : List (KFOp n m l × Dtypes)) :
    Agree (fun a b => Spec.SameButZ a.kf b) (s.run expf cs) (s.kf.run expf (cs.map Prod.fst)) ∧
    (s.zInt = false → (∀ c ∈ cs, c.2.z = false) →
      Agree (fun a b => a.kf = b) (s.run expf cs) (s.kf.run expf (cs.map Prod.fst))) := by
  have flags : ∀ (s : IntKF n m l) (c : KFOp n m l × Dtypes), s.xInt = false → s.yInt = false →
      s.xAfter c.2 c.1 = false ∧ s.yAfter c.2 c.1 = false := by
    rintro s ⟨op, d⟩ hx hy
    constructor
    · cases op with
      | predict u B F Q =>
        simp only [xAfter, priorInt]
        split <;> simp [hx]
      | predictSteadystate u B =>
        simp only [xAfter, priorInt]
        split <;> simp [hx]
      | update z R H => cases z <;> simp [xAfter, hx]
      | updateCorrelated z R H => cases z <;> simp [xAfter, hx]
      | updateSteadystate z => cases z <;> simp [xAfter, hx]
      | _ => simp [xAfter, hx]
    · cases op with
      | update z R H => cases z <;> simp [yAfter, hx]
      | updateCorrelated z R H => cases z <;> simp [yAfter, hx]
      | updateSteadystate z => cases z <;> simp [yAfter, hx]
      | _ => simp [yAfter, hy]
  rw [run_eq_runList]
  constructor
  · refine Agree.mono (R := fun (a : IntKF n m l) b => Spec.SameButZ a.kf b ∧ a.xInt = false ∧ a.yInt = false)
      (fun _ _ h => h.1) (runList_agree cs ?_ s s.kf ⟨rfl, hx, hy⟩)
    rintro s t c - ⟨hst, hx, hy⟩
    have h2 := step_sameButZ (expf := expf) hst c.1
    by_cases hc : Spec.IsSequential c.1
    · obtain ⟨op, d⟩ := c
      cases op <;> try exact hc.elim
      rename_i start len zi Ri Hi
      have h1 := sequential_float hx hy (start := start) zi Ri Hi
      dsimp only [step]
      simp only [KF.step] at h2 ⊢
      generalize s.updateSequential start zi Ri Hi = a at h1
      generalize s.kf.updateSequential start zi Ri Hi = b at h1 h2
      generalize t.updateSequential start zi Ri Hi = c at h2
      cases a <;> cases b <;> cases c <;> simp only [Agree] at h1 h2 ⊢
      · refine ⟨h1.1.trans h2.1, ?_, h1.2.2.1, h1.2.2.2.1⟩
        have e1 := h1.2.1
        have e2 := h2.2
        unfold Spec.SameButZ at e1 e2 ⊢
        rw [e1, e2]
      · refine ⟨?_, h1.2.1, h1.2.2.1⟩
        have e1 := h1.1
        unfold Spec.SameButZ at e1 h2 ⊢
        rw [e1, h2]
    · rw [step_other hc]
      generalize s.kf.step expf c.1 = b at h2
      generalize t.step expf c.1 = c' at h2
      cases b <;> cases c' <;> simp only [Agree] at h2 ⊢
      · exact ⟨h2.1, h2.2, hx, (flags s c hx hy).2⟩
      · exact ⟨h2, flags s c hx hy⟩
  · intro hz hzs
    refine Agree.mono (R := fun (a : IntKF n m l) b => a.kf = b ∧ a.xInt = false ∧ a.yInt = false ∧ a.zInt = false)
      (fun _ _ h => h.1) (runList_agree cs ?_ s s.kf ⟨rfl, hx, hy, hz⟩)
    rintro s t c hm ⟨rfl, hx, hy, hz⟩
    by_cases hc : Spec.IsSequential c.1
    · obtain ⟨op, d⟩ := c
      cases op <;> try exact hc.elim
      rename_i start len zi Ri Hi
      refine (sequential_float hx hy (start := start) zi Ri Hi).mono ?_
      rintro a b ⟨-, h1, h2, h3, h4⟩
      exact ⟨h4 hz, h1, h2, h3.trans hz⟩
    · rw [step_other hc]
      cases s.kf.step expf c.1 with
      | error e => exact ⟨rfl, rfl, hx, (flags s c hx hy).2, hz⟩
      | ok kf =>
        refine ⟨rfl, (flags s c hx hy).1, (flags s c hx hy).2, ?_⟩
        have := hzs c hm
        obtain ⟨op, d⟩ := c
        cases op with
        | update z R H => cases z <;> [rfl; exact this]
        | updateCorrelated z R H => cases z <;> [rfl; exact this]
        | updateSteadystate z => cases z <;> [rfl; exact this]
        | _ => simpa [zAfter] using hz

/-- What `update_sequential` does to a state estimate of integers: it is refused exactly when the same call would have
succeeded with floats, and leaves `x` and `P` as they were. -/
theorem sequential_int {s : IntKF n m l} (hx : s.xInt = true) {start len : ℕ} (zi : Vec len) (Ri Hi) :
    (∃ e, s.updateSequential start zi Ri Hi = .error e ∧ e.2.kf.x = s.kf.x ∧ e.2.kf.P = s.kf.P ∧ e.2.xInt = true ∧
      (e.1 = .typeError ↔ ∃ t, s.kf.updateSequential start zi Ri Hi = .ok t)) := by
  by_cases h : start + len ≤ m
  · rw [sequential_eq s.kf h]
    unfold updateSequential
    rw [dif_pos h]
    dsimp only
    cases hg : seqGain (s.kf.P * (Hi.getD (s.kf.H.submatrix (KF.sliceIdx h) id))ᵀ)
        (Hi.getD (s.kf.H.submatrix (KF.sliceIdx h) id) * (s.kf.P * (Hi.getD (s.kf.H.submatrix (KF.sliceIdx h) id))ᵀ) +
          Ri.resolve (s.kf.R.submatrix (KF.sliceIdx h) (KF.sliceIdx h))) with
    | error e =>
      refine ⟨_, rfl, rfl, rfl, hx, ?_⟩
      refine iff_of_false ?_ (by simp)
      rintro rfl
      exact seqGain_ne_type hg
    | ok Ki =>
      dsimp only
      rw [if_pos hx]
      exact ⟨_, rfl, rfl, rfl, hx, iff_of_true rfl ⟨_, rfl⟩⟩
  · unfold updateSequential KF.updateSequential
    rw [dif_neg h, dif_neg h]
    refine ⟨_, rfl, rfl, rfl, hx, ?_⟩
    rcases KF.sliceErr_cases Ri Hi with h | h <;> simp [h]

/-- When the state estimate still holds integers after a call. -/
theorem step_xInt {s s' : IntKF n m l} {c : KFOp n m l × Dtypes} (h : s.step expf c = .ok s') :
    (s'.xInt = true ↔ s.xInt = true ∧ Spec.KeepsInts s.kf.B c) ∧ s'.kf.B = s.kf.B := by
  by_cases hc : Spec.IsSequential c.1
  · obtain ⟨op, d⟩ := c
    cases op <;> try exact hc.elim
    rename_i start len zi Ri Hi
    rw [step_sequential] at h
    cases hx : s.xInt with
    | true =>
      obtain ⟨e, he, -⟩ := sequential_int hx (start := start) zi Ri Hi
      rw [he] at h
      cases h
    | false =>
      unfold updateSequential at h
      by_cases hl : start + len ≤ m
      · rw [dif_pos hl] at h
        dsimp only at h
        generalize seqGain _ _ = g at h
        cases g with
        | error e => cases h
        | ok Ki =>
          dsimp only at h
          rw [if_neg (by simp [hx])] at h
          obtain rfl := Except.ok.inj h
          simp [hx]
      · rw [dif_neg hl] at h
        cases h
  · rw [step_other hc] at h
    cases hk : s.kf.step expf c.1 with
    | error e => rw [hk] at h; cases h
    | ok kf =>
      rw [hk] at h
      obtain rfl := Except.ok.inj h
      dsimp only
      constructor
      · obtain ⟨op, d⟩ := c
        cases op with
        | predict u B F Q =>
          simp only [xAfter, priorInt, Spec.KeepsInts]
          simp only [KF.step, KF.predict] at hk
          cases hb : KF.control (B.or s.kf.B) u with
          | error e => rw [hb] at hk; cases hk
          | ok bu => cases bu <;> simp [and_comm, and_assoc]
        | predictSteadystate u B =>
          simp only [xAfter, priorInt, Spec.KeepsInts]
          simp only [KF.step, KF.predictSteadystate] at hk
          cases hb : KF.steadyControl (B.or s.kf.B) u with
          | error e => rw [hb] at hk; cases hk
          | ok bu => cases bu <;> simp [and_comm, and_assoc]
        | update z R H => cases z <;> simp [xAfter, Spec.KeepsInts]
        | updateCorrelated z R H => cases z <;> simp [xAfter, Spec.KeepsInts]
        | updateSteadystate z => cases z <;> simp [xAfter, Spec.KeepsInts, and_assoc]
        | updateSequential => exact absurd trivial hc
        | _ => simp [xAfter, Spec.KeepsInts]
      · have := C08_attributes_constant expf s.kf [c.1]
        simp only [KF.run, hk] at this
        exact this.2.1

/-- **C121** (exactly when integers get in the way).  After any history of successful calls, `update_sequential` raises
`TypeError` if and only if it would have worked with floats, the filter was given a state estimate of integers, and
every call since then kept it one: no measurement has been processed, and all predictions used integer matrices.  The
refused call leaves `x` and `P` as they were. -/
theorem C121_kf_refused_iff (expf : ℝ → ℝ) {s s' : IntKF n m l} {cs : List (KFOp n m l × Dtypes)}
    (h : s.run expf cs = .ok s') {start len : ℕ} (zi : Vec len) (Ri : MatArg len) (Hi : Option (Mat len n)) :
    ((∃ t, s'.updateSequential start zi Ri Hi = .error (.typeError, t)) ↔
      s.xInt = true ∧ (∀ c ∈ cs, Spec.KeepsInts s.kf.B c) ∧
        ∃ t, s'.kf.updateSequential start zi Ri Hi = .ok t) ∧
    ∀ t, s'.updateSequential start zi Ri Hi = .error (.typeError, t) → t.kf.x = s'.kf.x ∧ t.kf.P = s'.kf.P := by
  have key : (s'.xInt = true ↔ s.xInt = true ∧ ∀ c ∈ cs, Spec.KeepsInts s.kf.B c) := by
    unfold run at h
    induction cs generalizing s with
    | nil =>
      obtain rfl := Except.ok.inj h
      simp
    | cons c cs ih =>
      simp only [runList] at h
      cases hc : s.step expf c with
      | error e => rw [hc] at h; cases h
      | ok s1 =>
        rw [hc] at h
        obtain ⟨h1, h2⟩ := step_xInt hc
        rw [ih h, h1, h2]
        simp [and_assoc]
  cases hx : s'.xInt with
  | true =>
    obtain ⟨e, he, h1, h2, -, h3⟩ := sequential_int hx (start := start) zi Ri Hi
    obtain ⟨hs, hcs⟩ := key.1 hx
    obtain ⟨e1, e2⟩ := e
    rw [he]
    refine ⟨⟨?_, ?_⟩, ?_⟩
    · rintro ⟨t, ht⟩
      exact ⟨hs, hcs, h3.1 (Prod.mk.inj (Except.error.inj ht)).1⟩
    · rintro ⟨-, -, ht⟩
      have := h3.2 ht
      dsimp only at this
      subst this
      exact ⟨e2, rfl⟩
    · rintro t ht
      obtain ⟨-, rfl⟩ := Prod.mk.inj (Except.error.inj ht)
      exact ⟨h1, h2⟩
  | false =>
    have hno : ∀ t, s'.updateSequential start zi Ri Hi ≠ .error (.typeError, t) := by
      intro t ht
      unfold updateSequential at ht
      by_cases hl : start + len ≤ m
      · rw [dif_pos hl] at ht
        dsimp only at ht
        cases hg : seqGain (s'.kf.P * (Hi.getD (s'.kf.H.submatrix (KF.sliceIdx hl) id))ᵀ)
            (Hi.getD (s'.kf.H.submatrix (KF.sliceIdx hl) id) *
              (s'.kf.P * (Hi.getD (s'.kf.H.submatrix (KF.sliceIdx hl) id))ᵀ) +
              Ri.resolve (s'.kf.R.submatrix (KF.sliceIdx hl) (KF.sliceIdx hl))) with
        | error e =>
          rw [hg] at ht
          obtain ⟨rfl, -⟩ := Prod.mk.inj (Except.error.inj ht)
          exact seqGain_ne_type hg
        | ok Ki =>
          rw [hg] at ht
          dsimp only at ht
          rw [if_neg (by simp [hx])] at ht
          cases ht
      · rw [dif_neg hl] at ht
        have := (Prod.mk.inj (Except.error.inj ht)).1
        rcases KF.sliceErr_cases Ri Hi with h | h <;> rw [h] at this <;> cases this
    refine ⟨iff_of_false (fun ⟨t, ht⟩ => hno t ht) ?_, fun t ht => absurd ht (hno t)⟩
    rintro ⟨h1, h2, -⟩
    rw [key.2 ⟨h1, h2⟩] at hx
    cases hx

/-- A filter of one state measured directly, with unit variances, whose state estimate is the integer array `[0]`. -/
noncomputable def one : IntKF 1 1 1 := ⟨{ KF.fresh 1 1 1 with H := 1, R := 1 }, true, false, false⟩

theorem one_seq (v : ℝ) : ∃ t, one.kf.updateSequential 0 (len := 1) (fun _ => v) = .ok t ∧ t.x = fun _ => v / 2 := by
  have hg : seqGain (one.kf.P * ((none : Option (Mat 1 1)).getD (one.kf.H.submatrix
        (KF.sliceIdx (start := 0) (len := 1) (by norm_num)) id))ᵀ)
      ((none : Option (Mat 1 1)).getD (one.kf.H.submatrix (KF.sliceIdx (start := 0) (len := 1) (by norm_num)) id) *
        (one.kf.P * ((none : Option (Mat 1 1)).getD (one.kf.H.submatrix
          (KF.sliceIdx (start := 0) (len := 1) (by norm_num)) id))ᵀ) +
        MatArg.none.resolve (one.kf.R.submatrix (KF.sliceIdx (start := 0) (len := 1) (by norm_num))
          (KF.sliceIdx (start := 0) (len := 1) (by norm_num)))) = .ok (fun _ _ => 1 / 2) := by
    unfold seqGain
    rw [dif_pos rfl]
    dsimp only
    rw [if_neg (by
      simp only [one, KF.fresh, Option.getD_none, MatArg.resolve, Matrix.mul_apply, Matrix.add_apply, Fin.sum_univ_one,
        Matrix.submatrix_apply, Matrix.transpose_apply, Matrix.one_apply, id]
      norm_num [KF.sliceIdx])]
    congr 1
    ext i j
    simp only [one, KF.fresh, Option.getD_none, MatArg.resolve, Matrix.mul_apply, Matrix.add_apply, Fin.sum_univ_one,
      Matrix.submatrix_apply, Matrix.transpose_apply, Matrix.one_apply, id, Matrix.smul_apply, smul_eq_mul,
      Subsingleton.elim _ (0 : Fin 1)]
    norm_num
  rw [sequential_eq _ (by norm_num)]
  dsimp only
  rw [hg]
  refine ⟨_, rfl, ?_⟩
  funext i
  simp only [one, KF.fresh, Option.getD_none, Matrix.mulVec_zero, sub_zero, zero_add, Matrix.mulVec, dotProduct,
    Fin.sum_univ_one]
  ring

/-- **C121, refuted for `update_sequential`.**  A filter that starts from the integer state `[0]` refuses every
measurement passed to `update_sequential`, also after predictions with an integer transition matrix, although the same
calls work with `[0.]`. -/
theorem C121_kf_sequential_refuted (expf : ℝ → ℝ) (v : ℝ) (d : Dtypes) :
    (∃ t, one.step expf (.updateSequential 0 1 (fun _ => v) .none none, d) = .error (.typeError, t)) ∧
    ∃ t, one.kf.step expf (.updateSequential 0 1 (fun _ => v) .none none) = .ok t ∧ t.x = fun _ => v / 2 := by
  obtain ⟨t, ht, hx⟩ := one_seq v
  refine ⟨?_, t, ht, hx⟩
  have := (C121_kf_refused_iff expf (s := one) (s' := one) (cs := []) rfl (start := 0) (fun _ : Fin 1 => v) .none
    none).1.2 ⟨rfl, by simp, t, ht⟩
  exact this

/-- **C121, refuted for the residual.**  An update with integer arrays leaves an integer array of residuals; a later
`update_sequential` computes the right `x` and `P` but stores the residual truncated. -/
theorem C121_residual_refuted {s : IntKF n m l} (hx : s.xInt = false) (hy : s.yInt = true) {start len : ℕ} (zi : Vec len)
    (Ri : MatArg len) (Hi : Option (Mat len n)) {t : KF n m l} (h : s.kf.updateSequential start zi Ri Hi = .ok t) :
    ∃ s', s.updateSequential start zi Ri Hi = .ok s' ∧ s'.kf.x = t.x ∧ s'.kf.P = t.P ∧
      ∀ i : Fin m, start ≤ (i : ℕ) → (i : ℕ) < start + len → s'.kf.y i = truncZ (t.y i) := by
  by_cases hl : start + len ≤ m
  · rw [sequential_eq s.kf hl] at h
    unfold updateSequential
    rw [dif_pos hl]
    dsimp only at h ⊢
    generalize seqGain _ _ = g at h ⊢
    cases g with
    | error e => cases h
    | ok Ki =>
      obtain rfl := Except.ok.inj h
      dsimp only
      rw [if_neg (by simp [hx])]
      refine ⟨_, rfl, rfl, rfl, fun i h1 h2 => ?_⟩
      simp only [KF.sliceSet, h1, h2, and_self, dif_pos, hy, store, if_true]
  · unfold KF.updateSequential at h
    rw [dif_neg hl] at h
    cases h

/-- Such a state is reached: `kf.x = np.array([0])`, `kf.update(np.array([2]))`. -/
example (expf : ℝ → ℝ) : ∃ s', one.run expf [(.update (some fun _ => 2) .none none, ⟨true, true, true, true, false⟩)]
    = .ok s' ∧ s'.xInt = false ∧ s'.yInt = true := by
  have h : one.kf.inv (one.kf.H * (one.kf.P * one.kf.Hᵀ) + one.kf.R) =
      some (one.kf.H * (one.kf.P * one.kf.Hᵀ) + one.kf.R)⁻¹ := by
    refine npInv_of_det_ne ?_
    rw [det_fin_one]
    simp only [one, KF.fresh, Matrix.mul_apply, Matrix.add_apply, Fin.sum_univ_one, Matrix.transpose_apply,
      Matrix.one_apply]
    norm_num
  simp only [run, runList, step, KF.step, KF.update, Option.getD_none, MatArg.resolve, h]
  exact ⟨_, rfl, rfl, rfl⟩

end IntKF

/-! ## `rts_smoother` -/

namespace KF

variable {n m l : ℕ}

theorem rtsLoopInt_float (inv : Mat n n → Option (Mat n n)) (es) : rtsLoopInt inv false false es = rtsLoop inv es := by
  induction es with
  | nil => rfl
  | cons e es ih =>
    cases es with
    | nil => rfl
    | cons e' rest =>
      unfold rtsLoopInt rtsLoop
      rw [ih]
      rfl

theorem rtsLoopInt_refuses (inv : Mat n n → Option (Mat n n)) {xInt PInt : Bool} (h : xInt = true ∨ PInt = true)
    (es : List ((Vec n × Mat n n) × (Mat n n × Mat n n))) (hl : 2 ≤ es.length) :
    ∃ e, rtsLoopInt inv xInt PInt es = .error e ∧ (e = .typeError ∨ e = .linAlgError) := by
  have hstep : ∀ x P F Q nxt, ∃ e, rtsStepInt (n := n) inv xInt PInt x P F Q nxt = .error e ∧
      (e = .typeError ∨ e = .linAlgError) := by
    intro x P F Q nxt
    unfold rtsStepInt
    dsimp only
    cases inv (storeMat PInt (F * P * Fᵀ + Q)) with
    | none => exact ⟨_, rfl, .inr rfl⟩
    | some A =>
      dsimp only
      cases xInt with
      | true => exact ⟨_, rfl, .inl rfl⟩
      | false =>
        cases PInt with
        | true => exact ⟨_, rfl, .inl rfl⟩
        | false => simp at h
  induction es with
  | nil => simp at hl
  | cons e es ih =>
    cases es with
    | nil => simp at hl
    | cons e' rest =>
      unfold rtsLoopInt
      cases rest with
      | nil =>
        obtain ⟨e1, h1, h2⟩ := hstep e.1.1 e.1.2 e'.2.1 e'.2.2 ⟨e'.1.1, e'.1.2, 0, e'.1.2⟩
        refine ⟨e1, ?_, h2⟩
        simp only [rtsLoopInt, bind, Except.bind, h1]
      | cons e'' rest =>
        obtain ⟨e1, h1, h2⟩ := ih (by simp)
        refine ⟨e1, ?_, h2⟩
        rw [h1]
        rfl

/-- **C121** (`rts_smoother`).  With arrays of floats, and with a single time step, the smoother is the one of the other
theorems. -/
theorem C121_rts (s : KF n m l) (xInt PInt : Bool) (Xs : List (Vec n)) (Ps : List (Mat n n)) (Fs Qs)
    (inv : Mat n n → Option (Mat n n)) (h : (xInt = false ∧ PInt = false) ∨ Xs.length < 2) :
    s.rtsSmootherInt xInt PInt Xs Ps Fs Qs inv = s.rtsSmoother Xs Ps Fs Qs inv := by
  unfold rtsSmootherInt rtsSmoother
  rcases h with ⟨rfl, rfl⟩ | h
  · simp only [rtsLoopInt_float]
  · by_cases hp : Xs.length = Ps.length
    · simp only [hp, ne_eq, not_true, if_false]
      rw [hp] at h
      simp only [if_pos h, not_le.2 h, false_and, if_false]
      have hl : (List.map (fun e : Vec n × Mat n n => (e, ((0 : Mat n n), (0 : Mat n n)))) (Xs.zip Ps)).length < 2 := by
        simp only [List.length_map, List.length_zip]
        omega
      generalize List.map (fun e : Vec n × Mat n n => (e, ((0 : Mat n n), (0 : Mat n n)))) (Xs.zip Ps) = es at hl
      match es, hl with
      | [], _ => rfl
      | [e], _ => rfl
    · simp only [ne_eq, hp, not_false_eq_true, if_true]

/-- **C121, refuted for `rts_smoother`.**  Given two or more time steps, the smoother never returns if the states or the
covariances it is given are arrays of integers. -/
theorem C121_rts_refuted (s : KF n m l) {xInt PInt : Bool} (h : xInt = true ∨ PInt = true) (Xs : List (Vec n))
    (Ps : List (Mat n n)) (Fs Qs) (inv : Mat n n → Option (Mat n n)) (hl : 2 ≤ Xs.length) :
    ∃ e, s.rtsSmootherInt xInt PInt Xs Ps Fs Qs inv = .error e := by
  unfold rtsSmootherInt
  dsimp only
  split_ifs with h1 h2 h3
  · exact ⟨_, rfl⟩
  · exact ⟨_, rfl⟩
  · omega
  · push Not at h1 h2
    have h2 := h2 hl
    obtain ⟨e, he, -⟩ := rtsLoopInt_refuses inv h ((Xs.zip Ps).zip ((Fs.getD (List.replicate Xs.length s.F)).zip
      (Qs.getD (List.replicate Xs.length s.Q)))) (by simp only [List.length_zip]; omega)
    exact ⟨e, he⟩

/-- With an invertible predicted covariance the exception is the `TypeError` of the in-place addition: two time steps of
a random walk, the states given as integers. -/
example (x0 x1 : Vec 1) : ({ fresh 1 1 1 with F := 1, Q := 1 } : KF 1 1 1).rtsSmootherInt true false [x0, x1] [1, 1]
    = .error .typeError := by
  have h : npInv ((1 : Mat 1 1) * 1 * 1ᵀ + 1) = some ((1 : Mat 1 1) * 1 * 1ᵀ + 1)⁻¹ := by
    refine npInv_of_det_ne ?_
    rw [det_fin_one]
    norm_num [Matrix.add_apply]
  have h' : storeMat false ((1 : Mat 1 1) * 1 * 1ᵀ + 1) = (1 : Mat 1 1) * 1 * 1ᵀ + 1 := rfl
  have e : rtsStepInt npInv true false x0 (1 : Mat 1 1) 1 1 ⟨x1, 1, 0, 1⟩ = .error .typeError := by
    simp only [rtsStepInt, h', h, if_true]
  simp [rtsSmootherInt, rtsLoopInt, bind, Except.bind, e]

end KF

/-! ## `SquareRootKalmanFilter` -/

namespace IntSRKF

variable {n m l : ℕ}

/-- The call with arrays of given dtypes. -/
noncomputable def call (L : SqrtLib n m) (s : IntSRKF n m l) (c : SrCall m l × Dtypes) : Exec (IntSRKF n m l) :=
  match c.1 with
  | .predict u => s.predict L u c.2
  | .update z R2 => s.update L z R2

theorem call_float (L : SqrtLib n m) (s : IntSRKF n m l) (hx : s.xInt = false) (c : SrCall m l × Dtypes) :
    Agree (fun a b => a.f = b ∧ a.xInt = false) (s.call L c) (SrCall.on L s.f c.1) := by
  obtain ⟨c, d⟩ := c
  cases c with
  | update z R2 =>
    cases z with
    | none => exact ⟨rfl, hx⟩
    | some z =>
      simp only [call, update, SrCall.on]
      rw [if_neg (by simp [hx])]
      exact ⟨rfl, hx⟩
  | predict u =>
    simp only [call, predict, SrCall.on]
    cases s.f.predict L u with
    | error e => exact ⟨rfl, rfl, hx⟩
    | ok f => exact ⟨rfl, by simp [hx]⟩

/-- **C121** (`SquareRootKalmanFilter`).  From a state estimate of floats, every history of calls gives the same whatever
the dtypes of the matrices and inputs. -/
theorem C121_srkf_float (L : SqrtLib n m) (s : IntSRKF n m l) (hx : s.xInt = false) (cs : List (SrCall m l × Dtypes)) :
    Agree (fun a b => a.f = b) (runList (call L) s cs) (runList (SrCall.on L) s.f (cs.map Prod.fst)) := by
  have e : runList (SrCall.on L) s.f (cs.map Prod.fst) = runList (fun t c => SrCall.on L t c.1) s.f cs := by
    generalize s.f = t
    induction cs generalizing t with
    | nil => rfl
    | cons c cs ih =>
      simp only [List.map_cons, runList]
      cases SrCall.on L t c.1 with
      | error e => rfl
      | ok t' => exact ih t'
  rw [e]
  refine Agree.mono (R := fun (a : IntSRKF n m l) b => a.f = b ∧ a.xInt = false) (fun _ _ h => h.1)
    (runList_agree cs ?_ s s.f ⟨rfl, hx⟩)
  rintro s t c - ⟨rfl, hx⟩
  exact call_float L s hx c

/-- **C121** (`SquareRootKalmanFilter`, integer state).  As long as no control matrix `B` has been set, a prediction makes
the state estimate an array of floats, so histories that begin with a prediction are not affected either. -/
theorem C121_srkf_predict_first (L : SqrtLib n m) (s : IntSRKF n m l) (hB : s.f.B = none) (u : UArg l) (d : Dtypes)
    (cs : List (SrCall m l × Dtypes)) :
    Agree (fun a b => a.f = b) (runList (call L) s ((.predict u, d) :: cs))
      (runList (SrCall.on L) s.f (.predict u :: cs.map Prod.fst)) := by
  simp only [runList, call, predict, SrCall.on]
  cases s.f.predict L u with
  | error e => exact ⟨rfl, rfl⟩
  | ok f => exact C121_srkf_float L _ (by simp [hB]) cs

/-- **C121, refuted for `SquareRootKalmanFilter`.**  A filter given an integer state estimate refuses every measurement:
each of a sequence of updates raises `TypeError`, and catching the exceptions leaves `x` and `P` where they were for
ever (while `K`, `y` and `S` are overwritten). -/
theorem C121_srkf_refuted (L : SqrtLib n m) (s : IntSRKF n m l) (hx : s.xInt = true) (zs : List (Vec m × MatArg m)) :
    let s' := zs.foldl (fun s a => (s.update L (some a.1) a.2).left) s
    s'.xInt = true ∧ s'.f.x = s.f.x ∧ s'.f.getP = s.f.getP ∧ s'.f.xPost = s.f.xPost ∧
      ∀ z R2, ∃ t, s'.update L (some z) R2 = .error (.typeError, t) := by
  induction zs generalizing s with
  | nil =>
    refine ⟨hx, rfl, rfl, rfl, fun z R2 => ?_⟩
    simp only [List.foldl_nil, update, hx, if_true]
    exact ⟨_, rfl⟩
  | cons a zs ih =>
    have h1 : (s.update L (some a.1) a.2).left.xInt = true ∧ (s.update L (some a.1) a.2).left.f.x = s.f.x ∧
        (s.update L (some a.1) a.2).left.f.getP = s.f.getP ∧ (s.update L (some a.1) a.2).left.f.xPost = s.f.xPost := by
      simp only [update, hx, if_true, Exec.left, SRKF.getP, and_self]
    obtain ⟨h2, h3, h4, h5, h6⟩ := ih _ h1.1
    exact ⟨h2, h3.trans h1.2.1, h4.trans h1.2.2.1, h5.trans h1.2.2.2, h6⟩

end IntSRKF

/-! ## `FixedLagSmoother` -/

namespace IntFLS

variable {n m l : ℕ}

theorem smooth_agree {s : IntFLS n m l} {c : (Vec m × UArg l) × Dtypes} (h : s.xInt = false ∨ c.1.2 = .none) :
    Agree (fun a b => a.f = b) (s.smooth c) (s.f.smooth c.1) ∧ ∀ s', s.smooth c = .ok s' → s'.xInt = false := by
  have hr : s.refuses c.1.2 c.2 = false := by
    rcases h with h | h
    · unfold refuses
      split <;> simp [h]
    · rw [h]
      rfl
  unfold smooth
  rw [if_neg (by simp [hr])]
  cases s.f.smooth c.1 with
  | error e => exact ⟨⟨rfl, rfl⟩, fun s' hs => by cases hs⟩
  | ok f =>
    refine ⟨rfl, fun s' hs => ?_⟩
    obtain rfl := Except.ok.inj hs
    rfl

/-- **C121** (`FixedLagSmoother.smooth`).  If the state estimate holds floats, or the first call has no control input,
every history of calls gives the same whatever the dtypes. -/
theorem C121_fls (s : IntFLS n m l) (cs : List ((Vec m × UArg l) × Dtypes))
    (h : s.xInt = false ∨ ∀ c, cs.head? = some c → c.1.2 = .none) :
    Agree (fun a b => a.f = b) (runList smooth s cs) (runList FLS.smooth s.f (cs.map Prod.fst)) := by
  induction cs generalizing s with
  | nil => exact rfl
  | cons c cs ih =>
    obtain ⟨h1, h2⟩ := smooth_agree (s := s) (c := c) (h.imp id fun h => h c rfl)
    simp only [List.map_cons, runList]
    cases hs : s.smooth c with
    | error e =>
      rw [hs] at h1
      cases hf : s.f.smooth c.1 with
      | error e' => rw [hf] at h1; exact h1
      | ok f => rw [hf] at h1; exact h1.elim
    | ok s' =>
      rw [hs] at h1
      obtain ⟨f, hf, hff⟩ := h1.ok_left
      rw [hf, ← hff]
      exact ih s' (.inl (h2 s' hs))

/-- **C121, refuted for `FixedLagSmoother.smooth` with a control input** (exactly when).  The call is refused, and
changes nothing, if and only if `x` and `F` hold integers and a control input is given whose effect `dot(B, u)` is not an
array of integers, such as any input at all while `B` has its initial value `0.` -/
theorem C121_fls_refuted (s : IntFLS n m l) (z : Vec m) (u : UArg l) (d : Dtypes) (hN : s.f.N ≠ none) :
    s.smooth ((z, u), d) = .error (.typeError, s) ↔
      u ≠ .none ∧ s.xInt = true ∧ d.F = true ∧ (s.f.B = none ∨ d.Bu = false) := by
  have hr : s.refuses u d = true ↔ u ≠ .none ∧ s.xInt = true ∧ d.F = true ∧ (s.f.B = none ∨ d.Bu = false) := by
    unfold refuses
    split
    · simp
    · rename_i hu
      have hu' : u ≠ .none := hu
      cases hb : s.f.B <;> cases d.F <;> cases s.xInt <;> cases d.Bu <;> simp [hu']
  rw [← hr]
  unfold smooth
  by_cases h : s.refuses u d = true
  · simp only [h, if_true]
  · simp only [h, Bool.false_eq_true, if_false, iff_false]
    intro hc
    have : ∀ e, s.f.smooth (z, u) = .error e → e.1 ≠ .typeError := by
      rintro ⟨e, t⟩ he
      unfold FLS.smooth at he
      dsimp only at he
      split at he
      · rename_i e' hcon
        obtain ⟨rfl, -⟩ := Prod.mk.inj (Except.error.inj he)
        unfold FLS.control at hcon
        split at hcon <;> (try split_ifs at hcon) <;> (cases hcon <;> simp)
      · split at he
        · obtain ⟨rfl, -⟩ := Prod.mk.inj (Except.error.inj he)
          simp
        · split at he
          · obtain ⟨rfl, -⟩ := Prod.mk.inj (Except.error.inj he)
            simp
          · split at he
            · rename_i hN'
              exact absurd hN' hN
            · cases he
    cases hs : s.f.smooth (z, u) with
    | error e =>
      rw [hs] at hc
      exact this e hs (Prod.mk.inj (Except.error.inj hc)).1
    | ok f => rw [hs] at hc; cases hc

/-- A new smoother whose state is set to integers refuses the control input `u = 0` (after a prediction matrix of
integers has been set). -/
example (z : Vec 1) : (⟨FLS.fresh 1 1 1 (some 2), true⟩ : IntFLS 1 1 1).smooth ((z, .scalar 0), ⟨true, true, true, true, true⟩)
    = .error (.typeError, ⟨FLS.fresh 1 1 1 (some 2), true⟩) :=
  (C121_fls_refuted _ z _ _ (by simp [FLS.fresh])).2 ⟨by simp, rfl, rfl, .inl rfl⟩

end IntFLS

/-! ## `MMAEFilterBank` -/

namespace MMAE

variable {σ : Type} {n N : ℕ} {ζ ρ η υ : Type}

/-- **C121** (`MMAEFilterBank`).  Probabilities given as floats are the case of the other theorems. -/
theorem C121_mmae_float (c : FilterClass σ n (ζ × ρ × Option η) υ) (s : MMAE σ n N ζ η) (z : ζ) (R : ρ) (H : Option η) :
    s.updateInt false c z R H = s.update c z R H := by
  unfold updateInt update
  rfl

/-- **C121, refuted for `MMAEFilterBank`.**  A bank given its probabilities as integers (say `[1, 0]`) refuses every
measurement.  If the filters accept it, the exception is `TypeError`, the filters have been updated, and each
probability has been replaced by its product with the likelihood, truncated: `0` if that is below one. -/
theorem C121_mmae_refuted (c : FilterClass σ n (ζ × ρ × Option η) υ) (s : MMAE σ n N ζ η) (z : ζ) (R : ρ)
    (H : Option η) :
    (∃ e, s.updateInt true c z R H = .error e) ∧
    ∀ fs : Fin N → σ, (∀ i, c.update (s.filters i) (z, R, H.or s.H) = .ok (fs i)) →
      ∃ t, s.updateInt true c z R H = .error (.typeError, t) ∧
        (∀ i, t.filters i = (c.likelihood (fs i)).2) ∧
        (∀ i, t.p i = truncZ (s.p i * (c.likelihood (fs i)).1)) ∧
        (∀ i, |s.p i * (c.likelihood (fs i)).1| < 1 → t.p i = 0) ∧ t.x = s.x ∧ t.P = s.P := by
  constructor
  · unfold updateInt
    generalize bankMap _ _ = b
    cases b with
    | error e => exact ⟨_, rfl⟩
    | ok fp => exact ⟨_, rfl⟩
  · intro fs hfs
    have hb : bankMap (fun _ => c.updLik (fun p L => store true (p * L)) (z, R, H.or s.H))
        (fun i => (s.filters i, s.p i)) =
        .ok fun i => ((c.likelihood (fs i)).2, truncZ (s.p i * (c.likelihood (fs i)).1)) := by
      rw [bankMap_ok]
      intro i
      simp only [FilterClass.updLik, hfs i, store, if_true]
    unfold updateInt
    rw [hb]
    exact ⟨_, rfl, fun i => rfl, fun i => rfl, fun i hi => truncZ_small hi, rfl, rfl⟩

end MMAE

/-! ## `FadingMemoryFilter` -/

namespace IntFading

theorem update_float (s : IntFading) (h : s.xInt = false ∨ s.f.order = 0) (z : ℝ) :
    Agree (fun a b => a.f = b ∧ (a.xInt = false ∨ a.f.order = 0)) (s.update z) (s.f.update z) := by
  obtain ⟨⟨x, dt, order, beta, P, e⟩, xi⟩ := s
  dsimp only at h
  match order, h with
  | 0, h => exact ⟨rfl, .inr rfl⟩
  | 1, h =>
    obtain rfl : xi = false := by simpa using h
    match x with
    | [] => exact ⟨rfl, rfl, .inl rfl⟩
    | [_] => exact ⟨rfl, rfl, .inl rfl⟩
    | x :: dx :: rest =>
      simp only [update, FadingMemory.update, store_false]
      split_ifs
      · exact ⟨rfl, rfl, .inl rfl⟩
      · exact ⟨rfl, .inl rfl⟩
  | k + 2, h =>
    obtain rfl : xi = false := by simpa using h
    match x with
    | [] => exact ⟨rfl, rfl, .inl rfl⟩
    | [_] => exact ⟨rfl, rfl, .inl rfl⟩
    | [_, _] => exact ⟨rfl, rfl, .inl rfl⟩
    | x :: dx :: ddx :: rest =>
      simp only [update, FadingMemory.update, store_false]
      split_ifs
      · exact ⟨rfl, rfl, .inl rfl⟩
      · exact ⟨rfl, .inl rfl⟩

/-- **C121** (`FadingMemoryFilter`).  A filter of order 0, one built from a scalar, and one built from an array of floats
process every sequence of measurements as the other theorems say. -/
theorem C121_fading (x0 : X0) (int : Bool) (dt : ℝ) (order : ℤ) (β : ℝ) (s : IntFading)
    (hs : init x0 int dt order β = .ok s) (h : int = false ∨ order = 0 ∨ ∃ c, x0 = .scalar c) (zs : List ℝ) :
    FadingMemory.init x0 dt order β = .ok s.f ∧
    Agree (fun a b => a.f = b) (runList update s zs) (runList FadingMemory.update s.f zs) := by
  have hi : FadingMemory.init x0 dt order β = .ok s.f ∧ (s.xInt = false ∨ s.f.order = 0) := by
    unfold init at hs
    cases hf : FadingMemory.init x0 dt order β with
    | error e => rw [hf] at hs; cases hs
    | ok f =>
      rw [hf] at hs
      obtain rfl := Except.ok.inj hs
      refine ⟨rfl, ?_⟩
      rcases h with rfl | rfl | ⟨c, rfl⟩
      · cases x0 <;> exact .inl rfl
      · refine .inr ?_
        unfold FadingMemory.init at hf
        split_ifs at hf
        obtain rfl := Except.ok.inj hf
        rfl
      · exact .inl rfl
  refine ⟨hi.1, ?_⟩
  refine Agree.mono (R := fun (a : IntFading) b => a.f = b ∧ (a.xInt = false ∨ a.f.order = 0)) (fun _ _ h => h.1)
    (runList_agree zs ?_ s s.f ⟨rfl, hi.2⟩)
  rintro s t z - ⟨rfl, h⟩
  exact update_float s h z

/-- **C121, refuted for `FadingMemoryFilter` of order 1.**  Started from the integer array `[0, 0]`, the filter does not
move at all while the measurements are small enough: with `beta = 0.9` and a unit time step it ignores every sequence
of measurements below 5 in absolute value. -/
theorem C121_fading_refuted (f : FadingMemory) (ho : f.order = 1) (hdt : f.dt ≠ 0) (hx : f.x = [0, 0]) (zs : List ℝ)
    (hz : ∀ z ∈ zs, |(1 - f.beta ^ 2) * z| < 1 ∧ |(1 - f.beta) ^ 2 / f.dt * z| < 1) :
    runList update ⟨f, true⟩ zs = .ok ⟨f, true⟩ := by
  induction zs with
  | nil => rfl
  | cons z zs ih =>
    have h1 : (⟨f, true⟩ : IntFading).update z = .ok ⟨f, true⟩ := by
      obtain ⟨x, dt, order, beta, P, e⟩ := f
      dsimp only at ho hdt hx hz
      subst ho hx
      have hz := hz z (by simp)
      have e1 : truncZ (0 + 0 * dt + (1 - beta ^ 2) * (z - (0 + 0 * dt))) = 0 := truncZ_small (by simpa using hz.1)
      have e2 : truncZ (0 + (1 - beta) ^ 2 / dt * (z - (0 + 0 * dt))) = 0 := truncZ_small (by simpa using hz.2)
      simp only [update, store, if_true, if_neg hdt, e1, e2]
    simp only [runList, h1]
    exact ih fun z hz' => hz z (by simp [hz'])

/-- The same for order 2. -/
theorem C121_fading2_refuted (f : FadingMemory) (ho : f.order = 2) (hdt : f.dt ≠ 0) (hx : f.x = [0, 0, 0])
    (zs : List ℝ) (hz : ∀ z ∈ zs, |(1 - f.beta ^ 3) * z| < 1 ∧
      |1.5 * (1 + f.beta) * (1 - f.beta) ^ 2 / f.dt * z| < 1 ∧ |(1 - f.beta) ^ 3 / f.dt ^ 2 * z| < 1) :
    runList update ⟨f, true⟩ zs = .ok ⟨f, true⟩ := by
  induction zs with
  | nil => rfl
  | cons z zs ih =>
    have h1 : (⟨f, true⟩ : IntFading).update z = .ok ⟨f, true⟩ := by
      obtain ⟨x, dt, order, beta, P, e⟩ := f
      dsimp only at ho hdt hx hz
      subst ho hx
      have hz := hz z (by simp)
      have e1 : truncZ (0 + 0 * dt + 0.5 * 0 * dt ^ 2 + (1 - beta ^ 3) * (z - (0 + 0 * dt + 0.5 * 0 * dt ^ 2))) = 0 :=
        truncZ_small (by simpa using hz.1)
      have e2 : truncZ (0 + 0 * dt + 1.5 * (1 + beta) * (1 - beta) ^ 2 / dt *
          (z - (0 + 0 * dt + 0.5 * 0 * dt ^ 2))) = 0 := truncZ_small (by simpa using hz.2.1)
      have e3 : truncZ (0 + 2 * (0.5 * (1 - beta) ^ 3) / dt ^ 2 * (z - (0 + 0 * dt + 0.5 * 0 * dt ^ 2))) = 0 := by
        refine truncZ_small ?_
        have : 2 * (0.5 * (1 - beta) ^ 3) = (1 - beta) ^ 3 := by norm_num; ring
        simpa [this] using hz.2.2
      simp only [update, store, if_true, if_neg hdt, e1, e2, e3]
    simp only [runList, h1]
    exact ih fun z hz' => hz z (by simp [hz'])

/-- `FadingMemoryFilter(x0=np.array([0, 0]), dt=1, order=1, beta=0.9)` never sees the constant measurement 5. -/
example (k : ℕ) : ∃ s, init (.array [0, 0]) true 1 1 0.9 = .ok s ∧ runList update s (List.replicate k 5) = .ok s ∧
    ∃ t, s.f.update 5 = .ok t ∧ t.x = [0.95, 0.05] := by
  refine ⟨⟨⟨[0, 0], 1, 1, 0.9, FadingMemory.initP 1 1 0.9, FadingMemory.initE 1 1 0.9⟩, true⟩, ?_, ?_, ?_⟩
  · unfold init FadingMemory.init
    norm_num [X0.toList]
  · refine C121_fading_refuted _ rfl (by norm_num) rfl _ ?_
    intro z hz
    obtain rfl := List.eq_of_mem_replicate hz
    constructor <;> rw [abs_lt] <;> norm_num
  · simp only [FadingMemory.update]
    refine ⟨_, if_neg (by norm_num), ?_⟩
    norm_num

end IntFading

/-! ## `discrete_bayes` -/

namespace DiscreteBayes

variable {n m : ℕ}

/-- **C121** (`discrete_bayes`).  Beliefs of floats are the case of the other theorems; an integer belief is handled
right by `predict` if the exact result consists of whole numbers, by `update` if the likelihood holds floats. -/
theorem C121_bayes [NeZero n] (p : Fin n → ℝ) (offset : ℤ) (kernel : Fin m → ℝ) (wrap : Bool) (cval : ℝ)
    (lik : Fin n → ℝ) (int : Bool) :
    predictInt false p offset kernel wrap cval = predict p offset kernel wrap cval ∧
    (predictInt true p offset kernel wrap cval = predict p offset kernel wrap cval ↔
      ∀ i, ∃ k : ℤ, predict p offset kernel wrap cval i = k) ∧
    updateInt false int lik p = update lik p ∧ updateInt int false lik p = update lik p := by
  refine ⟨rfl, ?_, rfl, ?_⟩
  · rw [funext_iff]
    exact forall_congr' fun i => truncZ_eq_iff _
  · cases int <;> rfl

/-- **C121, refuted for `discrete_bayes.predict`.**  If the belief is the integer array of a certain position (one `1`,
all other entries `0`) and every kernel entry is a probability less than one, the prediction is the zero array: all
probability is lost.  (The array must be at least as long as the kernel.) -/
theorem C121_bayes_predict_refuted [NeZero n] (a : Fin n) (offset : ℤ) (kernel : Fin m → ℝ)
    (hk : ∀ j, 0 ≤ kernel j ∧ kernel j < 1) (hmn : m ≤ n) :
    predictInt true (fun i => if i = a then 1 else 0) offset kernel true 0 = fun _ => 0 := by
  funext i
  unfold predictInt
  simp only [store, if_true]
  refine truncZ_small ?_
  rw [predict_wrap_eq]
  simp only [mul_ite, mul_one, mul_zero]
  by_cases h : ∃ j : Fin m, wrapIdx n ((i : ℤ) + (m / 2 : ℕ) - j - offset) = a
  · obtain ⟨j, hj⟩ := h
    rw [Finset.sum_eq_single j]
    · rw [if_pos hj, abs_of_nonneg (hk j).1]
      exact (hk j).2
    · intro j' _ hne
      rw [if_neg]
      intro h'
      rw [← hj, wrapIdx_eq_iff] at h'
      have h2 := ((wrapIdx_modEq n _).symm.trans h').dvd
      have h3 : (i : ℤ) + (m / 2 : ℕ) - j' - offset - ((i : ℤ) + (m / 2 : ℕ) - j - offset) = j - j' := by ring
      rw [h3] at h2
      have h4 := Int.eq_zero_of_abs_lt_dvd h2 (by rw [abs_lt]; omega)
      exact hne (Fin.ext (by omega))
    · simp
  · rw [Finset.sum_eq_zero]
    · simp
    · intro j _
      rw [if_neg fun hj => h ⟨j, hj⟩]

/-- **C121, refuted for `normalize` and `update`.**  An integer array is never normalised, and an integer prior with an
integer likelihood is refused. -/
theorem C121_bayes_refuted (p lik : Fin n → ℝ) :
    normalizeInt true p = .error .typeError ∧ updateInt true true lik p = .error .typeError := ⟨rfl, rfl⟩

end DiscreteBayes

end Filterpy
