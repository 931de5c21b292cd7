import Verif.Model.FixedLag
import Verif.Lemmas.Kalman
import Verif.Lemmas.Scalar1

/-!
# C29, C30: the fixed-lag smoother
-/

namespace Filterpy

open Matrix

variable {n m l : ℕ}

namespace FLS

theorem lagLoop_length (A : Mat n m) (G : Mat n n) (y : Vec m) (N si : ℕ) (PS : Mat n n) (xs : List (Vec n)) :
    (lagLoop A G y N si PS xs).length = xs.length := by
  induction N generalizing si PS xs with
  | zero => rfl
  | succ N ih => rw [lagLoop, ih, List.length_modify]

theorem lagLoop_take (A : Mat n m) (G : Mat n n) (y : Vec m) (N si : ℕ) (PS : Mat n n) (xs : List (Vec n)) (j : ℕ) :
    (lagLoop A G y N si PS xs).take j = lagLoop A G y N si PS (xs.take j) := by
  induction N generalizing si PS xs with
  | zero => rfl
  | succ N ih => rw [lagLoop, lagLoop, ih, List.take_modify]

/-- The loop adds the gain of lag `si - j` to each of the `N` newest entries and leaves the others. -/
theorem lagLoop_get (A : Mat n m) (G : Mat n n) (y : Vec m) (N si : ℕ) (PS : Mat n n) (xs : List (Vec n))
    (hN : N ≤ si + 1) (j : ℕ) :
    (lagLoop A G y N si PS xs)[j]? =
      if si < j + N ∧ j ≤ si then xs[j]?.map (· + (PS * G ^ (si - j) * A) *ᵥ y) else xs[j]? := by
  induction N generalizing si PS xs with
  | zero =>
    rw [lagLoop, if_neg (by omega)]
  | succ N ih =>
    rw [lagLoop]
    cases si with
    | zero =>
      have hN0 : N = 0 := by omega
      subst hN0
      rw [lagLoop, List.getElem?_modify]
      by_cases hj : j = 0
      · subst hj
        rw [if_pos (by omega)]
        simp
      · rw [if_neg (by omega)]
        have : ¬ 0 = j := fun h => hj h.symm
        simp [this]
    | succ si =>
      rw [Nat.add_sub_cancel, ih si _ _ (by omega), List.getElem?_modify]
      by_cases hj : j = si + 1
      · subst hj
        rw [if_neg (by omega), if_pos (by omega)]
        simp
      · have hj' : ¬ si + 1 = j := fun h => hj h.symm
        by_cases hc : si < j + N ∧ j ≤ si
        · rw [if_pos hc, if_pos (by omega), show si + 1 - j = (si - j) + 1 by omega, pow_succ']
          simp [hj', Matrix.mul_assoc]
        · rw [if_neg hc, if_neg (by omega)]
          simp [hj']

theorem lagStep_length (F : Mat n n) (H : Mat m n) (N k : ℕ) (c : Cycle n m) (xs : List (Vec n)) :
    (lagStep F H N k c xs).length = xs.length := by
  unfold lagStep
  split
  · exact lagLoop_length ..
  · exact List.length_set

theorem lagStep_take (F : Mat n n) (H : Mat m n) (N k : ℕ) (c : Cycle n m) (xs : List (Vec n)) (j : ℕ) :
    (lagStep F H N k c xs).take j = lagStep F H N k c (xs.take j) := by
  unfold lagStep
  split
  · exact lagLoop_take ..
  · rw [List.take_set]

/-- A smoother that can be used with `smooth`: a lag was given and there is one entry per measurement so far. -/
def Ready (s : FLS n m l) (N : ℕ) (xs : List (Vec n)) : Prop :=
  s.N = some N ∧ s.xSmooth = some xs ∧ xs.length = s.count

theorem smooth_ok {s s' : FLS n m l} {zu : Vec m × UArg l} (h : s.smooth zu = .ok s') :
    ∃ bu SI xs N, control s.B zu.2 = .ok bu ∧ s.xSmooth = some xs ∧ s.N = some N ∧
      npInv (s.H * (s.priorOf s.x s.P bu).2 * s.Hᵀ + s.R) = some SI ∧
      s' = { s with
        y := zu.1 - s.H *ᵥ (s.priorOf s.x s.P bu).1
        S := s.H * (s.priorOf s.x s.P bu).2 * s.Hᵀ + s.R
        xSmooth := some (lagStep s.F s.H N s.count
          (s.cycleOf (s.priorOf s.x s.P bu).1 (s.priorOf s.x s.P bu).2 zu.1 SI) (xs ++ [(s.priorOf s.x s.P bu).1]))
        count := s.count + 1
        x := (s.cycleOf (s.priorOf s.x s.P bu).1 (s.priorOf s.x s.P bu).2 zu.1 SI).x
        P := (s.cycleOf (s.priorOf s.x s.P bu).1 (s.priorOf s.x s.P bu).2 zu.1 SI).P } := by
  simp only [smooth] at h
  cases hb : control s.B zu.2 with
  | error e => rw [hb] at h; simp at h
  | ok bu =>
    rw [hb] at h
    dsimp only at h
    cases hS : npInv (s.H * (s.priorOf s.x s.P bu).2 * s.Hᵀ + s.R) with
    | none => rw [hS] at h; simp at h
    | some SI =>
      rw [hS] at h
      dsimp only at h
      cases hx : s.xSmooth with
      | none => rw [hx] at h; simp at h
      | some xs =>
        rw [hx] at h
        dsimp only at h
        cases hN : s.N with
        | none => rw [hN] at h; simp at h
        | some N =>
          rw [hN] at h
          exact ⟨bu, SI, xs, N, rfl, rfl, rfl, hS, (Except.ok.inj h).symm⟩

end FLS

open FLS

/-- **C29 (one call).**  `smooth` appends exactly one entry.  During the first `N` calls it is the filtered state and
no other entry changes; afterwards each of the newest `N` entries, `j = k - i`, receives the correction
`P ((F - K H)ᵀ)ⁱ Hᵀ S⁻¹ y` (the newest one starting from the prediction) and no other entry changes. -/
theorem C29_step (s s' : FLS n m l) (N : ℕ) (xs : List (Vec n)) (hr : s.Ready N xs) (z : Vec m) (u : UArg l)
    (h : s.smooth (z, u) = .ok s') :
    ∃ xs' bu, s'.Ready N xs' ∧ s'.count = s.count + 1 ∧ FLS.control s.B u = .ok bu ∧
      s'.y = z - s.H *ᵥ (s.F *ᵥ s.x + bu) ∧ s'.S = s.H * (s.F * s.P * s.Fᵀ + s.Q) * s.Hᵀ + s.R ∧
      (s.count < N → xs' = xs ++ [s'.x]) ∧
      (N ≤ s.count → ∀ j, j ≤ s.count → xs'[j]? =
        if s.count < j + N then
          (xs ++ [s.F *ᵥ s.x + bu])[j]?.map (· + (s'.P * ((s.F - (s.F * s.P * s.Fᵀ + s.Q) * s.Hᵀ * s'.S⁻¹ * s.H)ᵀ) ^
            (s.count - j) * (s.Hᵀ * s'.S⁻¹)) *ᵥ s'.y)
        else (xs ++ [s.F *ᵥ s.x + bu])[j]?) := by
  obtain ⟨hN, hx, hl⟩ := hr
  obtain ⟨bu, SI, xs0, N0, hb, hx0, hN0, hS, rfl⟩ := smooth_ok h
  rw [hN] at hN0; rw [hx] at hx0
  obtain rfl := Option.some.inj hN0
  obtain rfl := Option.some.inj hx0
  have hSI : SI = (s.H * (s.F * s.P * s.Fᵀ + s.Q) * s.Hᵀ + s.R)⁻¹ := (npInv_eq_some.1 hS).2
  refine ⟨_, bu, ⟨hN, rfl, ?_⟩, rfl, hb, rfl, rfl, ?_, ?_⟩
  · rw [lagStep_length]; simp [hl]
  · intro hlt
    have : ¬ N ≤ s.count := by omega
    simp only [lagStep, if_neg this]
    rw [← hl]
    simp
  · intro hle j hj
    simp only [lagStep, if_pos hle]
    rw [lagLoop_get _ _ _ _ _ _ _ (by omega)]
    by_cases hc : s.count < j + N
    · rw [if_pos ⟨hc, hj⟩, if_pos hc, hSI]
      rfl
    · rw [if_neg (by omega), if_neg hc]
      rfl

/-- **C29.**  From construction on, every history of `smooth` calls keeps one smoothed entry per measurement. -/
theorem C29_history (s s' : FLS n m l) (N : ℕ) (xs : List (Vec n)) (hr : s.Ready N xs)
    (zus : List (Vec m × UArg l)) (h : runList FLS.smooth s zus = .ok s') :
    ∃ xs', s'.Ready N xs' ∧ s'.count = s.count + zus.length := by
  induction zus generalizing s xs with
  | nil => obtain rfl := Except.ok.inj h; exact ⟨xs, hr, rfl⟩
  | cons zu zus ih =>
    simp only [runList] at h
    split at h
    swap
    · simp at h
    rename_i s1 h1
    obtain ⟨xs1, bu, hr1, hc, -⟩ := C29_step s s1 N xs hr zu.1 zu.2 h1
    obtain ⟨xs', hr', hc'⟩ := ih s1 xs1 hr1 h
    exact ⟨xs', hr', by rw [hc', hc, List.length_cons]; omega⟩

theorem C29_fresh (N : ℕ) : (FLS.fresh n m l (some N)).Ready N [] := ⟨rfl, rfl, rfl⟩

/-- **C29.**  Entries older than the lag are final: no later measurement changes them. -/
theorem C29_final (s s' : FLS n m l) (N : ℕ) (xs : List (Vec n)) (hr : s.Ready N xs)
    (zus : List (Vec m × UArg l)) (h : runList FLS.smooth s zus = .ok s') (j : ℕ) (hj : j < s.count)
    (hold : j + N ≤ s.count) :
    ∃ xs', s'.xSmooth = some xs' ∧ xs'[j]? = xs[j]? := by
  induction zus generalizing s xs with
  | nil => obtain rfl := Except.ok.inj h; exact ⟨xs, hr.2.1, rfl⟩
  | cons zu zus ih =>
    simp only [runList] at h
    split at h
    swap
    · simp at h
    rename_i s1 h1
    obtain ⟨xs1, bu, hr1, hc, -, -, -, hlt, hge⟩ := C29_step s s1 N xs hr zu.1 zu.2 h1
    obtain ⟨xs', hx', he⟩ := ih s1 xs1 hr1 h (by omega) (by omega)
    refine ⟨xs', hx', he.trans ?_⟩
    have hjx : j < xs.length := by rw [hr.2.2]; exact hj
    rcases Nat.lt_or_ge s.count N with hN | hN
    · rw [hlt hN, List.getElem?_append_left hjx]
    · rw [hge hN j hj.le, if_neg (by omega), List.getElem?_append_left hjx]

/-- The Kalman filter's handling of one measurement: predict with the control input, update. -/
noncomputable def kfStep (k : KF n m l) (zu : Vec m × UArg l) : Exec (KF n m l) :=
  match k.predict zu.2 with
  | .error e => .error e
  | .ok k1 => k1.update (some zu.1)

/-- The Kalman filter with the same estimate and matrices as the smoother. -/
def SameFilter (s : FLS n m l) (k : KF n m l) : Prop :=
  k.x = s.x ∧ k.P = s.P ∧ k.F = s.F ∧ k.Q = s.Q ∧ k.H = s.H ∧ k.R = s.R ∧ k.B = s.B ∧ k.alphaSq = 1 ∧ k.inv = npInv

theorem fls_predict {s : FLS n m l} {k : KF n m l} (hs : SameFilter s k) {u : UArg l} {bu : Vec n}
    (hb : FLS.control s.B u = .ok bu) :
    k.predict u = .ok { k with
      x := s.F *ᵥ s.x + bu, P := s.F * s.P * s.Fᵀ + s.Q
      xPrior := s.F *ᵥ s.x + bu, PPrior := s.F * s.P * s.Fᵀ + s.Q } := by
  obtain ⟨hx, hP, hF, hQ, hH, hR, hB, ha, hi⟩ := hs
  rw [← hB] at hb
  have hc : (KF.control k.B u = .ok none ∧ bu = 0) ∨ KF.control k.B u = .ok (some bu) := by
    cases hB' : k.B with
    | none =>
      rw [hB'] at hb
      refine Or.inl ⟨rfl, ?_⟩
      cases u with
      | none => exact (Except.ok.inj hb).symm
      | scalar c => exact (Except.ok.inj hb).symm
      | vec v =>
        simp only [FLS.control] at hb
        split at hb
        · exact (Except.ok.inj hb).symm
        · simp at hb
    | some B =>
      rw [hB'] at hb
      cases u with
      | none => exact Or.inl ⟨rfl, (Except.ok.inj hb).symm⟩
      | vec v => exact Or.inr (congrArg (fun t => Except.ok (some t)) (Except.ok.inj hb))
      | scalar c =>
        right
        simp only [FLS.control] at hb
        simp only [KF.control]
        split at hb
        · rename_i h1
          rw [dif_pos h1, ← Except.ok.inj hb]
        · simp at hb
  rcases hc with ⟨hc, rfl⟩ | hc <;>
    simp [KF.predict, hc, hx, hP, hF, hQ, ha, MatArg.resolve]

theorem fls_kf_step {s s1 : FLS n m l} {k : KF n m l} (hs : SameFilter s k) {zu : Vec m × UArg l}
    (h1 : s.smooth zu = .ok s1) : ∃ k1, kfStep k zu = .ok k1 ∧ SameFilter s1 k1 := by
  obtain ⟨bu, SI, xs, N, hb, hx, hN, hS, rfl⟩ := smooth_ok h1
  have hp := fls_predict hs hb
  obtain ⟨-, -, hF, hQ, hH, hR, hB, ha, hi⟩ := hs
  have hS' : npInv (s.H * ((s.F * s.P * s.Fᵀ + s.Q) * s.Hᵀ) + s.R) = some SI := by
    rw [← Matrix.mul_assoc]; exact hS
  have hok : ∃ k1, kfStep k zu = .ok k1 := by
    simp only [kfStep, hp, KF.update, MatArg.resolve, Option.getD_none, hH, hR, hi, hS']
    exact ⟨_, rfl⟩
  obtain ⟨k1, hk1⟩ := hok
  refine ⟨k1, hk1, ?_⟩
  simp only [kfStep, hp] at hk1
  obtain ⟨SI', hSI', rfl⟩ := KF.update_ok hk1
  simp only [Option.getD_none, MatArg.resolve, hH, hR, hi, hS'] at hSI'
  obtain rfl := Option.some.inj hSI'
  refine ⟨?_, ?_, hF, hQ, hH, hR, hB, ha, hi⟩
  · simp only [Option.getD_none, hH]
    rfl
  · simp only [Option.getD_none, hH, hR, MatArg.resolve]
    rfl

/-- **C29.**  For every history of measurements and control inputs, the `x` and `P` of the smoother are those of the
Kalman filter with the same matrices. -/
theorem C29_kalman (s s' : FLS n m l) (k : KF n m l) (hs : SameFilter s k) (zus : List (Vec m × UArg l))
    (h : runList FLS.smooth s zus = .ok s') : ∃ k', runList kfStep k zus = .ok k' ∧ k'.x = s'.x ∧ k'.P = s'.P := by
  induction zus generalizing s k with
  | nil => obtain rfl := Except.ok.inj h; exact ⟨k, rfl, hs.1, hs.2.1⟩
  | cons zu zus ih =>
    simp only [runList] at h
    split at h
    swap
    · simp at h
    rename_i s1 h1
    obtain ⟨k1, hk1, hs1⟩ := fls_kf_step hs h1
    obtain ⟨k', hk', he⟩ := ih s1 k1 hs1 h
    exact ⟨k', by simp only [runList, hk1]; exact hk', he⟩

/-- **C29.**  Conversely the smoother runs wherever the Kalman filter does. -/
theorem C29_runs (s : FLS n m l) (k k' : KF n m l) (hs : SameFilter s k) (N : ℕ) (xs : List (Vec n)) (hr : s.Ready N xs)
    (zus : List (Vec m × UArg l)) (hu : ∀ zu ∈ zus, ∃ bu, FLS.control s.B zu.2 = .ok bu)
    (h : runList kfStep k zus = .ok k') : ∃ s', runList FLS.smooth s zus = .ok s' := by
  induction zus generalizing s k xs with
  | nil => exact ⟨s, rfl⟩
  | cons zu zus ih =>
    obtain ⟨bu, hb⟩ := hu zu (List.mem_cons_self ..)
    have hp := fls_predict hs hb
    simp only [runList] at h
    split at h
    swap
    · simp at h
    rename_i k1 h1
    have h1' := h1
    simp only [kfStep, hp] at h1'
    obtain ⟨SI, hSI, -⟩ := KF.update_ok h1'
    obtain ⟨hx, hP, hF, hQ, hH, hR, hB, ha, hi⟩ := hs
    simp only [Option.getD_none, MatArg.resolve, hH, hR, hi] at hSI
    rw [← Matrix.mul_assoc] at hSI
    have hok : ∃ s1, s.smooth zu = .ok s1 := by
      simp only [FLS.smooth, hb, FLS.priorOf, hSI, hr.1, hr.2.1]
      exact ⟨_, rfl⟩
    obtain ⟨s1, hs1⟩ := hok
    obtain ⟨k1', hk1', hsame⟩ := fls_kf_step ⟨hx, hP, hF, hQ, hH, hR, hB, ha, hi⟩ hs1
    rw [h1] at hk1'
    obtain rfl := Except.ok.inj hk1'
    obtain ⟨xs1, -, hr1, -⟩ := C29_step s s1 N xs hr zu.1 zu.2 hs1
    have hB1 : s1.B = s.B := by
      obtain ⟨_, _, _, _, -, -, -, -, rfl⟩ := smooth_ok hs1
      rfl
    obtain ⟨s', hs'⟩ := ih s1 k1 hsame xs1 hr1 (fun zu hz => by
      rw [hB1]; exact hu zu (List.mem_cons_of_mem _ hz)) h
    exact ⟨s', by simp only [runList, hs1]; exact hs'⟩

/-- The measurements from number `k` on, each with its control input. -/
def withControls (u : ℕ → UArg l) : ℕ → List (Vec m) → List (Vec m × UArg l)
  | _, [] => []
  | k, z :: zs => (z, u k) :: withControls u (k + 1) zs

/-- The filtered states along a run of `smooth`. -/
noncomputable def xhats : FLS n m l → List (Vec m × UArg l) → List (Vec n)
  | _, [] => []
  | s, zu :: zus => match s.smooth zu with
    | .ok s1 => s1.x :: xhats s1 zus
    | .error _ => []

theorem set_take {α : Type*} (xs : List α) (k : ℕ) (v : α) (hk : k < xs.length) :
    (xs.set k v).take (k + 1) = xs.take k ++ [v] := by
  rw [List.take_add_one, List.take_set, List.set_eq_of_length_le (by simp)]
  simp [hk]

theorem batchLoop_eq (s : FLS n m l) (N : ℕ) (us : Option (List (UArg l))) (u : ℕ → UArg l) (zs : List (Vec m))
    (o : FLS n m l) (arr xh : List (Vec n)) (hN : o.N = some N) (hx : o.xSmooth = some (arr.take o.count))
    (hF : o.F = s.F) (hQ : o.Q = s.Q) (hH : o.H = s.H) (hR : o.R = s.R) (hB : o.B = s.B)
    (ha : arr.length = o.count + zs.length) (hh : xh.length = o.count + zs.length)
    (hu : ∀ k, o.count ≤ k → k < o.count + zs.length → FLS.usAt us k = .ok (u k)) :
    FLS.batchLoop s N us o.count o.x o.P arr xh zs =
      match runList FLS.smooth o (withControls u o.count zs) with
      | .error e => .error e.1
      | .ok o' => .ok (o'.xSmooth.getD [], xh.take o.count ++ xhats o (withControls u o.count zs)) := by
  induction zs generalizing o arr xh with
  | nil =>
    simp only [FLS.batchLoop, withControls, runList, hx, xhats, List.append_nil, Option.getD_some]
    rw [List.take_of_length_le (by simpa using ha.le), List.take_of_length_le (by simpa using hh.le)]
  | cons z zs ih =>
    have hlen : o.count < arr.length := by rw [ha, List.length_cons]; omega
    have hlenh : o.count < xh.length := by rw [hh, List.length_cons]; omega
    have hpr : ∀ bu, o.priorOf o.x o.P bu = s.priorOf o.x o.P bu := fun bu => by
      simp only [FLS.priorOf, hF, hQ]
    have hcy : ∀ a b c d, o.cycleOf a b c d = s.cycleOf a b c d := fun a b c d => by
      simp only [FLS.cycleOf, hH, hR]
    rw [FLS.batchLoop, hu o.count le_rfl (by simp)]
    simp only [withControls, runList, xhats, FLS.smooth, hB]
    cases hb : FLS.control s.B (u o.count) with
    | error e => rfl
    | ok bu =>
      dsimp only
      rw [hpr, hH, hR]
      cases hS : npInv (s.H * (s.priorOf o.x o.P bu).2 * s.Hᵀ + s.R) with
      | none => rfl
      | some SI =>
        simp only [hx, hN, hcy, hF]
        refine (ih { o with
          y := z - s.H *ᵥ (s.priorOf o.x o.P bu).1
          S := s.H * (s.priorOf o.x o.P bu).2 * s.Hᵀ + s.R
          xSmooth := some (FLS.lagStep s.F s.H N o.count
            (s.cycleOf (s.priorOf o.x o.P bu).1 (s.priorOf o.x o.P bu).2 z SI)
            (arr.take o.count ++ [(s.priorOf o.x o.P bu).1]))
          count := o.count + 1
          x := (s.cycleOf (s.priorOf o.x o.P bu).1 (s.priorOf o.x o.P bu).2 z SI).x
          P := (s.cycleOf (s.priorOf o.x o.P bu).1 (s.priorOf o.x o.P bu).2 z SI).P } _ _ hN ?_ hF hQ hH hR hB ?_ ?_
            ?_).trans ?_
        · dsimp only
          rw [FLS.lagStep_take, set_take _ _ _ hlen]
        · rw [FLS.lagStep_length, List.length_set, ha, List.length_cons]; dsimp only; omega
        · rw [List.length_set, hh, List.length_cons]; dsimp only; omega
        · intro k h1 h2
          dsimp only at h1 h2
          exact hu k (by omega) (by rw [List.length_cons]; omega)
        · simp only [hH, hR, hF, hQ, hB, hN]
          rw [set_take _ _ _ hlenh]
          simp [List.append_assoc]

theorem xhats_get (o : FLS n m l) (zus : List (Vec m × UArg l)) (k : ℕ) (hk : k < zus.length) (o' : FLS n m l)
    (h : runList FLS.smooth o (zus.take (k + 1)) = .ok o') : (xhats o zus)[k]? = some o'.x := by
  induction zus generalizing o k with
  | nil => simp at hk
  | cons zu zus ih =>
    simp only [List.take_succ_cons, runList] at h
    split at h
    swap
    · simp at h
    rename_i s1 h1
    simp only [xhats, h1]
    cases k with
    | zero =>
      simp only [List.take_zero, runList] at h
      obtain rfl := Except.ok.inj h
      simp
    | succ k => simpa using ih s1 k (by simpa using hk) h

theorem runList_take_ok {σ ι : Type*} (f : σ → ι → Exec σ) (s s' : σ) (is : List ι) (h : runList f s is = .ok s')
    (k : ℕ) : ∃ t, runList f s (is.take k) = .ok t := by
  induction is generalizing s k with
  | nil => exact ⟨s, by simp [runList]⟩
  | cons i is ih =>
    cases k with
    | zero => exact ⟨s, rfl⟩
    | succ k =>
      simp only [runList] at h
      split at h
      swap
      · simp at h
      rename_i s1 h1
      obtain ⟨t, ht⟩ := ih s1 h k
      exact ⟨t, by simp only [List.take_succ_cons, runList, h1]; exact ht⟩

theorem withControls_length (u : ℕ → UArg l) (k : ℕ) (zs : List (Vec m)) :
    (withControls u k zs).length = zs.length := by
  induction zs generalizing k with
  | nil => rfl
  | cons z zs ih => simp [withControls, ih]

theorem xhats_length (o o' : FLS n m l) (zus : List (Vec m × UArg l)) (h : runList FLS.smooth o zus = .ok o') :
    (xhats o zus).length = zus.length := by
  induction zus generalizing o with
  | nil => rfl
  | cons zu zus ih =>
    simp only [runList] at h
    split at h
    swap
    · simp at h
    rename_i s1 h1
    simp [xhats, h1, ih s1 h]

/-- The smoother a user would construct with lag `N` to call `smooth` instead of `smooth_batch`: same estimate and
matrices, no measurement yet. -/
def restarted (s : FLS n m l) (N : ℕ) : FLS n m l := { s with N := some N, count := 0, xSmooth := some [] }

/-- **C29.**  `smooth_batch` returns the smoothed sequence that repeated `smooth` leaves in the object and the
filtered states along that run ... -/
theorem C29_batch (s o' : FLS n m l) (zs : List (Vec m)) (N : ℕ) (us : Option (List (UArg l))) (u : ℕ → UArg l)
    (hu : ∀ k, k < zs.length → FLS.usAt us k = .ok (u k))
    (h : runList FLS.smooth (restarted s N) (withControls u 0 zs) = .ok o') :
    ∃ xs xh, s.smoothBatch zs N us = .ok (xs, xh) ∧ o'.xSmooth = some xs ∧
      xs.length = zs.length ∧ xh.length = zs.length ∧
      ∀ k, k < zs.length → ∃ t, runList FLS.smooth (restarted s N) ((withControls u 0 zs).take (k + 1)) = .ok t ∧
        xh[k]? = some t.x := by
  have hb := batchLoop_eq s N us u zs (restarted s N) (List.replicate zs.length 0) (List.replicate zs.length 0) rfl rfl
    rfl rfl rfl rfl rfl (by simp [restarted]) (by simp [restarted]) (fun k _ hk => hu k (by simpa [restarted] using hk))
  have h0 : (restarted s N).count = 0 := rfl
  rw [h0, h] at hb
  obtain ⟨xs, hr, hc⟩ := C29_history (restarted s N) o' N [] ⟨rfl, rfl, rfl⟩ _ h
  rw [withControls_length, h0, Nat.zero_add] at hc
  refine ⟨xs, xhats (restarted s N) (withControls u 0 zs), ?_, hr.2.1, hr.2.2.trans hc, ?_, ?_⟩
  · simp only [List.take_zero, List.nil_append, hr.2.1, Option.getD_some] at hb
    exact hb
  · rw [xhats_length _ _ _ h, withControls_length]
  · intro k hk
    obtain ⟨t, ht⟩ := runList_take_ok _ _ _ _ h (k + 1)
    exact ⟨t, ht, xhats_get _ _ k (by rw [withControls_length]; exact hk) t ht⟩

/-- **C29.**  ... and it raises exactly the exception that repeated `smooth` raises. -/
theorem C29_batch_error (s : FLS n m l) (zs : List (Vec m)) (N : ℕ) (us : Option (List (UArg l))) (u : ℕ → UArg l)
    (hu : ∀ k, k < zs.length → FLS.usAt us k = .ok (u k)) (e : Err) (t : FLS n m l)
    (h : runList FLS.smooth (restarted s N) (withControls u 0 zs) = .error (e, t)) :
    s.smoothBatch zs N us = .error e := by
  have hb := batchLoop_eq s N us u zs (restarted s N) (List.replicate zs.length 0) (List.replicate zs.length 0) rfl rfl
    rfl rfl rfl rfl rfl (by simp [restarted]) (by simp [restarted]) (fun k _ hk => hu k (by simpa [restarted] using hk))
  have h0 : (restarted s N).count = 0 := rfl
  rw [h0, h] at hb
  exact hb

/-- `us=None` means no control input at every step. -/
theorem C29_us_none (k : ℕ) : FLS.usAt (none : Option (List (UArg l))) k = .ok .none := rfl

/-- **C30 (first part).**  During the first `N` measurements the newest smoothed entry is the Kalman filter estimate. -/
theorem C30_newest_partial (s s' : FLS n m l) (N : ℕ) (xs : List (Vec n)) (hr : s.Ready N xs) (z : Vec m) (u : UArg l)
    (h : s.smooth (z, u) = .ok s') (hk : s.count < N) :
    ∃ xs', s'.xSmooth = some xs' ∧ xs'[s.count]? = some s'.x := by
  obtain ⟨xs', bu, hr', -, -, -, -, hlt, -⟩ := C29_step s s' N xs hr z u h
  refine ⟨xs', hr'.2.1, ?_⟩
  rw [hlt hk, ← hr.2.2]
  simp

/-- **C30 fails from then on, for every filter.**  Once `N ≥ 1` measurements have been smoothed, the newest entry is
the prediction corrected with the *posterior* covariance, `x⁻ + P Hᵀ S⁻¹ y`.  Whenever the residual is nonzero and the
measured part of the predicted state is uncertain (`H P⁻ Hᵀ` invertible) it differs from the Kalman filter estimate. -/
theorem C30_newest_refuted (s s' : FLS n m l) (N : ℕ) (xs : List (Vec n)) (hr : s.Ready N xs) (z : Vec m) (u : UArg l)
    (h : s.smooth (z, u) = .ok s') (hN : 0 < N) (hk : N ≤ s.count) (hP : s.P.PosSemidef) (hQ : s.Q.PosSemidef)
    (hR : s.R.PosDef) (hobs : (s.H * (s.F * s.P * s.Fᵀ + s.Q) * s.Hᵀ).det ≠ 0) (hy : s'.y ≠ 0) :
    ∃ xs' v, s'.xSmooth = some xs' ∧ xs'[s.count]? = some v ∧ v ≠ s'.x := by
  obtain ⟨xs', bu, hr', -, hb, hy', hS', -, hge⟩ := C29_step s s' N xs hr z u h
  obtain ⟨bu', SI, xs0, N0, hb', -, -, hS, hs'⟩ := FLS.smooth_ok h
  have hbb : bu' = bu := by
    have h2 := hb'
    rw [hb] at h2
    exact (Except.ok.inj h2).symm
  subst hbb
  have hg := hge hk s.count le_rfl
  rw [if_pos (by omega), ← hr.2.2] at hg
  simp only [List.getElem?_concat_length, Option.map_some, Nat.sub_self, pow_zero, Matrix.mul_one] at hg
  rw [hr.2.2] at hg
  refine ⟨xs', _, hr'.2.1, hg, ?_⟩
  set P := s.F * s.P * s.Fᵀ + s.Q with hPd
  have hPp : P.PosSemidef := PosSemidef.add (by simpa using hP.mul_mul_conjTranspose_same s.F) hQ
  have hSpd : (s.H * (P * s.Hᵀ) + s.R).PosDef := S_pd hPp hR
  rw [← Matrix.mul_assoc, ← hS'] at hSpd
  have hSi : s'.S⁻¹ * s'.S = 1 := nonsing_inv_mul _ (PD.isUnit_det hSpd)
  have hSI : SI = s'.S⁻¹ := by rw [hS']; exact (npInv_eq_some.1 hS).2
  have hJ := joseph_opt (P := P) (H := s.H) (R := s.R) (SI := s'.S⁻¹) (PSD.symm hPp) rfl
    (by rw [← Matrix.mul_assoc, ← hS']; exact hSi) (inv_symm (PD.symm hSpd)) rfl
  have hxp : s'.x = s.F *ᵥ s.x + bu' + (P * s.Hᵀ * s'.S⁻¹) *ᵥ s'.y := by
    rw [← hSI, hy', hs']; rfl
  have hPp' : s'.P = P - P * s.Hᵀ * s'.S⁻¹ * s'.S * (P * s.Hᵀ * s'.S⁻¹)ᵀ := by
    rw [← Matrix.mul_assoc, ← hS'] at hJ
    rw [← hJ, ← hSI, hs']; rfl
  intro he
  rw [hxp, add_right_inj, ← sub_eq_zero, ← sub_mulVec] at he
  have hd : s'.P * (s.Hᵀ * s'.S⁻¹) - P * s.Hᵀ * s'.S⁻¹ = - (P * s.Hᵀ * s'.S⁻¹ * (s.H * P * s.Hᵀ) * s'.S⁻¹) := by
    rw [hPp', transpose_mul, transpose_mul, transpose_transpose, inv_symm (PD.symm hSpd), PSD.symm hPp,
      Matrix.mul_assoc (P * s.Hᵀ) s'.S⁻¹ s'.S, hSi, Matrix.mul_one]
    simp only [Matrix.sub_mul, Matrix.mul_assoc]
    abel
  rw [hd, neg_mulVec, neg_eq_zero] at he
  have hz : (s.H * P * s.Hᵀ * s'.S⁻¹ * (s.H * P * s.Hᵀ) * s'.S⁻¹) *ᵥ s'.y = 0 := by
    have : s.H * P * s.Hᵀ * s'.S⁻¹ * (s.H * P * s.Hᵀ) * s'.S⁻¹
        = s.H * (P * s.Hᵀ * s'.S⁻¹ * (s.H * P * s.Hᵀ) * s'.S⁻¹) := by simp only [Matrix.mul_assoc]
    rw [this, ← mulVec_mulVec, he, mulVec_zero]
  have hSid : (s'.S⁻¹).det ≠ 0 := by
    intro h0
    have := congrArg det hSi
    rw [det_mul, h0, zero_mul, det_one] at this
    exact zero_ne_one this
  have hdet : (s.H * P * s.Hᵀ * s'.S⁻¹ * (s.H * P * s.Hᵀ) * s'.S⁻¹).det ≠ 0 := by
    simp only [det_mul] at hobs ⊢
    exact mul_ne_zero (mul_ne_zero (mul_ne_zero hobs hSid) hobs) hSid
  exact hy (eq_zero_of_mulVec_eq_zero hdet hz)

/-- A scalar random walk observed directly, with lag one. -/
noncomputable def flsWalk : FLS 1 1 0 :=
  { FLS.fresh 1 1 0 (some 1) with P := sc 1, Q := sc 1, F := sc 1, H := sc 1, R := sc 1, x := vc 0 }

theorem flsWalk_first : ∃ s1, flsWalk.smooth (vc 1, .none) = .ok s1 ∧ s1.x = vc (2/3) ∧ s1.P = sc (2/3) ∧
    s1.count = 1 ∧ s1.xSmooth = some [vc (2/3)] ∧ s1.N = some 1 ∧ s1.F = sc 1 ∧ s1.Q = sc 1 ∧ s1.H = sc 1 ∧
    s1.R = sc 1 ∧ s1.B = none := by
  have hpr : flsWalk.priorOf flsWalk.x flsWalk.P 0 = (vc 0, sc 2) := by
    simp only [FLS.priorOf, flsWalk, sc_transpose, sc_mul, sc_add, sc_mulVec, vc_zero, vc_add]
    norm_num
  have hS : npInv (sc 1 * sc 2 * (sc 1)ᵀ + sc 1) = some (sc (1/3)) := by
    simp only [sc_mul, sc_add, sc_transpose]
    rw [sc_npInv _ (by norm_num)]
    norm_num
  have hc : flsWalk.cycleOf (vc 0) (sc 2) (vc 1) (sc (1/3)) =
      { xPre := vc 0, P := sc (2/3), y := vc 1, S := sc 3, SI := sc (1/3), K := sc (2/3), x := vc (2/3) } := by
    simp only [FLS.cycleOf, flsWalk, sc_one, sc_transpose, sc_mul, sc_sub, sc_add, sc_mulVec, vc_sub, vc_add]
    norm_num
  have hb : FLS.control flsWalk.B UArg.none = .ok 0 := rfl
  refine ⟨{ flsWalk with
    y := vc 1 - sc 1 *ᵥ vc 0, S := sc 1 * sc 2 * (sc 1)ᵀ + sc 1, xSmooth := some [vc (2/3)], count := 1, x := vc (2/3)
    P := sc (2/3) }, ?_, rfl, rfl, rfl, rfl, rfl, rfl, rfl, rfl, rfl, rfl⟩
  have hS' : npInv (flsWalk.H * sc 2 * flsWalk.Hᵀ + flsWalk.R) = some (sc (1/3)) := hS
  simp only [FLS.smooth, hb, hpr, hS', hc]
  rfl

/-- **C30, a concrete run.**  After the measurements `1, 1` the newest smoothed value is `143/192`, the Kalman filter
estimate `7/8`. -/
theorem C30_lag_one_refuted : ∃ s', runList FLS.smooth flsWalk [(vc 1, .none), (vc 1, .none)] = .ok s' ∧
    s'.x = vc (7/8) ∧ s'.xSmooth = some [vc (2/3), vc (143/192)] := by
  obtain ⟨s1, h1, hx, hP, hc, hxs, hN, hF, hQ, hH, hR, hB⟩ := flsWalk_first
  have hpr : s1.priorOf s1.x s1.P 0 = (vc (2/3), sc (5/3)) := by
    simp only [FLS.priorOf, hx, hP, hF, hQ, sc_transpose, sc_mul, sc_add, sc_mulVec, vc_zero, vc_add]
    norm_num
  have hS : npInv (s1.H * sc (5/3) * s1.Hᵀ + s1.R) = some (sc (3/8)) := by
    simp only [hH, hR, sc_mul, sc_add, sc_transpose]
    rw [sc_npInv _ (by norm_num)]
    norm_num
  have hcy : s1.cycleOf (vc (2/3)) (sc (5/3)) (vc 1) (sc (3/8)) =
      { xPre := vc (2/3), P := sc (5/8), y := vc (1/3), S := sc (8/3), SI := sc (3/8), K := sc (5/8), x := vc (7/8) } := by
    simp only [FLS.cycleOf, hH, hR, sc_one, sc_transpose, sc_mul, sc_sub, sc_add, sc_mulVec, vc_sub, vc_add]
    norm_num
  have hb : FLS.control s1.B UArg.none = .ok 0 := by rw [hB]; rfl
  have hlag : FLS.lagStep s1.F s1.H 1 1
      { xPre := vc (2/3), P := sc (5/8), y := vc (1/3), S := sc (8/3), SI := sc (3/8), K := sc (5/8), x := vc (7/8) }
      ([vc (2/3)] ++ [vc (2/3)]) = [vc (2/3), vc (143/192)] := by
    simp only [FLS.lagStep, le_refl, if_true, FLS.lagLoop, hH, sc_transpose, sc_mul, sc_mulVec]
    simp only [List.cons_append, List.nil_append, List.modify_succ_cons, List.modify_zero_cons, vc_add]
    norm_num
  simp only [runList, h1]
  simp only [FLS.smooth, hb, hpr, hS, hcy, hxs, hN, hc, hlag]
  exact ⟨_, rfl, rfl, rfl⟩

/-- **C30, lag zero.**  With `N = 0` every smoothed entry is the prediction, not even the measurement of its own time is
used. -/
theorem C30_lag_zero (s s' : FLS n m l) (xs : List (Vec n)) (hr : s.Ready 0 xs) (z : Vec m)
    (h : s.smooth (z, .none) = .ok s') : s'.xSmooth = some (xs ++ [s.F *ᵥ s.x]) := by
  obtain ⟨hN, hx, hl⟩ := hr
  obtain ⟨bu, SI, xs0, N0, hb, hx0, hN0, hS, rfl⟩ := FLS.smooth_ok h
  rw [hN] at hN0; rw [hx] at hx0
  obtain rfl := Option.some.inj hN0
  obtain rfl := Option.some.inj hx0
  have hbu : bu = 0 := by
    cases hB : s.B <;> rw [hB] at hb <;> exact (Except.ok.inj hb).symm
  subst hbu
  simp [FLS.lagStep, FLS.lagLoop, FLS.priorOf]

/-- The hypotheses of `C29_kalman`, `C29_final` and `C29_batch` are met by a run that goes past the lag. -/
example : flsWalk.Ready 1 [] ∧ SameFilter flsWalk
    { KF.fresh 1 1 0 with P := sc 1, Q := sc 1, F := sc 1, H := sc 1, R := sc 1, x := vc 0 } ∧
    restarted flsWalk 1 = flsWalk ∧
    ∃ s', runList FLS.smooth flsWalk (withControls (fun _ => .none) 0 [vc 1, vc 1]) = .ok s' := by
  obtain ⟨s', h, -⟩ := C30_lag_one_refuted
  exact ⟨⟨rfl, rfl, rfl⟩, ⟨rfl, rfl, rfl, rfl, rfl, rfl, rfl, rfl, rfl⟩, rfl, s', h⟩

/-- **C29 (constructor).**  A new smoother has smoothed nothing, starts at zero with unit covariances and a
constant state, takes the first components of the state for measurements, and has a list of smoothed states
exactly if a lag was given. -/
theorem C29_constructor (n m l : ℕ) (N : Option ℕ) :
    let s : FLS n m l := FLS.fresh n m l N
    s.N = N ∧ s.x = 0 ∧ s.P = 1 ∧ s.Q = 1 ∧ s.R = 1 ∧ s.F = 1 ∧ s.B = none ∧ s.y = 0 ∧ s.S = 0 ∧ s.count = 0 ∧
      (N = none → s.xSmooth = none) ∧ (∀ k, N = some k → s.xSmooth = some []) ∧
      ∀ (v : Vec n) (i : Fin m), (s.H *ᵥ v) i = if h : i.val < n then v ⟨i, h⟩ else 0 := by
  refine ⟨rfl, rfl, rfl, rfl, rfl, rfl, rfl, rfl, rfl, rfl, ?_, ?_, fun v i => ?_⟩
  · rintro rfl; rfl
  · rintro k rfl; rfl
  · simp only [FLS.fresh, mulVec, dotProduct, ite_mul, one_mul, zero_mul]
    split
    · rename_i h
      rw [Finset.sum_eq_single (⟨i, h⟩ : Fin n)]
      · simp
      · intro j _ hj
        exact if_neg fun e => hj (Fin.ext e.symm)
      · simp
    · rename_i h
      exact Finset.sum_eq_zero fun j _ => if_neg fun e : i.val = j.val => h (e ▸ j.2)

end Filterpy
