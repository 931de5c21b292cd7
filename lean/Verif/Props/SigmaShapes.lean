import Verif.Model.SigmaShapes
import Verif.Spec.SigmaShapes

/-!
# What `sigma_points` accepts
-/

namespace Filterpy

open Matrix

variable {n : ℕ}

private theorem smul_d1 (c : ℝ) {m : ℕ} (u : Vec m) : Nd.smul c (.d1 m u) = .d1 m (c • u) := rfl

/-- A row of the right length is stored. -/
private theorem storeRow_ok {x : Nd} (hr : x.rows = 1) (hc : x.cols = n) (U : Mat n n) (sg : ℝ) (k : Fin n) (i : ℕ)
    (s : ℕ → Vec n) :
    storeRow n x ⟨n, U⟩ sg k i s =
      .ok (Function.update s i ((fun j : Fin n => x.get 0 j) - sg • U k)) := by
  have hb (j : Fin n) : Nd.bidx n j = j := by
    unfold Nd.bidx; split_ifs with h
    · have := j.2; omega
    · rfl
  simp only [storeRow, rowNd, k.2, dif_pos, smul_d1, Nd.sub, Nd.broadcast, hr, hc, Nd.rows, Nd.cols, Nd.bdim, if_true]
  cases x with
  | d0 a =>
    simp only [Nd.rows, Nd.cols] at hr hc
    subst hc
    simp [Nd.ndim, Nd.shape, assignRow, Nd.rows, Nd.cols, Nd.get, Nd.bidx]
    congr 1; funext j; fin_cases j; simp [Subsingleton.elim k 0]
  | d1 m v =>
    simp only [Nd.rows, Nd.cols] at hr hc
    subst hc
    simp [Nd.ndim, Nd.shape, assignRow, Nd.rows, Nd.cols, Nd.get, hb]
    congr 1
  | d2 m q v =>
    simp only [Nd.rows, Nd.cols] at hr hc
    subst hr hc
    simp [Nd.ndim, Nd.shape, assignRow, Nd.rows, Nd.cols, Nd.get, hb, show Nd.bidx 1 0 = 0 from rfl]
    congr 1

/-- What the loop has stored after `k` turns. -/
private theorem symLoop_ok {x : Nd} (hr : x.rows = 1) (hc : x.cols = n) (U : Mat n n) (s : ℕ → Vec n) (k : ℕ)
    (hk : k ≤ n) :
    ∃ t, symLoop n x ⟨n, U⟩ s k = .ok t ∧ t 0 = s 0 ∧
      (∀ i : Fin n, (i : ℕ) < k → t (i + 1) = (fun j : Fin n => x.get 0 j) - -U i) ∧
      (∀ i : Fin n, (i : ℕ) < k → t (n + i + 1) = (fun j : Fin n => x.get 0 j) - U i) := by
  induction k with
  | zero => exact ⟨s, rfl, rfl, fun i h => absurd h (by omega), fun i h => absurd h (by omega)⟩
  | succ k ih =>
    obtain ⟨t, ht, h0, h1, h2⟩ := ih (by omega)
    have e1 := storeRow_ok hr hc U (-1) ⟨k, hk⟩ (k + 1) t
    have e2 := storeRow_ok hr hc U 1 ⟨k, hk⟩ (n + k + 1)
      (Function.update t (k + 1) ((fun j : Fin n => x.get 0 j) - (-1 : ℝ) • U ⟨k, hk⟩))
    simp only at e1 e2
    refine ⟨_, by rw [symLoop, ht]; simp only; rw [symTurn, e1]; exact e2, ?_, fun i hi => ?_, fun i hi => ?_⟩
    · rw [Function.update_of_ne (by omega), Function.update_of_ne (by omega), h0]
    · rw [Function.update_of_ne (by have := i.2; omega)]
      by_cases h : (i : ℕ) = k
      · subst h; rw [Function.update_self, neg_one_smul]
      · rw [Function.update_of_ne (by omega), h1 i (by omega)]
    · by_cases h : (i : ℕ) = k
      · subst h; rw [Function.update_self, one_smul]
      · rw [Function.update_of_ne (by omega), Function.update_of_ne (by omega), h2 i (by omega)]

/-- The array of the Merwe and Julier points, for a state in one row and a factor of the right size. -/
private theorem symLoop_set {x : Nd} (hr : x.rows = 1) (hc : x.cols = n) (U : Mat n n) :
    ∃ r t, assignRow n x = .ok r ∧ symLoop n x ⟨n, U⟩ (Function.update (fun _ => 0) 0 r) n = .ok t ∧
      (fun i : Fin (2 * n + 1) => t i) =
        SigmaPts.symmetricSet (fun a b => a - b) (fun j : Fin n => x.get 0 j) U := by
  have hb (j : Fin n) : Nd.bidx n j = j := by
    unfold Nd.bidx; split_ifs with h
    · have := j.2; omega
    · rfl
  obtain ⟨t, ht, h0, h1, h2⟩ := symLoop_ok hr hc U (Function.update (fun _ => 0) 0 fun j : Fin n => x.get 0 j) n le_rfl
  refine ⟨fun j => x.get 0 j, t, ?_, ht, ?_⟩
  · rw [assignRow, if_pos ⟨hr, Or.inl hc⟩]
    simp only [hc, hb]
  · funext i
    unfold SigmaPts.symmetricSet
    split_ifs with hi hn
    · rw [hi, h0, Function.update_self]
    · refine Eq.trans ?_ (h1 ⟨i - 1, by omega⟩ (by simp only; omega))
      congr 1; simp only; omega
    · refine Eq.trans ?_ (h2 ⟨i - 1 - n, by have := i.2; omega⟩ (by simp only; have := i.2; omega))
      congr 1; simp only; omega

/-- The last turn of the loop only succeeds with a factor of the right size. -/
private theorem storeRow_last {x : Nd} (hr : x.rows = 1) (hc : x.cols = n) (hn : 0 < n) {m : ℕ} (U : Mat m m) (sg : ℝ)
    (i : ℕ) (s s' : ℕ → Vec n) (h : storeRow n x ⟨m, U⟩ sg (n - 1) i s = .ok s') : m = n := by
  by_contra hne
  unfold storeRow at h
  by_cases hm : n - 1 < m
  · have hr' : rowNd ⟨m, U⟩ (n - 1) = .ok (.d1 m (U ⟨n - 1, hm⟩)) := dif_pos hm
    rw [hr'] at h
    simp only [smul_d1, Nd.sub, Nd.broadcast, hr, hc, show ∀ w : Vec m, (Nd.d1 m w).rows = 1 from fun _ => rfl,
      show ∀ w : Vec m, (Nd.d1 m w).cols = m from fun _ => rfl, Nd.bdim, if_true, if_neg (Ne.symm hne)] at h
    by_cases h1 : n = 1
    · subst h1
      simp only [if_true] at h
      cases x <;> simp [Nd.ndim, Nd.shape, assignRow, Nd.rows, Nd.cols, hne] at h
    · rw [if_neg h1, if_neg (by omega)] at h
      simp at h
  · have hr' : rowNd ⟨m, U⟩ (n - 1) = .error .indexError := dif_neg hm
    rw [hr'] at h
    simp at h

/-- A failed turn ends the loop. -/
private theorem symLoop_mono {x : Nd} {U : (m : ℕ) × Mat m m} {s : ℕ → Vec n} {k : ℕ} {t : ℕ → Vec n}
    (h : symLoop n x U s (k + 1) = .ok t) : ∃ s' s'', storeRow n x U (-1) k (k + 1) s' = .ok s'' := by
  rw [symLoop] at h
  cases hs : symLoop n x U s k with
  | error e => rw [hs] at h; simp at h
  | ok s' =>
    rw [hs] at h
    simp only [symTurn] at h
    cases hu : storeRow n x U (-1) k (k + 1) s' with
    | error e => rw [hu] at h; simp at h
    | ok s'' => exact ⟨s', s'', hu⟩

private theorem stateOf_row {x : SigX} {v : Vec n} (h : Spec.StateOf n x v) :
    n = x.size ∧ x.nd.rows = 1 ∧ x.nd.cols = n ∧ (fun j : Fin n => x.nd.get 0 j) = v := by
  cases h with
  | number h c => subst h; exact ⟨rfl, rfl, rfl, by funext j; fin_cases j; simp [SigX.nd, Nd.get]⟩
  | list v => exact ⟨rfl, rfl, rfl, by funext j; simp [SigX.nd, Nd.get]⟩
  | flat v => exact ⟨by simp [SigX.size, Nd.rows, Nd.cols], rfl, rfl, by funext j; simp [SigX.nd, Nd.get]⟩
  | row v => exact ⟨by simp [SigX.size, Nd.rows, Nd.cols], rfl, rfl, by funext j; simp [SigX.nd, Nd.get]⟩
  | single h c => subst h; exact ⟨rfl, rfl, rfl, by funext j; simp [SigX.nd, Nd.get]⟩

private theorem row_stateOf {x : SigX} (hr : x.nd.rows = 1) (hs : n = x.size) : ∃ v, Spec.StateOf n x v := by
  rcases x with c | ⟨k, v⟩ | a
  · exact ⟨_, .number hs c⟩
  · change n = k at hs; subst hs; exact ⟨_, .list v⟩
  · cases a with
    | d0 c => exact ⟨_, .single hs c⟩
    | d1 k v =>
      have : n = k := by simpa [SigX.size, Nd.rows, Nd.cols] using hs
      subst this; exact ⟨_, .flat v⟩
    | d2 k q A =>
      change k = 1 at hr
      subst hr
      have : n = q := by simpa [SigX.size, Nd.rows, Nd.cols] using hs
      subst this
      have : A = fun _ => A 0 := by funext i; rw [Subsingleton.elim i 0]
      rw [this]
      exact ⟨_, .row (A 0)⟩

private theorem covOf_nd {P : SigP} {M : Mat n n} (h : Spec.CovOf n P M) : P.nd n = ⟨n, n, M⟩ := by
  cases h with
  | number c => rfl
  | matrix M => simp [SigP.nd, Nd.rows, Nd.cols, Nd.get]
  | flat h c => subst h; simp [SigP.nd, Nd.rows, Nd.cols, Nd.get]
  | single h c => subst h; simp [SigP.nd, Nd.rows, Nd.cols, Nd.get]

private theorem nd_covOf {P : SigP} {M : Mat n n} (h : P.nd n = ⟨n, n, M⟩) : ∃ M, Spec.CovOf n P M := by
  cases P with
  | scalar c => exact ⟨_, .number c⟩
  | arr a =>
    have h1 : a.rows = n := congrArg (·.1) h
    have h2 : a.cols = n := congrArg (·.2.1) h
    cases a with
    | d0 c => exact ⟨_, .single h1.symm c⟩
    | d1 k v =>
      change 1 = n at h1; change k = n at h2
      subst h1 h2
      have : v = fun _ => v 0 := by funext i; rw [Subsingleton.elim i 0]
      rw [this]
      exact ⟨_, .flat rfl _⟩
    | d2 k q A =>
      change k = n at h1; change q = n at h2
      subst h1 h2
      exact ⟨_, .matrix A⟩

/-- The Merwe and Julier points of acceptable arguments are those of the state and covariance they name. -/
theorem symmetricNd_ok {x : SigX} {P : SigP} {v : Vec n} {M : Mat n n} (hx : Spec.StateOf n x v) (hP : Spec.CovOf n P M)
    (c : ℝ) (sqrt : ∀ k, Mat k k → Except Err (Mat k k)) :
    symmetricNd n c sqrt x P = match sqrt n (c • M) with
      | .error e => .error e
      | .ok U => .ok (SigmaPts.symmetricSet (fun a b => a - b) v U) := by
  obtain ⟨hs, hr, hc, hv⟩ := stateOf_row hx
  unfold symmetricNd
  rw [if_neg (by simpa using hs), covOf_nd hP]
  simp only [sqrtNd, dif_pos]
  cases sqrt n (c • M) with
  | error e => rfl
  | ok U =>
    obtain ⟨r, t, h1, h2, h3⟩ := symLoop_set hr hc U
    simp only [h1, h2]
    rw [← hv, ← h3]

/-- Other arguments are refused. -/
theorem symmetricNd_ok_imp {x : SigX} {P : SigP} (hn : 0 < n) (c : ℝ) (sqrt : ∀ k, Mat k k → Except Err (Mat k k))
    {A : Mat (2 * n + 1) n} (h : symmetricNd n c sqrt x P = .ok A) :
    (∃ v, Spec.StateOf n x v) ∧ ∃ M, Spec.CovOf n P M := by
  unfold symmetricNd at h
  by_cases hs : n = x.size
  swap
  · rw [if_pos hs] at h; simp at h
  rw [if_neg (by simpa using hs)] at h
  generalize hN : P.nd n = N at h
  obtain ⟨m, k, B⟩ := N
  by_cases hk : k = m
  swap
  · simp [sqrtNd, dif_neg hk] at h
  subst hk
  simp only [sqrtNd, dif_pos] at h
  cases hU : sqrt k (c • B) with
  | error e => rw [hU] at h; simp at h
  | ok U =>
    rw [hU] at h
    simp only at h
    by_cases hr : x.nd.rows = 1
    swap
    · rw [assignRow, if_neg (by tauto)] at h; simp at h
    obtain ⟨v, hv⟩ := row_stateOf hr hs
    obtain ⟨-, -, hc, -⟩ := stateOf_row hv
    refine ⟨⟨v, hv⟩, ?_⟩
    cases ha : assignRow n x.nd with
    | error e => rw [ha] at h; simp at h
    | ok r =>
      rw [ha] at h
      simp only at h
      cases hl : symLoop n x.nd ⟨k, U⟩ (Function.update (fun _ => 0) 0 r) n with
      | error e => rw [hl] at h; simp at h
      | ok t =>
        obtain ⟨q, rfl⟩ : ∃ q, n = q + 1 := ⟨n - 1, by omega⟩
        obtain ⟨s', s'', hst⟩ := symLoop_mono hl
        have : k = q + 1 := storeRow_last hr hc hn U (-1) (q + 1) s' s'' hst
        subst this
        exact nd_covOf hN

variable {alpha beta kappa : ℝ} {sqrt : ∀ k, Mat k k → Except Err (Mat k k)} {x : SigX} {P : SigP} {v : Vec n} {M : Mat n n}

/-- **C131 (Merwe).**  `MerweScaledSigmaPoints.sigma_points` gives the same points for every way to write the state and
the covariance, and raises for everything else, `ValueError` for a wrong number of entries. -/
theorem C131_merwe {p : SigmaPts n} (hp : SigmaPts.merwe n alpha beta kappa (sqrt n) = .ok p) :
    (Spec.StateOf n x v → Spec.CovOf n P M → merweNd n alpha kappa sqrt x P = p.call v M) ∧
    (0 < n → ((∀ v, ¬ Spec.StateOf n x v) ∨ ∀ M, ¬ Spec.CovOf n P M) → ∃ e, merweNd n alpha kappa sqrt x P = .error e) ∧
    (x.size ≠ n → merweNd n alpha kappa sqrt x P = .error .valueError) := by
  refine ⟨fun hx hP => ?_, fun hn h => ?_, fun h => ?_⟩
  · unfold SigmaPts.merwe at hp
    simp only at hp
    split_ifs at hp
    rw [← Except.ok.inj hp, merweNd, symmetricNd_ok hx hP, SigmaPts.call]
    simp only
    cases sqrt n _ <;> rfl
  · rw [merweNd]
    cases hA : symmetricNd n (alpha ^ 2 * (n + kappa) - n + n) sqrt x P with
    | error e => exact ⟨e, rfl⟩
    | ok A =>
      obtain ⟨⟨v, hv⟩, M, hM⟩ := symmetricNd_ok_imp hn _ sqrt hA
      exact (h.elim (fun h => h v hv) fun h => h M hM).elim
  · rw [merweNd, symmetricNd, if_pos (Ne.symm h)]
    rfl

/-- **C131 (Julier).** -/
theorem C131_julier {p : SigmaPts n} (hp : SigmaPts.julier n kappa (sqrt n) = .ok p) :
    (Spec.StateOf n x v → Spec.CovOf n P M → julierNd n kappa sqrt x P = p.call v M) ∧
    (0 < n → ((∀ v, ¬ Spec.StateOf n x v) ∨ ∀ M, ¬ Spec.CovOf n P M) → ∃ e, julierNd n kappa sqrt x P = .error e) ∧
    (x.size ≠ n → julierNd n kappa sqrt x P = .error .valueError) := by
  refine ⟨fun hx hP => ?_, fun hn h => ?_, fun h => ?_⟩
  · unfold SigmaPts.julier at hp
    split_ifs at hp
    rw [← Except.ok.inj hp, julierNd, symmetricNd_ok hx hP, SigmaPts.call]
    simp only
    cases sqrt n _ <;> rfl
  · rw [julierNd]
    cases hA : symmetricNd n (n + kappa) sqrt x P with
    | error e => exact ⟨e, rfl⟩
    | ok A =>
      obtain ⟨⟨v, hv⟩, M, hM⟩ := symmetricNd_ok_imp hn _ sqrt hA
      exact (h.elim (fun h => h v hv) fun h => h M hM).elim
  · rw [julierNd, symmetricNd, if_pos (Ne.symm h)]
    rfl

private theorem entriesOf_column (h : Spec.EntriesOf n x v) : n = x.size ∧ x.column n = .ok v := by
  cases h with
  | number h c => exact ⟨h, rfl⟩
  | flat v =>
    refine ⟨by simp [SigX.size, Nd.rows, Nd.cols], congrArg Except.ok ?_⟩
    funext i
    simp [Nd.get, Nd.cols, Nat.mod_eq_of_lt i.2]
  | single h c => exact ⟨by simp [SigX.size, Nd.rows, Nd.cols, h], rfl⟩
  | shaped a b A v h hv =>
    refine ⟨h.symm, congrArg Except.ok ?_⟩
    funext k
    have hk : (k : ℕ) < b * a := by rw [Nat.mul_comm, h]; exact k.2
    have hb : 0 < b := Nat.pos_of_ne_zero fun h0 => by simp [h0] at hk
    have h1 : (k : ℕ) / b < a := Nat.div_lt_of_lt_mul hk
    have h2 : (k : ℕ) % b < b := Nat.mod_lt _ hb
    refine (dif_pos ⟨h1, h2⟩).trans ?_
    exact (hv ⟨_, h1⟩ ⟨_, h2⟩ k (Nat.div_add_mod _ _).symm).symm

private theorem column_entriesOf (hs : n = x.size) {w : Vec n} (h : x.column n = .ok w) : ∃ v, Spec.EntriesOf n x v := by
  rcases x with c | ⟨k, v⟩ | a
  · exact ⟨_, .number hs c⟩
  · simp [SigX.column] at h
  · cases a with
    | d0 c => exact ⟨_, .single (by simpa [SigX.size, Nd.rows, Nd.cols] using hs) c⟩
    | d1 k v =>
      have : n = k := by simpa [SigX.size, Nd.rows, Nd.cols] using hs
      subst this; exact ⟨_, .flat v⟩
    | d2 a b A =>
      refine ⟨fun k => Nd.get (.d2 a b A) (k / b) (k % b), .shaped a b A _ hs.symm fun i j k hk => ?_⟩
      have hb : 0 < b := by have := j.2; omega
      have h1 : (k : ℕ) / b = i := by rw [hk, Nat.mul_add_div hb, Nat.div_eq_of_lt j.2, add_zero]
      have h2 : (k : ℕ) % b = j := by rw [hk, Nat.mul_add_mod, Nat.mod_eq_of_lt j.2]
      simp [h1, h2, Nd.get]

/-- **C131 (simplex).**  `SimplexSigmaPoints.sigma_points` takes an array of `n` entries in any arrangement, also a
column, and a number or matrix for the covariance; everything else raises. -/
theorem C131_simplex :
    (Spec.EntriesOf n x v → Spec.CovOf n P M →
      (simplexNd n sqrt x P).map (fun A => (⟨_, A⟩ : (k : ℕ) × Mat k n)) = (SigmaPts.simplex n (sqrt n)).call v M) ∧
    (((∀ v, ¬ Spec.EntriesOf n x v) ∨ ∀ M, ¬ Spec.CovOf n P M) → ∃ e, simplexNd n sqrt x P = .error e) ∧
    (x.size ≠ n → simplexNd n sqrt x P = .error .valueError) := by
  refine ⟨fun hx hP => ?_, fun h => ?_, fun h => by rw [simplexNd, if_pos (Ne.symm h)]⟩
  · obtain ⟨hs, hc⟩ := entriesOf_column hx
    rw [simplexNd, if_neg (by simpa using hs), hc, covOf_nd hP]
    simp only [sqrtNd, dif_pos, SigmaPts.call, SigmaPts.simplex]
    cases sqrt n M with
    | error e => rfl
    | ok U => simp only [dif_pos]; rfl
  · by_cases hs : n = x.size
    swap
    · exact ⟨_, by rw [simplexNd, if_pos hs]⟩
    cases hc : x.column n with
    | error e => exact ⟨e, by rw [simplexNd, if_neg (by simpa using hs), hc]⟩
    | ok w =>
      rw [simplexNd, if_neg (by simpa using hs), hc]
      simp only
      obtain ⟨v, hv⟩ := column_entriesOf hs hc
      replace h := h.resolve_left fun h => h v hv
      generalize hN : P.nd n = N
      obtain ⟨m, k, B⟩ := N
      by_cases hk : k = m
      swap
      · exact ⟨.valueError, by simp only [sqrtNd, dif_neg hk]⟩
      subst hk
      simp only [sqrtNd, dif_pos]
      cases sqrt k B with
      | error e => exact ⟨e, rfl⟩
      | ok U =>
        simp only
        by_cases hm : k = n
        · subst hm
          obtain ⟨M, hM⟩ := nd_covOf hN
          exact (h M hM).elim
        · exact ⟨_, dif_neg hm⟩

/-- **C131 fails for the simplex points.**  The documentation of all three classes allows the state `[1, 2]`; the simplex
points of a list raise `AttributeError`, whatever the covariance. -/
theorem C131_list_refuted (v : Vec n) (P : SigP) :
    Spec.StateOf n (.list n v) v ∧ simplexNd n sqrt (.list n v) P = .error .attributeError := by
  refine ⟨.list v, ?_⟩
  rw [simplexNd, if_neg (by simp [SigX.size])]
  rfl

/-- **C131 fails for numbers in arrays.**  `sigma_points(x, 4.)` of a two-dimensional state gives points, but
`sigma_points(x, np.array(4.))` raises `IndexError` (Merwe, Julier) or `ValueError` (simplex). -/
theorem C131_number_refuted (c : ℝ) (v : Vec 2) (a : ℝ) (U : Mat 2 2) (u u' : Mat 1 1)
    (h2 : sqrt 2 (c • a • (1 : Mat 2 2)) = .ok U) (h1 : sqrt 1 (fun _ _ => c * a) = .ok u)
    (h1' : sqrt 1 (fun _ _ => a) = .ok u') :
    (∃ A, symmetricNd 2 c sqrt (.arr (.d1 2 v)) (.scalar a) = .ok A) ∧
      symmetricNd 2 c sqrt (.arr (.d1 2 v)) (.arr (.d0 a)) = .error .indexError ∧
      simplexNd 2 sqrt (.arr (.d1 2 v)) (.arr (.d0 a)) = .error .valueError := by
  refine ⟨?_, ?_, ?_⟩
  · rw [symmetricNd_ok (.flat v) (.number a), h2]
    exact ⟨_, rfl⟩
  · rw [symmetricNd, if_neg (by simp [SigX.size, Nd.rows, Nd.cols])]
    have h1 : sqrtNd sqrt ⟨(SigP.nd 2 (.arr (.d0 a))).1, (SigP.nd 2 (.arr (.d0 a))).2.1, c • (SigP.nd 2 (.arr (.d0 a))).2.2⟩ =
        .ok ⟨1, u⟩ := by
      rw [show SigP.nd 2 (.arr (.d0 a)) = ⟨1, 1, fun _ _ => a⟩ from rfl]
      simp only [sqrtNd, dif_pos]
      erw [h1]
    rw [h1]
    simp [Nd.rows, Nd.cols, SigX.nd, assignRow, symLoop, symTurn, storeRow, rowNd, Nd.smul, Nd.sub,
      Nd.broadcast, Nd.bdim, Nd.ndim, Nd.shape]
  · rw [simplexNd, if_neg (by simp [SigX.size, Nd.rows, Nd.cols])]
    have h1 : sqrtNd sqrt (SigP.nd 2 (.arr (.d0 a))) = .ok ⟨1, u'⟩ := by
      rw [show SigP.nd 2 (.arr (.d0 a)) = ⟨1, 1, fun _ _ => a⟩ from rfl]
      simp only [sqrtNd, dif_pos, h1']
    simp [h1, SigX.column]

/-- A column state of two or more entries is refused by the Merwe and Julier points but accepted by the simplex points. -/
theorem C131_column (hn : 1 < n) (c : ℝ) (A : Mat n 1) (P : SigP) :
    (∃ e, symmetricNd n c sqrt (.arr (.d2 n 1 A)) P = .error e) ∧
      Spec.EntriesOf n (.arr (.d2 n 1 A)) (fun i => A i 0) := by
  refine ⟨?_, .shaped n 1 A _ (Nat.mul_one n) fun i j k hk => ?_⟩
  · cases h : symmetricNd n c sqrt (.arr (.d2 n 1 A)) P with
    | error e => exact ⟨e, rfl⟩
    | ok B =>
      obtain ⟨⟨v, hv⟩, -⟩ := symmetricNd_ok_imp (by omega) c sqrt h
      obtain ⟨-, hr, -⟩ := stateOf_row hv
      change n = 1 at hr
      omega
  · have : k = i := Fin.ext (by have := j.2; omega)
    rw [this, Subsingleton.elim j 0]

/-- The hypotheses are met: a number is a covariance and a row is a state. -/
example : Spec.StateOf 2 (.arr (.d2 1 2 fun _ => ![1, 2])) ![1, 2] ∧ Spec.CovOf 2 (.scalar 3) ((3 : ℝ) • 1) ∧
    ∃ p, SigmaPts.merwe 2 1 2 1 (fun A => .ok A) = .ok p :=
  ⟨.row _, .number 3, by
    unfold SigmaPts.merwe
    norm_num⟩

/-- Arguments that are refused: a covariance of the wrong size, and three numbers for a state of two. -/
example (A : Mat 3 3) (w : Vec 3) :
    (∀ M, ¬ Spec.CovOf 2 (.arr (.d2 3 3 A)) M) ∧ SigX.size (.list 3 w) ≠ 2 :=
  ⟨fun M h => (by cases h), (by decide : (3 : ℕ) ≠ 2)⟩

end Filterpy
