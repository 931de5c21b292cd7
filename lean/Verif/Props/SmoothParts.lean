import Verif.Model.KalmanFilter
import Verif.Model.KalmanFuncs
import Verif.Model.UKF
import Verif.Lemmas.Scalar1

/-!
# C155: a recording may be smoothed in blocks, from the end

Smoothing goes backwards.  The rows from a place on are smoothed without the rows before it, and the rows before it need
only the smoothed row at that place.
-/

namespace Filterpy

open Matrix

variable {n m l : ℕ} {p : SigmaPts n}

/-- A backward loop: the last row is kept, every other row is computed from its successor. -/
def backLoop {α ρ : Type} (last : α → ρ) (step : α → α → ρ → Except Err ρ) : List α → Except Err (List ρ)
  | [] => .ok []
  | [e] => .ok [last e]
  | e :: e' :: rest =>
    match backLoop last step (e' :: rest) with
    | .error err => .error err
    | .ok [] => .ok []
    | .ok (nxt :: tail) => match step e e' nxt with
      | .error err => .error err
      | .ok o => .ok (o :: nxt :: tail)

section
variable {α ρ : Type} {last : α → ρ} {step : α → α → ρ → Except Err ρ}

theorem backLoop_cons {e e' : α} {rest : List α} {out : List ρ} (h : backLoop last step (e :: e' :: rest) = .ok out) (hl : out ≠ []) :
    ∃ o nxt tail, out = o :: nxt :: tail ∧ backLoop last step (e' :: rest) = .ok (nxt :: tail) ∧ step e e' nxt = .ok o := by
  rw [backLoop] at h
  revert h
  cases hb : backLoop last step (e' :: rest) with
  | error err => intro h; cases h
  | ok out' =>
    cases out' with
    | nil => intro h; simp only [Except.ok.injEq] at h; exact (hl h.symm).elim
    | cons nxt tail =>
      cases hs : step e e' nxt with
      | error err => intro h; simp only [hs] at h; cases h
      | ok o => intro h; simp only [hs, Except.ok.injEq] at h; exact ⟨o, nxt, tail, h.symm, rfl, hs⟩

theorem backLoop_length : ∀ (es : List α) {out : List ρ}, backLoop last step es = .ok out → out.length = es.length := by
  intro es
  induction es with
  | nil => intro out h; simp only [backLoop, Except.ok.injEq] at h; simp [← h]
  | cons e es ih =>
    intro out h
    cases es with
    | nil => simp only [backLoop, Except.ok.injEq] at h; simp [← h]
    | cons e' rest =>
      have hl : out ≠ [] := by
        rintro rfl
        rw [backLoop] at h
        revert h
        cases hb : backLoop last step (e' :: rest) with
        | error err => intro h; cases h
        | ok out' =>
          have := ih hb
          cases out' with
          | nil => simp at this
          | cons nxt tail => cases hs : step e e' nxt <;> intro h <;> simp [hs] at h
      obtain ⟨o, nxt, tail, rfl, hb, -⟩ := backLoop_cons h hl
      have := ih hb
      simp only [List.length_cons] at this ⊢
      omega

theorem backLoop_cons' {e e' : α} {rest : List α} {out : List ρ} (h : backLoop last step (e :: e' :: rest) = .ok out) :
    ∃ o nxt tail, out = o :: nxt :: tail ∧ backLoop last step (e' :: rest) = .ok (nxt :: tail) ∧ step e e' nxt = .ok o :=
  backLoop_cons h (by rintro rfl; have := backLoop_length _ h; simp at this)

/-- Rows before a place have no influence on the rows from there on. -/
theorem backLoop_drop (k : ℕ) : ∀ (es : List α) {out : List ρ}, backLoop last step es = .ok out →
    backLoop last step (es.drop k) = .ok (out.drop k) := by
  induction k with
  | zero => intro es out h; simpa using h
  | succ k ih =>
    intro es out h
    cases es with
    | nil => simp only [backLoop, Except.ok.injEq] at h; simp [← h, backLoop]
    | cons e es =>
      cases es with
      | nil => simp only [backLoop, Except.ok.injEq] at h; simp [← h, backLoop]
      | cons e' rest =>
        obtain ⟨o, nxt, tail, rfl, hb, -⟩ := backLoop_cons' h
        exact ih _ hb

/-- The rows before a place need only the result at that place. -/
theorem backLoop_blocks {κ μ : Type} {key : α → κ} {est : ρ → μ}
    (hstep : ∀ a e e' r r', key e = key e' → est r = est r' → step a e r = step a e' r') {b b' : α} (hb : key b = key b') :
    ∀ (as bs : List α) {out : List ρ}, backLoop last step (as ++ b :: bs) = .ok out → ∃ o, out[as.length]? = some o ∧
      (est (last b') = est o → backLoop last step (as ++ [b']) = .ok (out.take as.length ++ [last b'])) := by
  intro as
  induction as with
  | nil =>
    intro bs out h
    have := backLoop_length _ h
    cases out with
    | nil => simp at this
    | cons o out => exact ⟨o, rfl, fun _ => rfl⟩
  | cons a as ih =>
    intro bs out h
    cases as with
    | nil =>
      obtain ⟨o, nxt, tail, rfl, h1, h2⟩ := backLoop_cons' h
      refine ⟨nxt, rfl, fun he => ?_⟩
      have : step a b' (last b') = .ok o := by rw [← h2]; exact (hstep _ _ _ _ _ hb he.symm).symm
      simp [backLoop, this]
    | cons a' as =>
      obtain ⟨o, nxt, tail, rfl, h1, h2⟩ := backLoop_cons' h
      obtain ⟨r, hr, hr'⟩ := ih bs h1
      refine ⟨r, by simpa using hr, fun he => ?_⟩
      have h3 := hr' he
      simp only [List.cons_append, List.length_cons, List.take_succ_cons] at h3 ⊢
      rw [backLoop, h3]
      simp only [h2]

end


/-! ## `KalmanFilter.rts_smoother` -/

theorem KF.rtsLoop_eq (inv : Mat n n → Option (Mat n n)) : ∀ es, KF.rtsLoop inv es =
    backLoop (fun e : (Vec n × Mat n n) × (Mat n n × Mat n n) => (⟨e.1.1, e.1.2, 0, e.1.2⟩ : KF.RtsOut n))
      (fun e e' r => KF.rtsStep inv e.1.1 e.1.2 e'.2.1 e'.2.2 r) es
  | [] => rfl
  | [e] => rfl
  | e :: e' :: rest => by
    rw [KF.rtsLoop, backLoop, KF.rtsLoop_eq inv (e' :: rest)]
    generalize backLoop _ _ (e' :: rest) = q
    cases q with
    | error e => rfl
    | ok out =>
      cases out with
      | nil => rfl
      | cons o out =>
        simp only [bind, Except.bind]
        cases KF.rtsStep inv e.1.1 e.1.2 e'.2.1 e'.2.2 o <;> rfl

theorem KF.rts_rows (s : KF n m l) {Xs : List (Vec n)} {Ps Fs Qs : List (Mat n n)} (inv) (h : Xs.length = Ps.length)
    (hF : Xs.length ≤ Fs.length) (hQ : Xs.length ≤ Qs.length) :
    s.rtsSmoother Xs Ps (some Fs) (some Qs) inv = KF.rtsLoop inv ((Xs.zip Ps).zip (Fs.zip Qs)) := by
  have h1 : ¬ (2 ≤ Xs.length ∧ (Fs.length < Xs.length ∨ Qs.length < Xs.length)) := by omega
  simp only [KF.rtsSmoother, h, ne_eq, not_true_eq_false, if_false, Option.getD_some]
  rw [h] at h1 hF hQ
  rw [if_neg h1]
  split
  · rename_i h2
    match Xs, Ps, Fs, Qs, h, hF, hQ, h2 with
    | [], Ps, _, _, _, _, _, _ => simp [KF.rtsLoop]
    | [x], [P], F :: _, Q :: _, _, _, _, _ => simp [KF.rtsLoop]
    | _ :: _ :: _, _ :: _ :: _, _, _, _, _, _, h2 => simp at h2
  · rfl

theorem KF.rts_defaults (s : KF n m l) (Xs : List (Vec n)) (Ps : List (Mat n n)) (Fs Qs : Option (List (Mat n n))) (inv) :
    s.rtsSmoother Xs Ps Fs Qs inv = s.rtsSmoother Xs Ps (some (Fs.getD (List.replicate Xs.length s.F)))
      (some (Qs.getD (List.replicate Xs.length s.Q))) inv := rfl

theorem KF.rts_ok (s : KF n m l) {Xs : List (Vec n)} {Ps : List (Mat n n)} {Fs Qs : Option (List (Mat n n))} {inv out}
    (h : s.rtsSmoother Xs Ps Fs Qs inv = .ok out) : Xs.length = Ps.length ∧ (2 ≤ Xs.length →
      Xs.length ≤ (Fs.getD (List.replicate Xs.length s.F)).length ∧ Xs.length ≤ (Qs.getD (List.replicate Xs.length s.Q)).length) := by
  unfold KF.rtsSmoother at h
  split at h
  · cases h
  · rename_i h1
    simp only at h
    split at h
    · cases h
    · rename_i h2
      refine ⟨not_not.1 h1, fun h3 => ?_⟩
      omega

theorem zip_drop' {α β : Type*} (k : ℕ) : ∀ (a : List α) (b : List β), (a.zip b).drop k = (a.drop k).zip (b.drop k) := by
  intro a b
  simp [List.zip, List.drop_zipWith]

/-- **C155** `KalmanFilter.rts_smoother`: smoothing the rows from `k` on gives the rows from `k` on of the whole smoothing. -/
theorem C155_tail (s : KF n m l) (Xs : List (Vec n)) (Ps : List (Mat n n)) (Fs Qs : Option (List (Mat n n))) (inv) (k : ℕ) {out}
    (h : s.rtsSmoother Xs Ps Fs Qs inv = .ok out) :
    s.rtsSmoother (Xs.drop k) (Ps.drop k) (Fs.map (·.drop k)) (Qs.map (·.drop k)) inv = .ok (out.drop k) := by
  obtain ⟨h1, h2⟩ := KF.rts_ok s h
  by_cases hk : 2 ≤ Xs.length
  · obtain ⟨hF, hQ⟩ := h2 hk
    have eF : (Fs.map (·.drop k)).getD (List.replicate (Xs.drop k).length s.F) = (Fs.getD (List.replicate Xs.length s.F)).drop k := by
      cases Fs <;> simp
    have eQ : (Qs.map (·.drop k)).getD (List.replicate (Xs.drop k).length s.Q) = (Qs.getD (List.replicate Xs.length s.Q)).drop k := by
      cases Qs <;> simp
    rw [KF.rts_defaults, KF.rts_rows s inv h1 hF hQ, KF.rtsLoop_eq] at h
    rw [KF.rts_defaults, eF, eQ, KF.rts_rows s inv (by simp [h1]) (by simp only [List.length_drop]; omega)
      (by simp only [List.length_drop]; omega), KF.rtsLoop_eq, ← zip_drop', ← zip_drop', ← zip_drop']
    exact backLoop_drop k _ h
  · cases k with
    | zero => simpa using h
    | succ k =>
      have e1 : Xs.drop (k + 1) = [] := List.drop_eq_nil_of_le (by omega)
      have e2 : Ps.drop (k + 1) = [] := List.drop_eq_nil_of_le (by omega)
      have e3 : out.drop (k + 1) = [] := by
        refine List.drop_eq_nil_of_le ?_
        match Xs, Ps, h1, hk with
        | [], [], _, _ => simp [KF.rtsSmoother, KF.rtsLoop] at h; simp [h]
        | [x], [P], _, _ => simp [KF.rtsSmoother, KF.rtsLoop] at h; simp [← h]
        | _ :: _ :: _, _, _, hk => simp at hk
      rw [e1, e2, e3]
      simp [KF.rtsSmoother, KF.rtsLoop]

/-- **C155** `KalmanFilter.rts_smoother`: the rows before `k` can be smoothed later, in a call that ends with the smoothed row `k` in
place of the filtered one. -/
theorem C155_blocks (s : KF n m l) (Xs : List (Vec n)) (Ps : List (Mat n n)) (Fs Qs : Option (List (Mat n n))) (inv) (k : ℕ) {out}
    (h : s.rtsSmoother Xs Ps Fs Qs inv = .ok out) (hk : k < Xs.length) : ∃ o, out[k]? = some o ∧
      s.rtsSmoother (Xs.take k ++ [o.x]) (Ps.take k ++ [o.P]) (Fs.map (·.take (k + 1))) (Qs.map (·.take (k + 1))) inv =
        .ok (out.take k ++ [⟨o.x, o.P, 0, o.P⟩]) := by
  obtain ⟨h1, h2⟩ := KF.rts_ok s h
  by_cases h3 : 2 ≤ Xs.length
  · obtain ⟨hF, hQ⟩ := h2 h3
    rw [KF.rts_defaults, KF.rts_rows s inv h1 hF hQ, KF.rtsLoop_eq] at h
    have eF : ∀ x : Vec n, (Fs.map (·.take (k + 1))).getD (List.replicate (Xs.take k ++ [x]).length s.F) =
        (Fs.getD (List.replicate Xs.length s.F)).take (k + 1) := by
      intro x
      cases Fs with
      | none => simp only [Option.map_none, Option.getD_none, List.take_replicate, List.length_append, List.length_take, List.length_singleton]; congr 1; omega
      | some F => rfl
    have eQ : ∀ x : Vec n, (Qs.map (·.take (k + 1))).getD (List.replicate (Xs.take k ++ [x]).length s.Q) =
        (Qs.getD (List.replicate Xs.length s.Q)).take (k + 1) := by
      intro x
      cases Qs with
      | none => simp only [Option.map_none, Option.getD_none, List.take_replicate, List.length_append, List.length_take, List.length_singleton]; congr 1; omega
      | some F => rfl
    generalize Fs.getD (List.replicate Xs.length s.F) = F at h hF eF
    generalize Qs.getD (List.replicate Xs.length s.Q) = Q at h hQ eQ
    set rows := (Xs.zip Ps).zip (F.zip Q) with hrows
    have hlen : rows.length = Xs.length := by simp [hrows]; omega
    have hk' : k < rows.length := by omega
    have split : rows = rows.take k ++ rows[k] :: rows.drop (k + 1) := by
      rw [List.getElem_cons_drop, List.take_append_drop]
    rw [split] at h
    have hlk : (rows.take k).length = k := by simp; omega
    have key := fun (b' : (Vec n × Mat n n) × (Mat n n × Mat n n)) (hb : rows[k].2 = b'.2) =>
      backLoop_blocks (key := fun e : (Vec n × Mat n n) × (Mat n n × Mat n n) => e.2) (est := fun r : KF.RtsOut n => (r.x, r.P))
        (fun a e e' r r' he hr => by
          simp only [Prod.mk.injEq] at hr
          simp only [KF.rtsStep, he, hr.1, hr.2]) hb (rows.take k) _ h
    rw [hlk] at key
    obtain ⟨o, ho, -⟩ := key rows[k] rfl
    refine ⟨o, ho, ?_⟩
    obtain ⟨o', ho', hfin⟩ := key ((o.x, o.P), rows[k].2) rfl
    rw [ho, Option.some.injEq] at ho'
    subst ho'
    have hfin := hfin rfl
    rw [KF.rts_defaults, eF, eQ, KF.rts_rows s inv (by simp; omega) (by simp; omega) (by simp; omega), KF.rtsLoop_eq, ← hfin]
    congr 1
    have t1 : F.take (k + 1) = F.take k ++ [F[k]'(by omega)] := by simp
    have t2 : Q.take (k + 1) = Q.take k ++ [Q[k]'(by omega)] := by simp
    rw [t1, t2, List.zip_append (by simp; omega), List.zip_append (by simp; omega), List.zip_append (by simp; omega)]
    congr 1
    · simp [hrows, List.zip, List.take_zipWith]
    · simp [hrows]
  · have hk0 : k = 0 := by omega
    subst hk0
    match Xs, Ps, h1, hk, h3 with
    | [x], [P], _, _, _ =>
      simp [KF.rtsSmoother, KF.rtsLoop] at h
      subst h
      exact ⟨_, rfl, by simp [KF.rtsSmoother, KF.rtsLoop]⟩
    | _ :: _ :: _, _, _, _, h3 => simp at h3

/-- Three filtered rows whose smoothing succeeds. -/
example : ∃ (s : KF 1 1 0) (out : _), s.rtsSmoother [vc 1, vc 2, vc 4] [sc 1, sc 1, sc 1] = .ok out ∧ out.length = 3 := by
  have hS : npInv (sc 1 * sc 1 * (sc 1)ᵀ + sc 1) = some (sc 2⁻¹) := by
    simp only [sc_transpose, sc_mul, sc_add]
    rw [show (1 : ℝ) * 1 * 1 + 1 = 2 by norm_num, sc_npInv _ (by norm_num)]
  refine ⟨{ KF.fresh 1 1 0 with F := sc 1, Q := sc 1 }, ?_⟩
  rw [KF.rts_defaults, KF.rts_rows _ _ (by simp) (by simp) (by simp)]
  simp only [KF.fresh, Option.getD_none, List.length_cons, List.length_nil, List.replicate, List.zip_cons_cons, List.zip_nil_right,
    KF.rtsLoop, bind, Except.bind, KF.rtsStep, hS]
  exact ⟨_, rfl, rfl⟩

/-! ## The module-level `rts_smoother` -/

theorem KFun.rtsLoop_eq : ∀ es, KFun.rtsLoop es =
    backLoop (fun e : (Vec n × Mat n n) × (Mat n n × Mat n n) => (⟨e.1.1, e.1.2, 0, e.1.2⟩ : KF.RtsOut n))
      (fun e _ r => KF.rtsStep npInv e.1.1 e.1.2 e.2.1 e.2.2 r) es
  | [] => rfl
  | [e] => rfl
  | e :: e' :: rest => by
    rw [KFun.rtsLoop, backLoop, KFun.rtsLoop_eq (e' :: rest)]
    generalize backLoop _ _ (e' :: rest) = q
    cases q with
    | error e => rfl
    | ok out =>
      cases out with
      | nil => rfl
      | cons o out =>
        simp only [bind, Except.bind]
        cases KF.rtsStep npInv e.1.1 e.1.2 e.2.1 e.2.2 o <;> rfl

theorem KFun.rts_rows {Xs : List (Vec n)} {Ps Fs Qs : List (Mat n n)} (h : Xs.length = Ps.length)
    (hF : Xs.length ≤ Fs.length + 1) (hQ : Xs.length ≤ Qs.length + 1) :
    KFun.rtsSmoother Xs Ps Fs Qs = KFun.rtsLoop ((Xs.zip Ps).zip ((Fs ++ [0]).zip (Qs ++ [0]))) := by
  rw [KFun.rtsSmoother, if_neg (by simp [h]), if_neg (by omega)]

theorem KFun.rts_ok {Xs : List (Vec n)} {Ps Fs Qs : List (Mat n n)} {out} (h : KFun.rtsSmoother Xs Ps Fs Qs = .ok out) :
    Xs.length = Ps.length ∧ Xs.length ≤ Fs.length + 1 ∧ Xs.length ≤ Qs.length + 1 := by
  unfold KFun.rtsSmoother at h
  split at h
  · cases h
  · split at h
    · cases h
    · omega

/-- **C155** The module-level `rts_smoother`. -/
theorem C155_function_tail (Xs : List (Vec n)) (Ps Fs Qs : List (Mat n n)) (k : ℕ) {out} (h : KFun.rtsSmoother Xs Ps Fs Qs = .ok out) :
    KFun.rtsSmoother (Xs.drop k) (Ps.drop k) (Fs.drop k) (Qs.drop k) = .ok (out.drop k) := by
  obtain ⟨h1, hF, hQ⟩ := KFun.rts_ok h
  rw [KFun.rts_rows h1 hF hQ, KFun.rtsLoop_eq] at h
  rw [KFun.rts_rows (by simp [h1]) (by simp only [List.length_drop]; omega) (by simp only [List.length_drop]; omega), KFun.rtsLoop_eq]
  have hd := backLoop_drop k _ h
  rw [← hd]
  by_cases hk : k < Xs.length
  · congr 1
    rw [zip_drop', zip_drop', zip_drop', List.drop_append_of_le_length (by omega), List.drop_append_of_le_length (by omega)]
  · rw [zip_drop', zip_drop', List.drop_eq_nil_of_le (by omega : Xs.length ≤ k)]
    simp

/-- **C155** The module-level `rts_smoother`, in blocks. -/
theorem C155_function_blocks (Xs : List (Vec n)) (Ps Fs Qs : List (Mat n n)) (k : ℕ) {out} (h : KFun.rtsSmoother Xs Ps Fs Qs = .ok out)
    (hk : k < Xs.length) : ∃ o, out[k]? = some o ∧
      KFun.rtsSmoother (Xs.take k ++ [o.x]) (Ps.take k ++ [o.P]) (Fs.take k) (Qs.take k) = .ok (out.take k ++ [⟨o.x, o.P, 0, o.P⟩]) := by
  obtain ⟨h1, hF, hQ⟩ := KFun.rts_ok h
  rw [KFun.rts_rows h1 hF hQ, KFun.rtsLoop_eq] at h
  set rows := (Xs.zip Ps).zip ((Fs ++ [0]).zip (Qs ++ [0])) with hrows
  have hlen : rows.length = Xs.length := by simp [hrows]; omega
  have hk' : k < rows.length := by omega
  have split : rows = rows.take k ++ rows[k] :: rows.drop (k + 1) := by
    rw [List.getElem_cons_drop, List.take_append_drop]
  rw [split] at h
  have hlk : (rows.take k).length = k := by simp; omega
  have key := fun (b' : (Vec n × Mat n n) × (Mat n n × Mat n n)) =>
    backLoop_blocks (key := fun _ : (Vec n × Mat n n) × (Mat n n × Mat n n) => ()) (est := fun r : KF.RtsOut n => (r.x, r.P)) (b' := b')
      (fun a e e' r r' he hr => by
        simp only [Prod.mk.injEq] at hr
        simp only [KF.rtsStep, hr.1, hr.2]) rfl (rows.take k) _ h
  rw [hlk] at key
  obtain ⟨o, ho, -⟩ := key rows[k]
  refine ⟨o, ho, ?_⟩
  obtain ⟨o', ho', hfin⟩ := key ((o.x, o.P), (0, 0))
  rw [ho, Option.some.injEq] at ho'
  subst ho'
  have hfin := hfin rfl
  rw [KFun.rts_rows (by simp; omega) (by simp; omega) (by simp; omega), KFun.rtsLoop_eq, ← hfin]
  congr 1
  rw [List.zip_append (by simp; omega), List.zip_append (by simp; omega), List.zip_append (by simp; omega)]
  congr 1
  simp only [hrows, List.zip, List.take_zipWith]
  rw [List.take_append_of_le_length (by omega), List.take_append_of_le_length (by omega)]

/-! ## `UnscentedKalmanFilter.rts_smoother` -/

theorem UKF.rtsLoop_eq (s : UKF n m p) : ∀ es, s.rtsLoop es =
    backLoop (fun e : (Vec n × Mat n n) × Option ℝ => (⟨e.1.1, e.1.2, 0⟩ : UKF.RtsOut n)) (fun e _ r => s.rtsStep e.1.1 e.1.2 e.2 r) es
  | [] => rfl
  | [e] => rfl
  | e :: e' :: rest => by
    rw [UKF.rtsLoop, backLoop, UKF.rtsLoop_eq s (e' :: rest)]
    generalize backLoop _ _ (e' :: rest) = q
    cases q with
    | error e => rfl
    | ok out =>
      cases out with
      | nil => rfl
      | cons o out =>
        simp only
        cases s.rtsStep e.1.1 e.1.2 e.2 o <;> rfl

/-- The time steps from `k` on. -/
def Spec.dtsDrop (k : ℕ) : UKF.DtArg → UKF.DtArg
  | .list l => .list (l.drop k)
  | d => d

theorem rtsDts_drop (s : UKF n m p) (N k : ℕ) (d : UKF.DtArg) : (s.rtsDts N d).drop k = s.rtsDts (N - k) (Spec.dtsDrop k d) := by
  cases d with
  | none => simp [UKF.rtsDts, Spec.dtsDrop]
  | scalar c => simp [UKF.rtsDts, Spec.dtsDrop]
  | list l =>
    simp only [UKF.rtsDts, Spec.dtsDrop]
    apply List.ext_getElem?
    intro i
    simp only [List.getElem?_drop, List.getElem?_map]
    by_cases hi : i < N - k
    · rw [List.getElem?_range (by omega), List.getElem?_range hi]
      simp
    · rw [List.getElem?_eq_none (by simp; omega), List.getElem?_eq_none (by simp; omega)]
      rfl

theorem rtsDts_take (s : UKF n m p) {N k : ℕ} (h : k ≤ N) (d : UKF.DtArg) : (s.rtsDts N d).take k = s.rtsDts k d := by
  cases d with
  | none => simp [UKF.rtsDts, h]
  | scalar c => simp [UKF.rtsDts, h]
  | list l => simp only [UKF.rtsDts, ← List.map_take, List.take_range, min_eq_left h]

theorem rtsDts_length (s : UKF n m p) (N : ℕ) (d : UKF.DtArg) : (s.rtsDts N d).length = N := by
  cases d <;> simp [UKF.rtsDts]

/-- **C155** `UnscentedKalmanFilter.rts_smoother`. -/
theorem C155_unscented_tail (s : UKF n m p) (Xs : List (Vec n)) (Ps : List (Mat n n)) (Qs Qs') (dts : UKF.DtArg) (k : ℕ) {out}
    (h : s.rtsSmoother Xs Ps Qs dts = .ok out) :
    s.rtsSmoother (Xs.drop k) (Ps.drop k) Qs' (Spec.dtsDrop k dts) = .ok (out.drop k) := by
  unfold UKF.rtsSmoother at h ⊢
  split at h
  · cases h
  · rename_i h1
    rw [if_neg (by simp only [List.length_drop]; omega), UKF.rtsLoop_eq, List.length_drop, ← rtsDts_drop, ← zip_drop', ← zip_drop']
    rw [UKF.rtsLoop_eq] at h
    exact backLoop_drop k _ h

/-- **C155** `UnscentedKalmanFilter.rts_smoother`, in blocks. -/
theorem C155_unscented_blocks (s : UKF n m p) (Xs : List (Vec n)) (Ps : List (Mat n n)) (Qs Qs') (dts : UKF.DtArg) (k : ℕ) {out}
    (h : s.rtsSmoother Xs Ps Qs dts = .ok out) (hk : k < Xs.length) : ∃ o, out[k]? = some o ∧
      s.rtsSmoother (Xs.take k ++ [o.x]) (Ps.take k ++ [o.P]) Qs' dts = .ok (out.take k ++ [⟨o.x, o.P, 0⟩]) := by
  unfold UKF.rtsSmoother at h
  split at h
  · cases h
  · rename_i h1
    rw [UKF.rtsLoop_eq] at h
    have hd := rtsDts_length s Xs.length dts
    set rows := (Xs.zip Ps).zip (s.rtsDts Xs.length dts) with hrows
    have hlen : rows.length = Xs.length := by simp [hrows, hd]; omega
    have hk' : k < rows.length := by omega
    have split : rows = rows.take k ++ rows[k] :: rows.drop (k + 1) := by
      rw [List.getElem_cons_drop, List.take_append_drop]
    rw [split] at h
    have hlk : (rows.take k).length = k := by simp; omega
    have key := fun (b' : (Vec n × Mat n n) × Option ℝ) =>
      backLoop_blocks (key := fun _ : (Vec n × Mat n n) × Option ℝ => ()) (est := fun r : UKF.RtsOut n => (r.x, r.P)) (b' := b')
        (fun a e e' r r' he hr => by
          simp only [Prod.mk.injEq] at hr
          simp only [UKF.rtsStep, hr.1, hr.2]) rfl (rows.take k) _ h
    rw [hlk] at key
    obtain ⟨o, ho, -⟩ := key rows[k]
    refine ⟨o, ho, ?_⟩
    obtain ⟨o', ho', hfin⟩ := key ((o.x, o.P), (s.rtsDts Xs.length dts)[k]'(by omega))
    rw [ho, Option.some.injEq] at ho'
    subst ho'
    have hfin := hfin rfl
    have hl : (Xs.take k ++ [o.x]).length = k + 1 := by simp; omega
    rw [UKF.rtsSmoother, if_neg (by simp; omega), UKF.rtsLoop_eq, hl, ← rtsDts_take s (show k + 1 ≤ Xs.length by omega) dts, ← hfin]
    congr 1
    have t1 : (s.rtsDts Xs.length dts).take (k + 1) = (s.rtsDts Xs.length dts).take k ++ [(s.rtsDts Xs.length dts)[k]'(by omega)] := by simp
    rw [t1, List.zip_append (by simp; omega), List.zip_append (by simp [hd]; omega)]
    congr 1
    simp [hrows, List.zip, List.take_zipWith]

end Filterpy
