import Verif.Model.Printing
import Verif.Props.FilterBooks
import Verif.Props.KalmanBayes
import Verif.Props.KalmanBasic

/-!
# Printing an object is harmless and truthful (C120)

`repr(obj)` of the filters that cache their likelihoods goes through the caching properties, so it writes to the object.
The theorems say what is shown, when it raises and that no later call can tell that the object has been printed.
-/

namespace Filterpy

open Matrix

variable {n m l N : ℕ}

namespace Spec

/-- The state is among what is printed, and everything printed is an entry of the table of attributes. -/
def Truthful (attrs : List (String × Val)) (p : Printed) : Prop := (∃ v, ("x", v) ∈ p.items) ∧ ∀ e ∈ p.items, e ∈ attrs

/-- What printing may do to an object `s` with cached properties, `read` being its properties `log_likelihood`,
`likelihood` and `mahalanobis` and `Same` meaning equality up to the caches: it raises exactly if reading `mahalanobis`
raises, otherwise it shows the attributes, and either way it changes nothing but caches and no reading. -/
structure PrintOK {σ : Type} (Same : σ → σ → Prop) (ll lik : σ → ℝ × σ) (mah : σ → Except Err (ℝ × σ))
    (attrs : ℝ → List (String × Val)) (s : σ) (out : Prints σ) : Prop where
  raises : ∀ e, (∃ s', out = .error (e, s')) ↔ mah s = .error e
  truthful : ∀ v t, mah s = .ok (v, t) → ∃ p s', out = .ok (p, s') ∧ Truthful (attrs v) p
  harmless : Same s out.left
  readings : (ll out.left).1 = (ll s).1 ∧ (lik out.left).1 = (lik s).1 ∧
    (mah out.left).map Prod.fst = (mah s).map Prod.fst

end Spec

open Spec

/-! ## Histories with and without printing -/

/-- A history in which `none` stands for printing the object. -/
def withPrints {σ ι : Type} (step : σ → ι → Exec σ) (print : σ → Prints σ) (s : σ) : Option ι → Exec σ
  | some i => step s i
  | none => match print s with
    | .ok r => .ok r.2
    | .error e => .error e

/-- The calls of a history that are neither printing nor reading of a property. -/
def calls {ι : Type} (isRead : ι → Bool) (ops : List (Option ι)) : List ι := (ops.filterMap id).filter fun i => !isRead i

/-- The same history with and without the printing (and reading): both succeed and the objects relate by `Ok`, both raise
the same exception and the objects left behind relate by `Left`, or one of the readings raised. -/
def Spec.Invisible {σ ι : Type} (Ok Left : σ → σ → Prop) (Bad : Err → Prop) (step : σ → ι → Exec σ)
    (print : σ → Prints σ) (isRead : ι → Bool) (s : σ) (ops : List (Option ι)) : Prop :=
  (∃ s' t', runList (withPrints step print) s ops = .ok s' ∧ runList step s (calls isRead ops) = .ok t' ∧ Ok s' t') ∨
  (∃ e s' t', runList (withPrints step print) s ops = .error (e, s') ∧ runList step s (calls isRead ops) = .error (e, t') ∧
    Left s' t') ∨
  (∃ e s', runList (withPrints step print) s ops = .error (e, s') ∧ Bad e)

/-- Objects that no reading tells apart: equal up to caches (`Same`), and the three readings agree. -/
def Spec.Indist {σ : Type} (Same : σ → σ → Prop) (ll lik : σ → ℝ × σ) (mah : σ → Except Err (ℝ × σ)) (s t : σ) : Prop :=
  Same s t ∧ (ll t).1 = (ll s).1 ∧ (lik t).1 = (lik s).1 ∧ (mah t).map Prod.fst = (mah s).map Prod.fst

/-- Two outcomes that agree. -/
def AlikeRun {σ : Type} (Ok Left : σ → σ → Prop) : Exec σ → Exec σ → Prop
  | .ok s, .ok t => Ok s t
  | .error e, .error f => e.1 = f.1 ∧ Left e.2 f.2
  | _, _ => False

theorem AlikeRun.split {σ : Type} {Ok Left : σ → σ → Prop} {r r' : Exec σ} (h : AlikeRun Ok Left r r') :
    (∃ s' t', r = .ok s' ∧ r' = .ok t' ∧ Ok s' t') ∨
      ∃ e s' t', r = .error (e, s') ∧ r' = .error (e, t') ∧ Left s' t' := by
  cases r with
  | ok s => cases r' with
    | ok t => exact Or.inl ⟨s, t, rfl, rfl, h⟩
    | error f => exact False.elim h
  | error e => cases r' with
    | ok t => exact False.elim h
    | error f =>
      obtain ⟨e, s⟩ := e
      obtain ⟨f, t⟩ := f
      obtain ⟨rfl, h2⟩ := h
      exact Or.inr ⟨e, s, t, rfl, rfl, h2⟩

theorem invisible {σ ι : Type} {Ok Left : σ → σ → Prop} {Bad : Err → Prop} {step : σ → ι → Exec σ} {print : σ → Prints σ}
    {isRead : ι → Bool} (refl : ∀ s, Ok s s) (trans : ∀ a b c, Ok a b → Ok b c → Ok a c)
    (symm : ∀ a b, Ok a b → Ok b a)
    (hprint : ∀ s, (∃ r, print s = .ok r ∧ Ok s r.2) ∨ ∃ e s', print s = .error (e, s') ∧ Bad e)
    (hread : ∀ s i, isRead i = true → (∃ s', step s i = .ok s' ∧ Ok s s') ∨ ∃ e s', step s i = .error (e, s') ∧ Bad e)
    (s : σ) (ops : List (Option ι))
    (hcall : ∀ s t i, some i ∈ ops → isRead i = false → Ok s t → AlikeRun Ok Left (step s i) (step t i)) :
    Invisible Ok Left Bad step print isRead s ops := by
  suffices h : ∀ (ops : List (Option ι)) (s t : σ), Ok s t →
      (∀ s t i, some i ∈ ops → isRead i = false → Ok s t → AlikeRun Ok Left (step s i) (step t i)) →
      (∃ s' t', runList (withPrints step print) s ops = .ok s' ∧ runList step t (calls isRead ops) = .ok t' ∧ Ok s' t') ∨
      (∃ e s' t', runList (withPrints step print) s ops = .error (e, s') ∧
        runList step t (calls isRead ops) = .error (e, t') ∧ Left s' t') ∨
      (∃ e s', runList (withPrints step print) s ops = .error (e, s') ∧ Bad e) from h ops s s (refl s) hcall
  clear hcall
  intro ops
  induction ops with
  | nil => intro s t h _; exact Or.inl ⟨s, t, rfl, rfl, h⟩
  | cons o ops ih =>
    intro s t h hcall
    have hcall' : ∀ s t i, some i ∈ ops → isRead i = false → Ok s t → AlikeRun Ok Left (step s i) (step t i) :=
      fun s t i hi => hcall s t i (List.mem_cons_of_mem _ hi)
    cases o with
    | none =>
      have hc : calls isRead (none :: ops) = calls isRead ops := by simp [calls]
      rw [hc]
      rcases hprint s with ⟨r, hr, hs⟩ | ⟨e, s', hr, hb⟩
      · simp only [runList, withPrints, hr]
        exact ih r.2 t (trans _ _ _ (symm _ _ hs) h) hcall'
      · exact Or.inr (Or.inr ⟨e, s', by simp only [runList, withPrints, hr], hb⟩)
    | some i =>
      cases hi : isRead i with
      | true =>
        have hc : calls isRead (some i :: ops) = calls isRead ops := by simp [calls, hi]
        rw [hc]
        rcases hread s i hi with ⟨s', hr, hs⟩ | ⟨e, s', hr, hb⟩
        · simp only [runList, withPrints, hr]
          exact ih s' t (trans _ _ _ (symm _ _ hs) h) hcall'
        · exact Or.inr (Or.inr ⟨e, s', by simp only [runList, withPrints, hr], hb⟩)
      | false =>
        have hc : calls isRead (some i :: ops) = i :: calls isRead ops := by simp [calls, hi]
        rw [hc]
        rcases (hcall s t i (List.mem_cons_self ..) hi h).split with ⟨s', t', h1, h2, h3⟩ | ⟨e, s', t', h1, h2, h3⟩
        · simp only [runList, withPrints, h1, h2]
          exact ih s' t' h3 hcall'
        · exact Or.inr (Or.inl ⟨e, s', t', by simp only [runList, withPrints, h1], by simp only [runList, h2], h3⟩)

/-! ## Proof scheme for a single printing -/

theorem printOK_of {σ : Type} {Same : σ → σ → Prop} {ll lik : σ → ℝ × σ} {mah : σ → Except Err (ℝ × σ)}
    {attrs : ℝ → List (String × Val)} {s s1 : σ} {out : Prints σ} {P : ℝ → Printed}
    (trans : ∀ a b c, Same a b → Same b c → Same a c)
    (ho : out = match mah s1 with
      | .error e => .error (e, s1)
      | .ok c => .ok (P c.1, c.2))
    (h1 : Same s s1 ∧ (ll s1).1 = (ll s).1 ∧ (lik s1).1 = (lik s).1 ∧ (mah s1).map Prod.fst = (mah s).map Prod.fst)
    (h2 : ∀ c, mah s1 = .ok c → Same s1 c.2 ∧ (ll c.2).1 = (ll s1).1 ∧ (lik c.2).1 = (lik s1).1 ∧
      (mah c.2).map Prod.fst = .ok c.1)
    (ht : ∀ v, Truthful (attrs v) (P v)) : PrintOK Same ll lik mah attrs s out := by
  obtain ⟨a1, a2, a3, a4⟩ := h1
  cases hm : mah s1 with
  | error e =>
    rw [hm] at ho a4
    have hs : mah s = .error e := by
      cases h : mah s with
      | error e' => rw [h] at a4; exact congrArg _ (Except.error.inj a4).symm
      | ok r => rw [h] at a4; cases a4
    subst ho
    refine ⟨fun e' => ⟨?_, fun h => ?_⟩, fun v t h => ?_, a1, a2, a3, ?_⟩
    · rintro ⟨s', h⟩
      cases h
      exact hs
    · rw [hs] at h
      cases h
      exact ⟨s1, rfl⟩
    · rw [hs] at h
      cases h
    · show (mah s1).map _ = _
      rw [hm, a4]
  | ok c =>
    obtain ⟨b1, b2, b3, b4⟩ := h2 c hm
    rw [hm] at ho a4
    have hs : ∃ t, mah s = .ok (c.1, t) := by
      cases h : mah s with
      | error e' => rw [h] at a4; cases a4
      | ok r =>
        rw [h] at a4
        exact ⟨r.2, by rw [show c.1 = r.1 from Except.ok.inj a4]⟩
    obtain ⟨t0, hs⟩ := hs
    subst ho
    refine ⟨fun e' => ⟨?_, fun h => ?_⟩, fun v t h => ?_, trans _ _ _ a1 b1, b2.trans a2, b3.trans a3, ?_⟩
    · rintro ⟨s', h⟩
      cases h
    · rw [hs] at h
      cases h
    · rw [hs] at h
      cases h
      exact ⟨_, _, rfl, ht _⟩
    · show (mah c.2).map _ = _
      rw [b4, hs]
      rfl

theorem print_cases {σ : Type} {Same : σ → σ → Prop} {ll lik : σ → ℝ × σ} {mah : σ → Except Err (ℝ × σ)}
    {attrs : ℝ → List (String × Val)} {s : σ} {out : Prints σ} {Bad : Err → Prop}
    (h : PrintOK Same ll lik mah attrs s out) (hb : ∀ e, mah s = .error e → Bad e) :
    (∃ r, out = .ok r ∧ Spec.Indist Same ll lik mah s r.2) ∨ ∃ e s', out = .error (e, s') ∧ Bad e := by
  have hh := h.harmless
  have hr := h.readings
  cases out with
  | ok r => exact Or.inl ⟨r, rfl, hh, hr⟩
  | error e =>
    obtain ⟨e, s'⟩ := e
    exact Or.inr ⟨e, s', rfl, hb e ((h.raises e).1 ⟨s', rfl⟩)⟩

/-! ## `KalmanFilter` -/

/-- The attributes of `KalmanFilter` by name, `d` being the value of `mahalanobis`. -/
noncomputable def KF.attributes (expf : ℝ → ℝ) (s : KF n m l) (d : ℝ) : List (String × Val) :=
  [("dim_x", .int n), ("dim_z", .int m), ("dim_u", .int l),
   ("x", .vec s.x), ("x_prior", .vec s.xPrior), ("x_post", .vec s.xPost),
   ("P", .mat s.P), ("P_prior", .mat s.PPrior), ("P_post", .mat s.PPost),
   ("F", .mat s.F), ("H", .mat s.H), ("B", .ofB s.B), ("Q", .mat s.Q), ("R", .mat s.R), ("M", .mat s.M),
   ("z", .meas s.z), ("y", .vec s.y), ("K", .mat s.K), ("S", .mat s.S), ("SI", .mat s.SI),
   ("log-likelihood", .real s.readLogLik.1), ("likelihood", .real (s.readLik expf).1), ("mahalanobis", .real d),
   ("alpha", .real s.alpha), ("inv", .fn "inv")]

/-- Equal up to the three caches. -/
def KF.Same (s t : KF n m l) : Prop := ∃ a b c, t = { s with logLik := a, lik := b, mahal := c }

theorem KF.Same.refl (s : KF n m l) : s.Same s := ⟨s.logLik, s.lik, s.mahal, rfl⟩

theorem KF.Same.symm {s t : KF n m l} (h : s.Same t) : t.Same s := by
  obtain ⟨a, b, c, rfl⟩ := h
  exact ⟨s.logLik, s.lik, s.mahal, rfl⟩

theorem KF.Same.trans {s t u : KF n m l} (h : s.Same t) (h' : t.Same u) : s.Same u := by
  obtain ⟨a, b, c, rfl⟩ := h
  obtain ⟨a', b', c', rfl⟩ := h'
  exact ⟨a', b', c', rfl⟩

theorem KF.readMahal_fst (s : KF n m l) : s.readMahal.map Prod.fst = match s.mahal with
    | some v => .ok v
    | none => if s.y ⬝ᵥ (s.SI *ᵥ s.y) < 0 then .error .valueError else .ok (Real.sqrt (s.y ⬝ᵥ (s.SI *ᵥ s.y))) := by
  unfold KF.readMahal
  cases s.mahal with
  | some v => rfl
  | none =>
    dsimp only
    split_ifs <;> rfl

/-- **C120 (`KalmanFilter`).** Printing raises exactly if reading `mahalanobis` raises; otherwise every labelled
value shown is that attribute of the filter; and either way no attribute other than the caches and none of the three readings changes. -/
theorem C120_kf (expf : ℝ → ℝ) (s : KF n m l) :
    PrintOK KF.Same KF.readLogLik (KF.readLik expf) KF.readMahal (s.attributes expf) s (s.repr expf) := by
  have hv : ((s.readLogLik.2.readLik expf).1 : ℝ) = (s.readLik expf).1 := by
    rcases s with ⟨x, P, Q, B, F, H, R, al, M, z, K, y, S, SI, xp, Pp, xq, Pq, ll, lk, mh, iv⟩
    cases ll <;> cases lk <;> rfl
  refine printOK_of (s1 := (s.readLogLik.2.readLik expf).2) (P := fun v => ⟨"KalmanFilter object",
      [("dim_x", .int n), ("dim_z", .int m), ("dim_u", .int l), ("x", .vec s.x), ("P", .mat s.P),
       ("x_prior", .vec s.xPrior), ("P_prior", .mat s.PPrior), ("x_post", .vec s.xPost), ("P_post", .mat s.PPost),
       ("F", .mat s.F), ("Q", .mat s.Q), ("R", .mat s.R), ("H", .mat s.H), ("K", .mat s.K), ("y", .vec s.y),
       ("S", .mat s.S), ("SI", .mat s.SI), ("M", .mat s.M), ("B", .ofB s.B), ("z", .meas s.z),
       ("log-likelihood", .real s.readLogLik.1), ("likelihood", .real (s.readLogLik.2.readLik expf).1), ("mahalanobis", .real v),
       ("alpha", .real s.alpha), ("inv", .fn "inv")]⟩) (fun _ _ _ h h' => h.trans h') ?_ ?_ ?_ ?_
  · unfold KF.repr
    dsimp only
    generalize KF.readMahal _ = r
    cases r <;> rfl
  · rcases s with ⟨x, P, Q, B, F, H, R, al, M, z, K, y, S, SI, xp, Pp, xq, Pq, ll, lk, mh, iv⟩
    cases ll <;> cases lk <;> refine ⟨⟨_, _, _, rfl⟩, rfl, rfl, ?_⟩ <;> (rw [KF.readMahal_fst, KF.readMahal_fst]; rfl)
  · generalize (s.readLogLik.2.readLik expf).2 = s
    intro c h
    rcases s with ⟨x, P, Q, B, F, H, R, al, M, z, K, y, S, SI, xp, Pp, xq, Pq, ll, lk, mh, iv⟩
    cases mh with
    | some v =>
      obtain rfl := Except.ok.inj h
      cases ll <;> cases lk <;> exact ⟨⟨_, _, _, rfl⟩, rfl, rfl, rfl⟩
    | none =>
      simp only [KF.readMahal] at h
      split_ifs at h
      obtain rfl := Except.ok.inj h
      cases ll <;> cases lk <;> exact ⟨⟨_, _, _, rfl⟩, rfl, rfl, rfl⟩
  · intro v
    rw [hv]
    simp [Truthful, KF.attributes]

/-! ## `ExtendedKalmanFilter` -/

/-- The attributes of `ExtendedKalmanFilter` by name, `d` being the value of `mahalanobis`. -/
noncomputable def EKF.attributes (expf : ℝ → ℝ) (s : EKF n m l) (d : ℝ) : List (String × Val) :=
  [("x", .vec s.x), ("x_prior", .vec s.xPrior), ("x_post", .vec s.xPost),
   ("P", .mat s.P), ("P_prior", .mat s.PPrior), ("P_post", .mat s.PPost),
   ("F", .mat s.F), ("B", .ofB s.B), ("Q", .mat s.Q), ("R", .mat s.R),
   ("z", .meas s.z), ("y", .vec s.y), ("K", .mat s.K), ("S", .mat s.S), ("SI", .mat s.SI),
   ("log-likelihood", .real s.readLogLik.1), ("likelihood", .real (s.readLik expf).1), ("mahalanobis", .real d)]

/-- Equal up to the three caches. -/
def EKF.Same (s t : EKF n m l) : Prop := ∃ a b c, t = { s with logLik := a, lik := b, mahal := c }

theorem EKF.Same.refl (s : EKF n m l) : s.Same s := ⟨s.logLik, s.lik, s.mahal, rfl⟩

theorem EKF.Same.symm {s t : EKF n m l} (h : s.Same t) : t.Same s := by
  obtain ⟨a, b, c, rfl⟩ := h
  exact ⟨s.logLik, s.lik, s.mahal, rfl⟩

theorem EKF.Same.trans {s t u : EKF n m l} (h : s.Same t) (h' : t.Same u) : s.Same u := by
  obtain ⟨a, b, c, rfl⟩ := h
  obtain ⟨a', b', c', rfl⟩ := h'
  exact ⟨a', b', c', rfl⟩

theorem EKF.readMahal_fst (s : EKF n m l) : s.readMahal.map Prod.fst = match s.mahal with
    | some v => .ok v
    | none => if s.y ⬝ᵥ (s.SI *ᵥ s.y) < 0 then .error .valueError else .ok (Real.sqrt (s.y ⬝ᵥ (s.SI *ᵥ s.y))) := by
  unfold EKF.readMahal
  cases s.mahal with
  | some v => rfl
  | none =>
    dsimp only
    split_ifs <;> rfl

/-- **C120 (`ExtendedKalmanFilter`).** Printing raises exactly if reading `mahalanobis` raises; otherwise every labelled
value shown is that attribute of the filter; and either way no attribute other than the caches and none of the three readings changes. -/
theorem C120_ekf (expf : ℝ → ℝ) (s : EKF n m l) :
    PrintOK EKF.Same EKF.readLogLik (EKF.readLik expf) EKF.readMahal (s.attributes expf) s (s.repr expf) := by
  have hv : ((s.readLik expf).2.readLogLik.1 : ℝ) = s.readLogLik.1 := by
    rcases s with ⟨x, P, B, F, R, Q, y, z, K, S, SI, ll, lk, mh, xp, Pp, xq, Pq⟩
    cases ll <;> cases lk <;> rfl
  refine printOK_of (s1 := (s.readLik expf).2.readLogLik.2) (P := fun v => ⟨"KalmanFilter object",
      [("x", .vec s.x), ("P", .mat s.P), ("x_prior", .vec s.xPrior), ("P_prior", .mat s.PPrior), ("F", .mat s.F),
       ("Q", .mat s.Q), ("R", .mat s.R), ("K", .mat s.K), ("y", .vec s.y), ("S", .mat s.S),
       ("likelihood", .real (s.readLik expf).1), ("log-likelihood", .real (s.readLik expf).2.readLogLik.1), ("mahalanobis", .real v)]⟩) (fun _ _ _ h h' => h.trans h') ?_ ?_ ?_ ?_
  · unfold EKF.repr
    dsimp only
    generalize EKF.readMahal _ = r
    cases r <;> rfl
  · rcases s with ⟨x, P, B, F, R, Q, y, z, K, S, SI, ll, lk, mh, xp, Pp, xq, Pq⟩
    cases ll <;> cases lk <;> refine ⟨⟨_, _, _, rfl⟩, rfl, rfl, ?_⟩ <;> (rw [EKF.readMahal_fst, EKF.readMahal_fst]; rfl)
  · generalize (s.readLik expf).2.readLogLik.2 = s
    intro c h
    rcases s with ⟨x, P, B, F, R, Q, y, z, K, S, SI, ll, lk, mh, xp, Pp, xq, Pq⟩
    cases mh with
    | some v =>
      obtain rfl := Except.ok.inj h
      cases ll <;> cases lk <;> exact ⟨⟨_, _, _, rfl⟩, rfl, rfl, rfl⟩
    | none =>
      simp only [EKF.readMahal] at h
      split_ifs at h
      obtain rfl := Except.ok.inj h
      cases ll <;> cases lk <;> exact ⟨⟨_, _, _, rfl⟩, rfl, rfl, rfl⟩
  · intro v
    rw [hv]
    simp [Truthful, EKF.attributes]

/-! ## `UnscentedKalmanFilter` -/

/-- The attributes of `UnscentedKalmanFilter` by name, `d` being the value of `mahalanobis`. -/
noncomputable def UKF.attributes {p : SigmaPts n} (expf : ℝ → ℝ) (s : UKF n m p) (d : ℝ) : List (String × Val) :=
  [("x", .vec s.x), ("x_prior", .vec s.xPrior), ("x_post", .vec s.xPost),
   ("P", .mat s.P), ("P_prior", .mat s.PPrior), ("P_post", .mat s.PPost), ("Q", .mat s.Q), ("R", .mat s.R),
   ("z", .meas s.z), ("y", .vec s.y), ("K", .mat s.K), ("S", .mat s.S), ("SI", .mat s.SI),
   ("log-likelihood", .real s.readLogLik.1), ("likelihood", .real (s.readLik expf).1), ("mahalanobis", .real d),
   ("sigmas_f", .mat s.sigmasF), ("h", .mat s.sigmasH), ("Wm", .vec p.Wm), ("Wc", .vec p.Wc),
   ("fx", .fn "fx"), ("hx", .fn "hx"), ("x_mean", .fn "x_mean"), ("z_mean", .fn "z_mean"),
   ("residual_x", .fn "residual_x"), ("residual_z", .fn "residual_z"), ("msqrt", .fn "msqrt")]

/-- Equal up to the three caches. -/
def UKF.Same {p : SigmaPts n} (s t : UKF n m p) : Prop := ∃ a b c, t = { s with logLik := a, lik := b, mahal := c }

theorem UKF.Same.refl {p : SigmaPts n} (s : UKF n m p) : s.Same s := ⟨s.logLik, s.lik, s.mahal, rfl⟩

theorem UKF.Same.symm {p : SigmaPts n} {s t : UKF n m p} (h : s.Same t) : t.Same s := by
  obtain ⟨a, b, c, rfl⟩ := h
  exact ⟨s.logLik, s.lik, s.mahal, rfl⟩

theorem UKF.Same.trans {p : SigmaPts n} {s t u : UKF n m p} (h : s.Same t) (h' : t.Same u) : s.Same u := by
  obtain ⟨a, b, c, rfl⟩ := h
  obtain ⟨a', b', c', rfl⟩ := h'
  exact ⟨a', b', c', rfl⟩

theorem UKF.readMahal_fst {p : SigmaPts n} (s : UKF n m p) : s.readMahal.map Prod.fst = match s.mahal with
    | some v => .ok v
    | none => if s.y ⬝ᵥ (s.SI *ᵥ s.y) < 0 then .error .valueError else .ok (Real.sqrt (s.y ⬝ᵥ (s.SI *ᵥ s.y))) := by
  unfold UKF.readMahal
  cases s.mahal with
  | some v => rfl
  | none =>
    dsimp only
    split_ifs <;> rfl

/-- **C120 (`UnscentedKalmanFilter`).** Printing raises exactly if reading `mahalanobis` raises; otherwise every labelled
value shown is that attribute of the filter; and either way no attribute other than the caches and none of the three readings changes. -/
theorem C120_ukf {p : SigmaPts n} (expf : ℝ → ℝ) (s : UKF n m p) :
    PrintOK UKF.Same UKF.readLogLik (UKF.readLik expf) UKF.readMahal (s.attributes expf) s (s.repr expf) := by
  have hv : ((s.readLogLik.2.readLik expf).1 : ℝ) = (s.readLik expf).1 := by
    rcases s with ⟨x, P, Q, R, dt, hx, fx, xm, zm, rx, rz, sa, sf, sh, z, K, y, S, SI, xp, Pp, xq, Pq, ll, lk, mh, iv⟩
    cases ll <;> cases lk <;> rfl
  refine printOK_of (s1 := (s.readLogLik.2.readLik expf).2) (P := fun v => ⟨"UnscentedKalmanFilter object",
      [("x", .vec s.x), ("P", .mat s.P), ("x_prior", .vec s.xPrior), ("P_prior", .mat s.PPrior), ("Q", .mat s.Q),
       ("R", .mat s.R), ("S", .mat s.S), ("K", .mat s.K), ("y", .vec s.y),
       ("log-likelihood", .real s.readLogLik.1), ("likelihood", .real (s.readLogLik.2.readLik expf).1), ("mahalanobis", .real v),
       ("sigmas_f", .mat s.sigmasF), ("h", .mat s.sigmasH), ("Wm", .vec p.Wm), ("Wc", .vec p.Wc),
       ("residual_x", .fn "residual_x"), ("residual_z", .fn "residual_z"), ("msqrt", .fn "msqrt"), ("hx", .fn "hx"),
       ("fx", .fn "fx"), ("x_mean", .fn "x_mean"), ("z_mean", .fn "z_mean")]⟩) (fun _ _ _ h h' => h.trans h') ?_ ?_ ?_ ?_
  · unfold UKF.repr
    dsimp only
    generalize UKF.readMahal _ = r
    cases r <;> rfl
  · rcases s with ⟨x, P, Q, R, dt, hx, fx, xm, zm, rx, rz, sa, sf, sh, z, K, y, S, SI, xp, Pp, xq, Pq, ll, lk, mh, iv⟩
    cases ll <;> cases lk <;> refine ⟨⟨_, _, _, rfl⟩, rfl, rfl, ?_⟩ <;> (rw [UKF.readMahal_fst, UKF.readMahal_fst]; rfl)
  · generalize (s.readLogLik.2.readLik expf).2 = s
    intro c h
    rcases s with ⟨x, P, Q, R, dt, hx, fx, xm, zm, rx, rz, sa, sf, sh, z, K, y, S, SI, xp, Pp, xq, Pq, ll, lk, mh, iv⟩
    cases mh with
    | some v =>
      obtain rfl := Except.ok.inj h
      cases ll <;> cases lk <;> exact ⟨⟨_, _, _, rfl⟩, rfl, rfl, rfl⟩
    | none =>
      simp only [UKF.readMahal] at h
      split_ifs at h
      obtain rfl := Except.ok.inj h
      cases ll <;> cases lk <;> exact ⟨⟨_, _, _, rfl⟩, rfl, rfl, rfl⟩
  · intro v
    rw [hv]
    simp [Truthful, UKF.attributes]

/-! ## `CubatureKalmanFilter` -/

/-- The attributes of `CubatureKalmanFilter` by name, `d` being the value of `mahalanobis`. -/
noncomputable def CKF.attributes (expf : ℝ → ℝ) (s : CKF n m) (d : ℝ) : List (String × Val) :=
  [("dim_x", .int n), ("dim_z", .int m), ("dt", .real s.dt),
   ("x", .vec s.x), ("x_prior", .vec s.xPrior), ("x_post", .vec s.xPost),
   ("P", .mat s.P), ("P_prior", .mat s.PPrior), ("P_post", .mat s.PPost), ("Q", .mat s.Q), ("R", .mat s.R),
   ("z", .meas s.z), ("y", .vec s.y), ("K", .mat s.K), ("S", .mat s.S), ("SI", .mat s.SI),
   ("log-likelihood", .real s.readLogLik.1), ("likelihood", .real (s.readLik expf).1), ("mahalanobis", .real d)]

/-- Equal up to the three caches. -/
def CKF.Same (s t : CKF n m) : Prop := ∃ a b c, t = { s with logLik := a, lik := b, mahal := c }

theorem CKF.Same.refl (s : CKF n m) : s.Same s := ⟨s.logLik, s.lik, s.mahal, rfl⟩

theorem CKF.Same.symm {s t : CKF n m} (h : s.Same t) : t.Same s := by
  obtain ⟨a, b, c, rfl⟩ := h
  exact ⟨s.logLik, s.lik, s.mahal, rfl⟩

theorem CKF.Same.trans {s t u : CKF n m} (h : s.Same t) (h' : t.Same u) : s.Same u := by
  obtain ⟨a, b, c, rfl⟩ := h
  obtain ⟨a', b', c', rfl⟩ := h'
  exact ⟨a', b', c', rfl⟩

theorem CKF.readMahal_fst (s : CKF n m) : s.readMahal.map Prod.fst = match s.mahal with
    | some v => .ok v
    | none => if s.yArray = false then .error .attributeError else if s.y ⬝ᵥ (s.SI *ᵥ s.y) < 0 then .error .valueError else .ok (Real.sqrt (s.y ⬝ᵥ (s.SI *ᵥ s.y))) := by
  unfold CKF.readMahal
  cases s.mahal with
  | some v => rfl
  | none =>
    dsimp only
    split_ifs <;> rfl

/-- **C120 (`CubatureKalmanFilter`).** Printing raises exactly if reading `mahalanobis` raises; otherwise every labelled
value shown is that attribute of the filter; and either way no attribute other than the caches and none of the three readings changes. -/
theorem C120_ckf (expf : ℝ → ℝ) (s : CKF n m) :
    PrintOK CKF.Same CKF.readLogLik (CKF.readLik expf) CKF.readMahal (s.attributes expf) s (s.repr expf) := by
  have hv : ((s.readLogLik.2.readLik expf).1 : ℝ) = (s.readLik expf).1 := by
    rcases s with ⟨x, P, Q, R, dt, hx, fx, rz, sf, sh, z, K, y, S, SI, xp, Pp, xq, Pq, ll, lk, mh, ya⟩
    cases ll <;> cases lk <;> rfl
  refine printOK_of (s1 := (s.readLogLik.2.readLik expf).2) (P := fun v => ⟨"CubatureKalmanFilter object",
      [("dim_x", .int n), ("dim_z", .int m), ("dt", .real s.dt), ("x", .vec s.x), ("P", .mat s.P), ("Q", .mat s.Q),
       ("R", .mat s.R), ("K", .mat s.K), ("y", .vec s.y),
       ("log-likelihood", .real s.readLogLik.1), ("likelihood", .real (s.readLogLik.2.readLik expf).1), ("mahalanobis", .real v)]⟩) (fun _ _ _ h h' => h.trans h') ?_ ?_ ?_ ?_
  · unfold CKF.repr
    dsimp only
    generalize CKF.readMahal _ = r
    cases r <;> rfl
  · rcases s with ⟨x, P, Q, R, dt, hx, fx, rz, sf, sh, z, K, y, S, SI, xp, Pp, xq, Pq, ll, lk, mh, ya⟩
    cases ll <;> cases lk <;> refine ⟨⟨_, _, _, rfl⟩, rfl, rfl, ?_⟩ <;> (rw [CKF.readMahal_fst, CKF.readMahal_fst]; rfl)
  · generalize (s.readLogLik.2.readLik expf).2 = s
    intro c h
    rcases s with ⟨x, P, Q, R, dt, hx, fx, rz, sf, sh, z, K, y, S, SI, xp, Pp, xq, Pq, ll, lk, mh, ya⟩
    cases mh with
    | some v =>
      obtain rfl := Except.ok.inj h
      cases ll <;> cases lk <;> exact ⟨⟨_, _, _, rfl⟩, rfl, rfl, rfl⟩
    | none =>
      simp only [CKF.readMahal] at h
      split_ifs at h
      obtain rfl := Except.ok.inj h
      cases ll <;> cases lk <;> exact ⟨⟨_, _, _, rfl⟩, rfl, rfl, rfl⟩
  · intro v
    rw [hv]
    simp [Truthful, CKF.attributes]

/-! ## `FadingKalmanFilter` -/

/-- The attributes of `FadingKalmanFilter` by name, `d` being the value of `mahalanobis`. -/
noncomputable def FKF.attributes (expf : ℝ → ℝ) (s : FKF n m l) (d : ℝ) : List (String × Val) :=
  [("dim_x", .int n), ("dim_z", .int m), ("dim_u", .int l),
   ("x", .vec s.x), ("x_prior", .vec s.xPrior), ("x_post", .vec s.xPost),
   ("P", .mat s.P), ("P_prior", .mat s.PPrior), ("P_post", .mat s.PPost),
   ("F", .mat s.F), ("H", .mat s.H), ("B", .ofB s.B), ("Q", .mat s.Q), ("R", .mat s.R),
   ("z", .meas s.z), ("y", .vec s.y), ("K", .mat s.K), ("S", .mat s.S), ("SI", .mat s.SI),
   ("log-likelihood", .real s.readLogLik.1), ("likelihood", .real (s.readLik expf).1), ("mahalanobis", .real d),
   ("alpha", .real s.alpha)]

/-- Equal up to the three caches. -/
def FKF.Same (s t : FKF n m l) : Prop := ∃ a b c, t = { s with logLik := a, lik := b, mahal := c }

theorem FKF.Same.refl (s : FKF n m l) : s.Same s := ⟨s.logLik, s.lik, s.mahal, rfl⟩

theorem FKF.Same.symm {s t : FKF n m l} (h : s.Same t) : t.Same s := by
  obtain ⟨a, b, c, rfl⟩ := h
  exact ⟨s.logLik, s.lik, s.mahal, rfl⟩

theorem FKF.Same.trans {s t u : FKF n m l} (h : s.Same t) (h' : t.Same u) : s.Same u := by
  obtain ⟨a, b, c, rfl⟩ := h
  obtain ⟨a', b', c', rfl⟩ := h'
  exact ⟨a', b', c', rfl⟩

theorem FKF.readMahal_fst (s : FKF n m l) : s.readMahal.map Prod.fst = match s.mahal with
    | some v => .ok v
    | none => if s.y ⬝ᵥ (s.SI *ᵥ s.y) < 0 then .error .valueError else .ok (Real.sqrt (s.y ⬝ᵥ (s.SI *ᵥ s.y))) := by
  unfold FKF.readMahal
  cases s.mahal with
  | some v => rfl
  | none =>
    dsimp only
    split_ifs <;> rfl

/-- **C120 (`FadingKalmanFilter`, `_partial`).** As for `KalmanFilter`, except that `dim_x` and `dim_z` are followed by the
state (`C120_fkf_refuted`). -/
theorem C120_fkf_partial (expf : ℝ → ℝ) (s : FKF n m l) :
    PrintOK FKF.Same FKF.readLogLik (FKF.readLik expf) FKF.readMahal (fun d => ("dim_x", .vec s.x) :: ("dim_z", .vec s.x) :: s.attributes expf d) s (s.repr expf) := by
  have hv : ((s.readLik expf).2.readLogLik.1 : ℝ) = s.readLogLik.1 := by
    rcases s with ⟨al, x, P, Q, B, F, H, R, z, K, y, S, SI, ll, lk, mh, xp, Pp, xq, Pq⟩
    cases ll <;> cases lk <;> rfl
  refine printOK_of (s1 := (s.readLik expf).2.readLogLik.2) (P := fun v => ⟨"FadingKalmanFilter object",
      [("dim_x", .vec s.x), ("dim_z", .vec s.x), ("dim_u", .int l), ("x", .vec s.x), ("P", .mat s.P), ("F", .mat s.F),
       ("Q", .mat s.Q), ("R", .mat s.R), ("H", .mat s.H), ("K", .mat s.K), ("y", .vec s.y), ("S", .mat s.S),
       ("B", .ofB s.B), ("likelihood", .real (s.readLik expf).1), ("log-likelihood", .real (s.readLik expf).2.readLogLik.1), ("mahalanobis", .real v),
       ("alpha", .real s.alpha)]⟩) (fun _ _ _ h h' => h.trans h') ?_ ?_ ?_ ?_
  · unfold FKF.repr
    dsimp only
    generalize FKF.readMahal _ = r
    cases r <;> rfl
  · rcases s with ⟨al, x, P, Q, B, F, H, R, z, K, y, S, SI, ll, lk, mh, xp, Pp, xq, Pq⟩
    cases ll <;> cases lk <;> refine ⟨⟨_, _, _, rfl⟩, rfl, rfl, ?_⟩ <;> (rw [FKF.readMahal_fst, FKF.readMahal_fst]; rfl)
  · generalize (s.readLik expf).2.readLogLik.2 = s
    intro c h
    rcases s with ⟨al, x, P, Q, B, F, H, R, z, K, y, S, SI, ll, lk, mh, xp, Pp, xq, Pq⟩
    cases mh with
    | some v =>
      obtain rfl := Except.ok.inj h
      cases ll <;> cases lk <;> exact ⟨⟨_, _, _, rfl⟩, rfl, rfl, rfl⟩
    | none =>
      simp only [FKF.readMahal] at h
      split_ifs at h
      obtain rfl := Except.ok.inj h
      cases ll <;> cases lk <;> exact ⟨⟨_, _, _, rfl⟩, rfl, rfl, rfl⟩
  · intro v
    rw [hv]
    simp [Truthful, FKF.attributes]

theorem KF.ll_val (s : KF n m l) : s.readLogLik.1 = s.logLik.getD (logpdf s.y s.S) := by
  unfold KF.readLogLik
  cases s.logLik <;> rfl

theorem KF.lik_val (expf : ℝ → ℝ) (s : KF n m l) : (s.readLik expf).1 = s.lik.getD
    (if expf (s.logLik.getD (logpdf s.y s.S)) = 0 then floatMin else expf (s.logLik.getD (logpdf s.y s.S))) := by
  rw [← KF.ll_val s]
  unfold KF.readLik
  cases s.lik <;> rfl

/-- No reading tells the two objects apart. -/
def KF.Indist (expf : ℝ → ℝ) : KF n m l → KF n m l → Prop :=
  Spec.Indist KF.Same KF.readLogLik (KF.readLik expf) KF.readMahal

/-- The attributes the readings use are those of `s`. -/
def KF.Kept (s t : KF n m l) : Prop :=
  t.y = s.y ∧ t.S = s.S ∧ t.SI = s.SI ∧ t.logLik = s.logLik ∧ t.lik = s.lik ∧ t.mahal = s.mahal

theorem KF.Indist.keep {expf : ℝ → ℝ} {s t s' t' : KF n m l} (h : s.Indist expf t) (h1 : s'.Same t') (h2 : s.Kept s')
    (h3 : t.Kept t') : s'.Indist expf t' := by
  obtain ⟨-, a2, a3, a4⟩ := h
  obtain ⟨e1, e2, e3, e4, e5, e6⟩ := h2
  obtain ⟨f1, f2, f3, f4, f5, f6⟩ := h3
  refine ⟨h1, ?_, ?_, ?_⟩
  · rw [KF.ll_val, KF.ll_val] at *
    rw [e1, e2, e4, f1, f2, f4]
    exact a2
  · rw [KF.lik_val, KF.lik_val] at *
    rw [e1, e2, e4, e5, f1, f2, f4, f5]
    exact a3
  · rw [KF.readMahal_fst, KF.readMahal_fst] at *
    rw [e1, e3, e6, f1, f3, f6]
    exact a4

theorem KF.Indist.cleared {expf : ℝ → ℝ} {s t : KF n m l} (h : s.Same t) (h1 : s.logLik = none ∧ s.lik = none ∧ s.mahal = none)
    (h2 : t.logLik = none ∧ t.lik = none ∧ t.mahal = none) : s.Indist expf t := by
  obtain ⟨a, b, c, rfl⟩ := h
  refine ⟨⟨a, b, c, rfl⟩, ?_, ?_, ?_⟩
  · rw [KF.ll_val, KF.ll_val, h1.1, h2.1]
  · rw [KF.lik_val, KF.lik_val, h1.1, h2.1, h1.2.1, h2.2.1]
  · rw [KF.readMahal_fst, KF.readMahal_fst, h1.2.2, h2.2.2]

theorem KF.Indist.refl (expf : ℝ → ℝ) (s : KF n m l) : s.Indist expf s := ⟨.refl s, rfl, rfl, rfl⟩

theorem KF.Indist.symm {expf : ℝ → ℝ} {s t : KF n m l} (h : s.Indist expf t) : t.Indist expf s :=
  ⟨h.1.symm, h.2.1.symm, h.2.2.1.symm, h.2.2.2.symm⟩

theorem KF.Indist.trans {expf : ℝ → ℝ} {s t u : KF n m l} (h : s.Indist expf t) (h' : t.Indist expf u) : s.Indist expf u :=
  ⟨h.1.trans h'.1, h'.2.1.trans h.2.1, h'.2.2.1.trans h.2.2.1, h'.2.2.2.trans h.2.2.2⟩

theorem KF.readMahal_error (s : KF n m l) (e : Err) (h : s.readMahal = .error e) : e = .valueError := by
  have := KF.readMahal_fst s
  rw [h] at this
  cases hm : s.mahal with
  | some v => rw [hm] at this; cases this
  | none =>
    rw [hm] at this
    simp only at this
    split_ifs at this
    all_goals first | (cases this; done) | (cases this; simp)

theorem KF.read_ll (expf : ℝ → ℝ) (s : KF n m l) : s.Indist expf s.readLogLik.2 := by
  have e : s.readLogLik.2 = { s with logLik := some s.readLogLik.1 } := by
    unfold KF.readLogLik
    cases h : s.logLik
    · rfl
    · simp only [← h]
  refine ⟨⟨_, _, _, e⟩, ?_, ?_, ?_⟩
  · rw [KF.ll_val s.readLogLik.2, e]
    rfl
  · rw [KF.lik_val, KF.lik_val, ← KF.ll_val s, e]
    rfl
  · rw [KF.readMahal_fst, KF.readMahal_fst, e]

theorem KF.read_lik (expf : ℝ → ℝ) (s : KF n m l) : s.Indist expf (s.readLik expf).2 := by
  cases h : s.lik with
  | some v =>
    have e : (s.readLik expf).2 = s := by
      unfold KF.readLik
      rw [h]
    rw [e]
    exact .refl expf s
  | none =>
    have e : (s.readLik expf).2 = { s.readLogLik.2 with lik := some (s.readLik expf).1 } := by
      unfold KF.readLik
      rw [h]
    refine KF.Indist.trans (KF.read_ll expf s) ⟨⟨_, _, _, e⟩, ?_, ?_, ?_⟩
    · rw [KF.ll_val, KF.ll_val, e]
    · rw [KF.lik_val expf (s.readLik expf).2, e, (KF.read_ll expf s).2.2.1]
      rfl
    · rw [KF.readMahal_fst, KF.readMahal_fst, e]

theorem KF.read_mahal (expf : ℝ → ℝ) (s : KF n m l) (r) (h : s.readMahal = .ok r) : s.Indist expf r.2 := by
  have e : r.2 = { s with mahal := some r.1 } := by
    unfold KF.readMahal at h
    cases hm : s.mahal with
    | some v => rw [hm] at h; cases h; simp only [← hm]
    | none =>
      rw [hm] at h
      simp only at h
      split_ifs at h
      cases h
      rfl
  refine ⟨⟨_, _, _, e⟩, ?_, ?_, ?_⟩
  · rw [KF.ll_val, KF.ll_val, e]
  · rw [KF.lik_val, KF.lik_val, e]
  · rw [KF.readMahal_fst r.2, e, h]
    rfl

/-- Is the call `update_sequential`? -/
def KFOp.isSequential : KFOp n m l → Bool
  | .updateSequential .. => true
  | _ => false

theorem KF.call_alike (expf : ℝ → ℝ) (s t : KF n m l) (i : KFOp n m l) (hi : i.isRead = false)
    (hs : i.isSequential = false) (h : s.Indist expf t) :
    AlikeRun (KF.Indist expf) (KF.Indist expf) (s.step expf i) (t.step expf i) := by
  have hk : ∀ {s' t' : KF n m l}, s'.Same t' → s.Kept s' → t.Kept t' → s'.Indist expf t' := h.keep
  have hc : ∀ {s' t' : KF n m l}, s'.Same t' → (s'.logLik = none ∧ s'.lik = none ∧ s'.mahal = none) →
      (t'.logLik = none ∧ t'.lik = none ∧ t'.mahal = none) → s'.Indist expf t' := .cleared
  obtain ⟨a, b, c, rfl⟩ := h.1
  cases i with
  | predict u B F Q =>
    simp only [KF.step, KF.predict]
    generalize KF.control _ _ = r
    cases r with
    | error e => exact ⟨rfl, hk ⟨_, _, _, rfl⟩ ⟨rfl, rfl, rfl, rfl, rfl, rfl⟩ ⟨rfl, rfl, rfl, rfl, rfl, rfl⟩⟩
    | ok r => exact hk ⟨_, _, _, rfl⟩ ⟨rfl, rfl, rfl, rfl, rfl, rfl⟩ ⟨rfl, rfl, rfl, rfl, rfl, rfl⟩
  | update z R H =>
    cases z with
    | none => exact hc ⟨_, _, _, rfl⟩ ⟨rfl, rfl, rfl⟩ ⟨rfl, rfl, rfl⟩
    | some z =>
      simp only [KF.step, KF.update]
      cases s.inv _ with
      | none => exact ⟨rfl, hc ⟨_, _, _, rfl⟩ ⟨rfl, rfl, rfl⟩ ⟨rfl, rfl, rfl⟩⟩
      | some r => exact hc ⟨_, _, _, rfl⟩ ⟨rfl, rfl, rfl⟩ ⟨rfl, rfl, rfl⟩
  | updateSequential st len zi Ri Hi => simp [KFOp.isSequential] at hs
  | predictSteadystate u B =>
    simp only [KF.step, KF.predictSteadystate]
    generalize KF.steadyControl _ _ = r
    cases r with
    | error e => exact ⟨rfl, hk ⟨_, _, _, rfl⟩ ⟨rfl, rfl, rfl, rfl, rfl, rfl⟩ ⟨rfl, rfl, rfl, rfl, rfl, rfl⟩⟩
    | ok r => exact hk ⟨_, _, _, rfl⟩ ⟨rfl, rfl, rfl, rfl, rfl, rfl⟩ ⟨rfl, rfl, rfl, rfl, rfl, rfl⟩
  | updateSteadystate z => cases z <;> exact hc ⟨_, _, _, rfl⟩ ⟨rfl, rfl, rfl⟩ ⟨rfl, rfl, rfl⟩
  | updateCorrelated z R H =>
    cases z with
    | none => exact hc ⟨_, _, _, rfl⟩ ⟨rfl, rfl, rfl⟩ ⟨rfl, rfl, rfl⟩
    | some z =>
      simp only [KF.step, KF.updateCorrelated]
      cases s.inv _ with
      | none => exact ⟨rfl, hc ⟨_, _, _, rfl⟩ ⟨rfl, rfl, rfl⟩ ⟨rfl, rfl, rfl⟩⟩
      | some r => exact hc ⟨_, _, _, rfl⟩ ⟨rfl, rfl, rfl⟩ ⟨rfl, rfl, rfl⟩
  | setAlpha v =>
    simp only [KF.step, KF.setAlpha]
    split_ifs
    · exact ⟨rfl, hk ⟨_, _, _, rfl⟩ ⟨rfl, rfl, rfl, rfl, rfl, rfl⟩ ⟨rfl, rfl, rfl, rfl, rfl, rfl⟩⟩
    · exact hk ⟨_, _, _, rfl⟩ ⟨rfl, rfl, rfl, rfl, rfl, rfl⟩ ⟨rfl, rfl, rfl, rfl, rfl, rfl⟩
  | readLogLik => simp [KFOp.isRead] at hi
  | readLik => simp [KFOp.isRead] at hi
  | readMahal => simp [KFOp.isRead] at hi

theorem KF.call_same (expf : ℝ → ℝ) (s t : KF n m l) (i : KFOp n m l) (hi : i.isRead = false) (h : s.Same t) :
    AlikeRun KF.Same KF.Same (s.step expf i) (t.step expf i) := by
  obtain ⟨a, b, c, rfl⟩ := h
  cases i with
  | predict u B F Q =>
    simp only [KF.step, KF.predict]
    generalize KF.control _ _ = r
    cases r with
    | error e => exact ⟨rfl, _, _, _, rfl⟩
    | ok r => exact ⟨_, _, _, rfl⟩
  | update z R H =>
    cases z with
    | none => exact ⟨_, _, _, rfl⟩
    | some z =>
      simp only [KF.step, KF.update]
      cases s.inv _ with
      | none => exact ⟨rfl, _, _, _, rfl⟩
      | some r => exact ⟨_, _, _, rfl⟩
  | updateSequential st len zi Ri Hi =>
    simp only [KF.step, KF.updateSequential]
    by_cases h : st + len ≤ m
    · simp only [dif_pos h]
      generalize (if hl : len = 1 then _ else _ : Except Err (Mat n len)) = r
      cases r with
      | error e => exact ⟨rfl, _, _, _, rfl⟩
      | ok r => exact ⟨_, _, _, rfl⟩
    · simp only [dif_neg h]
      exact ⟨rfl, _, _, _, rfl⟩
  | predictSteadystate u B =>
    simp only [KF.step, KF.predictSteadystate]
    generalize KF.steadyControl _ _ = r
    cases r with
    | error e => exact ⟨rfl, _, _, _, rfl⟩
    | ok r => exact ⟨_, _, _, rfl⟩
  | updateSteadystate z => cases z <;> exact ⟨_, _, _, rfl⟩
  | updateCorrelated z R H =>
    cases z with
    | none => exact ⟨_, _, _, rfl⟩
    | some z =>
      simp only [KF.step, KF.updateCorrelated]
      cases s.inv _ with
      | none => exact ⟨rfl, _, _, _, rfl⟩
      | some r => exact ⟨_, _, _, rfl⟩
  | setAlpha v =>
    simp only [KF.step, KF.setAlpha]
    split_ifs
    · exact ⟨rfl, _, _, _, rfl⟩
    · exact ⟨_, _, _, rfl⟩
  | readLogLik => simp [KFOp.isRead] at hi
  | readLik => simp [KFOp.isRead] at hi
  | readMahal => simp [KFOp.isRead] at hi

theorem KF.read_indist (expf : ℝ → ℝ) (s : KF n m l) (i : KFOp n m l) (hi : i.isRead = true) :
    (∃ s', s.step expf i = .ok s' ∧ s.Indist expf s') ∨ ∃ e s', s.step expf i = .error (e, s') ∧ e = .valueError := by
  cases i with
  | readLogLik => exact Or.inl ⟨_, rfl, KF.read_ll expf s⟩
  | readLik => exact Or.inl ⟨_, rfl, KF.read_lik expf s⟩
  | readMahal =>
    cases hm : s.readMahal with
    | ok r => exact Or.inl ⟨r.2, by simp only [KF.step, hm], KF.read_mahal expf s r hm⟩
    | error e => exact Or.inr ⟨e, s, by simp only [KF.step, hm], KF.readMahal_error s e hm⟩
  | _ => simp [KFOp.isRead] at hi

/-- **C120 (histories of `KalmanFilter`).** Printing the filter and reading its properties, anywhere in a history and any
number of times, changes nothing: either one of the readings itself raised, or the history ends as it would have
without them (normally or with the same exception), and no attribute other than the caches is different. -/
theorem C120_kf_history (expf : ℝ → ℝ) (s : KF n m l) (ops : List (Option (KFOp n m l))) :
    Invisible KF.Same KF.Same (fun e => e = .valueError) (KF.step expf) (KF.repr expf) KFOp.isRead s ops := by
  refine invisible KF.Same.refl (fun _ _ _ h h' => h.trans h') (fun _ _ h => h.symm) (fun s => ?_) (fun s i hi => ?_) s ops
    (fun s t i _ hi h => KF.call_same expf s t i hi h)
  · rcases print_cases (C120_kf expf s) fun e => KF.readMahal_error s e with ⟨r, h1, h2⟩ | h
    · exact Or.inl ⟨r, h1, h2.1⟩
    · exact Or.inr h
  · rcases KF.read_indist expf s i hi with ⟨r, h1, h2⟩ | h
    · exact Or.inl ⟨r, h1, h2.1⟩
    · exact Or.inr h

/-- **C120 (histories of `KalmanFilter`, readings; `_partial`).** In a history without `update_sequential` the printing
and reading is not noticed by later readings either.  The full statement is for all histories; it is false for
`update_sequential` (`C120_print_then_sequential_refuted`). -/
theorem C120_kf_history_partial (expf : ℝ → ℝ) (s : KF n m l) (ops : List (Option (KFOp n m l)))
    (hops : ∀ i, some i ∈ ops → i.isSequential = false) :
    Invisible (KF.Indist expf) (KF.Indist expf) (fun e => e = .valueError) (KF.step expf) (KF.repr expf) KFOp.isRead s ops :=
  invisible (KF.Indist.refl expf) (fun _ _ _ h h' => KF.Indist.trans h h') (fun _ _ h => KF.Indist.symm h)
    (fun s => print_cases (C120_kf expf s) fun e => KF.readMahal_error s e) (KF.read_indist expf) s ops
    (fun s t i hm hi h => KF.call_alike expf s t i hi (hops i hm) h)

theorem EKF.ll_val (s : EKF n m l) : s.readLogLik.1 = s.logLik.getD (logpdf s.y s.S) := by
  unfold EKF.readLogLik
  cases s.logLik <;> rfl

theorem EKF.lik_val (expf : ℝ → ℝ) (s : EKF n m l) : (s.readLik expf).1 = s.lik.getD
    (if expf (s.logLik.getD (logpdf s.y s.S)) = 0 then floatMin else expf (s.logLik.getD (logpdf s.y s.S))) := by
  rw [← EKF.ll_val s]
  unfold EKF.readLik
  cases s.lik <;> rfl

/-- No reading tells the two objects apart. -/
def EKF.Indist (expf : ℝ → ℝ) : EKF n m l → EKF n m l → Prop :=
  Spec.Indist EKF.Same EKF.readLogLik (EKF.readLik expf) EKF.readMahal

/-- The attributes the readings use are those of `s`. -/
def EKF.Kept (s t : EKF n m l) : Prop :=
  t.y = s.y ∧ t.S = s.S ∧ t.SI = s.SI ∧ t.logLik = s.logLik ∧ t.lik = s.lik ∧ t.mahal = s.mahal

theorem EKF.Indist.keep {expf : ℝ → ℝ} {s t s' t' : EKF n m l} (h : s.Indist expf t) (h1 : s'.Same t') (h2 : s.Kept s')
    (h3 : t.Kept t') : s'.Indist expf t' := by
  obtain ⟨-, a2, a3, a4⟩ := h
  obtain ⟨e1, e2, e3, e4, e5, e6⟩ := h2
  obtain ⟨f1, f2, f3, f4, f5, f6⟩ := h3
  refine ⟨h1, ?_, ?_, ?_⟩
  · rw [EKF.ll_val, EKF.ll_val] at *
    rw [e1, e2, e4, f1, f2, f4]
    exact a2
  · rw [EKF.lik_val, EKF.lik_val] at *
    rw [e1, e2, e4, e5, f1, f2, f4, f5]
    exact a3
  · rw [EKF.readMahal_fst, EKF.readMahal_fst] at *
    rw [e1, e3, e6, f1, f3, f6]
    exact a4

theorem EKF.Indist.cleared {expf : ℝ → ℝ} {s t : EKF n m l} (h : s.Same t) (h1 : s.logLik = none ∧ s.lik = none ∧ s.mahal = none)
    (h2 : t.logLik = none ∧ t.lik = none ∧ t.mahal = none) : s.Indist expf t := by
  obtain ⟨a, b, c, rfl⟩ := h
  refine ⟨⟨a, b, c, rfl⟩, ?_, ?_, ?_⟩
  · rw [EKF.ll_val, EKF.ll_val, h1.1, h2.1]
  · rw [EKF.lik_val, EKF.lik_val, h1.1, h2.1, h1.2.1, h2.2.1]
  · rw [EKF.readMahal_fst, EKF.readMahal_fst, h1.2.2, h2.2.2]

theorem EKF.Indist.refl (expf : ℝ → ℝ) (s : EKF n m l) : s.Indist expf s := ⟨.refl s, rfl, rfl, rfl⟩

theorem EKF.Indist.symm {expf : ℝ → ℝ} {s t : EKF n m l} (h : s.Indist expf t) : t.Indist expf s :=
  ⟨h.1.symm, h.2.1.symm, h.2.2.1.symm, h.2.2.2.symm⟩

theorem EKF.Indist.trans {expf : ℝ → ℝ} {s t u : EKF n m l} (h : s.Indist expf t) (h' : t.Indist expf u) : s.Indist expf u :=
  ⟨h.1.trans h'.1, h'.2.1.trans h.2.1, h'.2.2.1.trans h.2.2.1, h'.2.2.2.trans h.2.2.2⟩

theorem EKF.readMahal_error (s : EKF n m l) (e : Err) (h : s.readMahal = .error e) : e = .valueError := by
  have := EKF.readMahal_fst s
  rw [h] at this
  cases hm : s.mahal with
  | some v => rw [hm] at this; cases this
  | none =>
    rw [hm] at this
    simp only at this
    split_ifs at this
    all_goals first | (cases this; done) | (cases this; simp)

theorem EKF.read_ll (expf : ℝ → ℝ) (s : EKF n m l) : s.Indist expf s.readLogLik.2 := by
  have e : s.readLogLik.2 = { s with logLik := some s.readLogLik.1 } := by
    unfold EKF.readLogLik
    cases h : s.logLik
    · rfl
    · simp only [← h]
  refine ⟨⟨_, _, _, e⟩, ?_, ?_, ?_⟩
  · rw [EKF.ll_val s.readLogLik.2, e]
    rfl
  · rw [EKF.lik_val, EKF.lik_val, ← EKF.ll_val s, e]
    rfl
  · rw [EKF.readMahal_fst, EKF.readMahal_fst, e]

theorem EKF.read_lik (expf : ℝ → ℝ) (s : EKF n m l) : s.Indist expf (s.readLik expf).2 := by
  cases h : s.lik with
  | some v =>
    have e : (s.readLik expf).2 = s := by
      unfold EKF.readLik
      rw [h]
    rw [e]
    exact .refl expf s
  | none =>
    have e : (s.readLik expf).2 = { s.readLogLik.2 with lik := some (s.readLik expf).1 } := by
      unfold EKF.readLik
      rw [h]
    refine EKF.Indist.trans (EKF.read_ll expf s) ⟨⟨_, _, _, e⟩, ?_, ?_, ?_⟩
    · rw [EKF.ll_val, EKF.ll_val, e]
    · rw [EKF.lik_val expf (s.readLik expf).2, e, (EKF.read_ll expf s).2.2.1]
      rfl
    · rw [EKF.readMahal_fst, EKF.readMahal_fst, e]

theorem EKF.read_mahal (expf : ℝ → ℝ) (s : EKF n m l) (r) (h : s.readMahal = .ok r) : s.Indist expf r.2 := by
  have e : r.2 = { s with mahal := some r.1 } := by
    unfold EKF.readMahal at h
    cases hm : s.mahal with
    | some v => rw [hm] at h; cases h; simp only [← hm]
    | none =>
      rw [hm] at h
      simp only at h
      split_ifs at h
      cases h
      rfl
  refine ⟨⟨_, _, _, e⟩, ?_, ?_, ?_⟩
  · rw [EKF.ll_val, EKF.ll_val, e]
  · rw [EKF.lik_val, EKF.lik_val, e]
  · rw [EKF.readMahal_fst r.2, e, h]
    rfl

/-- Is the call the reading of a property? -/
def EkfOp.isRead : EkfOp n m l → Bool
  | .readLL => true
  | .readLik => true
  | .readMahal => true
  | _ => false

theorem EKF.call_alike (expf : ℝ → ℝ) (s t : EKF n m l) (i : EkfOp n m l) (hi : i.isRead = false) (h : s.Indist expf t) :
    AlikeRun (EKF.Indist expf) EKF.Same (EkfOp.on expf s i) (EkfOp.on expf t i) := by
  obtain ⟨a, b, c, rfl⟩ := h.1
  cases i with
  | predict u =>
    simp only [EkfOp.on, EKF.predict]
    generalize FKF.control _ _ = r
    cases r with
    | error e => exact ⟨rfl, _, _, _, rfl⟩
    | ok r => exact h.keep ⟨_, _, _, rfl⟩ ⟨rfl, rfl, rfl, rfl, rfl, rfl⟩ ⟨rfl, rfl, rfl, rfl, rfl, rfl⟩
  | update z HJ hx R res =>
    cases z with
    | none => exact h.keep ⟨_, _, _, rfl⟩ ⟨rfl, rfl, rfl, rfl, rfl, rfl⟩ ⟨rfl, rfl, rfl, rfl, rfl, rfl⟩
    | some z =>
      simp only [EkfOp.on, EKF.update]
      generalize npInv _ = r
      cases r with
      | none => exact ⟨rfl, _, _, _, rfl⟩
      | some r => exact .cleared ⟨_, _, _, rfl⟩ ⟨rfl, rfl, rfl⟩ ⟨rfl, rfl, rfl⟩
  | readLL => simp [EkfOp.isRead] at hi
  | readLik => simp [EkfOp.isRead] at hi
  | readMahal => simp [EkfOp.isRead] at hi

/-- **C120 (histories of `ExtendedKalmanFilter`).** Printing the object and reading its properties, anywhere in a history and any number
of times, changes nothing: either one of the readings itself raised, or the history ends as it would have without them,
and then no attribute other than the caches and no reading is different (after an exception: no attribute other than
the caches). -/
theorem C120_ekf_history (expf : ℝ → ℝ) (s : EKF n m l) (ops : List (Option (EkfOp n m l))) :
    Invisible (EKF.Indist expf) EKF.Same (fun e => e = .valueError) (EkfOp.on expf) (EKF.repr expf) EkfOp.isRead s ops := by
  refine invisible (EKF.Indist.refl expf) (fun _ _ _ h h' => EKF.Indist.trans h h') (fun _ _ h => EKF.Indist.symm h)
    (fun s => print_cases (C120_ekf expf s) fun e => EKF.readMahal_error s e) ?_ s ops
    (fun s t i _ hi h => EKF.call_alike expf s t i hi h)
  intro s i hi
  cases i with
  | readLL => exact Or.inl ⟨_, rfl, EKF.read_ll expf s⟩
  | readLik => exact Or.inl ⟨_, rfl, EKF.read_lik expf s⟩
  | readMahal =>
    cases hm : s.readMahal with
    | ok r => exact Or.inl ⟨r.2, by simp only [EkfOp.on, hm], EKF.read_mahal expf s r hm⟩
    | error e => exact Or.inr ⟨e, s, by simp only [EkfOp.on, hm], EKF.readMahal_error s e hm⟩
  | _ => simp [EkfOp.isRead] at hi

theorem FKF.ll_val (s : FKF n m l) : s.readLogLik.1 = s.logLik.getD (logpdf s.y s.S) := by
  unfold FKF.readLogLik
  cases s.logLik <;> rfl

theorem FKF.lik_val (expf : ℝ → ℝ) (s : FKF n m l) : (s.readLik expf).1 = s.lik.getD
    (if expf (s.logLik.getD (logpdf s.y s.S)) = 0 then floatMin else expf (s.logLik.getD (logpdf s.y s.S))) := by
  rw [← FKF.ll_val s]
  unfold FKF.readLik
  cases s.lik <;> rfl

/-- No reading tells the two objects apart. -/
def FKF.Indist (expf : ℝ → ℝ) : FKF n m l → FKF n m l → Prop :=
  Spec.Indist FKF.Same FKF.readLogLik (FKF.readLik expf) FKF.readMahal

/-- The attributes the readings use are those of `s`. -/
def FKF.Kept (s t : FKF n m l) : Prop :=
  t.y = s.y ∧ t.S = s.S ∧ t.SI = s.SI ∧ t.logLik = s.logLik ∧ t.lik = s.lik ∧ t.mahal = s.mahal

theorem FKF.Indist.keep {expf : ℝ → ℝ} {s t s' t' : FKF n m l} (h : s.Indist expf t) (h1 : s'.Same t') (h2 : s.Kept s')
    (h3 : t.Kept t') : s'.Indist expf t' := by
  obtain ⟨-, a2, a3, a4⟩ := h
  obtain ⟨e1, e2, e3, e4, e5, e6⟩ := h2
  obtain ⟨f1, f2, f3, f4, f5, f6⟩ := h3
  refine ⟨h1, ?_, ?_, ?_⟩
  · rw [FKF.ll_val, FKF.ll_val] at *
    rw [e1, e2, e4, f1, f2, f4]
    exact a2
  · rw [FKF.lik_val, FKF.lik_val] at *
    rw [e1, e2, e4, e5, f1, f2, f4, f5]
    exact a3
  · rw [FKF.readMahal_fst, FKF.readMahal_fst] at *
    rw [e1, e3, e6, f1, f3, f6]
    exact a4

theorem FKF.Indist.cleared {expf : ℝ → ℝ} {s t : FKF n m l} (h : s.Same t) (h1 : s.logLik = none ∧ s.lik = none ∧ s.mahal = none)
    (h2 : t.logLik = none ∧ t.lik = none ∧ t.mahal = none) : s.Indist expf t := by
  obtain ⟨a, b, c, rfl⟩ := h
  refine ⟨⟨a, b, c, rfl⟩, ?_, ?_, ?_⟩
  · rw [FKF.ll_val, FKF.ll_val, h1.1, h2.1]
  · rw [FKF.lik_val, FKF.lik_val, h1.1, h2.1, h1.2.1, h2.2.1]
  · rw [FKF.readMahal_fst, FKF.readMahal_fst, h1.2.2, h2.2.2]

theorem FKF.Indist.refl (expf : ℝ → ℝ) (s : FKF n m l) : s.Indist expf s := ⟨.refl s, rfl, rfl, rfl⟩

theorem FKF.Indist.symm {expf : ℝ → ℝ} {s t : FKF n m l} (h : s.Indist expf t) : t.Indist expf s :=
  ⟨h.1.symm, h.2.1.symm, h.2.2.1.symm, h.2.2.2.symm⟩

theorem FKF.Indist.trans {expf : ℝ → ℝ} {s t u : FKF n m l} (h : s.Indist expf t) (h' : t.Indist expf u) : s.Indist expf u :=
  ⟨h.1.trans h'.1, h'.2.1.trans h.2.1, h'.2.2.1.trans h.2.2.1, h'.2.2.2.trans h.2.2.2⟩

theorem FKF.readMahal_error (s : FKF n m l) (e : Err) (h : s.readMahal = .error e) : e = .valueError := by
  have := FKF.readMahal_fst s
  rw [h] at this
  cases hm : s.mahal with
  | some v => rw [hm] at this; cases this
  | none =>
    rw [hm] at this
    simp only at this
    split_ifs at this
    all_goals first | (cases this; done) | (cases this; simp)

theorem FKF.read_ll (expf : ℝ → ℝ) (s : FKF n m l) : s.Indist expf s.readLogLik.2 := by
  have e : s.readLogLik.2 = { s with logLik := some s.readLogLik.1 } := by
    unfold FKF.readLogLik
    cases h : s.logLik
    · rfl
    · simp only [← h]
  refine ⟨⟨_, _, _, e⟩, ?_, ?_, ?_⟩
  · rw [FKF.ll_val s.readLogLik.2, e]
    rfl
  · rw [FKF.lik_val, FKF.lik_val, ← FKF.ll_val s, e]
    rfl
  · rw [FKF.readMahal_fst, FKF.readMahal_fst, e]

theorem FKF.read_lik (expf : ℝ → ℝ) (s : FKF n m l) : s.Indist expf (s.readLik expf).2 := by
  cases h : s.lik with
  | some v =>
    have e : (s.readLik expf).2 = s := by
      unfold FKF.readLik
      rw [h]
    rw [e]
    exact .refl expf s
  | none =>
    have e : (s.readLik expf).2 = { s.readLogLik.2 with lik := some (s.readLik expf).1 } := by
      unfold FKF.readLik
      rw [h]
    refine FKF.Indist.trans (FKF.read_ll expf s) ⟨⟨_, _, _, e⟩, ?_, ?_, ?_⟩
    · rw [FKF.ll_val, FKF.ll_val, e]
    · rw [FKF.lik_val expf (s.readLik expf).2, e, (FKF.read_ll expf s).2.2.1]
      rfl
    · rw [FKF.readMahal_fst, FKF.readMahal_fst, e]

theorem FKF.read_mahal (expf : ℝ → ℝ) (s : FKF n m l) (r) (h : s.readMahal = .ok r) : s.Indist expf r.2 := by
  have e : r.2 = { s with mahal := some r.1 } := by
    unfold FKF.readMahal at h
    cases hm : s.mahal with
    | some v => rw [hm] at h; cases h; simp only [← hm]
    | none =>
      rw [hm] at h
      simp only at h
      split_ifs at h
      cases h
      rfl
  refine ⟨⟨_, _, _, e⟩, ?_, ?_, ?_⟩
  · rw [FKF.ll_val, FKF.ll_val, e]
  · rw [FKF.lik_val, FKF.lik_val, e]
  · rw [FKF.readMahal_fst r.2, e, h]
    rfl

/-- Is the call the reading of a property? -/
def FkfOp.isRead : FkfOp n m l → Bool
  | .readLL => true
  | .readLik => true
  | .readMahal => true
  | _ => false

theorem FKF.call_alike (expf : ℝ → ℝ) (s t : FKF n m l) (i : FkfOp n m l) (hi : i.isRead = false) (h : s.Indist expf t) :
    AlikeRun (FKF.Indist expf) FKF.Same (FkfOp.on expf s i) (FkfOp.on expf t i) := by
  obtain ⟨a, b, c, rfl⟩ := h.1
  cases i with
  | predict u =>
    simp only [FkfOp.on, FKF.predict]
    generalize FKF.control _ _ = r
    cases r with
    | error e => exact ⟨rfl, _, _, _, rfl⟩
    | ok r => exact h.keep ⟨_, _, _, rfl⟩ ⟨rfl, rfl, rfl, rfl, rfl, rfl⟩ ⟨rfl, rfl, rfl, rfl, rfl, rfl⟩
  | update z R =>
    cases z with
    | none => exact h.keep ⟨_, _, _, rfl⟩ ⟨rfl, rfl, rfl, rfl, rfl, rfl⟩ ⟨rfl, rfl, rfl, rfl, rfl, rfl⟩
    | some z =>
      simp only [FkfOp.on, FKF.update]
      generalize npInv _ = r
      cases r with
      | none => exact ⟨rfl, _, _, _, rfl⟩
      | some r => exact .cleared ⟨_, _, _, rfl⟩ ⟨rfl, rfl, rfl⟩ ⟨rfl, rfl, rfl⟩
  | readLL => simp [FkfOp.isRead] at hi
  | readLik => simp [FkfOp.isRead] at hi
  | readMahal => simp [FkfOp.isRead] at hi

/-- **C120 (histories of `FadingKalmanFilter`).** Printing the object and reading its properties, anywhere in a history and any number
of times, changes nothing: either one of the readings itself raised, or the history ends as it would have without them,
and then no attribute other than the caches and no reading is different (after an exception: no attribute other than
the caches). -/
theorem C120_fkf_history (expf : ℝ → ℝ) (s : FKF n m l) (ops : List (Option (FkfOp n m l))) :
    Invisible (FKF.Indist expf) FKF.Same (fun e => e = .valueError) (FkfOp.on expf) (FKF.repr expf) FkfOp.isRead s ops := by
  refine invisible (FKF.Indist.refl expf) (fun _ _ _ h h' => FKF.Indist.trans h h') (fun _ _ h => FKF.Indist.symm h)
    (fun s => print_cases (C120_fkf_partial expf s) fun e => FKF.readMahal_error s e) ?_ s ops
    (fun s t i _ hi h => FKF.call_alike expf s t i hi h)
  intro s i hi
  cases i with
  | readLL => exact Or.inl ⟨_, rfl, FKF.read_ll expf s⟩
  | readLik => exact Or.inl ⟨_, rfl, FKF.read_lik expf s⟩
  | readMahal =>
    cases hm : s.readMahal with
    | ok r => exact Or.inl ⟨r.2, by simp only [FkfOp.on, hm], FKF.read_mahal expf s r hm⟩
    | error e => exact Or.inr ⟨e, s, by simp only [FkfOp.on, hm], FKF.readMahal_error s e hm⟩
  | _ => simp [FkfOp.isRead] at hi

theorem UKF.ll_val {p : SigmaPts n} (s : UKF n m p) : s.readLogLik.1 = s.logLik.getD (logpdf s.y s.S) := by
  unfold UKF.readLogLik
  cases s.logLik <;> rfl

theorem UKF.lik_val {p : SigmaPts n} (expf : ℝ → ℝ) (s : UKF n m p) : (s.readLik expf).1 = s.lik.getD
    (if expf (s.logLik.getD (logpdf s.y s.S)) = 0 then floatMin else expf (s.logLik.getD (logpdf s.y s.S))) := by
  rw [← UKF.ll_val s]
  unfold UKF.readLik
  cases s.lik <;> rfl

/-- No reading tells the two objects apart. -/
def UKF.Indist {p : SigmaPts n} (expf : ℝ → ℝ) : UKF n m p → UKF n m p → Prop :=
  Spec.Indist UKF.Same UKF.readLogLik (UKF.readLik expf) UKF.readMahal

/-- The attributes the readings use are those of `s`. -/
def UKF.Kept {p : SigmaPts n} (s t : UKF n m p) : Prop :=
  t.y = s.y ∧ t.S = s.S ∧ t.SI = s.SI ∧ t.logLik = s.logLik ∧ t.lik = s.lik ∧ t.mahal = s.mahal

theorem UKF.Indist.keep {p : SigmaPts n} {expf : ℝ → ℝ} {s t s' t' : UKF n m p} (h : s.Indist expf t) (h1 : s'.Same t') (h2 : s.Kept s')
    (h3 : t.Kept t') : s'.Indist expf t' := by
  obtain ⟨-, a2, a3, a4⟩ := h
  obtain ⟨e1, e2, e3, e4, e5, e6⟩ := h2
  obtain ⟨f1, f2, f3, f4, f5, f6⟩ := h3
  refine ⟨h1, ?_, ?_, ?_⟩
  · rw [UKF.ll_val, UKF.ll_val] at *
    rw [e1, e2, e4, f1, f2, f4]
    exact a2
  · rw [UKF.lik_val, UKF.lik_val] at *
    rw [e1, e2, e4, e5, f1, f2, f4, f5]
    exact a3
  · rw [UKF.readMahal_fst, UKF.readMahal_fst] at *
    rw [e1, e3, e6, f1, f3, f6]
    exact a4

theorem UKF.Indist.cleared {p : SigmaPts n} {expf : ℝ → ℝ} {s t : UKF n m p} (h : s.Same t) (h1 : s.logLik = none ∧ s.lik = none ∧ s.mahal = none)
    (h2 : t.logLik = none ∧ t.lik = none ∧ t.mahal = none) : s.Indist expf t := by
  obtain ⟨a, b, c, rfl⟩ := h
  refine ⟨⟨a, b, c, rfl⟩, ?_, ?_, ?_⟩
  · rw [UKF.ll_val, UKF.ll_val, h1.1, h2.1]
  · rw [UKF.lik_val, UKF.lik_val, h1.1, h2.1, h1.2.1, h2.2.1]
  · rw [UKF.readMahal_fst, UKF.readMahal_fst, h1.2.2, h2.2.2]

theorem UKF.Indist.refl {p : SigmaPts n} (expf : ℝ → ℝ) (s : UKF n m p) : s.Indist expf s := ⟨.refl s, rfl, rfl, rfl⟩

theorem UKF.Indist.symm {p : SigmaPts n} {expf : ℝ → ℝ} {s t : UKF n m p} (h : s.Indist expf t) : t.Indist expf s :=
  ⟨h.1.symm, h.2.1.symm, h.2.2.1.symm, h.2.2.2.symm⟩

theorem UKF.Indist.trans {p : SigmaPts n} {expf : ℝ → ℝ} {s t u : UKF n m p} (h : s.Indist expf t) (h' : t.Indist expf u) : s.Indist expf u :=
  ⟨h.1.trans h'.1, h'.2.1.trans h.2.1, h'.2.2.1.trans h.2.2.1, h'.2.2.2.trans h.2.2.2⟩

theorem UKF.readMahal_error {p : SigmaPts n} (s : UKF n m p) (e : Err) (h : s.readMahal = .error e) : e = .valueError := by
  have := UKF.readMahal_fst s
  rw [h] at this
  cases hm : s.mahal with
  | some v => rw [hm] at this; cases this
  | none =>
    rw [hm] at this
    simp only at this
    split_ifs at this
    all_goals first | (cases this; done) | (cases this; simp)

theorem UKF.read_ll {p : SigmaPts n} (expf : ℝ → ℝ) (s : UKF n m p) : s.Indist expf s.readLogLik.2 := by
  have e : s.readLogLik.2 = { s with logLik := some s.readLogLik.1 } := by
    unfold UKF.readLogLik
    cases h : s.logLik
    · rfl
    · simp only [← h]
  refine ⟨⟨_, _, _, e⟩, ?_, ?_, ?_⟩
  · rw [UKF.ll_val s.readLogLik.2, e]
    rfl
  · rw [UKF.lik_val, UKF.lik_val, ← UKF.ll_val s, e]
    rfl
  · rw [UKF.readMahal_fst, UKF.readMahal_fst, e]

theorem UKF.read_lik {p : SigmaPts n} (expf : ℝ → ℝ) (s : UKF n m p) : s.Indist expf (s.readLik expf).2 := by
  cases h : s.lik with
  | some v =>
    have e : (s.readLik expf).2 = s := by
      unfold UKF.readLik
      rw [h]
    rw [e]
    exact .refl expf s
  | none =>
    have e : (s.readLik expf).2 = { s.readLogLik.2 with lik := some (s.readLik expf).1 } := by
      unfold UKF.readLik
      rw [h]
    refine UKF.Indist.trans (UKF.read_ll expf s) ⟨⟨_, _, _, e⟩, ?_, ?_, ?_⟩
    · rw [UKF.ll_val, UKF.ll_val, e]
    · rw [UKF.lik_val expf (s.readLik expf).2, e, (UKF.read_ll expf s).2.2.1]
      rfl
    · rw [UKF.readMahal_fst, UKF.readMahal_fst, e]

theorem UKF.read_mahal {p : SigmaPts n} (expf : ℝ → ℝ) (s : UKF n m p) (r) (h : s.readMahal = .ok r) : s.Indist expf r.2 := by
  have e : r.2 = { s with mahal := some r.1 } := by
    unfold UKF.readMahal at h
    cases hm : s.mahal with
    | some v => rw [hm] at h; cases h; simp only [← hm]
    | none =>
      rw [hm] at h
      simp only at h
      split_ifs at h
      cases h
      rfl
  refine ⟨⟨_, _, _, e⟩, ?_, ?_, ?_⟩
  · rw [UKF.ll_val, UKF.ll_val, e]
  · rw [UKF.lik_val, UKF.lik_val, e]
  · rw [UKF.readMahal_fst r.2, e, h]
    rfl

/-- Is the call the reading of a property? -/
def UkfCall.isRead : UkfCall n m → Bool
  | .readLL => true
  | .readLik => true
  | .readMahal => true
  | _ => false

theorem UKF.call_alike {p : SigmaPts n} (expf : ℝ → ℝ) (s t : UKF n m p) (i : UkfCall n m) (hi : i.isRead = false) (h : s.Indist expf t) :
    AlikeRun (UKF.Indist expf) UKF.Same (UkfCall.on expf s i) (UkfCall.on expf t i) := by
  obtain ⟨a, b, c, rfl⟩ := h.1
  cases i with
  | predict dt fx =>
    simp only [UkfCall.on, UKF.predict, UKF.computeProcessSigmas]
    cases p.points s.x s.P with
    | error e => exact ⟨rfl, _, _, _, rfl⟩
    | ok r =>
      simp only [UKF.predictUT]
      generalize p.points _ _ = r
      cases r with
      | error e => exact ⟨rfl, _, _, _, rfl⟩
      | ok r => exact h.keep ⟨_, _, _, rfl⟩ ⟨rfl, rfl, rfl, rfl, rfl, rfl⟩ ⟨rfl, rfl, rfl, rfl, rfl, rfl⟩
  | update z R hx =>
    cases z with
    | none => exact h.keep ⟨_, _, _, rfl⟩ ⟨rfl, rfl, rfl, rfl, rfl, rfl⟩ ⟨rfl, rfl, rfl, rfl, rfl, rfl⟩
    | some z =>
      simp only [UkfCall.on, UKF.update]
      generalize s.inv _ = r
      cases r with
      | none => exact ⟨rfl, _, _, _, rfl⟩
      | some r => exact .cleared ⟨_, _, _, rfl⟩ ⟨rfl, rfl, rfl⟩ ⟨rfl, rfl, rfl⟩
  | readLL => simp [UkfCall.isRead] at hi
  | readLik => simp [UkfCall.isRead] at hi
  | readMahal => simp [UkfCall.isRead] at hi

/-- **C120 (histories of `UnscentedKalmanFilter`).** Printing the object and reading its properties, anywhere in a history and any number
of times, changes nothing: either one of the readings itself raised, or the history ends as it would have without them,
and then no attribute other than the caches and no reading is different (after an exception: no attribute other than
the caches). -/
theorem C120_ukf_history {p : SigmaPts n} (expf : ℝ → ℝ) (s : UKF n m p) (ops : List (Option (UkfCall n m))) :
    Invisible (UKF.Indist expf) UKF.Same (fun e => e = .valueError) (UkfCall.on expf) (UKF.repr expf) UkfCall.isRead s ops := by
  refine invisible (UKF.Indist.refl expf) (fun _ _ _ h h' => UKF.Indist.trans h h') (fun _ _ h => UKF.Indist.symm h)
    (fun s => print_cases (C120_ukf expf s) fun e => UKF.readMahal_error s e) ?_ s ops
    (fun s t i _ hi h => UKF.call_alike expf s t i hi h)
  intro s i hi
  cases i with
  | readLL => exact Or.inl ⟨_, rfl, UKF.read_ll expf s⟩
  | readLik => exact Or.inl ⟨_, rfl, UKF.read_lik expf s⟩
  | readMahal =>
    cases hm : s.readMahal with
    | ok r => exact Or.inl ⟨r.2, by simp only [UkfCall.on, hm], UKF.read_mahal expf s r hm⟩
    | error e => exact Or.inr ⟨e, s, by simp only [UkfCall.on, hm], UKF.readMahal_error s e hm⟩
  | _ => simp [UkfCall.isRead] at hi

theorem CKF.ll_val (s : CKF n m) : s.readLogLik.1 = s.logLik.getD (logpdf s.y s.S) := by
  unfold CKF.readLogLik
  cases s.logLik <;> rfl

theorem CKF.lik_val (expf : ℝ → ℝ) (s : CKF n m) : (s.readLik expf).1 = s.lik.getD
    (if expf (s.logLik.getD (logpdf s.y s.S)) = 0 then floatMin else expf (s.logLik.getD (logpdf s.y s.S))) := by
  rw [← CKF.ll_val s]
  unfold CKF.readLik
  cases s.lik <;> rfl

/-- No reading tells the two objects apart. -/
def CKF.Indist (expf : ℝ → ℝ) : CKF n m → CKF n m → Prop :=
  Spec.Indist CKF.Same CKF.readLogLik (CKF.readLik expf) CKF.readMahal

/-- The attributes the readings use are those of `s`. -/
def CKF.Kept (s t : CKF n m) : Prop :=
  t.y = s.y ∧ t.S = s.S ∧ t.SI = s.SI ∧ t.logLik = s.logLik ∧ t.lik = s.lik ∧ t.mahal = s.mahal ∧ t.yArray = s.yArray

theorem CKF.Indist.keep {expf : ℝ → ℝ} {s t s' t' : CKF n m} (h : s.Indist expf t) (h1 : s'.Same t') (h2 : s.Kept s')
    (h3 : t.Kept t') : s'.Indist expf t' := by
  obtain ⟨-, a2, a3, a4⟩ := h
  obtain ⟨e1, e2, e3, e4, e5, e6, e7⟩ := h2
  obtain ⟨f1, f2, f3, f4, f5, f6, f7⟩ := h3
  refine ⟨h1, ?_, ?_, ?_⟩
  · rw [CKF.ll_val, CKF.ll_val] at *
    rw [e1, e2, e4, f1, f2, f4]
    exact a2
  · rw [CKF.lik_val, CKF.lik_val] at *
    rw [e1, e2, e4, e5, f1, f2, f4, f5]
    exact a3
  · rw [CKF.readMahal_fst, CKF.readMahal_fst] at *
    rw [e1, e3, e6, f1, f3, f6, e7, f7]
    exact a4

theorem CKF.Indist.cleared {expf : ℝ → ℝ} {s t : CKF n m} (h : s.Same t) (h1 : s.logLik = none ∧ s.lik = none ∧ s.mahal = none)
    (h2 : t.logLik = none ∧ t.lik = none ∧ t.mahal = none) : s.Indist expf t := by
  obtain ⟨a, b, c, rfl⟩ := h
  refine ⟨⟨a, b, c, rfl⟩, ?_, ?_, ?_⟩
  · rw [CKF.ll_val, CKF.ll_val, h1.1, h2.1]
  · rw [CKF.lik_val, CKF.lik_val, h1.1, h2.1, h1.2.1, h2.2.1]
  · rw [CKF.readMahal_fst, CKF.readMahal_fst, h1.2.2, h2.2.2]

theorem CKF.Indist.refl (expf : ℝ → ℝ) (s : CKF n m) : s.Indist expf s := ⟨.refl s, rfl, rfl, rfl⟩

theorem CKF.Indist.symm {expf : ℝ → ℝ} {s t : CKF n m} (h : s.Indist expf t) : t.Indist expf s :=
  ⟨h.1.symm, h.2.1.symm, h.2.2.1.symm, h.2.2.2.symm⟩

theorem CKF.Indist.trans {expf : ℝ → ℝ} {s t u : CKF n m} (h : s.Indist expf t) (h' : t.Indist expf u) : s.Indist expf u :=
  ⟨h.1.trans h'.1, h'.2.1.trans h.2.1, h'.2.2.1.trans h.2.2.1, h'.2.2.2.trans h.2.2.2⟩

theorem CKF.readMahal_error (s : CKF n m) (e : Err) (h : s.readMahal = .error e) : e = .valueError ∨ e = .attributeError := by
  have := CKF.readMahal_fst s
  rw [h] at this
  cases hm : s.mahal with
  | some v => rw [hm] at this; cases this
  | none =>
    rw [hm] at this
    simp only at this
    split_ifs at this
    all_goals first | (cases this; done) | (cases this; simp)

theorem CKF.read_ll (expf : ℝ → ℝ) (s : CKF n m) : s.Indist expf s.readLogLik.2 := by
  have e : s.readLogLik.2 = { s with logLik := some s.readLogLik.1 } := by
    unfold CKF.readLogLik
    cases h : s.logLik
    · rfl
    · simp only [← h]
  refine ⟨⟨_, _, _, e⟩, ?_, ?_, ?_⟩
  · rw [CKF.ll_val s.readLogLik.2, e]
    rfl
  · rw [CKF.lik_val, CKF.lik_val, ← CKF.ll_val s, e]
    rfl
  · rw [CKF.readMahal_fst, CKF.readMahal_fst, e]

theorem CKF.read_lik (expf : ℝ → ℝ) (s : CKF n m) : s.Indist expf (s.readLik expf).2 := by
  cases h : s.lik with
  | some v =>
    have e : (s.readLik expf).2 = s := by
      unfold CKF.readLik
      rw [h]
    rw [e]
    exact .refl expf s
  | none =>
    have e : (s.readLik expf).2 = { s.readLogLik.2 with lik := some (s.readLik expf).1 } := by
      unfold CKF.readLik
      rw [h]
    refine CKF.Indist.trans (CKF.read_ll expf s) ⟨⟨_, _, _, e⟩, ?_, ?_, ?_⟩
    · rw [CKF.ll_val, CKF.ll_val, e]
    · rw [CKF.lik_val expf (s.readLik expf).2, e, (CKF.read_ll expf s).2.2.1]
      rfl
    · rw [CKF.readMahal_fst, CKF.readMahal_fst, e]

theorem CKF.read_mahal (expf : ℝ → ℝ) (s : CKF n m) (r) (h : s.readMahal = .ok r) : s.Indist expf r.2 := by
  have e : r.2 = { s with mahal := some r.1 } := by
    unfold CKF.readMahal at h
    cases hm : s.mahal with
    | some v => rw [hm] at h; cases h; simp only [← hm]
    | none =>
      rw [hm] at h
      simp only at h
      split_ifs at h
      cases h
      rfl
  refine ⟨⟨_, _, _, e⟩, ?_, ?_, ?_⟩
  · rw [CKF.ll_val, CKF.ll_val, e]
  · rw [CKF.lik_val, CKF.lik_val, e]
  · rw [CKF.readMahal_fst r.2, e, h]
    rfl

/-- Is the call the reading of a property? -/
def CkfCall.isRead : CkfCall n m → Bool
  | .readLL => true
  | .readLik => true
  | .readMahal => true
  | _ => false

theorem CKF.call_alike (chol : Mat n n → Except Err (Mat n n)) (expf : ℝ → ℝ) (s t : CKF n m) (i : CkfCall n m) (hi : i.isRead = false) (h : s.Indist expf t) :
    AlikeRun (CKF.Indist expf) CKF.Same (CkfCall.on chol expf s i) (CkfCall.on chol expf t i) := by
  obtain ⟨a, b, c, rfl⟩ := h.1
  cases i with
  | predict dt =>
    simp only [CkfCall.on, CKF.predict]
    generalize sphericalRadialSigmas chol s.x s.P = r
    cases r with
    | error e => exact ⟨rfl, _, _, _, rfl⟩
    | ok r => exact h.keep ⟨_, _, _, rfl⟩ ⟨rfl, rfl, rfl, rfl, rfl, rfl, rfl⟩ ⟨rfl, rfl, rfl, rfl, rfl, rfl, rfl⟩
  | update z R =>
    cases z with
    | none => exact h.keep ⟨_, _, _, rfl⟩ ⟨rfl, rfl, rfl, rfl, rfl, rfl, rfl⟩ ⟨rfl, rfl, rfl, rfl, rfl, rfl, rfl⟩
    | some z =>
      simp only [CkfCall.on, CKF.update]
      generalize npInv _ = r
      cases r with
      | none => exact ⟨rfl, _, _, _, rfl⟩
      | some r =>
        cases z with
        | col z => exact .cleared ⟨_, _, _, rfl⟩ ⟨rfl, rfl, rfl⟩ ⟨rfl, rfl, rfl⟩
        | flat z =>
          by_cases hm : m ≤ 1
          · simp only [if_pos hm]
            exact .cleared ⟨_, _, _, rfl⟩ ⟨rfl, rfl, rfl⟩ ⟨rfl, rfl, rfl⟩
          · simp only [if_neg hm]
            exact ⟨rfl, _, _, _, rfl⟩
  | readLL => simp [CkfCall.isRead] at hi
  | readLik => simp [CkfCall.isRead] at hi
  | readMahal => simp [CkfCall.isRead] at hi

/-- **C120 (histories of `CubatureKalmanFilter`).** Printing the object and reading its properties, anywhere in a history and any number
of times, changes nothing: either one of the readings itself raised, or the history ends as it would have without them,
and then no attribute other than the caches and no reading is different (after an exception: no attribute other than
the caches). -/
theorem C120_ckf_history (chol : Mat n n → Except Err (Mat n n)) (expf : ℝ → ℝ) (s : CKF n m) (ops : List (Option (CkfCall n m))) :
    Invisible (CKF.Indist expf) CKF.Same (fun e => e = .valueError ∨ e = .attributeError) (CkfCall.on chol expf) (CKF.repr expf) CkfCall.isRead s ops := by
  refine invisible (CKF.Indist.refl expf) (fun _ _ _ h h' => CKF.Indist.trans h h') (fun _ _ h => CKF.Indist.symm h)
    (fun s => print_cases (C120_ckf expf s) fun e => CKF.readMahal_error s e) ?_ s ops
    (fun s t i _ hi h => CKF.call_alike chol expf s t i hi h)
  intro s i hi
  cases i with
  | readLL => exact Or.inl ⟨_, rfl, CKF.read_ll expf s⟩
  | readLik => exact Or.inl ⟨_, rfl, CKF.read_lik expf s⟩
  | readMahal =>
    cases hm : s.readMahal with
    | ok r => exact Or.inl ⟨r.2, by simp only [CkfCall.on, hm], CKF.read_mahal expf s r hm⟩
    | error e => exact Or.inr ⟨e, s, by simp only [CkfCall.on, hm], CKF.readMahal_error s e hm⟩
  | _ => simp [CkfCall.isRead] at hi

/-! ## When printing raises -/

/-- **C120 (`KalmanFilter`, no exception).** A filter whose covariances are covariance matrices can always be printed (and
its `mahalanobis` always be read), whatever history of the ordinary calls it has been through. -/
theorem C120_kf_never_raises (expf : ℝ → ℝ) (s s' : KF n m l) (hs : PSDState s) (hSI : s.SI.PosSemidef)
    (hinv : s.inv = npInv) (ops : List (KFOp n m l)) (ho : ∀ o ∈ ops, GoodOp o)
    (h : s.run expf ops = .ok s') : ∃ p t, s'.repr expf = .ok (p, t) := by
  have key : PSDState s' ∧ s'.SI.PosSemidef ∧ s'.inv = npInv := by
    induction ops generalizing s with
    | nil =>
      simp only [KF.run, Except.ok.injEq] at h
      subst h
      exact ⟨hs, hSI, hinv⟩
    | cons op ops ih =>
      simp only [KF.run] at h
      cases hst : s.step expf op with
      | error e => rw [hst] at h; cases h
      | ok t =>
        rw [hst] at h
        have hgood := ho op (List.mem_cons_self ..)
        have h1 : PSDState t := by
          have := hs.step expf hgood
          rw [hst] at this
          exact this
        have h2 : t.SI.PosSemidef ∧ t.inv = npInv := by
          cases op with
          | predict u B F Q =>
            obtain ⟨x, rfl⟩ := KF.predict_ok hst
            exact ⟨hSI, hinv⟩
          | update z R H =>
            cases z with
            | none =>
              simp only [KF.step, KF.update, Except.ok.injEq] at hst
              subst hst
              exact ⟨hSI, hinv⟩
            | some z =>
              obtain ⟨SI, hi, rfl⟩ := KF.update_ok hst
              refine ⟨?_, hinv⟩
              rw [hinv] at hi
              obtain ⟨-, rfl⟩ := npInv_eq_some.1 hi
              exact (S_psd hs.P (PSDArg.resolve hgood hs.R)).inv
          | updateSequential st len zi Ri Hi =>
            obtain ⟨hb, Ki, _, _, rfl⟩ := KF.updateSequential_ok hst
            exact ⟨hSI, hinv⟩
          | predictSteadystate u B =>
            obtain ⟨x, rfl⟩ := KF.predictSteadystate_ok hst
            exact ⟨hSI, hinv⟩
          | updateSteadystate z =>
            simp only [KF.step, Except.ok.injEq] at hst
            subst hst
            cases z <;> exact ⟨hSI, hinv⟩
          | updateCorrelated z R H => exact hgood.elim
          | setAlpha v =>
            simp only [KF.step, KF.setAlpha] at hst
            split_ifs at hst
            cases hst
            exact ⟨hSI, hinv⟩
          | _ =>
            obtain ⟨-, -, -, e⟩ := read_read expf s t _ rfl hst
            rw [e]
            exact ⟨hSI, hinv⟩
        exact ih t h1 h2.1 h2.2 (fun o h => ho o (List.mem_cons_of_mem _ h)) h
  cases hr : s'.repr expf with
  | ok r => exact ⟨r.1, r.2, rfl⟩
  | error e =>
    exfalso
    obtain ⟨e, t⟩ := e
    have h1 := ((C120_kf expf s').raises e).1 ⟨t, hr⟩
    have h2 := KF.readMahal_fst s'
    rw [h1] at h2
    cases hm' : s'.mahal with
    | some v => rw [hm'] at h2; cases h2
    | none =>
      rw [hm'] at h2
      simp only at h2
      rw [if_neg (not_lt.2 (PSD.quad key.2.1 s'.y))] at h2
      cases h2

/-- The freshly constructed filter meets the hypotheses. -/
example (expf : ℝ → ℝ) (z : Vec 2) : ∃ s', (KF.fresh 2 2 1).run expf [.update (some z) .none none,
    .readMahal, .predict .none none none .none] = .ok s' ∧ ∃ p t, s'.repr expf = .ok (p, t) := by
  have hfr : PSDState (KF.fresh 2 2 1) := ⟨.one, .one, .one, .one, .one, by norm_num [KF.fresh]⟩
  have hSI : (KF.fresh 2 2 1).SI.PosSemidef := .zero
  have hgood : ∀ o ∈ ([.update (some z) .none none, .readMahal, .predict .none none none .none] : List (KFOp 2 2 1)),
      GoodOp o := by
    intro o ho
    simp only [List.mem_cons, List.not_mem_nil, or_false] at ho
    rcases ho with rfl | rfl | rfl <;> simp [GoodOp, PSDArg]
  obtain ⟨s1, h1, -⟩ := update_pd (KF.fresh 2 2 1) z .none none rfl PosDef.one PosDef.one
  obtain ⟨p, t, h2⟩ := C120_kf_never_raises expf _ s1 hfr hSI rfl [.update (some z) .none none]
    (fun o ho => hgood o (by simp at ho; simp [ho])) (by simp only [KF.run, KF.step, h1])
  have h3 : ∃ r, s1.readMahal = .ok r := by
    cases hr : s1.readMahal with
    | ok r => exact ⟨r, rfl⟩
    | error e =>
      obtain ⟨t', ht⟩ := ((C120_kf expf s1).raises e).2 hr
      rw [h2] at ht
      cases ht
  obtain ⟨r, h3⟩ := h3
  have hB : r.2.B = none := by
    obtain ⟨⟨a, b, c, e⟩, -⟩ := KF.read_mahal expf s1 r h3
    obtain ⟨SI, -, rfl⟩ := KF.update_ok h1
    rw [e]
    rfl
  obtain ⟨s', h4⟩ : ∃ s', r.2.predict .none none none .none = .ok s' := by
    unfold KF.predict
    rw [hB]
    exact ⟨_, rfl⟩
  have hrun : (KF.fresh 2 2 1).run expf [.update (some z) .none none, .readMahal, .predict .none none none .none]
      = .ok s' := by
    simp only [KF.run, KF.step, h1, h3, h4]
  exact ⟨s', hrun, C120_kf_never_raises expf _ s' hfr hSI rfl _ hgood hrun⟩

/-- **C120 (`CubatureKalmanFilter`, exceptions).** Printing the filter, or reading `mahalanobis`, raises `AttributeError`
exactly as long as no measurement has been taken. -/
theorem C120_ckf_attribute_error (chol : Mat n n → Except Err (Mat n n)) (expf : ℝ → ℝ) (s s' : CKF n m)
    (hy : s.yArray = false) (hm : s.mahal = none) (ops : List (CkfCall n m))
    (h : runList (CkfCall.on chol expf) s ops = .ok s') :
    (∃ t, s'.repr expf = .error (.attributeError, t)) ↔ ∀ z R, CkfCall.update (some z) R ∉ ops := by
  have key : ∀ (ops : List (CkfCall n m)) (s : CKF n m), runList (CkfCall.on chol expf) s ops = .ok s' →
      (s.yArray = true → s'.yArray = true) ∧ (s.yArray = false → s.mahal = none →
        (s'.yArray = true ∨ s'.mahal = none) ∧ (s'.yArray = false ↔ ∀ z R, CkfCall.update (some z) R ∉ ops)) := by
    intro ops
    induction ops with
    | nil =>
      intro s h
      simp only [runList, Except.ok.injEq] at h
      subst h
      exact ⟨id, fun h1 h2 => ⟨Or.inr h2, by simp [h1]⟩⟩
    | cons op ops ih =>
      intro s h
      simp only [runList] at h
      cases hst : CkfCall.on chol expf s op with
      | error e => rw [hst] at h; cases h
      | ok t =>
        rw [hst] at h
        have hk : (t.yArray = s.yArray ∧ (s.yArray = false → s.mahal = none → t.mahal = none) ∧
            ∀ z R, op ≠ CkfCall.update (some z) R) ∨ (t.yArray = true ∧ ∃ z R, op = .update (some z) R) := by
          cases op with
          | predict dt =>
            simp only [CkfCall.on, CKF.predict] at hst
            split at hst
            · cases hst
            · cases hst
              exact Or.inl ⟨rfl, fun _ h => h, by simp⟩
          | update z R =>
            cases z with
            | none =>
              simp only [CkfCall.on, CKF.update] at hst
              cases hst
              exact Or.inl ⟨rfl, fun _ h => h, by simp⟩
            | some z =>
              refine Or.inr ⟨?_, z, R, rfl⟩
              simp only [CkfCall.on, CKF.update] at hst
              split at hst
              · cases hst
              · cases z with
                | col z => cases hst; rfl
                | flat z =>
                  simp only at hst
                  split_ifs at hst
                  cases hst
                  rfl
          | readLL =>
            have := CKF.read_ll expf s
            simp only [CkfCall.on, Except.ok.injEq] at hst
            subst hst
            refine Or.inl ⟨?_, fun _ h => ?_, by simp⟩
            · obtain ⟨⟨a, b, c, e⟩, -⟩ := this
              rw [e]
            · unfold CKF.readLogLik
              cases s.logLik <;> exact h
          | readLik =>
            have := CKF.read_lik expf s
            simp only [CkfCall.on, Except.ok.injEq] at hst
            subst hst
            refine Or.inl ⟨?_, fun _ h => ?_, by simp⟩
            · obtain ⟨⟨a, b, c, e⟩, -⟩ := this
              rw [e]
            · rcases s with ⟨x, P, Q, R, dt, hx, fx, rz, sf, sh, z, K, y, S, SI, xp, Pp, xq, Pq, ll, lk, mh, ya⟩
              cases ll <;> cases lk <;> exact h
          | readMahal =>
            simp only [CkfCall.on] at hst
            cases hm : s.readMahal with
            | error e => rw [hm] at hst; cases hst
            | ok r =>
              rw [hm] at hst
              cases hst
              refine Or.inl ⟨?_, fun h1 h2 => ?_, by simp⟩
              · obtain ⟨⟨a, b, c, e⟩, -⟩ := CKF.read_mahal expf s r hm
                rw [e]
              · exfalso
                unfold CKF.readMahal at hm
                rw [h2] at hm
                simp [h1] at hm
        obtain ⟨i1, i2⟩ := ih t h
        rcases hk with ⟨k1, k2, k3⟩ | ⟨k1, z, R, rfl⟩
        · refine ⟨fun h1 => i1 (k1.trans h1), fun h1 h2 => ?_⟩
          obtain ⟨j1, j2⟩ := i2 (k1.trans h1) (k2 h1 h2)
          refine ⟨j1, j2.trans ⟨fun hh z R hmem => ?_, fun hh z R hmem => hh z R (List.mem_cons_of_mem _ hmem)⟩⟩
          rcases List.mem_cons.1 hmem with h | h
          · exact k3 z R h.symm
          · exact hh z R h
        · refine ⟨fun _ => i1 k1, fun h1 h2 => ⟨Or.inl (i1 k1), ⟨fun h3 => ?_, fun h3 => ?_⟩⟩⟩
          · rw [i1 k1] at h3
            cases h3
          · exact absurd (List.mem_cons_self ..) (h3 z R)
  obtain ⟨k1, k2⟩ := (key ops s h).2 hy hm
  rw [(C120_ckf expf s').raises, ← k2]
  constructor
  · intro h1
    by_contra h2
    have h3 := CKF.readMahal_fst s'
    rw [h1] at h3
    cases hm' : s'.mahal with
    | some v => rw [hm'] at h3; cases h3
    | none =>
      rw [hm'] at h3
      simp only [if_neg h2] at h3
      split_ifs at h3
      all_goals cases h3
  · intro h1
    have h2 : s'.mahal = none := k1.resolve_left (by simp [h1])
    unfold CKF.readMahal
    rw [h2]
    simp [h1]

/-- **C120 (`CubatureKalmanFilter`, refuted).** A filter that has been constructed, and a filter that has been through
predictions and missing measurements only, cannot be printed. -/
theorem C120_ckf_new_refuted (expf : ℝ → ℝ) (hx : Vec n → Vec m) (fx : Vec n → ℝ → Vec n) (dt : ℝ)
    (chol : Mat n n → Except Err (Mat n n)) (ops : List (CkfCall n m)) (s' : CKF n m)
    (ho : ∀ o ∈ ops, (∃ d, o = .predict d) ∨ ∃ R, o = .update none R)
    (h : runList (CkfCall.on chol expf) (CKF.fresh n m dt hx fx) ops = .ok s') :
    ∃ t, s'.repr expf = .error (.attributeError, t) := by
  refine (C120_ckf_attribute_error chol expf _ s' rfl rfl ops h).2 fun z R hm => ?_
  rcases ho _ hm with ⟨d, hd⟩ | ⟨R', hr⟩
  · cases hd
  · cases hr

/-- A filter of this kind exists and has been through something. -/
example (expf : ℝ → ℝ) : ∃ s', runList (CkfCall.on (fun _ => .ok 1) expf) (CKF.fresh 1 1 1 (fun x => x) fun x _ => x)
    [.predict none, .update none .none, .predict (some 2)] = .ok s' := by
  simp [runList, CkfCall.on, CKF.predict, CKF.update, sphericalRadialSigmas]

/-- **C120 (`KalmanFilter`, refuted).** Printing between a measurement and `update_sequential` is noticed: the
`mahalanobis` returned afterwards is the one of the first measurement. -/
theorem C120_print_then_sequential_refuted : ∃ (s s' t' : KF 1 1 1) (z z' : Vec 1) (expf : ℝ → ℝ),
    runList (withPrints (KF.step expf) (KF.repr expf)) s
      [some (.update (some z) .none none), none, some (.updateSequential 0 1 z' .none none)] = .ok s' ∧
    runList (KF.step expf) s [.update (some z) .none none, .updateSequential 0 1 z' .none none] = .ok t' ∧
    s'.readMahal.map Prod.fst ≠ t'.readMahal.map Prod.fst := by
  set s : KF 1 1 1 := { KF.fresh 1 1 1 with H := 1 } with hs
  obtain ⟨s1, h1, hS, hSI, hy, hx, hP', c1, c2, c3⟩ := update_pd s 0 .none none rfl PosDef.one PosDef.one
  have hy0 : s1.y = 0 := by rw [hy]; simp [hs, KF.fresh]
  have hS2 : s1.S = !![2] := by
    rw [hS]; ext i j; fin_cases i; fin_cases j
    simp [hs, KF.fresh, MatArg.resolve]; norm_num
  have hx1 : s1.x = 0 := by rw [hx]; simp [hs, KF.fresh]
  have hP1 : s1.P.PosDef := by
    rw [hP', hS]; exact post_pd PosDef.one PosDef.one
  have hattr : s1.H = 1 ∧ s1.R = 1 := by
    obtain ⟨_, _, rfl⟩ := KF.update_ok h1; exact ⟨rfl, rfl⟩
  have hinv2 : (!![(2 : ℝ)] : Mat 1 1)⁻¹ = !![1/2] := by
    apply inv_eq_right_inv
    ext i j; fin_cases i; fin_cases j; simp
  have hSI2 : s1.SI = !![1/2] := by rw [hSI, hS2, hinv2]
  have hprint : ∃ p t, s1.repr Real.exp = .ok (p, t) ∧ t.mahal = some 0 := by
    rcases s1 with ⟨x, P, Q, B, F, H, R, al, M, zz, K, y, S, SI, xp, Pp, xq, Pq, ll, lk, mh, iv⟩
    simp only at c1 c2 c3 hy0
    subst c1 c2 c3 hy0
    unfold KF.repr
    simp only [KF.readLogLik, KF.readLik, KF.readMahal, zero_dotProduct, lt_irrefl, if_false, Real.sqrt_zero]
    exact ⟨_, _, rfl, rfl⟩
  obtain ⟨p, t, hprint, ht⟩ := hprint
  have hh := (C120_kf Real.exp s1).harmless
  rw [hprint] at hh
  obtain ⟨a, b, c, rfl⟩ : ∃ a b c, t = { s1 with logLik := a, lik := b, mahal := c } := hh
  obtain rfl : c = some 0 := ht
  have hseq : ∀ a b c, ∃ s', ({ s1 with logLik := a, lik := b, mahal := c } : KF 1 1 1).updateSequential 0 (1 : Vec 1)
      .none none = .ok s' := by
    intro a b c
    refine KF.updateSequential_total _ (by norm_num) 1 .none none ?_
    have h0 : 0 < s1.P 0 0 := hP1.diag_pos
    have e : (KF.sliceIdx (start := 0) (len := 1) (m := 1) (by norm_num) : Fin 1 → Fin 1) = id := by
      funext i; exact Subsingleton.elim _ _
    rw [e]
    simp [hattr, MatArg.resolve]
    intro h; linarith
  obtain ⟨s3, h3⟩ := hseq a b (some 0)
  obtain ⟨t3, k3⟩ := hseq s1.logLik s1.lik s1.mahal
  refine ⟨s, s3, t3, 0, 1, Real.exp, ?_, ?_, ?_⟩
  · simp only [runList, withPrints, KF.step, h1, hprint, h3]
  · simp only [runList, KF.step, h1]
    rw [k3]
  · obtain ⟨hb, Ki, _, _, rfl⟩ := KF.updateSequential_ok h3
    obtain ⟨hb', Ki', _, _, rfl⟩ := KF.updateSequential_ok k3
    have e : (KF.sliceIdx hb : Fin 1 → Fin 1) = id := by funext i; exact Subsingleton.elim _ _
    have hset : KF.sliceSet hb (0 : Vec 1) ((1 : Vec 1) - (Option.getD none
        ((1 : Mat 1 1).submatrix id id)) *ᵥ (0 : Vec 1)) = 1 := by
      funext i; simp [KF.sliceSet]
    rw [KF.readMahal_fst, KF.readMahal_fst]
    simp only [c3, hx1, hattr, e, hy0, hset, hSI2]
    intro h
    have hq : (1 : Vec 1) ⬝ᵥ ((!![1/2] : Mat 1 1) *ᵥ 1) = 1 / 2 := by
      simp [dotProduct, mulVec, Matrix.of_apply]
    rw [hq, if_neg (by norm_num)] at h
    have h' : (0 : ℝ) = Real.sqrt (1 / 2) := Except.ok.inj h
    exact (Real.sqrt_pos.2 (by norm_num : (0 : ℝ) < 1 / 2)).ne h'

/-! ## The other classes

Their `__repr__` reads attributes only, so it is a function of the object and printing changes nothing. -/

/-- **C120 (`EnsembleKalmanFilter`).** -/
theorem C120_enkf (s : EnKF n m N) : Truthful
    [("dim_x", .int n), ("dim_z", .int m), ("dt", .real s.dt), ("hx", .fn "hx"), ("fx", .fn "fx"),
     ("x", .vec s.x), ("x_prior", .vec s.xPrior), ("P", .mat s.P), ("P_prior", .mat s.PPrior),
     ("Q", .mat s.Q), ("R", .mat s.R), ("S", .mat s.S), ("K", .mat s.K), ("sigmas", .mat s.sigmas)] s.repr := by
  simp [Truthful, EnKF.repr]

/-- **C120 (`InformationFilter`).** -/
theorem C120_if (s : IF n m l) : Truthful
    [("dim_x", .int n), ("dim_z", .int m), ("dim_u", .int l), ("x", .vec s.x), ("x_prior", .vec s.xPrior),
     ("P_inv", .mat s.Pinv), ("P_inv_prior", .mat s.PinvPrior), ("F", .ofB s.F), ("_F_inv", .ofB s.Finv),
     ("B", .ofB s.B), ("H", .mat s.H), ("Q", .mat s.Q), ("R_inv", .mat s.Rinv), ("z", .meas fun i => s.z.map (· i)),
     ("y", .vec s.y), ("K", .mat s.K), ("S", .mat s.S), ("likelihood", .real s.lik), ("log-likelihood", .real s.logLik),
     ("inv", .fn "inv")] s.repr := by
  simp [Truthful, IF.repr]

/-- **C120 (`SquareRootKalmanFilter`).** The covariances shown are the ones the properties return. -/
theorem C120_srkf (s : SRKF n m l) : Truthful
    [("dim_x", .int n), ("dim_z", .int m), ("dim_u", .int l), ("x", .vec s.x), ("P", .mat s.getP), ("Q", .mat s.getQ),
     ("R", .mat s.getR), ("S", .mat s.getS), ("SI", .mat s.getSI), ("F", .mat s.F), ("H", .mat s.H), ("B", .ofB s.B),
     ("K", .mat s.K), ("y", .vec s.y)] s.repr := by
  simp [Truthful, SRKF.repr]

/-- **C120 (`IMMEstimator`).** -/
theorem C120_imm {σ : Type} (s : IMM σ n N) : Truthful
    [("N", .int N), ("x", .vec s.x), ("x_prior", .vec s.xPrior), ("x_post", .vec s.xPost), ("P", .mat s.P),
     ("P_prior", .mat s.PPrior), ("P_post", .mat s.PPost), ("mu", .vec s.mu), ("M", .mat s.M), ("cbar", .vec s.cbar),
     ("omega", .mat s.omega), ("likelihood", .vec s.likelihood)] s.repr := by
  simp [Truthful, IMM.repr]

/-- **C120 (`GHFilter`).** -/
theorem C120_gh (s : GH ℝ) : Truthful
    [("x", .real s.x), ("dx", .real s.dx), ("x_prediction", .real s.xPred), ("dx_prediction", .real s.dxPred),
     ("dt", .real s.dt), ("g", .real s.g), ("h", .real s.h), ("y", .real s.y), ("z", .real s.z)] s.repr := by
  simp [Truthful, GH.repr]

/-- **C120 (`GHFilterOrder`).** -/
theorem C120_gho (s : GHO) : Truthful
    [("x", .list s.x), ("dt", .real s.dt), ("order", .int s.order), ("g", .real s.g), ("h", .maybe s.h), ("k", .maybe s.k),
     ("y", .real s.y), ("z", .real s.z)] s.repr := by
  simp [Truthful, GHO.repr]

/-- **C120 (`FadingMemoryFilter`).** -/
theorem C120_fading (s : FadingMemory) : Truthful
    [("dt", .real s.dt), ("order", .int s.order), ("beta", .real s.beta), ("x", .list s.x), ("e", .list s.e),
     ("P", .list s.P)] s.repr := by
  simp [Truthful, FadingMemory.repr]

/-- **C120 (`LeastSquaresFilter`).** -/
theorem C120_lsq (s : LSQ) : Truthful
    [("dt", .real s.dt), ("sigma", .real s.sigma), ("_order", .int s.order), ("x", .list s.x), ("K", .list s.K)]
    s.repr := by
  simp [Truthful, LSQ.repr]

/-- The attributes of a `GHKFilter`. -/
def GHK.attributes (s : GHK ℝ) : List (String × Val) :=
  [("x", .real s.x), ("dx", .real s.dx), ("ddx", .real s.ddx), ("x_prediction", .real s.xPred),
   ("dx_prediction", .real s.dxPred), ("ddx_prediction", .real s.ddxPred), ("dt", .real s.dt), ("g", .real s.g),
   ("h", .real s.h), ("k", .real s.k), ("y", .real s.y), ("z", .real s.z)]

/-- **C120 (`GHKFilter`, `_partial`).** Everything shown but the line `ddx_prediction` is the attribute it is labelled
with; that line is right only if the two predictions happen to agree (`C120_ghk_refuted`). -/
theorem C120_ghk_partial (s : GHK ℝ) :
    (∀ e ∈ s.repr.items, e.1 ≠ "ddx_prediction" → e ∈ s.attributes) ∧ (Truthful s.attributes s.repr ↔ s.dxPred = s.ddxPred) := by
  constructor
  · simp [GHK.attributes, GHK.repr]
  · simp [Truthful, GHK.attributes, GHK.repr]

/-- The attributes of an `HInfinityFilter`; `K` is never written after construction. -/
def HInf.attributes (s : HInf n m l) : List (String × Val) :=
  [("dim_x", .int n), ("dim_z", .int m), ("dim_u", .int l), ("gamma", .real s.gamma), ("x", .vec s.x), ("P", .mat s.P),
   ("F", .mat s.F), ("Q", .mat s.Q), ("V", .mat s.V), ("W", .mat s.W), ("y", .vec s.y), ("K", .int 0)]

/-- **C120 (`HInfinityFilter`, `_partial`).** Everything shown but the line `gamma` is the attribute it is labelled with;
that line never is. -/
theorem C120_hinf_partial (s : HInf n m l) :
    (∀ e ∈ s.repr.items, e.1 ≠ "gamma" → e ∈ s.attributes) ∧ ("gamma", Val.int l) ∈ s.repr.items ∧
      ¬ Truthful s.attributes s.repr := by
  refine ⟨?_, ?_, ?_⟩
  · simp [HInf.attributes, HInf.repr]
  · simp [HInf.repr]
  · simp [Truthful, HInf.attributes, HInf.repr]

/-- The attributes of an `MMAEFilterBank`. -/
noncomputable def MMAE.attributes {σ ζ η : Type} (s : MMAE σ n N ζ η) : List (String × Val) :=
  [("dim_x", .int n), ("x", .vec s.x), ("P", .mat s.P), ("p", .vec s.p), ("log-p", .vec fun i => Real.log (s.p i))]

/-- **C120 (`MMAEFilterBank`, `_partial`).** The state shown is the state, and the probabilities are shown as they are under
a label that announces their logarithms: the line is right only if every probability is its own logarithm, which no
number is (`C120_mmae_refuted`). -/
theorem C120_mmae_partial {σ ζ η : Type} (s : MMAE σ n N ζ η) :
    (∀ e ∈ s.repr.items, e.1 ≠ "log-p" → e ∈ s.attributes) ∧ ("log-p", Val.vec s.p) ∈ s.repr.items ∧
      (Truthful s.attributes s.repr ↔ ∀ i, s.p i = Real.log (s.p i)) := by
  refine ⟨?_, ?_, ?_⟩
  · simp [MMAE.attributes, MMAE.repr]
  · simp [MMAE.repr]
  · simp [Truthful, MMAE.attributes, MMAE.repr, funext_iff]

/-- **C120 (`MMAEFilterBank`, refuted).** A bank with positive probabilities never shows their logarithms. -/
theorem C120_mmae_refuted {σ ζ η : Type} (s : MMAE σ n (N + 1) ζ η) (hp : ∀ i, 0 < s.p i) :
    ¬ Truthful s.attributes s.repr := by
  rw [(C120_mmae_partial s).2.2]
  intro h
  have h1 := h 0
  have h2 := Real.log_le_sub_one_of_pos (hp 0)
  linarith

/-- The attributes of a `FixedLagSmoother`; `x_s` and `K` are never written after construction. -/
def FLS.attributes (s : FLS n m l) : List (String × Val) :=
  [("dim_x", .int n), ("dim_z", .int m), ("N", .maybe (s.N.map fun k => (k : ℝ))), ("x", .vec s.x),
   ("x_s", .vec (0 : Vec n)), ("P", .mat s.P), ("F", .mat s.F), ("Q", .mat s.Q), ("R", .mat s.R), ("H", .mat s.H),
   ("K", .vec (0 : Vec n)), ("y", .vec s.y), ("S", .mat s.S), ("B", .ofB s.B)]

/-- **C120 (`FixedLagSmoother`, `_partial`).** Everything shown but the lines `dim_x` and `dim_z` is the attribute it is
labelled with; those two show the state. -/
theorem C120_fls_partial (s : FLS n m l) :
    (∀ e ∈ s.repr.items, e.1 ≠ "dim_x" → e.1 ≠ "dim_z" → e ∈ s.attributes) ∧ ("dim_x", Val.vec s.x) ∈ s.repr.items ∧
      ¬ Truthful s.attributes s.repr := by
  refine ⟨?_, ?_, ?_⟩
  · simp [FLS.attributes, FLS.repr]
  · simp [FLS.repr]
  · simp [Truthful, FLS.attributes, FLS.repr]

/-- **C120 (`FadingKalmanFilter`, refuted).** Whenever the filter prints, `dim_x` is followed by the state. -/
theorem C120_fkf_refuted (expf : ℝ → ℝ) (s : FKF n m l) (p : Printed) (t : FKF n m l) (h : s.repr expf = .ok (p, t)) :
    ("dim_x", Val.vec s.x) ∈ p.items ∧ ∀ d, ¬ Truthful (s.attributes expf d) p := by
  unfold FKF.repr at h
  simp only at h
  split at h
  · cases h
  · cases h
    refine ⟨by simp, fun d hd => ?_⟩
    have := hd.2 ("dim_x", Val.vec s.x) (by simp)
    simp [FKF.attributes] at this

/-- **C120 (`GHKFilter`, refuted).** A new filter with velocity one and no acceleration misprints its predicted
acceleration, and calls itself a `GHFilter`. -/
theorem C120_ghk_refuted : ∃ s : GHK ℝ, ¬ Truthful s.attributes s.repr ∧ s.repr.title = "GHFilter object" := by
  refine ⟨GHK.init (0 : ℝ) 1 0 1 1 1 1, ?_, rfl⟩
  rw [(C120_ghk_partial _).2]
  simp [GHK.init]

/-- **C120 (titles, refuted).** An `ExtendedKalmanFilter` calls itself a `KalmanFilter`. -/
theorem C120_titles_refuted (expf : ℝ → ℝ) (s : EKF n m l) (p : Printed) (t : EKF n m l) (h : s.repr expf = .ok (p, t)) :
    p.title = "KalmanFilter object" := by
  unfold EKF.repr at h
  simp only at h
  split at h
  · cases h
  · cases h
    rfl

/-! ## `pretty_str` -/

namespace Spec

/-- The text `lines` shows the rows of an array under a label: the first line is the label and the first row, and every
later line is a row pushed to the right by the width of the label. -/
def ShowsRows (label : Line) (rows lines : List Line) : Prop :=
  lines.length = rows.length ∧ (∀ L ∈ lines, label.length ≤ L.length) ∧ lines.map (List.drop label.length) = rows ∧
    (∀ L ∈ lines.head?, L.take label.length = label) ∧ ∀ L ∈ lines.tail, ∀ c ∈ L.take label.length, c = ' '

end Spec

/-- **C120 (`pretty_str`, array).** The text of an array is its `str` with the label in front and every later row
aligned with the first: cutting off the columns of the label gives back the rows. -/
theorem C120_pretty_array (label : Line) (hl : label ≠ []) (first : Line) (rest : List Line) :
    ∃ lines, prettyStr (some label) (.other first rest) = .ok lines ∧
      ShowsRows (label ++ " = ".toList) (first :: rest) lines := by
  have hL : labelOf (some label) = label ++ " = ".toList := by
    cases label with
    | nil => exact absurd rfl hl
    | cons a b => rfl
  refine ⟨_, rfl, ?_⟩
  rw [hL]
  generalize label ++ " = ".toList = lab
  refine ⟨by simp, ?_, ?_, ?_, ?_⟩
  · intro L hL
    rcases List.mem_cons.1 hL with rfl | h
    · simp
    · obtain ⟨r, -, rfl⟩ := List.mem_map.1 h
      simp
  · simp [Function.comp_def]
  · simp
  · intro L hL c hc
    simp only [List.tail_cons, List.mem_map] at hL
    obtain ⟨r, -, rfl⟩ := hL
    simp only [List.take_append, List.length_replicate, Nat.sub_self, List.take_zero, List.append_nil] at hc
    exact List.eq_of_mem_replicate (List.mem_of_mem_take hc)

/-- **C120 (`pretty_str`, no label).** With the label `None` or `''` the text is `str(arr)`. -/
theorem C120_pretty_unlabelled (label : Option Line) (hl : label = none ∨ label = some []) (first : Line) (rest : List Line) :
    prettyStr label (.other first rest) = .ok (first :: rest) := by
  rcases hl with rfl | rfl <;> simp [prettyStr, labelOf]

/-- **C120 (`pretty_str`, column).** A column vector takes one line: the label, the entries of its transpose and `.T`. -/
theorem C120_pretty_column (label : Line) (hl : label ≠ []) (first : Line) (rest : List Line) :
    prettyStr (some label) (.col first rest)
      = .ok [label ++ " = ".toList ++ (first :: rest).flatten ++ ".T".toList] := by
  cases label with
  | nil => exact absurd rfl hl
  | cons a b => simp [prettyStr, labelOf]

mutual
theorem pretty_total (l : Line) : ∀ v : PyVal, ∃ t, prettyStr (some l) v = .ok t
  | .seq _ [] => ⟨_, rfl⟩
  | .seq e (x :: xs) => by
    obtain ⟨t, h⟩ := prettySeq_total l 0 (x :: xs)
    exact ⟨t, by simp only [prettyStr, h]⟩
  | .col _ _ => ⟨_, rfl⟩
  | .other _ _ => ⟨_, rfl⟩
theorem prettySeq_total (l : Line) (i : ℕ) : ∀ xs : List PyVal, ∃ t, prettySeq l i xs = .ok t
  | [] => ⟨[], rfl⟩
  | x :: xs => by
    obtain ⟨t, h⟩ := pretty_total (indexed l i) x
    obtain ⟨u, h'⟩ := prettySeq_total l (i + 1) xs
    exact ⟨t ++ u, by simp only [prettySeq, h, h', bind, Except.bind]⟩
end

/-- **C120 (`pretty_str`, exceptions).** `pretty_str` raises exactly for a non-empty list with the label `None`. -/
theorem C120_pretty_raises (label : Option Line) (v : PyVal) (e : Err) :
    prettyStr label v = .error e ↔ e = .typeError ∧ label = none ∧ ∃ s x xs, v = .seq s (x :: xs) := by
  cases label with
  | some l =>
    obtain ⟨t, h⟩ := pretty_total l v
    simp [h]
  | none =>
    cases v with
    | seq s xs =>
      cases xs with
      | nil => simp [prettyStr]
      | cons x xs => simp [prettyStr, eq_comm]
    | col a b => simp [prettyStr]
    | other a b => simp [prettyStr]

/-- **C120 (`pretty_str`, lists).** The text of a list is made of the texts of its elements, in order, the `i`-th under the
label `label[i]`. -/
theorem C120_pretty_list (label : Line) (s : Line) (xs : List PyVal) (hx : xs ≠ []) :
    ∃ texts : List (List Line), prettyStr (some label) (.seq s xs) = .ok texts.flatten ∧
      texts.length = xs.length ∧ ∀ i (h : i < xs.length) (h' : i < texts.length),
        prettyStr (some (label ++ "[".toList ++ (toString i).toList ++ "]".toList)) xs[i] = .ok texts[i] := by
  have key : ∀ (xs : List PyVal) (k : ℕ), ∃ texts : List (List Line), prettySeq label k xs = .ok texts.flatten ∧
      texts.length = xs.length ∧ ∀ i (h : i < xs.length) (h' : i < texts.length),
        prettyStr (some (indexed label (k + i))) xs[i] = .ok texts[i] := by
    intro xs
    induction xs with
    | nil => intro k; exact ⟨[], rfl, rfl, fun i h => absurd h (by simp)⟩
    | cons x xs ih =>
      intro k
      obtain ⟨t, ht⟩ := pretty_total (indexed label k) x
      obtain ⟨texts, h1, h2, h3⟩ := ih (k + 1)
      refine ⟨t :: texts, ?_, by simp [h2], fun i h h' => ?_⟩
      · simp only [prettySeq, ht, h1, bind, Except.bind, List.flatten_cons]
      · cases i with
        | zero => exact ht
        | succ i =>
          have := h3 i (by simpa using h) (by simpa using h')
          rw [show k + (i + 1) = k + 1 + i by ring]
          exact this
  cases xs with
  | nil => exact absurd rfl hx
  | cons x xs =>
    obtain ⟨texts, h1, h2, h3⟩ := key (x :: xs) 0
    refine ⟨texts, by simp only [prettyStr, h1], h2, fun i h h' => ?_⟩
    have := h3 i h h'
    rw [Nat.zero_add] at this
    exact this

/-- The example of the documentation (helpers.py 264-272). -/
example : prettyStr (some "cov".toList) (.other "[[4. 0.]".toList [" [0. 4.]]".toList])
    = .ok ["cov = [[4. 0.]".toList, "       [0. 4.]]".toList] := by
  decide

example : prettyStr (some "x".toList) (.seq "[]".toList [.other "1".toList [], .seq "()".toList []])
    = .ok ["x[0] = 1".toList, "x[1] = ()".toList] := by
  decide

end Filterpy
