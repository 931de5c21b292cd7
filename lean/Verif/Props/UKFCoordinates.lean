import Verif.Props.FilterBooks
import Verif.Props.UKF
import Mathlib.Analysis.SpecialFunctions.Complex.Arg
import Mathlib.Algebra.Order.ToIntervalMod

/-!
# C92: custom mean, residual and addition functions of `UnscentedKalmanFilter`

The functions are there for states that are not vectors: angles, or any other coordinates.  Two filters whose
states stand for the same thing, and whose functions respect that, run alike.
-/

namespace Filterpy

open Matrix SigmaPts Spec

variable {n m : ℕ}

/-! ## Specification -/

/-- The same points and weights, drawn otherwise. -/
def redrawn (p : SigmaPts n) (pts : Vec n → Mat n n → Except Err (Mat p.num n)) : SigmaPts n := { p with points := pts }

/-- The mean function in effect. -/
def meanFn {k n : ℕ} (o : Option (Mat k n → Vec k → Vec n)) (s : Mat k n) (w : Vec k) : Vec n :=
  o.getD (fun s w => WMean w s) s w

/-- The addition in effect. -/
def addFn (o : Option (Vec n → Vec n → Vec n)) : Vec n → Vec n → Vec n := o.getD fun a b => a + b

/-- Both runs raise the same exception, or neither raises, with related outcomes. -/
def SameOutcome {α β : Type*} (r : α → β → Prop) : Except (Err × α) α → Except (Err × β) β → Prop
  | .ok a, .ok b => r a b
  | .error e, .error f => e.1 = f.1 ∧ r e.2 f.2
  | _, _ => False

/-- The same for the points. -/
def SamePoints {k n : ℕ} (r : Vec n → Vec n → Prop) : Except Err (Mat k n) → Except Err (Mat k n) → Prop
  | .ok s, .ok t => ∀ i, r (s i) (t i)
  | .error e, .error f => e = f
  | _, _ => False

/-- The last measurement. -/
def SameZ (r : Vec m → Vec m → Prop) (z z' : Fin m → Option ℝ) : Prop :=
  (z = (fun _ => none) ∧ z' = fun _ => none) ∨ ∃ a b, r a b ∧ (z = fun i => some (a i)) ∧ z' = fun i => some (b i)

/-- The functions of the two filters respect what the states (`rx`) and measurements (`rz`) stand for: residuals
of corresponding arguments are equal, everything else leads to corresponding results. -/
structure RespectsCoordinates (rx : Vec n → Vec n → Prop) (rz : Vec m → Vec m → Prop) {p : SigmaPts n}
    {pts : Vec n → Mat n n → Except Err (Mat p.num n)} (u : UKF n m p) (v : UKF n m (redrawn p pts)) : Prop where
  fx : ∀ a b dt, rx a b → rx (u.fx a dt) (v.fx b dt)
  hx : ∀ a b, rx a b → rz (u.hx a) (v.hx b)
  meanX : ∀ (s t : Mat p.num n), (∀ i, rx (s i) (t i)) → rx (meanFn u.xMean s p.Wm) (meanFn v.xMean t p.Wm)
  meanZ : ∀ (s t : Mat p.num m), (∀ i, rz (s i) (t i)) → rz (meanFn u.zMean s p.Wm) (meanFn v.zMean t p.Wm)
  resX : ∀ a b a' b', rx a b → rx a' b' → resFn u.residualX a a' = resFn v.residualX b b'
  resZ : ∀ a b a' b', rz a b → rz a' b' → resFn u.residualZ a a' = resFn v.residualZ b b'
  add : ∀ a b d, rx a b → rx (addFn u.stateAdd a d) (addFn v.stateAdd b d)
  points : ∀ a b P, rx a b → SamePoints rx (p.points a P) (pts b P)

/-- Two filters in corresponding states: covariances, gains, residuals, likelihoods are equal, states and
measurements correspond. -/
structure Alike (rx : Vec n → Vec n → Prop) (rz : Vec m → Vec m → Prop) {p : SigmaPts n}
    {pts : Vec n → Mat n n → Except Err (Mat p.num n)} (u : UKF n m p) (v : UKF n m (redrawn p pts)) : Prop where
  fns : RespectsCoordinates rx rz u v
  x : rx u.x v.x
  P : u.P = v.P
  Q : u.Q = v.Q
  R : u.R = v.R
  dt : u.dt = v.dt
  sigmasF : ∀ i, rx (u.sigmasF i) (v.sigmasF i)
  sigmasH : ∀ i, rz (u.sigmasH i) (v.sigmasH i)
  z : SameZ rz u.z v.z
  K : u.K = v.K
  y : u.y = v.y
  S : u.S = v.S
  SI : u.SI = v.SI
  xPrior : rx u.xPrior v.xPrior
  PPrior : u.PPrior = v.PPrior
  xPost : rx u.xPost v.xPost
  PPost : u.PPost = v.PPost
  logLik : u.logLik = v.logLik
  lik : u.lik = v.lik
  mahal : u.mahal = v.mahal
  inv : @UKF.inv _ _ _ u = @UKF.inv _ _ _ v

/-- The same call, with corresponding arguments. -/
inductive SameUKFCall (rx : Vec n → Vec n → Prop) (rz : Vec m → Vec m → Prop) : UkfCall n m → UkfCall n m → Prop
  | predict (dt : Option ℝ) : SameUKFCall rx rz (.predict dt none) (.predict dt none)
  | predictFx (dt : Option ℝ) (f g : Vec n → ℝ → Vec n) (h : ∀ a b t, rx a b → rx (f a t) (g b t)) :
      SameUKFCall rx rz (.predict dt (some f)) (.predict dt (some g))
  | missing (R : MatArg m) (h h' : Option (Vec n → Vec m)) : SameUKFCall rx rz (.update none R h) (.update none R h')
  | update (z z' : Vec m) (hz : rz z z') (R : MatArg m) : SameUKFCall rx rz (.update (some z) R none) (.update (some z') R none)
  | updateHx (z z' : Vec m) (hz : rz z z') (R : MatArg m) (f g : Vec n → Vec m) (h : ∀ a b, rx a b → rz (f a) (g b)) :
      SameUKFCall rx rz (.update (some z) R (some f)) (.update (some z') R (some g))
  | readLL : SameUKFCall rx rz .readLL .readLL
  | readLik : SameUKFCall rx rz .readLik .readLik
  | readMahal : SameUKFCall rx rz .readMahal .readMahal

/-! ## Proofs -/

theorem ut_effective {k n : ℕ} (s : Mat k n) (Wm Wc : Vec k) (N : Mat n n) (f : Option (Mat k n → Vec k → Vec n))
    (r : Option (Vec n → Vec n → Vec n)) :
    unscentedTransform s Wm Wc (some N) f r = (meanFn f s Wm,
      (∑ i, Wc i • vecMulVec (resFn r (s i) (meanFn f s Wm)) (resFn r (s i) (meanFn f s Wm))) + N) := by
  have e : unscentedTransform s Wm Wc (some N) f r = unscentedTransform s Wm Wc (some N) f (some (resFn r)) := by
    cases r with
    | none => exact (C24_fast_path s Wm Wc (some N) f).symm
    | some r => rfl
  rw [e]
  unfold unscentedTransform
  cases f with
  | none =>
    simp only [slow_eq, weighted_mean]
    rfl
  | some f =>
    simp only [slow_eq]
    rfl

section

variable {rx : Vec n → Vec n → Prop} {rz : Vec m → Vec m → Prop} {p : SigmaPts n}
  {pts : Vec n → Mat n n → Except Err (Mat p.num n)} {u : UKF n m p} {v : UKF n m (redrawn p pts)}

theorem ut_alike {k n : ℕ} {r : Vec n → Vec n → Prop} {s t : Mat k n} (h : ∀ i, r (s i) (t i)) (Wm Wc : Vec k) (N : Mat n n)
    {f g : Option (Mat k n → Vec k → Vec n)} (hf : ∀ (s t : Mat k n), (∀ i, r (s i) (t i)) → r (meanFn f s Wm) (meanFn g t Wm))
    {c d : Option (Vec n → Vec n → Vec n)} (hc : ∀ a b a' b', r a b → r a' b' → resFn c a a' = resFn d b b') :
    r (unscentedTransform s Wm Wc (some N) f c).1 (unscentedTransform t Wm Wc (some N) g d).1 ∧
      (unscentedTransform s Wm Wc (some N) f c).2 = (unscentedTransform t Wm Wc (some N) g d).2 := by
  rw [ut_effective, ut_effective]
  refine ⟨hf s t h, ?_⟩
  simp only [hc _ _ _ _ (h _) (hf s t h)]

theorem cross_alike {k : ℕ} {s t : Mat k n} {s' t' : Mat k m} (h : ∀ i, rx (s i) (t i)) (h' : ∀ i, rz (s' i) (t' i)) (Wc : Vec k)
    {c d : Vec n → Vec n → Vec n} (hc : ∀ a b a' b', rx a b → rx a' b' → c a a' = d b b')
    {c' d' : Vec m → Vec m → Vec m} (hc' : ∀ a b a' b', rz a b → rz a' b' → c' a a' = d' b b')
    {x x' : Vec n} (hx : rx x x') {z z' : Vec m} (hz : rz z z') :
    UKF.crossVariance Wc c c' x z s s' = UKF.crossVariance Wc d d' x' z' t t' := by
  unfold UKF.crossVariance
  congr 1
  funext A i
  unfold UKF.crossStep
  rw [hc _ _ _ _ (h i) hx, hc' _ _ _ _ (h' i) hz]

theorem predictUT_alike (h : Alike rx rz u v) : SameOutcome (Alike rx rz) u.predictUT v.predictUT := by
  have h1 := ut_alike (r := rx) h.sigmasF p.Wm p.Wc u.Q h.fns.meanX h.fns.resX
  have h2 : rx (unscentedTransform u.sigmasF p.Wm p.Wc (some u.Q) u.xMean u.residualX).1
      (unscentedTransform v.sigmasF (redrawn p pts).Wm (redrawn p pts).Wc (some v.Q) v.xMean v.residualX).1 ∧
      (unscentedTransform u.sigmasF p.Wm p.Wc (some u.Q) u.xMean u.residualX).2 =
      (unscentedTransform v.sigmasF (redrawn p pts).Wm (redrawn p pts).Wc (some v.Q) v.xMean v.residualX).2 := by
    rw [← h.Q]; exact h1
  clear h1
  unfold UKF.predictUT
  simp only
  generalize unscentedTransform u.sigmasF p.Wm p.Wc (some u.Q) u.xMean u.residualX = xu at h2 ⊢
  generalize unscentedTransform v.sigmasF (redrawn p pts).Wm (redrawn p pts).Wc (some v.Q) v.xMean v.residualX = xv at h2 ⊢
  obtain ⟨h2, h3⟩ := h2
  have h4 : SamePoints rx (p.points xu.1 xu.2) ((redrawn p pts).points xv.1 xv.2) := h3 ▸ h.fns.points _ _ xu.2 h2
  generalize p.points xu.1 xu.2 = A at h4 ⊢
  generalize (redrawn p pts).points xv.1 xv.2 = B at h4 ⊢
  cases A with
  | error e =>
    cases B with
    | error f => exact ⟨h4, { h with x := h2, P := h3, fns := { h.fns with } }⟩
    | ok t => exact h4.elim
  | ok s =>
    cases B with
    | error f => exact h4.elim
    | ok t => exact { h with x := h2, P := h3, xPrior := h2, PPrior := h3, sigmasF := h4, fns := { h.fns with } }

theorem predict_alike (h : Alike rx rz u v) (dt : Option ℝ) {f g : Option (Vec n → ℝ → Vec n)}
    (hf : ∀ a b t, rx a b → rx (f.getD u.fx a t) (g.getD v.fx b t)) :
    SameOutcome (Alike rx rz) (u.predict dt f) (v.predict dt g) := by
  have h4 : SamePoints rx (p.points u.x u.P) ((redrawn p pts).points v.x v.P) := h.P ▸ h.fns.points _ _ u.P h.x
  unfold UKF.predict UKF.computeProcessSigmas
  generalize p.points u.x u.P = A at h4 ⊢
  generalize (redrawn p pts).points v.x v.P = B at h4 ⊢
  cases A with
  | error e =>
    cases B with
    | error f => exact ⟨h4, h⟩
    | ok t => exact h4.elim
  | ok s =>
    cases B with
    | error f => exact h4.elim
    | ok t =>
      refine predictUT_alike { h with fns := { h.fns with }, sigmasF := fun i => ?_ }
      rw [← h.dt]
      exact hf _ _ _ (h4 i)

theorem update_alike (h : Alike rx rz u v) {z z' : Vec m} (hz : rz z z') (R : MatArg m) {f g : Option (Vec n → Vec m)}
    (hf : ∀ a b, rx a b → rz (f.getD u.hx a) (g.getD v.hx b)) :
    SameOutcome (Alike rx rz) (u.update (some z) R f) (v.update (some z') R g) := by
  have hS : ∀ i, rz (UKF.pushRows (f.getD u.hx) u.sigmasF i) (UKF.pushRows (g.getD v.hx) v.sigmasF i) :=
    fun i => hf _ _ (h.sigmasF i)
  have h1 := ut_alike (r := rz) hS p.Wm p.Wc (R.resolve u.R) h.fns.meanZ h.fns.resZ
  have h2 : rz (unscentedTransform (UKF.pushRows (f.getD u.hx) u.sigmasF) p.Wm p.Wc (some (R.resolve u.R)) u.zMean u.residualZ).1
      (unscentedTransform (UKF.pushRows (g.getD v.hx) v.sigmasF) (redrawn p pts).Wm (redrawn p pts).Wc (some (R.resolve v.R)) v.zMean v.residualZ).1 ∧
      (unscentedTransform (UKF.pushRows (f.getD u.hx) u.sigmasF) p.Wm p.Wc (some (R.resolve u.R)) u.zMean u.residualZ).2 =
      (unscentedTransform (UKF.pushRows (g.getD v.hx) v.sigmasF) (redrawn p pts).Wm (redrawn p pts).Wc (some (R.resolve v.R)) v.zMean v.residualZ).2 := by
    rw [← h.R]; exact h1
  clear h1
  unfold UKF.update
  simp only
  generalize unscentedTransform (UKF.pushRows (f.getD u.hx) u.sigmasF) p.Wm p.Wc (some (R.resolve u.R)) u.zMean u.residualZ = zu at h2 ⊢
  generalize unscentedTransform (UKF.pushRows (g.getD v.hx) v.sigmasF) (redrawn p pts).Wm (redrawn p pts).Wc (some (R.resolve v.R)) v.zMean v.residualZ = zv at h2 ⊢
  obtain ⟨h2, h3⟩ := h2
  have hi : u.inv zu.2 = v.inv zv.2 := by rw [h3, h.inv]
  rw [← hi]
  cases u.inv zu.2 with
  | none => exact ⟨rfl, { h with fns := { h.fns with }, sigmasH := hS, S := h3 }⟩
  | some SI =>
    have hc := cross_alike h.sigmasF hS p.Wc h.fns.resX h.fns.resZ h.x h2
    have hy := h.fns.resZ _ _ _ _ hz h2
    have hK : UKF.crossVariance p.Wc (resFn u.residualX) (resFn u.residualZ) u.x zu.1 u.sigmasF (UKF.pushRows (f.getD u.hx) u.sigmasF) * SI =
      UKF.crossVariance (redrawn p pts).Wc (resFn v.residualX) (resFn v.residualZ) v.x zv.1 v.sigmasF (UKF.pushRows (g.getD v.hx) v.sigmasF) * SI :=
      by rw [hc]; rfl
    simp only
    generalize UKF.crossVariance p.Wc (resFn u.residualX) (resFn u.residualZ) u.x zu.1 u.sigmasF (UKF.pushRows (f.getD u.hx) u.sigmasF) * SI = K at hK ⊢
    rw [← hK, ← hy, ← h3, ← h.P]
    have hx : rx (addFn u.stateAdd u.x (K *ᵥ resFn u.residualZ z zu.1)) (addFn v.stateAdd v.x (K *ᵥ resFn u.residualZ z zu.1)) :=
      h.fns.add _ _ _ h.x
    exact { h with fns := { h.fns with }, sigmasH := hS, S := rfl, SI := rfl, K := rfl, y := rfl, P := rfl, PPost := rfl, x := hx, xPost := hx, z := Or.inr ⟨z, z', hz, rfl, rfl⟩, logLik := rfl, lik := rfl, mahal := rfl }

theorem call_alike (expf : ℝ → ℝ) (h : Alike rx rz u v) {i j : UkfCall n m} (hij : SameUKFCall rx rz i j) :
    SameOutcome (Alike rx rz) (i.on expf u) (j.on expf v) := by
  cases hij with
  | predict dt => exact predict_alike h dt h.fns.fx
  | predictFx dt f g hf => exact predict_alike h dt hf
  | missing R f g =>
    exact { h with fns := { h.fns with }, z := Or.inl ⟨rfl, rfl⟩, xPost := h.x, PPost := h.P }
  | update z z' hz R => exact update_alike h hz R h.fns.hx
  | updateHx z z' hz R f g hf => exact update_alike h hz R hf
  | readLL =>
    have e := h.logLik
    cases hv : v.logLik with
    | some w =>
      rw [hv] at e
      simp only [UkfCall.on, UKF.readLogLik, e, hv]
      exact h
    | none =>
      rw [hv] at e
      simp only [UkfCall.on, UKF.readLogLik, e, hv]
      exact { h with fns := { h.fns with }, logLik := (by rw [h.y, h.S]) }
  | readLik =>
    have e := h.logLik
    have e' := h.lik
    cases hv' : v.lik with
    | some w =>
      rw [hv'] at e'
      simp only [UkfCall.on, UKF.readLik, e', hv']
      exact h
    | none =>
      rw [hv'] at e'
      cases hv : v.logLik with
      | some w =>
        rw [hv] at e
        simp only [UkfCall.on, UKF.readLik, UKF.readLogLik, e, hv, e', hv']
        exact { h with fns := { h.fns with }, logLik := rfl, lik := rfl }
      | none =>
        rw [hv] at e
        simp only [UkfCall.on, UKF.readLik, UKF.readLogLik, e, hv, e', hv']
        exact { h with fns := { h.fns with }, logLik := (by rw [h.y, h.S]), lik := (by rw [h.y, h.S]) }
  | readMahal =>
    have e := h.mahal
    cases hv : v.mahal with
    | some w =>
      rw [hv] at e
      simp only [UkfCall.on, UKF.readMahal, e, hv]
      exact h
    | none =>
      rw [hv] at e
      have e2 : u.y ⬝ᵥ (u.SI *ᵥ u.y) = v.y ⬝ᵥ (v.SI *ᵥ v.y) := by rw [h.y, h.SI]
      simp only [UkfCall.on, UKF.readMahal, e, hv, e2]
      split_ifs
      · exact ⟨rfl, h⟩
      · exact { h with fns := { h.fns with }, mahal := rfl }

/-- **C92.**  Two unscented filters in corresponding states, with functions that respect the correspondence,
stay in corresponding states for ever, whatever the calls, and raise the same exceptions. -/
theorem C92_coordinates (expf : ℝ → ℝ) {ops ops' : List (UkfCall n m)} (hops : List.Forall₂ (SameUKFCall rx rz) ops ops')
    (h : Alike rx rz u v) :
    SameOutcome (Alike rx rz) (runList (UkfCall.on expf) u ops) (runList (UkfCall.on expf) v ops') := by
  induction hops generalizing u v with
  | nil => exact h
  | cons hij _ ih =>
    have h1 := call_alike expf h hij
    simp only [runList]
    rename_i i j _ _ _
    cases hu : i.on expf u with
    | error e =>
      cases hv : j.on expf v with
      | error f => rw [hu, hv] at h1; exact h1
      | ok v' => rw [hu, hv] at h1; exact h1.elim
    | ok u' =>
      cases hv : j.on expf v with
      | error f => rw [hu, hv] at h1; exact h1.elim
      | ok v' => rw [hu, hv] at h1; exact ih h1

end

/-! ## Coordinates -/

/-- The points, drawn in the coordinates `φ` and carried back. -/
def charted (φ : Vec n ≃ Vec n) (p : SigmaPts n) : SigmaPts n :=
  redrawn p fun x P => (p.points (φ x) P).map fun s i => φ.symm (s i)

/-- The mean taken in the coordinates `φ`. -/
noncomputable def chartMean {k n : ℕ} (φ : Vec n ≃ Vec n) (s : Mat k n) (w : Vec k) : Vec n := φ.symm (WMean w fun i => φ (s i))

/-- The filter as seenBy in the coordinates `φ` of the state and `ψ` of the measurement: an ordinary filter. -/
def seenBy (φ : Vec n ≃ Vec n) (ψ : Vec m ≃ Vec m) {p : SigmaPts n} (v : UKF n m (charted φ p)) : UKF n m p where
  x := φ v.x
  P := v.P
  Q := v.Q
  R := v.R
  dt := v.dt
  hx := fun a => ψ (v.hx (φ.symm a))
  fx := fun a t => φ (v.fx (φ.symm a) t)
  xMean := none
  zMean := none
  residualX := none
  residualZ := none
  stateAdd := none
  sigmasF := fun i => φ (v.sigmasF i)
  sigmasH := fun i => ψ (v.sigmasH i)
  z := fun i => if h : ∀ j, (v.z j).isSome then some (ψ (fun j => (v.z j).get (h j)) i) else none
  K := v.K
  y := v.y
  S := v.S
  SI := v.SI
  xPrior := φ v.xPrior
  PPrior := v.PPrior
  xPost := φ v.xPost
  PPost := v.PPost
  logLik := v.logLik
  lik := v.lik
  mahal := v.mahal
  inv := v.inv

/-- A call, with its arguments in the coordinates. -/
def seenCall (φ : Vec n ≃ Vec n) (ψ : Vec m ≃ Vec m) : UkfCall n m → UkfCall n m
  | .predict dt f => .predict dt (f.map fun f a t => φ (f (φ.symm a) t))
  | .update z R h => .update (z.map ψ) R (h.map fun h a => ψ (h (φ.symm a)))
  | .readLL => .readLL
  | .readLik => .readLik
  | .readMahal => .readMahal

theorem seen_alike (φ : Vec n ≃ Vec n) (ψ : Vec m ≃ Vec m) {p : SigmaPts n} (v : UKF n m (charted φ p))
    (h1 : v.xMean = some (chartMean φ)) (h2 : v.zMean = some (chartMean ψ))
    (h3 : v.residualX = some fun a b => φ a - φ b) (h4 : v.residualZ = some fun a b => ψ a - ψ b)
    (h5 : v.stateAdd = some fun a d => φ.symm (φ a + d)) (hz : v.z = (fun _ => none) ∨ ∃ a : Vec m, v.z = fun i => some (a i)) (hm : 0 < m) :
    Alike (fun a b => a = φ b) (fun a b => a = ψ b) (seenBy φ ψ v) v where
  fns :=
    { fx := fun a b dt h => by simp [seenBy, h]
      hx := fun a b h => by simp [seenBy, h]
      meanX := fun s t h => by
        have e : s = fun i => φ (t i) := funext h
        simp only [h1, e, meanFn]
        exact (φ.apply_symm_apply _).symm
      meanZ := fun s t h => by
        have e : s = fun i => ψ (t i) := funext h
        simp only [h2, e, meanFn]
        exact (ψ.apply_symm_apply _).symm
      resX := fun a b a' b' h h' => by simp only [h3, h, h']; rfl
      resZ := fun a b a' b' h h' => by simp only [h4, h, h']; rfl
      add := fun a b d h => by
        simp only [h5, h, addFn, Option.getD_some, φ.apply_symm_apply]; rfl
      points := fun a b P h => by
        subst h
        cases e : p.points (φ b) P with
        | error e => rfl
        | ok s => exact fun i => (φ.apply_symm_apply _).symm }
  x := rfl
  P := rfl
  Q := rfl
  R := rfl
  dt := rfl
  sigmasF := fun _ => rfl
  sigmasH := fun _ => rfl
  z := by
    rcases hz with h | ⟨a, h⟩
    · refine Or.inl ⟨funext fun i => ?_, h⟩
      simp only [seenBy]
      rw [dif_neg]
      intro e
      have := e ⟨0, hm⟩
      simp [h] at this
    · refine Or.inr ⟨ψ a, a, rfl, funext fun i => ?_, h⟩
      simp only [seenBy]
      rw [dif_pos (by simp [h])]
      simp [h]
  K := rfl
  y := rfl
  S := rfl
  SI := rfl
  xPrior := rfl
  PPrior := rfl
  xPost := rfl
  PPost := rfl
  logLik := rfl
  lik := rfl
  mahal := rfl
  inv := rfl

theorem seenCall_same (φ : Vec n ≃ Vec n) (ψ : Vec m ≃ Vec m) (i : UkfCall n m) :
    SameUKFCall (fun a b => a = φ b) (fun a b => a = ψ b) (seenCall φ ψ i) i := by
  cases i with
  | predict dt f =>
    cases f with
    | none => exact .predict dt
    | some f => exact .predictFx dt _ _ fun a b t h => by simp [h]
  | update z R h =>
    cases z with
    | none => exact .missing R _ _
    | some z =>
      cases h with
      | none => exact .update (ψ z) z rfl R
      | some h => exact .updateHx (ψ z) z rfl R _ _ fun a b hab => by simp [hab]
  | readLL => exact .readLL
  | readLik => exact .readLik
  | readMahal => exact .readMahal

/-- **C92**, coordinates.  A filter whose mean, residual and addition functions work in coordinates `φ` of the
state and `ψ` of the measurement is the ordinary filter in those coordinates, for every sequence of calls. -/
theorem C92_chart (expf : ℝ → ℝ) (φ : Vec n ≃ Vec n) (ψ : Vec m ≃ Vec m) {p : SigmaPts n} (v : UKF n m (charted φ p))
    (h1 : v.xMean = some (chartMean φ)) (h2 : v.zMean = some (chartMean ψ))
    (h3 : v.residualX = some fun a b => φ a - φ b) (h4 : v.residualZ = some fun a b => ψ a - ψ b)
    (h5 : v.stateAdd = some fun a d => φ.symm (φ a + d)) (hz : v.z = (fun _ => none) ∨ ∃ a : Vec m, v.z = fun i => some (a i)) (hm : 0 < m)
    (ops : List (UkfCall n m)) :
    SameOutcome (Alike (fun a b => a = φ b) fun a b => a = ψ b) (runList (UkfCall.on expf) (seenBy φ ψ v) (ops.map (seenCall φ ψ)))
      (runList (UkfCall.on expf) v ops) := by
  refine C92_coordinates expf ?_ (seen_alike φ ψ v h1 h2 h3 h4 h5 hz hm)
  induction ops with
  | nil => exact .nil
  | cons i ops ih => exact .cons (seenCall_same φ ψ i) ih

/-- The `subtract` argument of the sigma point classes that draws the points in coordinates. -/
def chartSub (φ : Vec n ≃ Vec n) (x d : Vec n) : Vec n := φ.symm (φ x - d)

theorem symmetricSet_chart (φ : Vec n ≃ Vec n) (x : Vec n) (U : Mat n n) :
    symmetricSet (chartSub φ) x U = fun i => φ.symm (symmetricSet (fun a b => a - b) (φ x) U i) := by
  funext i
  unfold symmetricSet chartSub
  split_ifs <;> simp

/-- **C92**, points: with that argument all three classes draw the points of the coordinates. -/
theorem C92_chart_points (φ : Vec n ≃ Vec n) (sqrt : Mat n n → Except Err (Mat n n)) :
    (∀ alpha beta kappa : ℝ, merwe n alpha beta kappa sqrt (chartSub φ) = (merwe n alpha beta kappa sqrt).map (charted φ)) ∧
    (∀ kappa : ℝ, julier n kappa sqrt (chartSub φ) = (julier n kappa sqrt).map (charted φ)) ∧
      simplex n sqrt (chartSub φ) = charted φ (simplex n sqrt) := by
  refine ⟨fun alpha beta kappa => ?_, fun kappa => ?_, ?_⟩
  · unfold merwe
    simp only
    split_ifs with h
    · rfl
    · simp only [Except.map, charted, redrawn]
      congr 2
      funext x P
      cases sqrt ((alpha ^ 2 * (n + kappa) - n + n) • P) with
      | error e => rfl
      | ok U => exact congrArg Except.ok (symmetricSet_chart φ x U)
  · unfold julier
    split_ifs with h
    · rfl
    · simp only [Except.map, charted, redrawn]
      congr 2
      funext x P
      cases sqrt ((n + kappa) • P) with
      | error e => rfl
      | ok U => exact congrArg Except.ok (symmetricSet_chart φ x U)
  · unfold simplex
    simp only [charted, redrawn]
    congr 1
    funext x P
    cases sqrt P with
    | error e => rfl
    | ok U => rfl

/-- Not vacuous: a change of coordinates that is not linear, and a filter that works in it. -/
example (sqrt : Mat 2 2 → Except Err (Mat 2 2)) (hx : Vec 2 → Vec 2) (fx : Vec 2 → ℝ → Vec 2) :
    ∃ φ : Vec 2 ≃ Vec 2, (∃ a b, φ (a + b) ≠ φ a + φ b) ∧ ∃ v : UKF 2 2 (charted φ (simplex 2 sqrt)),
      v.xMean = some (chartMean φ) ∧ v.zMean = some (chartMean φ) ∧ (v.residualX = some fun a b => φ a - φ b) ∧
      (v.residualZ = some fun a b => φ a - φ b) ∧ (v.stateAdd = some fun a d => φ.symm (φ a + d)) ∧ v.hx = hx ∧ v.fx = fx ∧
      v.z = fun _ => none := by
  refine ⟨⟨fun a => ![a 0, a 1 + a 0 ^ 2], fun a => ![a 0, a 1 - a 0 ^ 2], fun a => ?_, fun a => ?_⟩, ⟨![1, 0], ![1, 0], ?_⟩,
    UKF.fresh 2 _ 1 hx fx (some (chartMean _)) (some (chartMean _)) (some _) (some _) (some _), rfl, rfl, rfl, rfl, rfl, rfl, rfl, rfl⟩
  · ext i; fin_cases i <;> simp
  · ext i; fin_cases i <;> simp
  · intro h
    have := congrFun h 1
    simp at this
    norm_num at this

/-! ## Angles -/

/-- Two arrays that differ by full turns in the components that are angles. -/
def Turned {k : ℕ} (ang : Fin k → Prop) (a b : Vec k) : Prop :=
  ∀ i, (¬ ang i → a i = b i) ∧ (ang i → ∃ t : ℤ, a i = b i + t * (2 * Real.pi))

open Classical in
/-- The residual function for angles: the difference brought to `(-π, π]`. -/
noncomputable def angleResidual {k : ℕ} (ang : Fin k → Prop) (a b : Vec k) : Vec k := fun i =>
  if ang i then toIocMod Real.two_pi_pos (-Real.pi) (a i - b i) else a i - b i

open Classical in
/-- The mean function for angles: the direction of the weighted sum of unit vectors,
`atan2(sum(w * sin), sum(w * cos))`. -/
noncomputable def angleMean {k l : ℕ} (ang : Fin k → Prop) (s : Mat l k) (w : Vec l) : Vec k := fun i =>
  if ang i then Complex.arg ⟨∑ j, w j * Real.cos (s j i), ∑ j, w j * Real.sin (s j i)⟩ else ∑ j, w j * s j i

theorem Turned.refl {k : ℕ} (ang : Fin k → Prop) (a : Vec k) : Turned ang a a := fun _ => ⟨fun _ => rfl, fun _ => ⟨0, by simp⟩⟩

theorem turned_residual {k : ℕ} (ang : Fin k → Prop) {a b a' b' : Vec k} (h : Turned ang a b) (h' : Turned ang a' b') :
    angleResidual ang a a' = angleResidual ang b b' := by
  funext i
  unfold angleResidual
  split_ifs with hi
  · obtain ⟨t, ht⟩ := (h i).2 hi
    obtain ⟨t', ht'⟩ := (h' i).2 hi
    have e : a i - a' i = b i - b' i + (t - t') • (2 * Real.pi) := by
      rw [ht, ht', zsmul_eq_mul]; push_cast; ring
    rw [e, toIocMod_add_zsmul]
  · rw [(h i).1 hi, (h' i).1 hi]

theorem turned_mean {k l : ℕ} (ang : Fin k → Prop) {s t : Mat l k} (h : ∀ j, Turned ang (s j) (t j)) (w : Vec l) :
    angleMean ang s w = angleMean ang t w := by
  funext i
  unfold angleMean
  split_ifs with hi
  · have e : ∀ j, Real.cos (s j i) = Real.cos (t j i) ∧ Real.sin (s j i) = Real.sin (t j i) := fun j => by
      obtain ⟨q, hq⟩ := (h j i).2 hi
      rw [hq, Real.cos_add_int_mul_two_pi, Real.sin_add_int_mul_two_pi]
      exact ⟨rfl, rfl⟩
    simp only [(e _).1, (e _).2]
  · simp only [((h _ i).1 hi)]

theorem turned_sub {k : ℕ} (ang : Fin k → Prop) {a b : Vec k} (h : Turned ang a b) (d : Vec k) : Turned ang (a - d) (b - d) :=
  fun i => ⟨fun hi => by simp [(h i).1 hi], fun hi => by
    obtain ⟨t, ht⟩ := (h i).2 hi
    exact ⟨t, by simp only [Pi.sub_apply, ht]; ring⟩⟩

theorem turned_add {k : ℕ} (ang : Fin k → Prop) {a b : Vec k} (h : Turned ang a b) (d : Vec k) : Turned ang (a + d) (b + d) := by
  have := turned_sub ang h (-d)
  rwa [sub_neg_eq_add, sub_neg_eq_add] at this

/-- The points of turned states are turned. -/
def TurnsPoints (ang : Fin n → Prop) (p : SigmaPts n) : Prop :=
  ∀ a b P, Turned ang a b → SamePoints (Turned ang) (p.points a P) (p.points b P)

theorem turned_set (ang : Fin n → Prop) {a b : Vec n} (h : Turned ang a b) (U : Mat n n) (i : Fin (2 * n + 1)) :
    Turned ang (symmetricSet (fun a b => a - b) a U i) (symmetricSet (fun a b => a - b) b U i) := by
  unfold symmetricSet
  split_ifs
  · exact h
  · exact turned_sub ang h _
  · exact turned_sub ang h _

/-- **C92**, the three classes of points, with the default `subtract`. -/
theorem C92_turned_points (ang : Fin n → Prop) (sqrt : Mat n n → Except Err (Mat n n)) :
    (∀ (alpha beta kappa : ℝ) p, merwe n alpha beta kappa sqrt = .ok p → TurnsPoints ang p) ∧
    (∀ (kappa : ℝ) p, julier n kappa sqrt = .ok p → TurnsPoints ang p) ∧ TurnsPoints ang (simplex n sqrt) := by
  refine ⟨fun alpha beta kappa p h => ?_, fun kappa p h => ?_, ?_⟩
  · unfold merwe at h
    simp only at h
    split_ifs at h with h0
    cases h
    intro a b P hab
    simp only
    cases sqrt ((alpha ^ 2 * (n + kappa) - n + n) • P) with
    | error e => rfl
    | ok U => exact turned_set ang hab U
  · unfold julier at h
    split_ifs at h with h0
    cases h
    intro a b P hab
    simp only
    cases sqrt ((n + kappa) • P) with
    | error e => rfl
    | ok U => exact turned_set ang hab U
  · intro a b P hab
    simp only [simplex]
    cases sqrt P with
    | error e => rfl
    | ok U => exact fun i => turned_sub ang hab _

/-- A filter set up for angles: `ax` marks the angles of the state, `az` those of the measurement. -/
structure ForAngles (ax : Fin n → Prop) (az : Fin m → Prop) {p : SigmaPts n} (u : UKF n m p) : Prop where
  meanX : u.xMean = some (angleMean ax)
  meanZ : u.zMean = some (angleMean az)
  resX : u.residualX = some (angleResidual ax)
  resZ : u.residualZ = some (angleResidual az)
  add : u.stateAdd = none
  fx : ∀ a b dt, Turned ax a b → Turned ax (u.fx a dt) (u.fx b dt)
  hx : ∀ a b, Turned ax a b → Turned az (u.hx a) (u.hx b)

/-- **C92**, angles.  A filter set up for angles gives the same covariances, gains, residuals and likelihoods,
and states that differ by full turns only, when the state is set off by full turns and every measurement is
reported in another turn. -/
theorem C92_angles (expf : ℝ → ℝ) (ax : Fin n → Prop) (az : Fin m → Prop) {p : SigmaPts n} (hp : TurnsPoints ax p)
    (u : UKF n m p) (hu : ForAngles ax az u) (hz : u.z = (fun _ => none) ∨ ∃ a : Vec m, u.z = fun i => some (a i))
    (x' : Vec n) (hx : Turned ax u.x x') {ops ops' : List (UkfCall n m)}
    (hops : List.Forall₂ (SameUKFCall (Turned ax) (Turned az)) ops ops') :
    SameOutcome (Alike (Turned ax) (Turned az) (pts := p.points)) (runList (UkfCall.on expf) u ops)
      (runList (UkfCall.on expf) { u with x := x' } ops') := by
  refine C92_coordinates (pts := p.points) expf hops ?_
  exact
    { fns :=
        { fx := hu.fx
          hx := hu.hx
          meanX := fun s t h => by
            simp only [hu.meanX, meanFn, Option.getD_some, turned_mean ax h]
            exact Turned.refl _ _
          meanZ := fun s t h => by
            simp only [hu.meanZ, meanFn, Option.getD_some, turned_mean az h]
            exact Turned.refl _ _
          resX := fun a b a' b' h h' => by simp only [hu.resX]; exact turned_residual ax h h'
          resZ := fun a b a' b' h h' => by simp only [hu.resZ]; exact turned_residual az h h'
          add := fun a b d h => by simp only [hu.add]; exact turned_add ax h d
          points := hp }
      x := hx
      P := rfl
      Q := rfl
      R := rfl
      dt := rfl
      sigmasF := fun _ => Turned.refl _ _
      sigmasH := fun _ => Turned.refl _ _
      z := by
        rcases hz with h | ⟨a, h⟩
        · exact Or.inl ⟨h, h⟩
        · exact Or.inr ⟨a, a, Turned.refl _ _, h, h⟩
      K := rfl
      y := rfl
      S := rfl
      SI := rfl
      xPrior := Turned.refl _ _
      PPrior := rfl
      xPost := Turned.refl _ _
      PPost := rfl
      logLik := rfl
      lik := rfl
      mahal := rfl
      inv := rfl }

/-- Not vacuous: a heading that turns at a constant rate and is measured. -/
example (sqrt : Mat 1 1 → Except Err (Mat 1 1)) :
    ForAngles (fun _ => True) (fun _ => True) (UKF.fresh 1 (simplex 1 sqrt) 1 (fun x => x) (fun x dt i => x i + dt)
      (some (angleMean fun _ => True)) (some (angleMean fun _ => True)) (some (angleResidual fun _ => True))
      (some (angleResidual fun _ => True))) where
  meanX := rfl
  meanZ := rfl
  resX := rfl
  resZ := rfl
  add := rfl
  fx := fun _ _ dt h => turned_add _ h fun _ => dt
  hx := fun _ _ h => h

end Filterpy
