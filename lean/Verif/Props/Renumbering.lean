import Verif.Props.EnKF
import Verif.Props.UKF
import Verif.Props.NonlinearRuns

/-!
# C150: the numbering of ensemble members and sigma points is irrelevant
-/

namespace Filterpy

open Matrix Spec

variable {n m N k : ℕ}

/-! ## Specification -/

namespace Spec

/-- The rows in another order: row `i` is now what row `σ i` was. -/
def renumbered {k n : ℕ} (σ : Equiv.Perm (Fin k)) (A : Mat k n) : Mat k n := fun i => A (σ i)

/-- The weights in another order. -/
def reweighted {k : ℕ} (σ : Equiv.Perm (Fin k)) (w : Vec k) : Vec k := fun i => w (σ i)

/-- The same outcome of a call, with the objects changed by `f`. -/
def alike {α β : Type*} (f : α → β) : Exec α → Exec β
  | .ok s => .ok (f s)
  | .error (e, s) => .error (e, f s)

/-- The same ensemble filter with its members in another order. -/
def EnKF.renumber (σ : Equiv.Perm (Fin N)) (s : EnKF n m N) : EnKF n m N := { s with sigmas := renumbered σ s.sigmas }

/-- The same call with the draws for the members in that order. -/
def EnkfOp.renumber (σ : Equiv.Perm (Fin N)) : EnkfOp n m N → EnkfOp n m N
  | .predict e => .predict (renumbered σ e)
  | .update z R e => .update z R (renumbered σ e)

/-- The same sigma points, with their weights, in another order. -/
def SigmaPts.renumber (p : SigmaPts n) (σ : Equiv.Perm (Fin p.num)) : SigmaPts n where
  num := p.num
  Wm := reweighted σ p.Wm
  Wc := reweighted σ p.Wc
  points x P := (p.points x P).map (renumbered σ)

/-- An `UnscentedKalmanFilter` with those points: everything else is as it was. -/
def UKF.renumber {p : SigmaPts n} (σ : Equiv.Perm (Fin p.num)) (s : UKF n m p) : UKF n m (SigmaPts.renumber p σ) where
  x := s.x
  P := s.P
  Q := s.Q
  R := s.R
  dt := s.dt
  hx := s.hx
  fx := s.fx
  xMean := s.xMean
  zMean := s.zMean
  residualX := s.residualX
  residualZ := s.residualZ
  stateAdd := s.stateAdd
  sigmasF := renumbered σ s.sigmasF
  sigmasH := renumbered σ s.sigmasH
  z := s.z
  K := s.K
  y := s.y
  S := s.S
  SI := s.SI
  xPrior := s.xPrior
  PPrior := s.PPrior
  xPost := s.xPost
  PPost := s.PPost
  logLik := s.logLik
  lik := s.lik
  mahal := s.mahal
  inv := s.inv

/-- The user's function for weighted means, if any, does not depend on the order of the points. -/
def OrderFree (σ : Equiv.Perm (Fin k)) (W : Vec k) (f : Option (Mat k n → Vec k → Vec n)) : Prop :=
  ∀ g ∈ f, ∀ A, g (renumbered σ A) (reweighted σ W) = g A W

end Spec

/-! ## Sums -/

theorem meanRows_renumbered (σ : Equiv.Perm (Fin N)) (A : Mat N n) : meanRows (renumbered σ A) = meanRows A := by
  funext j
  exact congrArg (· / (N : ℝ)) (Equiv.sum_comp σ fun i => A i j)

theorem outerSum_renumbered (σ : Equiv.Perm (Fin N)) (A : Mat N n) (B : Mat N m) :
    outerSum (renumbered σ A) (renumbered σ B) = outerSum A B := by
  funext j k
  exact Equiv.sum_comp σ fun i => Helpers.einsumOuter A B i j k

theorem crossVariance_renumbered (σ : Equiv.Perm (Fin k)) (Wc : Vec k) (rx : Vec n → Vec n → Vec n) (rz : Vec m → Vec m → Vec m)
    (x : Vec n) (z : Vec m) (sf : Mat k n) (sh : Mat k m) :
    UKF.crossVariance (reweighted σ Wc) rx rz x z (renumbered σ sf) (renumbered σ sh) = UKF.crossVariance Wc rx rz x z sf sh := by
  rw [crossVariance_eq, crossVariance_eq]
  exact Equiv.sum_comp σ fun i => Wc i • vecMulVec (rx (sf i) x) (rz (sh i) z)

theorem utFold_eq (sg : Mat k n) (Wc : Vec k) (res : Vec n → Vec n → Vec n) (x : Vec n) :
    (List.finRange k).foldl (utStep sg Wc res x) 0 = ∑ i, Wc i • vecMulVec (res (sg i) x) (res (sg i) x) :=
  crossVariance_eq Wc res res x x sg sg

theorem ut_renumbered (σ : Equiv.Perm (Fin k)) (sg : Mat k n) (Wm Wc : Vec k) (N : Option (Mat n n))
    (f : Option (Mat k n → Vec k → Vec n)) (hf : OrderFree σ Wm f) (res : Option (Vec n → Vec n → Vec n)) :
    unscentedTransform (renumbered σ sg) (reweighted σ Wm) (reweighted σ Wc) N f res = unscentedTransform sg Wm Wc N f res := by
  have key : ∀ x : Vec n, (rows fun i => renumbered σ sg i - x)ᵀ * (diagonal (reweighted σ Wc) * rows fun i => renumbered σ sg i - x) =
      (rows fun i => sg i - x)ᵀ * (diagonal Wc * rows fun i => sg i - x) := fun x => by
    ext a b
    rw [mul_apply, mul_apply]
    simp only [diagonal_mul, transpose_apply]
    exact Equiv.sum_comp σ fun i => (sg i - x) a * (Wc i * (sg i - x) b)
  have key' : ∀ (r : Vec n → Vec n → Vec n) x, (List.finRange k).foldl (utStep (renumbered σ sg) (reweighted σ Wc) r x) 0 =
      (List.finRange k).foldl (utStep sg Wc r x) 0 := fun r x => by
    rw [utFold_eq, utFold_eq]
    exact Equiv.sum_comp σ fun i => Wc i • vecMulVec (r (sg i) x) (r (sg i) x)
  have hx : reweighted σ Wm ᵥ* renumbered σ sg = Wm ᵥ* sg := by
    funext j; exact Equiv.sum_comp σ fun i => Wm i * sg i j
  unfold rows at key
  cases f with
  | none =>
    cases res with
    | none =>
      simp only [unscentedTransform, hx]
      rw [key]
    | some r => simp only [unscentedTransform, hx, key']
  | some g =>
    cases res with
    | none =>
      simp only [unscentedTransform, hf g rfl sg]
      rw [key]
    | some r => simp only [unscentedTransform, hf g rfl sg, key']

/-! ## Histories -/

theorem alike_runs {α β ι κ : Type*} (f : α → β) (g : ι → κ) (I : α → Prop) (step : α → ι → Exec α) (step' : β → κ → Exec β)
    (h : ∀ s, I s → ∀ i, step' (f s) (g i) = alike f (step s i)) (hI : ∀ s, I s → ∀ i s', step s i = .ok s' → I s') (is : List ι) :
    ∀ s, I s → runList step' (f s) (is.map g) = alike f (runList step s is) := by
  induction is with
  | nil => intro s _; rfl
  | cons i is ih =>
    intro s hs
    simp only [List.map_cons, runList, h s hs i]
    cases e : step s i with
    | error er => rfl
    | ok s' => exact ih s' (hI s hs i s' e)

/-- **C150, ensembles.**  Number the members of the ensemble differently, and the draws made for them accordingly: every
sequence of calls has the same outcome, the same estimates and the same reports, and leaves the same members. -/
theorem C150_ensemble (σ : Equiv.Perm (Fin N)) (s : EnKF n m N) (ops : List (EnkfOp n m N)) :
    runList EnkfOp.run (EnKF.renumber σ s) (ops.map (EnkfOp.renumber σ)) = alike (EnKF.renumber σ) (runList EnkfOp.run s ops) := by
  refine alike_runs _ _ (fun _ => True) _ _ (fun s _ op => ?_) (fun _ _ _ _ _ => trivial) ops s trivial
  cases op with
  | predict e =>
    have h1 : meanRows (rows fun i => s.fx (s.sigmas (σ i)) s.dt + e (σ i)) = meanRows (rows fun i => s.fx (s.sigmas i) s.dt + e i) :=
      meanRows_renumbered σ (rows fun i => s.fx (s.sigmas i) s.dt + e i)
    have h2 : ∀ x : Vec n, outerSum (rows fun i => (rows fun i => s.fx (s.sigmas (σ i)) s.dt + e (σ i)) i - x)
        (rows fun i => (rows fun i => s.fx (s.sigmas (σ i)) s.dt + e (σ i)) i - x) =
        outerSum (rows fun i => (rows fun i => s.fx (s.sigmas i) s.dt + e i) i - x)
        (rows fun i => (rows fun i => s.fx (s.sigmas i) s.dt + e i) i - x) := fun x =>
      outerSum_renumbered σ (rows fun i => (rows fun i => s.fx (s.sigmas i) s.dt + e i) i - x)
        (rows fun i => (rows fun i => s.fx (s.sigmas i) s.dt + e i) i - x)
    simp only [EnkfOp.run, EnkfOp.renumber, EnKF.predict, EnKF.renumber, renumbered, h1, h2]
    split_ifs <;> rfl
  | update z R e =>
    cases z with
    | none => rfl
    | some z =>
      have h1 : meanRows (rows fun i => s.hx (s.sigmas (σ i))) = meanRows (rows fun i => s.hx (s.sigmas i)) :=
        meanRows_renumbered σ (rows fun i => s.hx (s.sigmas i))
      have h2 : ∀ y : Vec m, outerSum (rows fun i => (rows fun i => s.hx (s.sigmas (σ i))) i - y)
          (rows fun i => (rows fun i => s.hx (s.sigmas (σ i))) i - y) =
          outerSum (rows fun i => (rows fun i => s.hx (s.sigmas i)) i - y) (rows fun i => (rows fun i => s.hx (s.sigmas i)) i - y) := fun y =>
        outerSum_renumbered σ (rows fun i => (rows fun i => s.hx (s.sigmas i)) i - y)
          (rows fun i => (rows fun i => s.hx (s.sigmas i)) i - y)
      have h3 : ∀ y : Vec m, outerSum (rows fun i => s.sigmas (σ i) - s.x) (rows fun i => (rows fun i => s.hx (s.sigmas (σ i))) i - y) =
          outerSum (rows fun i => s.sigmas i - s.x) (rows fun i => (rows fun i => s.hx (s.sigmas i)) i - y) := fun y =>
        outerSum_renumbered σ (rows fun i => s.sigmas i - s.x) (rows fun i => (rows fun i => s.hx (s.sigmas i)) i - y)
      have h4 : ∀ K : Mat n m, meanRows (rows fun i => s.sigmas (σ i) + K *ᵥ (z + e (σ i) - (rows fun i => s.hx (s.sigmas (σ i))) i)) =
          meanRows (rows fun i => s.sigmas i + K *ᵥ (z + e i - (rows fun i => s.hx (s.sigmas i)) i)) := fun K =>
        meanRows_renumbered σ (rows fun i => s.sigmas i + K *ᵥ (z + e i - (rows fun i => s.hx (s.sigmas i)) i))
      simp only [EnkfOp.run, EnkfOp.renumber, EnKF.update, EnKF.renumber, renumbered, h1, h2, h3, h4]
      split_ifs
      · rfl
      · generalize s.inv _ = q
        cases q <;> rfl

theorem ukf_predict_renumbered {p : SigmaPts n} (σ : Equiv.Perm (Fin p.num)) (s : UKF n m p) (hx : OrderFree σ p.Wm s.xMean)
    (dt : Option ℝ) (fx : Option (Vec n → ℝ → Vec n)) :
    (UKF.renumber σ s).predict dt fx = alike (UKF.renumber σ) (s.predict dt fx) := by
  have hp : ∀ x P, (SigmaPts.renumber p σ).points x P = (p.points x P).map (renumbered σ) := fun _ _ => rfl
  have e1 : (UKF.renumber σ s).computeProcessSigmas (dt.getD (UKF.renumber σ s).dt) fx =
      alike (UKF.renumber σ) (s.computeProcessSigmas (dt.getD s.dt) fx) := by
    simp only [UKF.computeProcessSigmas]
    rw [show (SigmaPts.renumber p σ).points (UKF.renumber σ s).x (UKF.renumber σ s).P = (p.points s.x s.P).map (renumbered σ) from rfl]
    cases p.points s.x s.P <;> rfl
  have e2 : ∀ t : UKF n m p, t.xMean = s.xMean → (UKF.renumber σ t).predictUT = alike (UKF.renumber σ) t.predictUT := fun t ht => by
    have h := ut_renumbered σ t.sigmasF p.Wm p.Wc (some t.Q) t.xMean (ht ▸ hx) t.residualX
    unfold UKF.predictUT
    rw [show unscentedTransform (UKF.renumber σ t).sigmasF (SigmaPts.renumber p σ).Wm (SigmaPts.renumber p σ).Wc
      (some (UKF.renumber σ t).Q) (UKF.renumber σ t).xMean (UKF.renumber σ t).residualX =
      unscentedTransform t.sigmasF p.Wm p.Wc (some t.Q) t.xMean t.residualX from h]
    generalize unscentedTransform t.sigmasF p.Wm p.Wc (some t.Q) t.xMean t.residualX = q
    dsimp only
    rw [hp]
    cases p.points q.1 q.2 <;> rfl
  unfold UKF.predict
  rw [e1]
  cases h1 : p.points s.x s.P with
  | error e => simp only [UKF.computeProcessSigmas, h1]; rfl
  | ok sg =>
    simp only [UKF.computeProcessSigmas, h1]
    exact e2 _ rfl

theorem ukf_update_renumbered {p : SigmaPts n} (σ : Equiv.Perm (Fin p.num)) (s : UKF n m p) (hz : OrderFree σ p.Wm s.zMean)
    (z : Option (Vec m)) (R : MatArg m) (hx : Option (Vec n → Vec m)) :
    (UKF.renumber σ s).update z R hx = alike (UKF.renumber σ) (s.update z R hx) := by
  cases z with
  | none => rfl
  | some z =>
    have h := ut_renumbered σ (UKF.pushRows (hx.getD s.hx) s.sigmasF) p.Wm p.Wc (some (R.resolve s.R)) s.zMean hz s.residualZ
    have h2 := fun y => crossVariance_renumbered σ p.Wc (resFn s.residualX) (resFn s.residualZ) s.x y s.sigmasF
      (UKF.pushRows (hx.getD s.hx) s.sigmasF)
    simp only [UKF.update]
    rw [show unscentedTransform (UKF.pushRows (hx.getD (UKF.renumber σ s).hx) (UKF.renumber σ s).sigmasF) (SigmaPts.renumber p σ).Wm
      (SigmaPts.renumber p σ).Wc (some (R.resolve (UKF.renumber σ s).R)) (UKF.renumber σ s).zMean (UKF.renumber σ s).residualZ =
      unscentedTransform (UKF.pushRows (hx.getD s.hx) s.sigmasF) p.Wm p.Wc (some (R.resolve s.R)) s.zMean s.residualZ from h]
    generalize unscentedTransform (UKF.pushRows (hx.getD s.hx) s.sigmasF) p.Wm p.Wc (some (R.resolve s.R)) s.zMean s.residualZ = q
    rw [show UKF.crossVariance (SigmaPts.renumber p σ).Wc (resFn (UKF.renumber σ s).residualX) (resFn (UKF.renumber σ s).residualZ)
      (UKF.renumber σ s).x q.1 (UKF.renumber σ s).sigmasF (UKF.pushRows (hx.getD (UKF.renumber σ s).hx) (UKF.renumber σ s).sigmasF) =
      UKF.crossVariance p.Wc (resFn s.residualX) (resFn s.residualZ) s.x q.1 s.sigmasF (UKF.pushRows (hx.getD s.hx) s.sigmasF) from h2 q.1]
    rw [show (UKF.renumber σ s).inv q.2 = s.inv q.2 from rfl]
    cases s.inv q.2 <;> rfl

/-- **C150, sigma points.**  Give the `UnscentedKalmanFilter` a sigma point object that returns the same points and weights
in another order: every sequence of calls has the same outcome, the same estimates and the same reports, and leaves the
same points. -/
theorem C150_ukf {p : SigmaPts n} (σ : Equiv.Perm (Fin p.num)) (s : UKF n m p) (hx : OrderFree σ p.Wm s.xMean)
    (hz : OrderFree σ p.Wm s.zMean) (calls : List (Spec.UkfCall n m)) :
    runList Spec.UkfCall.on (UKF.renumber σ s) calls = alike (UKF.renumber σ) (runList Spec.UkfCall.on s calls) := by
  have h := alike_runs (UKF.renumber σ) (id : Spec.UkfCall n m → Spec.UkfCall n m)
    (fun s : UKF n m p => OrderFree σ p.Wm s.xMean ∧ OrderFree σ p.Wm s.zMean) Spec.UkfCall.on Spec.UkfCall.on
    (fun s hs c => ?_) (fun s hs c s' e => ?_) calls s ⟨hx, hz⟩
  · rwa [List.map_id] at h
  · cases c with
    | predict dt fx => exact ukf_predict_renumbered σ s hs.1 dt fx
    | update z R hx => exact ukf_update_renumbered σ s hs.2 z R hx
  · cases c with
    | predict dt fx =>
      simp only [Spec.UkfCall.on, UKF.predict, UKF.computeProcessSigmas, UKF.predictUT] at e
      cases h1 : p.points s.x s.P with
      | error e' => simp only [h1] at e; cases e
      | ok sg =>
        simp only [h1] at e
        split at e
        · cases e
        · injection e with e; rw [← e]; exact hs
    | update z R hx =>
      cases z with
      | none => simp only [Spec.UkfCall.on, UKF.update] at e; injection e with e; rw [← e]; exact hs
      | some z =>
        simp only [Spec.UkfCall.on, UKF.update] at e
        split at e
        · cases e
        · injection e with e; rw [← e]; exact hs

noncomputable def rtsBody (inv : Mat n n → Option (Mat n n)) (res : Vec n → Vec n → Vec n) (x : Vec n) (P : Mat n n)
    (nxt : UKF.RtsOut n) (q : Vec n × Mat n n) (C : Vec n → Mat n n) : Except Err (UKF.RtsOut n) :=
  match inv q.2 with
  | none => .error .linAlgError
  | some PbI => .ok ⟨x + (C q.1 * PbI) *ᵥ res nxt.x q.1, P + (C q.1 * PbI) * (nxt.P - q.2) * (C q.1 * PbI)ᵀ, C q.1 * PbI⟩

theorem rtsStep_ok {p : SigmaPts n} (s : UKF n m p) {x : Vec n} {P : Mat n n} {sg : Mat p.num n} (h : p.points x P = .ok sg)
    (dt : ℝ) (nxt : UKF.RtsOut n) :
    s.rtsStep x P (some dt) nxt = rtsBody s.inv (resFn s.residualX) x P nxt
      (unscentedTransform (UKF.pushRows (fun v => s.fx v dt) sg) p.Wm p.Wc (some s.Q) s.xMean s.residualX)
      (fun z => UKF.crossVariance p.Wc (resFn s.residualX) (resFn s.residualX) x z sg (UKF.pushRows (fun v => s.fx v dt) sg)) := by
  unfold UKF.rtsStep rtsBody
  rw [h]
  dsimp only
  generalize unscentedTransform (UKF.pushRows (fun v => s.fx v dt) sg) p.Wm p.Wc (some s.Q) s.xMean s.residualX = q
  cases s.inv q.2 <;> rfl

/-- **C150, smoothing.**  `rts_smoother` returns the same. -/
theorem C150_ukf_smoother {p : SigmaPts n} (σ : Equiv.Perm (Fin p.num)) (s : UKF n m p) (hx : OrderFree σ p.Wm s.xMean)
    (Xs : List (Vec n)) (Ps : List (Mat n n)) (Qs : Option (List (Mat n n))) (dts : UKF.DtArg) :
    (UKF.renumber σ s).rtsSmoother Xs Ps Qs dts = s.rtsSmoother Xs Ps Qs dts := by
  have hstep : ∀ x P dt nxt, (UKF.renumber σ s).rtsStep x P dt nxt = s.rtsStep x P dt nxt := fun x P dt nxt => by
    cases hp : p.points x P with
    | error e =>
      have hp' : (SigmaPts.renumber p σ).points x P = .error e := by
        change (p.points x P).map (renumbered σ) = _; rw [hp]; rfl
      unfold UKF.rtsStep
      rw [hp, hp']
    | ok sg =>
      have hp' : (SigmaPts.renumber p σ).points x P = .ok (renumbered σ sg) := by
        change (p.points x P).map (renumbered σ) = _; rw [hp]; rfl
      cases dt with
      | none =>
        unfold UKF.rtsStep
        rw [hp, hp']
      | some dt =>
        rw [rtsStep_ok s hp, rtsStep_ok (UKF.renumber σ s) hp']
        exact congrArg₂ (rtsBody s.inv (resFn s.residualX) x P nxt)
          (ut_renumbered σ (UKF.pushRows (fun v => s.fx v dt) sg) p.Wm p.Wc (some s.Q) s.xMean hx s.residualX)
          (funext fun z => crossVariance_renumbered σ p.Wc (resFn s.residualX) (resFn s.residualX) x z sg
            (UKF.pushRows (fun v => s.fx v dt) sg))
  have hloop : ∀ l, (UKF.renumber σ s).rtsLoop l = s.rtsLoop l := by
    intro l
    induction l with
    | nil => rfl
    | cons e l ih =>
      cases l with
      | nil => rfl
      | cons e' l => simp only [UKF.rtsLoop, ih, hstep]
  unfold UKF.rtsSmoother
  rw [hloop]
  rfl

/-! ## Non-vacuity -/

/-- A predict succeeds for two members 1 and 3, and numbering them the other way gives another object. -/
example (s : EnKF 1 1 2) (h : s.sigmas = !![1; 3]) (e : Mat 2 1) :
    EnKF.renumber (Equiv.swap 0 1) s ≠ s ∧ ∃ t, runList EnkfOp.run s [.predict e] = .ok t := by
  refine ⟨fun hs => ?_, ?_⟩
  · have h0 := congrFun (congrFun (congrArg EnKF.sigmas hs) 0) 0
    simp [EnKF.renumber, renumbered, h] at h0
  · simp only [runList, EnkfOp.run, EnKF.predict]
    exact ⟨_, rfl⟩

/-- Without functions for weighted means nothing is asked of the filter. -/
example {p : SigmaPts n} (σ : Equiv.Perm (Fin p.num)) : OrderFree (n := n) σ p.Wm none := fun _ h => by cases h

/-- A mean of angles by sums of sines and cosines does not depend on the order either. -/
example (σ : Equiv.Perm (Fin k)) (W : Vec k) : OrderFree σ W (some fun (A : Mat k 1) w => ![Real.arctan
    ((∑ i, w i * Real.sin (A i 0)) / ∑ i, w i * Real.cos (A i 0))]) := fun g hg A => by
  cases hg
  have h1 := Equiv.sum_comp σ fun i => W i * Real.sin (A i 0)
  have h2 := Equiv.sum_comp σ fun i => W i * Real.cos (A i 0)
  simp only [renumbered, reweighted, h1, h2]

end Filterpy
