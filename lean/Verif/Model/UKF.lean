import Verif.Model.SigmaPoints
import Verif.Model.KalmanFilter

/-!
# Model of `filterpy/kalman/UKF.py`, class `UnscentedKalmanFilter`

The filter is typed by its sigma point object `p`.  `fx`, `hx` are total functions; the keyword
arguments `fx_args`/`hx_args` are taken to be already applied, and an `fx`/`hx`/`UT` that raises is not
modelled.  `UT` is always `unscented_transform`.  `hx` returns vectors of length `dim_z`.
-/

namespace Filterpy

open Matrix

/-- `self.residual_x` / `self.residual_z`: `none` is the default `np.subtract` (UKF.py 330-338). -/
def resFn {n : ℕ} (o : Option (Vec n → Vec n → Vec n)) : Vec n → Vec n → Vec n :=
  o.getD fun a b => a - b

/-- The attributes of an `UnscentedKalmanFilter` (UKF.py 300-362). -/
structure UKF (n m : ℕ) (p : SigmaPts n) where
  x : Vec n
  P : Mat n n
  Q : Mat n n
  R : Mat m m
  dt : ℝ
  hx : Vec n → Vec m
  fx : Vec n → ℝ → Vec n
  xMean : Option (Mat p.num n → Vec p.num → Vec n)
  zMean : Option (Mat p.num m → Vec p.num → Vec m)
  residualX : Option (Vec n → Vec n → Vec n)
  residualZ : Option (Vec m → Vec m → Vec m)
  stateAdd : Option (Vec n → Vec n → Vec n)
  sigmasF : Mat p.num n
  sigmasH : Mat p.num m
  z : Fin m → Option ℝ
  K : Mat n m
  y : Vec m
  S : Mat m m
  SI : Mat m m
  xPrior : Vec n
  PPrior : Mat n n
  xPost : Vec n
  PPost : Mat n n
  logLik : Option ℝ
  lik : Option ℝ
  mahal : Option ℝ
  inv : ∀ {k : ℕ}, Mat k k → Option (Mat k k)

namespace UKF

variable {n m : ℕ} {p : SigmaPts n}

/-- `UnscentedKalmanFilter.__init__` (UKF.py 284-362). -/
noncomputable def fresh (m : ℕ) (p : SigmaPts n) (dt : ℝ) (hx : Vec n → Vec m)
    (fx : Vec n → ℝ → Vec n)
    (xMean : Option (Mat p.num n → Vec p.num → Vec n) := none)
    (zMean : Option (Mat p.num m → Vec p.num → Vec m) := none)
    (residualX : Option (Vec n → Vec n → Vec n) := none)
    (residualZ : Option (Vec m → Vec m → Vec m) := none)
    (stateAdd : Option (Vec n → Vec n → Vec n) := none) : UKF n m p where
  x := 0
  P := 1
  Q := 1
  R := 1
  dt := dt
  hx := hx
  fx := fx
  xMean := xMean
  zMean := zMean
  residualX := residualX
  residualZ := residualZ
  stateAdd := stateAdd
  sigmasF := 0
  sigmasH := 0
  z := fun _ => none
  K := 0
  y := 0
  S := 0
  SI := 0
  xPrior := 0
  PPrior := 1
  xPost := 0
  PPost := 1
  logLik := some (Real.log floatMin)
  lik := some floatMin
  mahal := none
  inv := npInv

/-- Every row of `s` mapped by `f` (the loops UKF.py 458-460 and 521-522). -/
def pushRows {k n m : ℕ} (f : Vec n → Vec m) (s : Mat k n) : Mat k m := fun i => f (s i)

/-- `compute_process_sigmas(dt, fx)` (UKF.py 507-522). -/
def computeProcessSigmas (s : UKF n m p) (dt : ℝ) (fx : Option (Vec n → ℝ → Vec n) := none) :
    Exec (UKF n m p) :=
  match p.points s.x s.P with
  | .error e => .error (e, s)
  | .ok sigmas => .ok { s with sigmasF := pushRows (fun v => fx.getD s.fx v dt) sigmas }

/-- The part of `predict` after `compute_process_sigmas` (UKF.py 402-411). -/
noncomputable def predictUT (s : UKF n m p) : Exec (UKF n m p) :=
  let xP := unscentedTransform s.sigmasF p.Wm p.Wc (some s.Q) s.xMean s.residualX
  match p.points xP.1 xP.2 with
  | .error e => .error (e, { s with x := xP.1, P := xP.2 })
  | .ok sigmas => .ok { s with
      x := xP.1, P := xP.2, sigmasF := sigmas, xPrior := xP.1, PPrior := xP.2 }

/-- `predict(dt, fx)` (UKF.py 364-411). -/
noncomputable def predict (s : UKF n m p) (dt : Option ℝ := none)
    (fx : Option (Vec n → ℝ → Vec n) := none) : Exec (UKF n m p) :=
  match s.computeProcessSigmas (dt.getD s.dt) fx with
  | .error e => .error e
  | .ok s' => s'.predictUT

/-- One turn of the loop of `cross_variance` (UKF.py 500-504). -/
def crossStep {k n m : ℕ} (Wc : Vec k) (resX : Vec n → Vec n → Vec n) (resZ : Vec m → Vec m → Vec m)
    (x : Vec n) (z : Vec m) (sf : Mat k n) (sh : Mat k m) (A : Mat n m) (i : Fin k) : Mat n m :=
  A + Wc i • vecMulVec (resX (sf i) x) (resZ (sh i) z)

/-- `cross_variance(x, z, sigmas_f, sigmas_h)` (UKF.py 493-505). -/
def crossVariance {k n m : ℕ} (Wc : Vec k) (resX : Vec n → Vec n → Vec n)
    (resZ : Vec m → Vec m → Vec m) (x : Vec n) (z : Vec m) (sf : Mat k n) (sh : Mat k m) : Mat n m :=
  (List.finRange k).foldl (crossStep Wc resX resZ x z sf sh) 0

/-- `update(z, R, hx)` (UKF.py 413-491). -/
noncomputable def update (s : UKF n m p) (z : Option (Vec m)) (R : MatArg m := .none)
    (hx : Option (Vec n → Vec m) := none) : Exec (UKF n m p) :=
  match z with
  | none => .ok { s with z := fun _ => none, xPost := s.x, PPost := s.P }
  | some z =>
    let hx := hx.getD s.hx
    let R := R.resolve s.R
    let sigmasH := pushRows hx s.sigmasF
    let zpS := unscentedTransform sigmasH p.Wm p.Wc (some R) s.zMean s.residualZ
    match s.inv zpS.2 with
    | none => .error (.linAlgError, { s with sigmasH := sigmasH, S := zpS.2 })
    | some SI =>
      let Pxz := crossVariance p.Wc (resFn s.residualX) (resFn s.residualZ) s.x zpS.1 s.sigmasF sigmasH
      let K := Pxz * SI
      let y := resFn s.residualZ z zpS.1
      let x := (s.stateAdd.getD fun a b => a + b) s.x (K *ᵥ y)
      let P := s.P - K * (zpS.2 * Kᵀ)
      .ok { s with
        sigmasH := sigmasH, S := zpS.2, SI := SI, K := K, y := y, x := x, P := P
        z := fun i => some (z i), xPost := x, PPost := P
        logLik := none, lik := none, mahal := none }

/-- The property `log_likelihood` (UKF.py 741-748). -/
noncomputable def readLogLik (s : UKF n m p) : ℝ × UKF n m p :=
  match s.logLik with
  | some v => (v, s)
  | none => (logpdf s.y s.S, { s with logLik := some (logpdf s.y s.S) })

/-- The property `mahalanobis` (UKF.py 764-775). -/
noncomputable def readMahal (s : UKF n m p) : Except Err (ℝ × UKF n m p) :=
  match s.mahal with
  | some v => .ok (v, s)
  | none =>
    let d := s.y ⬝ᵥ (s.SI *ᵥ s.y)
    if d < 0 then .error .valueError
    else .ok (Real.sqrt d, { s with mahal := some (Real.sqrt d) })

/-! ## `batch_filter` -/

/-- The argument `dts`: absent, a number, or a list. -/
inductive DtArg
  | none
  | scalar (c : ℝ)
  | list (l : List ℝ)

/-- The loop of `batch_filter` (UKF.py 619-627) over the zipped rows. -/
noncomputable def batchLoop (s : UKF n m p) :
    List (Option (Vec m) × MatArg m × ℝ) → Except (Err × UKF n m p) (List (Vec n × Mat n n) × UKF n m p)
  | [] => .ok ([], s)
  | (z, r, dt) :: rest =>
    match s.predict (some dt) with
    | .error e => .error e
    | .ok s1 => match s1.update z r with
      | .error e => .error e
      | .ok s2 => match batchLoop s2 rest with
        | .error e => .error e
        | .ok (out, s3) => .ok ((s2.x, s2.P) :: out, s3)

/-- `batch_filter(zs, Rs, dts)` without a saver (UKF.py 524-629).  Measurements are vectors of length
`dim_z`, so the shape checks can only fail on a `None` in first place: with `dim_z = 1` it has no `ndim`
(`AttributeError`), otherwise no `len` (`TypeError`).  A scalar `dts` cannot be zipped (`TypeError`).
Rows beyond the shortest argument keep the zeros of the preallocated arrays. -/
noncomputable def batchFilter (s : UKF n m p) (zs : List (Option (Vec m)))
    (Rs : Option (List (MatArg m)) := none) (dts : DtArg := .none) :
    Except (Err × UKF n m p) (List (Vec n × Mat n n) × UKF n m p) :=
  match zs with
  | [] => .error (.indexError, s)
  | none :: _ => .error (if m = 1 then .attributeError else .typeError, s)
  | some z :: zs' =>
    let zs := some z :: zs'
    let Rs := Rs.getD (List.replicate zs.length (.mat s.R))
    let run (dts : List ℝ) :=
      match s.batchLoop (zs.zip (Rs.zip dts)) with
      | .error e => .error e
      | .ok (out, s') => .ok (out ++ List.replicate (zs.length - out.length) (0, 0), s')
    match dts with
    | .none => run (List.replicate zs.length s.dt)
    | .list l => run l
    | .scalar _ => .error (.typeError, s)

/-! ## `rts_smoother` -/

/-- One smoothed entry: `xs[k], ps[k], Ks[k]`. -/
structure RtsOut (n : ℕ) where
  x : Vec n
  P : Mat n n
  K : Mat n n

/-- The loop body of `rts_smoother` (UKF.py 711-737) at index `k`; `dt = none` means that `dts` has no
entry `k` (`IndexError`).  Note that the noise is `self.Q`, never `Qs[k]`. -/
noncomputable def rtsStep (s : UKF n m p) (x : Vec n) (P : Mat n n) (dt : Option ℝ) (nxt : RtsOut n) :
    Except Err (RtsOut n) :=
  match p.points x P with
  | .error e => .error e
  | .ok sigmas =>
    match dt with
    | none => .error .indexError
    | some dt =>
      let sigmasF := pushRows (fun v => s.fx v dt) sigmas
      let xbPb := unscentedTransform sigmasF p.Wm p.Wc (some s.Q) s.xMean s.residualX
      let Pxb := crossVariance p.Wc (resFn s.residualX) (resFn s.residualX) x xbPb.1 sigmas sigmasF
      match s.inv xbPb.2 with
      | none => .error .linAlgError
      | some PbI =>
        let K := Pxb * PbI
        .ok ⟨x + K *ᵥ resFn s.residualX nxt.x xbPb.1, P + K * (nxt.P - xbPb.2) * Kᵀ, K⟩

/-- The backward loop of `rts_smoother` (UKF.py 711). -/
noncomputable def rtsLoop (s : UKF n m p) :
    List ((Vec n × Mat n n) × Option ℝ) → Except Err (List (RtsOut n))
  | [] => .ok []
  | [e] => .ok [⟨e.1.1, e.1.2, 0⟩]
  | e :: e' :: rest =>
    match rtsLoop s (e' :: rest) with
    | .error err => .error err
    | .ok [] => .ok []
    | .ok (nxt :: tail) => match s.rtsStep e.1.1 e.1.2 e.2 nxt with
      | .error err => .error err
      | .ok o => .ok (o :: nxt :: tail)

/-- `dts` resolved (UKF.py 690-693). -/
noncomputable def rtsDts (s : UKF n m p) (k : ℕ) : DtArg → List (Option ℝ)
  | .none => List.replicate k (some s.dt)
  | .scalar c => List.replicate k (some c)
  | .list l => (List.range k).map fun i => l[i]?

/-- `rts_smoother(Xs, Ps, Qs, dts)` (UKF.py 634-739).  `Qs` is accepted, defaulted, and never read. -/
noncomputable def rtsSmoother (s : UKF n m p) (Xs : List (Vec n)) (Ps : List (Mat n n))
    (_Qs : Option (List (Mat n n)) := none) (dts : DtArg := .none) : Except Err (List (RtsOut n)) :=
  if Xs.length ≠ Ps.length then .error .valueError
  else s.rtsLoop ((Xs.zip Ps).zip (s.rtsDts Xs.length dts))

end UKF
end Filterpy
