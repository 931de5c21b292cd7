import Verif.Model.Basic
import Mathlib.Analysis.SpecialFunctions.Log.Basic
import Mathlib.Analysis.SpecialFunctions.Pow.Real
import Mathlib.Analysis.Real.Pi.Bounds

/-!
# Model of `filterpy/kalman/kalman_filter.py`, class `KalmanFilter`

Every method returns `Exec (KF n m l)`: the new object, or the exception together with the
object as it was left when the exception was raised.
-/

namespace Filterpy

open Matrix

/-- The control argument `u`: absent, the scalar default `0`, or a vector. -/
inductive UArg (l : ℕ)
  | none
  | scalar (c : ℝ)
  | vec (u : Vec l)

/-- `sys.float_info.min` (smallest positive normal double). -/
noncomputable def floatMin : ℝ := 2 ^ (-1022 : ℤ)

/-- `filterpy.stats.logpdf(x=y, cov=S)` (stats.py 131-154), which delegates to
`scipy.stats.multivariate_normal.logpdf`.  The closed form is scipy's for a positive
definite `S`; the `allow_singular` pseudo-determinant branch is not modelled. -/
noncomputable def logpdf {m : ℕ} (y : Vec m) (S : Mat m m) : ℝ :=
  -(1/2) * (m * Real.log (2 * Real.pi) + Real.log S.det + y ⬝ᵥ (S⁻¹ *ᵥ y))

/-- `logpdf(x, mean, cov)` with an explicit mean (stats.py 131-154). -/
noncomputable def logpdfMean {m : ℕ} (z mean : Vec m) (S : Mat m m) : ℝ := logpdf (z - mean) S

/-- The attributes of a `KalmanFilter` object (kalman_filter.py 398-434).
`z` holds, per component, the last measurement or `None`.
`logLik`, `lik`, `mahal` are the caches `_log_likelihood`, `_likelihood`, `_mahalanobis`
(`None` = recompute on demand).  `inv` is the user-replaceable inverse (line 434);
`none` means that it raises. -/
structure KF (n m l : ℕ) where
  x : Vec n
  P : Mat n n
  Q : Mat n n
  B : Option (Mat n l)
  F : Mat n n
  H : Mat m n
  R : Mat m m
  alphaSq : ℝ
  M : Mat n m
  z : Fin m → Option ℝ
  K : Mat n m
  y : Vec m
  S : Mat m m
  SI : Mat m m
  xPrior : Vec n
  PPrior : Mat n n
  xPost : Vec n
  PPost : Mat n n
  logLik : Option ℝ
  lik : Option ℝ
  mahal : Option ℝ
  inv : Mat m m → Option (Mat m m)

namespace KF

variable {n m l : ℕ}

/-- The attribute values set by `__init__` once the dimensions are accepted
(kalman_filter.py 398-434). -/
noncomputable def fresh (n m l : ℕ) : KF n m l where
  x := 0
  P := 1
  Q := 1
  B := none
  F := 1
  H := 0
  R := 1
  alphaSq := 1
  M := 0
  z := fun _ => none
  K := 0
  y := 0
  S := 0
  SI := 0
  xPrior := 0
  PPrior := 1
  xPost := 0
  PPost := 1
  logLik := some (Real.log floatMin)
  lik := some floatMin
  mahal := none
  inv := npInv

/-- A `KalmanFilter` of some dimension. -/
structure Sized where
  n : ℕ
  m : ℕ
  l : ℕ
  kf : KF n m l

/-- `KalmanFilter.__init__(dim_x, dim_z, dim_u)` (kalman_filter.py 387-434). -/
noncomputable def init (dimX dimZ dimU : ℤ) : Except Err Sized :=
  if dimX < 1 then .error .valueError
  else if dimZ < 1 then .error .valueError
  else if dimU < 0 then .error .valueError
  else .ok ⟨dimX.toNat, dimZ.toNat, dimU.toNat, fresh _ _ _⟩

/-- The control term `dot(B, u)` of `predict` (kalman_filter.py 470-473).
`none`: no term is added.  A scalar `u` makes `dot(B, u)` an `(n, l)` array; adding it to
the state column only keeps the state a vector when `l = 1`; for `l ≠ 1` numpy broadcasts
`x` to an `(n, l)` array, and the run leaves the model (`shape`). -/
noncomputable def control (B : Option (Mat n l)) (u : UArg l) : Except Err (Option (Vec n)) :=
  match B, u with
  | none, _ => .ok none
  | some _, .none => .ok none
  | some B, .vec u => .ok (some (B *ᵥ u))
  | some B, .scalar c =>
      if h : l = 1 then .ok (some fun i => c * B i ⟨0, by omega⟩) else .error .shape

/-- `KalmanFilter.predict(u, B, F, Q)` (kalman_filter.py 437-482). -/
noncomputable def predict (s : KF n m l) (u : UArg l := .none) (B : Option (Mat n l) := none)
    (F : Option (Mat n n) := none) (Q : MatArg n := .none) : Exec (KF n m l) :=
  let B := B.or s.B
  let F := F.getD s.F
  let Q := Q.resolve s.Q
  match control B u with
  | .error e => .error (e, s)
  | .ok bu =>
    let x := match bu with
      | some b => F *ᵥ s.x + b
      | none => F *ᵥ s.x
    let P := s.alphaSq • (F * s.P * Fᵀ) + Q
    .ok { s with x := x, P := P, xPrior := x, PPrior := P }

/-- The common `z is None` branch of the update methods (kalman_filter.py 510-519, 640-649,
697-706). -/
def updateNone (s : KF n m l) : KF n m l :=
  { s with
    logLik := none, lik := none, mahal := none
    z := fun _ => none
    xPost := s.x, PPost := s.P, y := 0 }

/-- `KalmanFilter.update(z, R, H)` (kalman_filter.py 485-561).  The measurement has already
been brought to a vector of `dim_z` entries (`reshape_z`, modelled in `Model/Helpers`).
If `self.inv` raises, `y`, `S` and the cleared caches have already been stored. -/
noncomputable def update (s : KF n m l) (z : Option (Vec m)) (R : MatArg m := .none)
    (H : Option (Mat m n) := none) : Exec (KF n m l) :=
  match z with
  | none => .ok s.updateNone
  | some z =>
    let R := R.resolve s.R
    let H := H.getD s.H
    let y := z - H *ᵥ s.x
    let PHT := s.P * Hᵀ
    let S := H * PHT + R
    match s.inv S with
    | none => .error (.linAlgError, { s with logLik := none, lik := none, mahal := none, y := y, S := S })
    | some SI =>
      let K := PHT * SI
      let x := s.x + K *ᵥ y
      let I_KH := 1 - K * H
      let P := I_KH * s.P * I_KHᵀ + K * R * Kᵀ
      .ok { s with
        logLik := none, lik := none, mahal := none
        y := y, S := S, SI := SI, K := K, x := x, P := P
        z := fun i => some (z i), xPost := x, PPost := P }

/-- The control term of `predict_steadystate` (kalman_filter.py 582-587): it only tests `B`, so with a
`B` and `u=None` the product `dot(B, None)` raises `TypeError`. -/
noncomputable def steadyControl (B : Option (Mat n l)) (u : UArg l) : Except Err (Option (Vec n)) :=
  match B, u with
  | some _, .none => .error .typeError
  | B, u => control B u

/-- `KalmanFilter.predict_steadystate(u=0, B=None)` (kalman_filter.py 563-593). -/
noncomputable def predictSteadystate (s : KF n m l) (u : UArg l := .scalar 0)
    (B : Option (Mat n l) := none) : Exec (KF n m l) :=
  match steadyControl (B.or s.B) u with
  | .error e => .error (e, s)
  | .ok bu =>
    let x := match bu with
      | some b => s.F *ᵥ s.x + b
      | none => s.F *ᵥ s.x
    .ok { s with x := x, xPrior := x, PPrior := s.P }

/-- `KalmanFilter.update_steadystate(z)` (kalman_filter.py 595-668). -/
noncomputable def updateSteadystate (s : KF n m l) (z : Option (Vec m)) : KF n m l :=
  match z with
  | none => s.updateNone
  | some z =>
    let y := z - s.H *ᵥ s.x
    let x := s.x + s.K *ᵥ y
    { s with
      logLik := none, lik := none, mahal := none
      y := y, x := x, z := fun i => some (z i), xPost := x, PPost := s.P }

/-- `KalmanFilter.update_correlated(z, R, H)` (kalman_filter.py 670-752). -/
noncomputable def updateCorrelated (s : KF n m l) (z : Option (Vec m)) (R : MatArg m := .none)
    (H : Option (Mat m n) := none) : Exec (KF n m l) :=
  match z with
  | none => .ok s.updateNone
  | some z =>
    let R := R.resolve s.R
    let H := H.getD s.H
    let y := z - H *ᵥ s.x
    let PHT := s.P * Hᵀ
    let S := H * PHT + H * s.M + s.Mᵀ * Hᵀ + R
    match s.inv S with
    | none => .error (.linAlgError, { s with logLik := none, lik := none, mahal := none, y := y, S := S })
    | some SI =>
      let K := (PHT + s.M) * SI
      let x := s.x + K *ᵥ y
      let P := s.P - K * (H * s.P + s.Mᵀ)
      .ok { s with
        logLik := none, lik := none, mahal := none
        y := y, S := S, SI := SI, K := K, x := x, P := P
        z := fun i => some (z i), xPost := x, PPost := P }

/-- The index `start + i` of the `i`-th entry of a slice `start:start+len` of a length-`m`
array. -/
def sliceIdx {start len m : ℕ} (h : start + len ≤ m) (i : Fin len) : Fin m :=
  ⟨start + i, by omega⟩

/-- Slice assignment `a[start:start+len] = b`. -/
def sliceSet {α : Type*} {start len m : ℕ} (_h : start + len ≤ m) (a : Fin m → α) (b : Fin len → α) :
    Fin m → α := fun j =>
  if hj : start ≤ (j : ℕ) ∧ (j : ℕ) < start + len then b ⟨j - start, by omega⟩ else a j

/-- What happens to a slice that runs past the end (kalman_filter.py 786-798): numpy's reshape or slice assignment
raises `ValueError`, except for an empty slice and for a single value with its own `R_i` and `H_i`, where the slice
assignments do nothing and the run leaves this model (`shape`; followed with run-time shapes in
`Model/KalmanShapesMore`, `C137_sequential_beyond_refuted`). -/
def sliceErr (len : ℕ) (Ri : MatArg len) (Hi : Option (Mat len n)) : Err :=
  match len, Ri, Hi with
  | 0, _, _ => .shape
  | 1, .scalar _, some _ => .shape
  | 1, .mat _, some _ => .shape
  | _, _, _ => .valueError

/-- `KalmanFilter.update_sequential(start, z_i, R_i, H_i)` (kalman_filter.py 754-824).
A slice that runs past the end: see `sliceErr`.
For one-element slices the code uses `1.0 / S_i`, which for `S_i = 0` yields `inf`
(`nonFinite`).  Note that neither `S`, `SI` nor the likelihood caches are written. -/
noncomputable def updateSequential (s : KF n m l) (start : ℕ) {len : ℕ} (zi : Vec len)
    (Ri : MatArg len := .none) (Hi : Option (Mat len n) := none) : Exec (KF n m l) :=
  if h : start + len ≤ m then
    let Ri := Ri.resolve (s.R.submatrix (sliceIdx h) (sliceIdx h))
    let Hi := Hi.getD (s.H.submatrix (sliceIdx h) id)
    let yi := zi - Hi *ᵥ s.x
    let s1 := { s with y := sliceSet h s.y yi }
    let PHT := s.P * Hiᵀ
    let Si := Hi * PHT + Ri
    let Ki : Except Err (Mat n len) :=
      if hl : len = 1 then
        let s00 := Si ⟨0, by omega⟩ ⟨0, by omega⟩
        if s00 = 0 then .error .nonFinite else .ok ((1.0 / s00) • PHT)
      else match npInv Si with
        | none => .error .linAlgError
        | some SIi => .ok (PHT * SIi)
    match Ki with
    | .error e => .error (e, s1)
    | .ok Ki =>
      let I_KH := 1 - Ki * Hi
      let x := s.x + Ki *ᵥ yi
      let P := I_KH * s.P * I_KHᵀ + Ki * Ri * Kiᵀ
      .ok { s1 with
        K := fun i => sliceSet h (s.K i) (Ki i)
        x := x, P := P
        z := sliceSet h s.z (fun i => some (zi i))
        xPost := x, PPost := P }
  else .error (sliceErr len Ri Hi, s)

/-- `KalmanFilter.get_prediction(u, B, F, Q)` (kalman_filter.py 1076-1124). -/
noncomputable def getPrediction (s : KF n m l) (u : UArg l := .none) (B : Option (Mat n l) := none)
    (F : Option (Mat n n) := none) (Q : MatArg n := .none) : Except Err (Vec n × Mat n n) :=
  let B := B.or s.B
  let F := F.getD s.F
  let Q := Q.resolve s.Q
  match control B u with
  | .error e => .error e
  | .ok bu =>
    let x := match bu with
      | some b => F *ᵥ s.x + b
      | none => F *ᵥ s.x
    .ok (x, s.alphaSq • (F * s.P * Fᵀ) + Q)

/-- `KalmanFilter.get_update(z)` (kalman_filter.py 1126-1173). -/
noncomputable def getUpdate (s : KF n m l) (z : Option (Vec m)) : Except Err (Vec n × Mat n n) :=
  match z with
  | none => .ok (s.x, s.P)
  | some z =>
    let y := z - s.H *ᵥ s.x
    let PHT := s.P * s.Hᵀ
    let S := s.H * PHT + s.R
    match s.inv S with
    | none => .error .linAlgError
    | some SI =>
      let K := PHT * SI
      let x := s.x + K *ᵥ y
      let I_KH := 1 - K * s.H
      .ok (x, I_KH * s.P * I_KHᵀ + K * s.R * Kᵀ)

/-- `KalmanFilter.residual_of(z)` (kalman_filter.py 1175-1181). -/
def residualOf (s : KF n m l) (z : Vec m) : Vec m := z - s.H *ᵥ s.xPrior

/-- `KalmanFilter.measurement_of_state(x)` (kalman_filter.py 1183-1201). -/
def measurementOfState (s : KF n m l) (x : Vec n) : Vec m := s.H *ᵥ x

/-- The property `log_likelihood` (kalman_filter.py 1203-1210): value and object afterwards. -/
noncomputable def readLogLik (s : KF n m l) : ℝ × KF n m l :=
  match s.logLik with
  | some v => (v, s)
  | none => (logpdf s.y s.S, { s with logLik := some (logpdf s.y s.S) })

/-- The property `likelihood` (kalman_filter.py 1212-1225).  `expf` is the floating-point
exponential, which may underflow to `0`. -/
noncomputable def readLik (expf : ℝ → ℝ) (s : KF n m l) : ℝ × KF n m l :=
  match s.lik with
  | some v => (v, s)
  | none =>
    let (ll, s') := s.readLogLik
    let v := if expf ll = 0 then floatMin else expf ll
    (v, { s' with lik := some v })

/-- The property `mahalanobis` (kalman_filter.py 1227-1239).  `math.sqrt` of a negative
number raises `ValueError`. -/
noncomputable def readMahal (s : KF n m l) : Except Err (ℝ × KF n m l) :=
  match s.mahal with
  | some v => .ok (v, s)
  | none =>
    let d := s.y ⬝ᵥ (s.SI *ᵥ s.y)
    if d < 0 then .error .valueError
    else .ok (Real.sqrt d, { s with mahal := some (Real.sqrt d) })

/-- `KalmanFilter.log_likelihood_of(z)` (kalman_filter.py 1252-1260). -/
noncomputable def logLikelihoodOf (s : KF n m l) (z : Option (Vec m)) : ℝ :=
  match z with
  | none => Real.log floatMin
  | some z => logpdfMean z (s.H *ᵥ s.x) s.S

/-- The property `alpha` (kalman_filter.py 1241-1250). -/
noncomputable def alpha (s : KF n m l) : ℝ := s.alphaSq ^ (0.5 : ℝ)

/-- The setter of `alpha` (kalman_filter.py 1262-1267). -/
noncomputable def setAlpha (s : KF n m l) (v : ℝ) : Exec (KF n m l) :=
  if v < 1 then .error (.valueError, s) else .ok { s with alphaSq := v ^ 2 }

/-! ## `batch_filter` -/

/-- One row of `zip(zs, Fs, Qs, Hs, Rs, Bs, us)` (kalman_filter.py 961, 975). -/
structure BatchRow (n m l : ℕ) where
  z : Option (Vec m)
  F : Mat n n
  Q : MatArg n
  H : Mat m n
  R : MatArg m
  B : Option (Mat n l)
  u : UArg l

/-- The four output arrays of `batch_filter`, one entry per row. -/
structure BatchOut (n : ℕ) where
  mean : Vec n
  cov : Mat n n
  meanP : Vec n
  covP : Mat n n

/-- The optional per-step lists of `batch_filter`. -/
structure BatchArgs (n m l : ℕ) where
  Fs : Option (List (Mat n n)) := none
  Qs : Option (List (MatArg n)) := none
  Hs : Option (List (Mat m n)) := none
  Rs : Option (List (MatArg m)) := none
  Bs : Option (List (Option (Mat n l))) := none
  us : Option (List (UArg l)) := none

/-- `zip(zs, Fs, Qs, Hs, Rs, Bs, us)`: stops with the shortest list. -/
def zip7 {α β γ δ ε ζ η θ : Type*} (f : α → β → γ → δ → ε → ζ → η → θ) :
    List α → List β → List γ → List δ → List ε → List ζ → List η → List θ
  | a :: as, b :: bs, c :: cs, d :: ds, e :: es, g :: gs, h :: hs =>
      f a b c d e g h :: zip7 f as bs cs ds es gs hs
  | _, _, _, _, _, _, _ => []

/-- Defaults and zip of `batch_filter` (kalman_filter.py 934-947, 961, 975). -/
def batchRows (s : KF n m l) (zs : List (Option (Vec m))) (a : BatchArgs n m l) :
    List (BatchRow n m l) :=
  let k := zs.length
  zip7 BatchRow.mk zs
    (a.Fs.getD (List.replicate k s.F))
    (a.Qs.getD (List.replicate k (.mat s.Q)))
    (a.Hs.getD (List.replicate k s.H))
    (a.Rs.getD (List.replicate k (.mat s.R)))
    (a.Bs.getD (List.replicate k s.B))
    (a.us.getD (List.replicate k (.scalar 0)))

/-- The loop of `batch_filter` (kalman_filter.py 960-987). -/
noncomputable def batchLoop (updateFirst : Bool) :
    KF n m l → List (BatchRow n m l) → Except (Err × KF n m l) (List (BatchOut n) × KF n m l)
  | s, [] => .ok ([], s)
  | s, r :: rows =>
    if updateFirst then do
      let s1 ← s.update r.z r.R (some r.H)
      let s2 ← s1.predict r.u r.B (some r.F) r.Q
      let (out, s') ← batchLoop updateFirst s2 rows
      .ok (⟨s1.x, s1.P, s2.x, s2.P⟩ :: out, s')
    else do
      let s1 ← s.predict r.u r.B (some r.F) r.Q
      let s2 ← s1.update r.z r.R (some r.H)
      let (out, s') ← batchLoop updateFirst s2 rows
      .ok (⟨s2.x, s2.P, s1.x, s1.P⟩ :: out, s')

/-- `KalmanFilter.batch_filter(zs, Fs, Qs, Hs, Rs, Bs, us, update_first)`
(kalman_filter.py 826-993; the `saver` is modelled separately).  Rows of the output
arrays beyond the shortest input list stay zero and are not represented. -/
noncomputable def batchFilter (s : KF n m l) (zs : List (Option (Vec m)))
    (a : BatchArgs n m l := {}) (updateFirst : Bool := false) :
    Except (Err × KF n m l) (List (BatchOut n) × KF n m l) :=
  batchLoop updateFirst s (batchRows s zs a)

/-! ## `rts_smoother` -/

/-- One smoothed entry: `x[k], P[k], K[k], Pp[k]`. -/
structure RtsOut (n : ℕ) where
  x : Vec n
  P : Mat n n
  K : Mat n n
  Pp : Mat n n

/-- One pass of the loop body of `rts_smoother` (kalman_filter.py 1066-1072) at index `k`:
`x, P` are the filtered values at `k`; `F, Q` are `Fs[k+1], Qs[k+1]` (method) or
`Fs[k], Qs[k]` (function); `nxt` is the already smoothed entry `k+1`. -/
noncomputable def rtsStep (inv : Mat n n → Option (Mat n n)) (x : Vec n) (P F Q : Mat n n)
    (nxt : RtsOut n) : Except Err (RtsOut n) :=
  let Pp := F * P * Fᵀ + Q
  match inv Pp with
  | none => .error .linAlgError
  | some PpI =>
    let K := P * Fᵀ * PpI
    .ok ⟨x + K *ᵥ (nxt.x - F *ᵥ x), P + K * (nxt.P - Pp) * Kᵀ, K, Pp⟩

/-- The backward loop of the *method* `KalmanFilter.rts_smoother` on the list of
`((Xs[k], Ps[k]), (Fs[k], Qs[k]))` (kalman_filter.py 1064-1072).  The last entry keeps its
filtered value, gain `0` and `Pp = P`. -/
noncomputable def rtsLoop (inv : Mat n n → Option (Mat n n)) :
    List ((Vec n × Mat n n) × (Mat n n × Mat n n)) → Except Err (List (RtsOut n))
  | [] => .ok []
  | [e] => .ok [⟨e.1.1, e.1.2, 0, e.1.2⟩]
  | e :: e' :: rest => do
    let tail ← rtsLoop inv (e' :: rest)
    match tail with
    | [] => .ok []
    | nxt :: _ =>
      let o ← rtsStep inv e.1.1 e.1.2 e'.2.1 e'.2.2 nxt
      .ok (o :: tail)

/-- `KalmanFilter.rts_smoother(Xs, Ps, Fs, Qs)` (kalman_filter.py 995-1074).  `Fs`/`Qs`
shorter than `Xs` raise `IndexError` when an entry beyond the first is needed. -/
noncomputable def rtsSmoother (s : KF n m l) (Xs : List (Vec n)) (Ps : List (Mat n n))
    (Fs : Option (List (Mat n n)) := none) (Qs : Option (List (Mat n n)) := none)
    (inv : Mat n n → Option (Mat n n) := npInv) : Except Err (List (RtsOut n)) :=
  if Xs.length ≠ Ps.length then .error .valueError
  else
    let k := Xs.length
    let Fs := Fs.getD (List.replicate k s.F)
    let Qs := Qs.getD (List.replicate k s.Q)
    if 2 ≤ k ∧ (Fs.length < k ∨ Qs.length < k) then .error .indexError
    else if k < 2 then rtsLoop inv ((Xs.zip Ps).map fun e => (e, (0, 0)))
    else rtsLoop inv ((Xs.zip Ps).zip (Fs.zip Qs))

end KF
end Filterpy
