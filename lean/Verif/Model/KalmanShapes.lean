import Verif.Model.NdArray
import Verif.Model.KalmanFilter

/-!
# `KalmanFilter` with run-time shapes

The methods of `filterpy/kalman/kalman_filter.py` 387-668 and `test_matrix_dimensions`
(1299-1398) on arrays that carry their shape at run time, so that a 1-D state, a column state and
arrays of a wrong shape behave as in numpy.
-/

namespace Filterpy

open Matrix

/-- A matrix argument: absent, a Python or numpy scalar (`isscalar`), or an array. -/
inductive NdArg
  | none
  | scalar (c : ℝ)
  | arr (a : Nd)

/-- `if Q is None: Q = self.Q  elif isscalar(Q): Q = eye(dim) * Q`
(kalman_filter.py 463-466, 521-524). -/
noncomputable def NdArg.resolve (a : NdArg) (dim : ℕ) (dflt : Nd) : Nd :=
  match a with
  | .none => dflt
  | .scalar c => .d2 dim dim (c • (1 : Mat dim dim))
  | .arr a => a

/-- The attributes of a `KalmanFilter` object (kalman_filter.py 394-434), arrays of any shape.
`z = none` is the column of `None`s. -/
structure NKF where
  dimX : ℕ
  dimZ : ℕ
  x : Nd
  P : Nd
  Q : Nd
  B : Option Nd
  F : Nd
  H : Nd
  R : Nd
  alphaSq : ℝ
  M : Nd
  z : Option Nd
  K : Nd
  y : Nd
  S : Nd
  SI : Nd
  xPrior : Nd
  PPrior : Nd
  xPost : Nd
  PPost : Nd
  logLik : Option ℝ
  lik : Option ℝ
  mahal : Option ℝ
  inv : Nd → Except Err Nd

namespace NKF

/-- `KalmanFilter.__init__` for accepted dimensions (kalman_filter.py 394-434). -/
noncomputable def fresh (n m : ℕ) : NKF where
  dimX := n
  dimZ := m
  x := .d2 n 1 0
  P := .d2 n n 1
  Q := .d2 n n 1
  B := none
  F := .d2 n n 1
  H := .d2 m n 0
  R := .d2 m m 1
  alphaSq := 1
  M := .d2 n m 0
  z := none
  K := .d2 n m 0
  y := .d2 m 1 0
  S := .d2 m m 0
  SI := .d2 m m 0
  xPrior := .d2 n 1 0
  PPrior := .d2 n n 1
  xPost := .d2 n 1 0
  PPost := .d2 n n 1
  logLik := some (Real.log floatMin)
  lik := some floatMin
  mahal := none
  inv := Nd.inv

/-- An exception raised by an array operation while the object is in state `s`. -/
def lift {α : Type*} (s : NKF) : Except Err α → Except (Err × NKF) α
  | .ok a => .ok a
  | .error e => .error (e, s)

/-- The state part of `predict` (kalman_filter.py 469-473). -/
def stepX (F x : Nd) (B u : Option Nd) : Except Err Nd := do
  let Fx ← Nd.dot F x
  match B, u with
  | some B, some u => do
    let Bu ← Nd.dot B u
    Nd.add Fx Bu
  | _, _ => .ok Fx

/-- The covariance part of `predict` (kalman_filter.py 476). -/
def stepP (alphaSq : ℝ) (F P Q : Nd) : Except Err Nd := do
  let FP ← Nd.dot F P
  let FPF ← Nd.dot FP F.T
  Nd.add (Nd.smul alphaSq FPF) Q

/-- `KalmanFilter.predict(u, B, F, Q)` (kalman_filter.py 437-482).  A scalar `u` is a 0-d array. -/
noncomputable def predict (s : NKF) (u B F : Option Nd) (Q : NdArg) : Except (Err × NKF) NKF := do
  let B := B.or s.B
  let F := F.getD s.F
  let Q := Q.resolve s.dimX s.Q
  let x ← s.lift (stepX F s.x B u)
  let s1 := { s with x := x }
  let P ← s1.lift (stepP s.alphaSq F s.P Q)
  .ok { s1 with P := P, xPrior := x, PPrior := P }

/-- `KalmanFilter.predict_steadystate(u, B)` (kalman_filter.py 563-593). -/
def predictSteadystate (s : NKF) (u : Nd) (B : Option Nd) : Except (Err × NKF) NKF := do
  let x ← s.lift (stepX s.F s.x (B.or s.B) (some u))
  .ok { s with x := x, xPrior := x, PPrior := s.P }

/-- The `z is None` branch (kalman_filter.py 510-519). -/
def updateNone (s : NKF) : NKF :=
  { s with
    logLik := none, lik := none, mahal := none
    z := none, xPost := s.x, PPost := s.P, y := Nd.zeros s.dimZ 1 }

/-- The residual `z - dot(H, x)` (kalman_filter.py 532). -/
def residual (z H x : Nd) : Except Err Nd := do
  let Hx ← Nd.dot H x
  Nd.sub z Hx

/-- `dot(H, PHT) + R` (kalman_filter.py 539). -/
def innovCov (H PHT R : Nd) : Except Err Nd := do
  let HPHT ← Nd.dot H PHT
  Nd.add HPHT R

/-- `x + dot(K, y)` (kalman_filter.py 547). -/
def correct (x K y : Nd) : Except Err Nd := do
  let Ky ← Nd.dot K y
  Nd.add x Ky

/-- `I_KH = I - KH; dot(dot(I_KH, P), I_KH.T) + dot(dot(K, R), K.T)`
(kalman_filter.py 554-555). -/
def joseph (dimX : ℕ) (K H P R : Nd) : Except Err Nd := do
  let KH ← Nd.dot K H
  let IKH ← Nd.sub (Nd.eye dimX) KH
  let a ← Nd.dot IKH P
  let a ← Nd.dot a IKH.T
  let b ← Nd.dot K R
  let b ← Nd.dot b K.T
  Nd.add a b

/-- `reshape_z` is applied to the measurement only if no `H` is passed (kalman_filter.py 526-528). -/
def measured (s : NKF) (z : Nd) (H : Option Nd) : Except Err Nd :=
  match H with
  | none => Nd.reshapeZ z s.dimZ s.x.ndim
  | some _ => .ok z

/-- `KalmanFilter.update(z, R, H)` (kalman_filter.py 485-561).  Attributes are assigned in the
order of the code, so an exception leaves the earlier assignments in place. -/
noncomputable def update (s : NKF) (z : Option Nd) (R : NdArg) (H : Option Nd) : Except (Err × NKF) NKF :=
  match z with
  | none => .ok s.updateNone
  | some z => do
    let s0 := { s with logLik := none, lik := none, mahal := none }
    let R := R.resolve s.dimZ s.R
    let z ← s0.lift (s.measured z H)
    let H := H.getD s.H
    let y ← s0.lift (residual z H s.x)
    let s1 := { s0 with y := y }
    let PHT ← s1.lift (Nd.dot s.P H.T)
    let S ← s1.lift (innovCov H PHT R)
    let s2 := { s1 with S := S }
    let SI ← s2.lift (s.inv S)
    let s3 := { s2 with SI := SI }
    let K ← s3.lift (Nd.dot PHT SI)
    let s4 := { s3 with K := K }
    let x ← s4.lift (correct s.x K y)
    let s5 := { s4 with x := x }
    let P ← s5.lift (joseph s.dimX K H s.P R)
    .ok { s5 with P := P, z := some z, xPost := x, PPost := P }

/-- `KalmanFilter.update_steadystate(z)` (kalman_filter.py 595-668). -/
def updateSteadystate (s : NKF) (z : Option Nd) : Except (Err × NKF) NKF :=
  match z with
  | none => .ok s.updateNone
  | some z => do
    let s0 := { s with logLik := none, lik := none, mahal := none }
    let z ← s0.lift (Nd.reshapeZ z s.dimZ s.x.ndim)
    let y ← s0.lift (residual z s.H s.x)
    let s1 := { s0 with y := y }
    let x ← s1.lift (correct s.x s.K y)
    .ok { s1 with x := x, z := some z, xPost := x, PPost := s.P }

/-- A call on the object. -/
inductive Call
  | predict (u B F : Option Nd) (Q : NdArg)
  | update (z : Option Nd) (R : NdArg) (H : Option Nd)
  | predictSteadystate (u : Nd) (B : Option Nd)
  | updateSteadystate (z : Option Nd)

/-- Executes one call. -/
noncomputable def step (s : NKF) : Call → Exec NKF
  | .predict u B F Q => s.predict u B F Q
  | .update z R H => s.update z R H
  | .predictSteadystate u B => s.predictSteadystate u B
  | .updateSteadystate z => s.updateSteadystate z

/-- `assert c`. -/
def check (c : Prop) [Decidable c] : Except Err Unit :=
  if c then .ok () else .error .assertion

/-- The check of the length of `x` in `test_matrix_dimensions` (kalman_filter.py 1335-1342). -/
def checkX (dimX : ℕ) (x : Nd) : Except Err Unit :=
  if x.ndim = 1 then check (x.shape = [dimX]) else check (x.shape = [dimX, 1])

/-- The shape of `z` assumed by `test_matrix_dimensions` (kalman_filter.py 1372-1375). -/
def zShape (dimZ : ℕ) (z : Option Nd) : List ℕ :=
  match z with
  | some z => z.shape
  | none => [dimZ, 1]

/-- The check of `R` in `test_matrix_dimensions` (kalman_filter.py 1357-1369). -/
def checkR (h0 : ℕ) (r : List ℕ) : Except Err Unit :=
  if h0 = 1 then check (r = [] ∨ r = [1] ∨ r = [1, 1]) else check (r = [h0, h0])

/-- The first check of `z` against `Hx` in `test_matrix_dimensions` (kalman_filter.py 1380-1392);
`zs` and `hx` are the shapes. -/
def checkZ1 (zs hx : List ℕ) : Except Err Unit :=
  if zs = [] then check (hx.length = 1 ∨ hx = [1, 1])
  else if hx = [1] then check (zs.head? = some 1)
  else check (zs = hx ∨ (zs.length = 1 ∧ hx = zs ++ [1]))

/-- Both checks of `z` against `Hx` (kalman_filter.py 1380-1397). -/
def checkZ (zs hx : List ℕ) : Except Err Unit := do
  checkZ1 zs hx
  if 1 < hx.length ∧ hx ≠ [1, 1] then check (hx = zs) else .ok ()

/-- `KalmanFilter.test_matrix_dimensions(z, H, R, F, Q)` (kalman_filter.py 1299-1398).  The
attributes `shape` and `ndim` exist on arrays only; an `H`, `F`, `Q` passed as a Python number raises
`AttributeError` there and is not represented. -/
def testMatrixDimensions (s : NKF) (z H R F Q : Option Nd) : Except Err Unit := do
  let H := H.getD s.H
  let R := R.getD s.R
  let F := F.getD s.F
  let Q := Q.getD s.Q
  check (s.x.ndim = 1 ∨ s.x.ndim = 2)
  checkX s.dimX s.x
  check (s.P.shape = [s.dimX, s.dimX])
  check (Q.shape = [s.dimX, s.dimX])
  check (F.shape = [s.dimX, s.dimX])
  check (H.ndim = 2)
  check (H.cols = s.P.rows)
  checkR H.rows R.shape
  let Hx ← Nd.dot H s.x
  checkZ (zShape s.dimZ z) Hx.shape

end NKF

end Filterpy
