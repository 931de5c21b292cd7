import Verif.Model.KalmanShapes
import Verif.Model.KalmanFuncs

/-!
# The module-level functions of `filterpy/kalman/kalman_filter.py` with run-time shapes

`update`, `update_steadystate`, `predict` and `predict_steadystate` (kalman_filter.py 1401-1660) on
arrays that carry their shape at run time, so that plain numbers, 1-D arrays, columns and arrays of
a wrong shape behave as in numpy.  The log-likelihood of `return_all` is modelled in
`Model/KalmanFuncs`.
-/

namespace Filterpy.NFun

open Matrix

/-- The state argument: a Python number, which has no attributes such as `ndim`, or a numpy value.
Results of numpy operations are always numpy values. -/
inductive PyX
  | num (a : ℝ)
  | np (a : Nd)

/-- The value as an operand of a numpy operation. -/
def PyX.val : PyX → Nd
  | .num a => .d0 a
  | .np a => a

/-- `H = np.array([1])` for `None`, `np.array([H])` for a number
(kalman_filter.py 1456-1461, 1551-1556). -/
def resolveH : NdArg → Nd
  | .none => .d1 1 fun _ => 1
  | .scalar h => .d1 1 fun _ => h
  | .arr H => H

/-- `np.atleast_1d`. -/
def atleast1d : Nd → Nd
  | .d0 a => .d1 1 fun _ => a
  | a => a

/-- `a.shape[0]`; `atleast1d` has made sure that there is one. -/
def shape0 : Nd → ℕ
  | .d0 _ => 0
  | .d1 n _ => n
  | .d2 m _ _ => m

open Classical in
/-- `1./S`; a zero entry gives `inf` (`nonFinite`, outside the model). -/
noncomputable def recip : Nd → Except Err Nd
  | .d0 a => if a = 0 then .error .nonFinite else .ok (.d0 (1 / a))
  | .d1 n v => if ∃ i, v i = 0 then .error .nonFinite else .ok (.d1 n fun i => 1 / v i)
  | .d2 m n A => if ∃ i j, A i j = 0 then .error .nonFinite
      else .ok (.d2 m n (of fun i j => 1 / A i j))

/-- `dot(dot(P, H.T), linalg.inv(S))`. -/
noncomputable def gainInv (PHT S : Nd) : Except Err Nd := do
  let SI ← Nd.inv S
  Nd.dot PHT SI

/-- `dot(dot(P, H.T), 1./S)`. -/
noncomputable def gainRecip (PHT S : Nd) : Except Err Nd := do
  let r ← recip S
  Nd.dot PHT r

/-- The gain (kalman_filter.py 1474-1479): the bare `except` catches whatever the inversion or the
product raises. -/
noncomputable def gain (PHT S : Nd) : Except Err Nd :=
  match gainInv PHT S with
  | .ok K => .ok K
  | .error _ => gainRecip PHT S

/-- `I_KH` (kalman_filter.py 1488-1491): a 0-d `KH` has no `shape[0]` and gives `np.array([1 - KH])`.
An array that `np.eye` cannot be combined with would become 3-D (`shape`, outside the model). -/
def iKH : Nd → Except Err Nd
  | .d0 a => .ok (.d1 1 fun _ => 1 - a)
  | KH => match Nd.sub (Nd.eye (shape0 KH)) KH with
    | .ok A => .ok A
    | .error _ => .error .shape

/-- `y = z - Hx` with `Hx = np.atleast_1d(dot(H, x))` and `z = reshape_z(z, Hx.shape[0], x.ndim)`
(kalman_filter.py 1463-1468, 1558-1563); a Python number has no `ndim`. -/
def residual (x : PyX) (z H : Nd) : Except Err Nd := do
  let Hx ← Nd.dot H x.val
  match x with
  | .num _ => .error .attributeError
  | .np x => do
    let z ← Nd.reshapeZ z (shape0 (atleast1d Hx)) x.ndim
    Nd.sub z (atleast1d Hx)

/-- `dot(dot(H, P), H.T) + R` (kalman_filter.py 1471); adding `None` raises `TypeError`. -/
def innovCov (H P : Nd) (R : Option Nd) : Except Err Nd := do
  let HP ← Nd.dot H P
  let HPH ← Nd.dot HP H.T
  match R with
  | none => .error .typeError
  | some R => Nd.add HPH R

/-- `dot(dot(A, P), A.T)`. -/
def conj (A P : Nd) : Except Err Nd := do
  let a ← Nd.dot A P
  Nd.dot a A.T

/-- What `update(..., return_all=True)` returns, without the log-likelihood. -/
structure Out where
  x : Nd
  P : Nd
  y : Nd
  K : Nd
  S : Nd

/-- `update(x, P, z, R, H)` for a measurement (kalman_filter.py 1456-1508). -/
noncomputable def updateAll (x : PyX) (P z : Nd) (R : Option Nd) (H : NdArg) : Except Err Out := do
  let H := resolveH H
  let y ← residual x z H
  let S ← innovCov H P R
  let PHT ← Nd.dot P H.T
  let K ← gain PHT S
  let Ky ← Nd.dot K y
  let x' ← Nd.add x.val Ky
  let KH ← Nd.dot K H
  let A ← iKH KH
  let a ← conj A P
  let b ← conj K (R.getD (.d0 0))
  let P' ← Nd.add a b
  .ok ⟨x', P', y, K, S⟩

/-- `update(x, P, z, R, H)` (kalman_filter.py 1401-1508). -/
noncomputable def update (x : PyX) (P : Nd) (z R : Option Nd) (H : NdArg) : Except Err (PyX × Nd) :=
  match z with
  | none => .ok (x, P)
  | some z => do
    let o ← updateAll x P z R H
    .ok (.np o.x, o.P)

/-- `update_steadystate(x, z, K, H)` (kalman_filter.py 1511-1568). -/
def updateSteadystate (x : PyX) (z : Option Nd) (K : Nd) (H : NdArg) : Except Err PyX :=
  match z with
  | none => .ok x
  | some z => do
    let y ← residual x z (resolveH H)
    let Ky ← Nd.dot K y
    let x' ← Nd.add x.val Ky
    .ok (.np x')

/-- `dot(F, x) + dot(B, u)` (kalman_filter.py 1618, 1658); numbers are 0-d arrays. -/
def predictX (x : PyX) (F u B : Nd) : Except Err Nd := do
  let Fx ← Nd.dot F x.val
  let Bu ← Nd.dot B u
  Nd.add Fx Bu

/-- `predict(x, P, F, Q, u, B, alpha)` (kalman_filter.py 1571-1621).  `Q=None` is in
`Model/KalmanFuncs`. -/
def predict (x : PyX) (P F Q u B : Nd) (alpha : ℝ) : Except Err (PyX × Nd) := do
  let x' ← predictX x F u B
  let FPF ← conj F P
  let P' ← Nd.add (Nd.smul (alpha * alpha) FPF) Q
  .ok (.np x', P')

/-- `predict_steadystate(x, F, u, B)` (kalman_filter.py 1624-1660). -/
def predictSteadystate (x : PyX) (F u B : Nd) : Except Err PyX := do
  let x' ← predictX x F u B
  .ok (.np x')

/-- A call in a program that carries `x` and `P` from one function to the next. -/
inductive Call
  | predict (F Q u B : Nd) (alpha : ℝ)
  | update (z R : Option Nd) (H : NdArg)

/-- The call `x, P = predict(x, P, ...)` or `x, P = update(x, P, ...)`. -/
noncomputable def step (s : PyX × Nd) : Call → Except Err (PyX × Nd)
  | .predict F Q u B alpha => predict s.1 s.2 F Q u B alpha
  | .update z R H => update s.1 s.2 z R H

/-- A sequence of calls; an exception ends it. -/
noncomputable def run (s : PyX × Nd) : List Call → Except Err (PyX × Nd)
  | [] => .ok s
  | c :: cs => do
    let s' ← step s c
    run s' cs

end Filterpy.NFun
