import Verif.Model.KalmanShapes

/-!
# The other methods of `KalmanFilter` with run-time shapes

`update_correlated`, `update_sequential`, the previews `get_prediction` and `get_update`, `residual_of`,
`measurement_of_state` and `mahalanobis` (`filterpy/kalman/kalman_filter.py` 670-824, 1076-1239) on arrays that carry their
shape at run time.
-/

namespace Filterpy

open Matrix

namespace Nd

/-- `a * b`, elementwise. -/
def mul (a b : Nd) : Except Err Nd := broadcast (· * ·) a b

/-- `1.0 / a`, elementwise; a zero entry gives `inf` (`nonFinite`). -/
noncomputable def oneOver (a : Nd) : Except Err Nd :=
  open Classical in
  if ∃ i j, i < a.rows ∧ j < a.cols ∧ a.get i j = 0 then .error .nonFinite
  else match a with
    | d0 a => .ok (d0 (1.0 / a))
    | d1 n v => .ok (d1 n fun i => 1.0 / v i)
    | d2 m n A => .ok (d2 m n (of fun i j => 1.0 / A i j))

/-- The length of the slice `start:stop` of an axis of length `k`. -/
def sliceLen (k start stop : ℕ) : ℕ := min k stop - start

/-- `a[start:stop]`: a slice along the first axis; a number or 0-d array has none (`IndexError`). -/
def slice (a : Nd) (start stop : ℕ) : Except Err Nd :=
  match a with
  | d0 _ => .error .indexError
  | d1 n v => .ok (d1 (sliceLen n start stop) fun i => get (d1 n v) 0 (start + i))
  | d2 m n A => .ok (d2 (sliceLen m start stop) n (of fun i j => get (d2 m n A) (start + i) j))

/-- `a[start:stop, start:stop]`; arrays of fewer than two axes raise `IndexError`. -/
def slice2 (a : Nd) (start stop : ℕ) : Except Err Nd :=
  match a with
  | d2 m n A => .ok (d2 (sliceLen m start stop) (sliceLen n start stop)
      (of fun i j => get (d2 m n A) (start + i) (start + j)))
  | _ => .error .indexError

/-- The number of entries. -/
def size : Nd → ℕ
  | d0 _ => 1
  | d1 n _ => n
  | d2 m n _ => m * n

/-- Entry `k` in row-major order. -/
def flat : Nd → ℕ → ℝ
  | d0 a, _ => a
  | d1 n v, k => get (d1 n v) 0 k
  | d2 m n A, k => get (d2 m n A) (k / n) (k % n)

/-- `np.reshape(a, [m, n])`: `ValueError` unless the number of entries is `m n`. -/
def reshape (a : Nd) (m n : ℕ) : Except Err Nd :=
  if a.size = m * n then .ok (d2 m n (of fun i j => a.flat (i * n + j))) else .error .valueError

/-- `len(a)`; a number is treated by the caller. -/
def len : Nd → ℕ
  | d0 _ => 1
  | d1 n _ => n
  | d2 m _ _ => m

/-- Does an array with `r` rows and `c` columns fit into a slot of `k` by `p` entries, by numpy's broadcasting of the
right-hand side of an assignment? -/
def fits (r c k p : ℕ) : Prop := (r = k ∨ r = 1) ∧ (c = p ∨ c = 1)

instance (r c k p : ℕ) : Decidable (fits r c k p) := by unfold fits; infer_instance

/-- `a[start:stop] = b`: the rows of the slice are overwritten, `b` being broadcast to the slice; `ValueError` if it does
not fit (leading axes of length one of `b` are ignored). -/
def setRows (a : Nd) (start stop : ℕ) (b : Nd) : Except Err Nd :=
  match a with
  | d0 _ => .error .indexError
  | d1 n v =>
    if fits b.rows b.cols 1 (sliceLen n start stop) then
      .ok (d1 n fun j => if start ≤ (j : ℕ) ∧ (j : ℕ) < stop then b.get 0 (bidx b.cols (j - start)) else v j)
    else .error .valueError
  | d2 m n A =>
    if fits b.rows b.cols (sliceLen m start stop) n then
      .ok (d2 m n (of fun i j => if start ≤ (i : ℕ) ∧ (i : ℕ) < stop then
        b.get (bidx b.rows (i - start)) (bidx b.cols j) else A i j))
    else .error .valueError

/-- `a[:, start:stop] = b`, likewise for columns. -/
def setCols (a : Nd) (start stop : ℕ) (b : Nd) : Except Err Nd :=
  match a with
  | d2 m n A =>
    if fits b.rows b.cols m (sliceLen n start stop) then
      .ok (d2 m n (of fun i j => if start ≤ (j : ℕ) ∧ (j : ℕ) < stop then
        b.get (bidx b.rows i) (bidx b.cols (j - start)) else A i j))
    else .error .valueError
  | _ => .error .indexError

/-- `a += b`: as `a + b`, but the result must have the shape of `a`. -/
def addInto (a b : Nd) : Except Err Nd :=
  match add a b with
  | .error e => .error e
  | .ok c => if c.shape = a.shape then .ok c else .error .valueError

end Nd

namespace NKF

/-- `if x.ndim == 1 and shape(z) == (1, 1): z = z[0]` (kalman_filter.py 724-725). -/
def unwrapped (x : Nd) : Nd → Nd
  | .d2 1 1 A => if x.ndim = 1 then .d1 1 fun _ => A 0 0 else .d2 1 1 A
  | z => z

/-- `if shape(z) == (): z = np.asarray([z])` (kalman_filter.py 727-728). -/
def wrapped : Nd → Nd
  | .d0 a => .d1 1 fun _ => a
  | z => z

/-- `dot(H, PHT) + dot(H, M) + dot(M.T, H.T) + R` (kalman_filter.py 738). -/
def correlatedS (H PHT M R : Nd) : Except Err Nd := do
  let a ← Nd.dot H PHT
  let b ← Nd.dot H M
  let a ← Nd.add a b
  let c ← Nd.dot M.T H.T
  let a ← Nd.add a c
  Nd.add a R

/-- `dot(PHT + M, SI)` (kalman_filter.py 743). -/
def correlatedK (PHT M SI : Nd) : Except Err Nd := do
  let a ← Nd.add PHT M
  Nd.dot a SI

/-- `P - dot(K, dot(H, P) + M.T)` (kalman_filter.py 748). -/
def correlatedP (K H P M : Nd) : Except Err Nd := do
  let a ← Nd.dot H P
  let a ← Nd.add a M.T
  let a ← Nd.dot K a
  Nd.sub P a

/-- `KalmanFilter.update_correlated(z, R, H)` (kalman_filter.py 670-752). -/
noncomputable def updateCorrelated (s : NKF) (z : Option Nd) (R : NdArg) (H : Option Nd) : Except (Err × NKF) NKF :=
  match z with
  | none => .ok s.updateNone
  | some z => do
    let s0 := { s with logLik := none, lik := none, mahal := none }
    let R := R.resolve s.dimZ s.R
    let z ← s0.lift (s.measured z H)
    let H := H.getD s.H
    let z := wrapped (unwrapped s.x z)
    let y ← s0.lift (residual z H s.x)
    let s1 := { s0 with y := y }
    let PHT ← s1.lift (Nd.dot s.P H.T)
    let S ← s1.lift (correlatedS H PHT s.M R)
    let s2 := { s1 with S := S }
    let SI ← s2.lift (s.inv S)
    let s3 := { s2 with SI := SI }
    let K ← s3.lift (correlatedK PHT s.M SI)
    let s4 := { s3 with K := K }
    let x ← s4.lift (correct s.x K y)
    let s5 := { s4 with x := x }
    let P ← s5.lift (correlatedP K H s.P s.M)
    .ok { s5 with P := P, z := some z, xPost := x, PPost := P }

/-- The noise of a slice (kalman_filter.py 785-788). -/
noncomputable def sliceR (R : Nd) (start L : ℕ) : NdArg → Except Err Nd
  | .none => Nd.slice2 R start (start + L)
  | .scalar c => .ok (.d2 L L (c • (1 : Mat L L)))
  | .arr a => .ok a

/-- The measurement matrix of a slice (kalman_filter.py 790-793). -/
def sliceH (H : Nd) (dimX start L : ℕ) : Option Nd → Except Err Nd
  | none => do
    let H ← Nd.slice H start (start + L)
    Nd.reshape H L dimX
  | some H => Nd.reshape H L dimX

/-- The gain of a slice (kalman_filter.py 806-809).  Note that `self.inv` is not used. -/
noncomputable def sliceK (L : ℕ) (PHT S : Nd) : Except Err Nd :=
  if L = 1 then do
    let r ← Nd.oneOver S
    Nd.mul PHT r
  else do
    let SI ← Nd.inv S
    Nd.dot PHT SI

/-- `I - dot(K_i, H_i)` (kalman_filter.py 812). -/
def sliceIKH (dimX : ℕ) (K H : Nd) : Except Err Nd := do
  let KH ← Nd.dot K H
  Nd.sub (Nd.eye dimX) KH

/-- `self.x += dot(K_i, y_i)` (kalman_filter.py 816). -/
def sliceX (x K y : Nd) : Except Err Nd := do
  let Ky ← Nd.dot K y
  Nd.addInto x Ky

/-- `dot(dot(I_KH, P), I_KH.T) + dot(dot(K_i, R_i), K_i.T)` (kalman_filter.py 819). -/
def sliceP (IKH K P R : Nd) : Except Err Nd := do
  let a ← Nd.dot IKH P
  let a ← Nd.dot a IKH.T
  let b ← Nd.dot K R
  let b ← Nd.dot b K.T
  Nd.add a b

/-- `KalmanFilter.update_sequential(start, z_i, R_i, H_i)` (kalman_filter.py 754-824).  Simplification: the assignment
`self.z[start:stop] = z_i` is left out, because the attribute `z` is here either one array of numbers or the column of
`None`s.  A 0-d array `z_i` is a number here; `len` of it raises `TypeError` in numpy. -/
noncomputable def updateSequential (s : NKF) (start : ℕ) (zi : Nd) (Ri : NdArg) (Hi : Option Nd) :
    Except (Err × NKF) NKF := do
  let L := zi.len
  let zi ← s.lift (Nd.reshape zi L 1)
  let R ← s.lift (sliceR s.R start L Ri)
  let H ← s.lift (sliceH s.H s.dimX start L Hi)
  let yi ← s.lift (residual zi H s.x)
  let y ← s.lift (Nd.setRows s.y start (start + L) yi)
  let s1 := { s with y := y }
  let PHT ← s1.lift (Nd.dot s.P H.T)
  let S ← s1.lift (innovCov H PHT R)
  let Ki ← s1.lift (sliceK L PHT S)
  let K ← s1.lift (Nd.setCols s.K start (start + L) Ki)
  let s2 := { s1 with K := K }
  let IKH ← s2.lift (sliceIKH s.dimX Ki H)
  let x ← s2.lift (sliceX s.x Ki yi)
  let s3 := { s2 with x := x }
  let P ← s3.lift (sliceP IKH Ki s.P R)
  .ok { s3 with P := P, xPost := x, PPost := P }

/-- `KalmanFilter.get_prediction(u, B, F, Q)` (kalman_filter.py 1076-1124). -/
noncomputable def getPrediction (s : NKF) (u B F : Option Nd) (Q : NdArg) : Except Err (Nd × Nd) := do
  let x ← stepX (F.getD s.F) s.x (B.or s.B) u
  let P ← stepP s.alphaSq (F.getD s.F) s.P (Q.resolve s.dimX s.Q)
  .ok (x, P)

/-- `KalmanFilter.get_update(z)` (kalman_filter.py 1126-1173). -/
noncomputable def getUpdate (s : NKF) (z : Option Nd) : Except Err (Nd × Nd) :=
  match z with
  | none => .ok (s.x, s.P)
  | some z => do
    let z ← Nd.reshapeZ z s.dimZ s.x.ndim
    let y ← residual z s.H s.x
    let PHT ← Nd.dot s.P s.H.T
    let S ← innovCov s.H PHT s.R
    let SI ← s.inv S
    let K ← Nd.dot PHT SI
    let x ← correct s.x K y
    let P ← joseph s.dimX K s.H s.P s.R
    .ok (x, P)

/-- `KalmanFilter.residual_of(z)` (kalman_filter.py 1175-1181). -/
def residualOf (s : NKF) (z : Nd) : Except Err Nd := do
  let z ← Nd.reshapeZ z s.dimZ s.x.ndim
  residual z s.H s.xPrior

/-- `KalmanFilter.measurement_of_state(x)` (kalman_filter.py 1183-1201). -/
def measurementOfState (s : NKF) (x : Nd) : Except Err Nd := Nd.dot s.H x

/-- `float(a)`: `TypeError` unless the array has one entry. -/
def toFloat : Nd → Except Err ℝ
  | .d0 a => .ok a
  | .d1 n v => if h : n = 1 then .ok (v ⟨0, by omega⟩) else .error .typeError
  | .d2 m n A => if h : m = 1 ∧ n = 1 then .ok (A ⟨0, by omega⟩ ⟨0, by omega⟩) else .error .typeError

/-- `KalmanFilter.mahalanobis` (kalman_filter.py 1227-1239): the value and the object with the value stored.
`math.sqrt` of a negative number raises `ValueError`. -/
noncomputable def mahalanobis (s : NKF) : Except (Err × NKF) (ℝ × NKF) :=
  match s.mahal with
  | some v => .ok (v, s)
  | none => do
    let a ← s.lift (Nd.dot s.y.T s.SI)
    let a ← s.lift (Nd.dot a s.y)
    let a ← s.lift (toFloat a)
    if a < 0 then .error (.valueError, s)
    else .ok (Real.sqrt a, { s with mahal := some (Real.sqrt a) })

end NKF

end Filterpy
