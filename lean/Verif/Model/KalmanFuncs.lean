import Verif.Model.KalmanFilter

/-!
# Model of the module-level functions of `filterpy/kalman/kalman_filter.py`

`update`, `predict`, `update_steadystate`, `predict_steadystate`, `batch_filter` and
`rts_smoother` (kalman_filter.py 1401-1858).
-/

namespace Filterpy.KFun

open Matrix

variable {n m l : ℕ}

/-- `R` (or `Q`) as it enters a sum `A + R`: numpy adds a scalar to *every* entry. -/
def addArg (A : Mat m m) : MatArg m → Option (Mat m m)
  | .none => none
  | .scalar c => some fun i j => A i j + c
  | .mat R => some (A + R)

/-- `R` as it enters a product `dot(dot(K, R), K.T)`: a scalar multiplies. -/
noncomputable def mulArg (K : Mat n m) : MatArg m → Mat n n
  | .none => 0
  | .scalar c => c • (K * Kᵀ)
  | .mat R => K * R * Kᵀ

/-- Result of `update(..., return_all=True)`. -/
structure UpdateOut (n m : ℕ) where
  x : Vec n
  P : Mat n n
  y : Vec m
  K : Mat n m
  S : Mat m m
  logLik : ℝ

/-- `H` of the module functions (kalman_filter.py 1456-1461, 1551-1556): `None` becomes
`np.array([1])`, which only conforms with a one-dimensional state and measurement. -/
noncomputable def resolveH (H : Option (Mat m n)) : Except Err (Mat m n) :=
  match H with
  | some H => .ok H
  | none => if m = 1 ∧ n = 1 then .ok (fun _ _ => 1) else .error .valueError

open Classical in
/-- The gain of `update` (kalman_filter.py 1474-1479): the bare `except` replaces a failed
inversion of `S` by the *entrywise* reciprocal `1./S`; a zero entry gives `inf`. -/
noncomputable def gain (P : Mat n n) (H : Mat m n) (S : Mat m m) : Except Err (Mat n m) :=
  match npInv S with
  | some SI => .ok (P * Hᵀ * SI)
  | none => if ∃ i j, S i j = 0 then .error .nonFinite
      else .ok (P * Hᵀ * of fun i j => 1 / S i j)

/-- `update(x, P, z, R, H, return_all)` for array `x` and a measurement
(kalman_filter.py 1442-1508).  The log-likelihood of line 1506 is evaluated with the
already updated `x`.  `R=None` raises `TypeError` in the sum of line 1471. -/
noncomputable def updateAll (x : Vec n) (P : Mat n n) (z : Vec m) (R : MatArg m)
    (H : Option (Mat m n)) : Except Err (UpdateOut n m) := do
  let H ← resolveH H
  let y := z - H *ᵥ x
  match addArg (H * P * Hᵀ) R with
  | none => .error .typeError
  | some S =>
    let K ← gain P H S
    let x' := x + K *ᵥ y
    let I_KH := 1 - K * H
    let P' := I_KH * P * I_KHᵀ + mulArg K R
    .ok ⟨x', P', y, K, S, logpdfMean z (H *ᵥ x') S⟩

/-- `update(x, P, z, R, H)` (kalman_filter.py 1401-1508): `None` measurements change
nothing. -/
noncomputable def update (x : Vec n) (P : Mat n n) (z : Option (Vec m)) (R : MatArg m)
    (H : Option (Mat m n) := none) : Except Err (Vec n × Mat n n) :=
  match z with
  | none => .ok (x, P)
  | some z => do
    let o ← updateAll x P z R H
    .ok (o.x, o.P)

/-- `update(x, P, z, ...)` called with a Python `float` for `x`: line 1465 evaluates
`x.ndim`, and a `float` has no such attribute. -/
def updateFloat (x P : ℝ) (z : Option ℝ) : Except Err (ℝ × ℝ) :=
  match z with
  | none => .ok (x, P)
  | some _ => .error .attributeError

/-- `update_steadystate(x, z, K, H)` (kalman_filter.py 1511-1568). -/
noncomputable def updateSteadystate (x : Vec n) (z : Option (Vec m)) (K : Mat n m)
    (H : Option (Mat m n) := none) : Except Err (Vec n) :=
  match z with
  | none => .ok x
  | some z => do
    let H ← resolveH H
    .ok (x + K *ᵥ (z - H *ᵥ x))

/-- The argument `F` of `predict`: a scalar (default `1`) or a matrix. -/
inductive FArg (n : ℕ)
  | scalar (c : ℝ)
  | mat (F : Mat n n)

/-- `dot(F, x)`. -/
noncomputable def FArg.apply (F : FArg n) (x : Vec n) : Vec n :=
  match F with
  | .scalar c => c • x
  | .mat F => F *ᵥ x

/-- `dot(dot(F, P), F.T)`. -/
noncomputable def FArg.congr (F : FArg n) (P : Mat n n) : Mat n n :=
  match F with
  | .scalar c => c • (c • P)
  | .mat F => F * P * Fᵀ

/-- The arguments `B`, `u` of `predict`: both scalars (the defaults are `B=1`, `u=0`), a
scalar `B` and a vector `u`, or a matrix and a vector. -/
inductive BUArg (n l : ℕ)
  | scalars (B u : ℝ)
  | scalarVec (B : ℝ) (u : Vec n)
  | matVec (B : Mat n l) (u : Vec l)

/-- `dot(B, u)`; a scalar is added to every entry of the state. -/
noncomputable def BUArg.term : BUArg n l → Vec n
  | .scalars B u => fun _ => B * u
  | .scalarVec B u => B • u
  | .matVec B u => B *ᵥ u

/-- `predict(x, P, F=1, Q=0, u=0, B=1, alpha=1.)` (kalman_filter.py 1571-1621).
`Q=None` raises `TypeError`. -/
noncomputable def predict (x : Vec n) (P : Mat n n) (F : FArg n := .scalar 1)
    (Q : MatArg n := .scalar 0) (bu : BUArg n l := .scalars 1 0) (alpha : ℝ := 1) :
    Except Err (Vec n × Mat n n) :=
  match addArg ((alpha * alpha) • F.congr P) Q with
  | none => .error .typeError
  | some P' => .ok (F.apply x + bu.term, P')

/-- `predict_steadystate(x, F=1, u=0, B=1)` (kalman_filter.py 1624-1660). -/
noncomputable def predictSteadystate (x : Vec n) (F : FArg n := .scalar 1)
    (bu : BUArg n l := .scalars 1 0) : Vec n := F.apply x + bu.term

/-- One row of the zip of `batch_filter` (kalman_filter.py 1760, 1773). -/
structure Row (n m l : ℕ) where
  z : Option (Vec m)
  F : Mat n n
  Q : Mat n n
  H : Mat m n
  R : Mat m m
  bu : BUArg n l

/-- The loop of `batch_filter` (kalman_filter.py 1758-1786). -/
noncomputable def batchLoop (updateFirst : Bool) :
    Vec n → Mat n n → List (Row n m l) → Except Err (List (KF.BatchOut n))
  | _, _, [] => .ok []
  | x, P, r :: rows =>
    if updateFirst then do
      let (x1, P1) ← update x P r.z (.mat r.R) (some r.H)
      let (x2, P2) ← predict x1 P1 (.mat r.F) (.mat r.Q) r.bu
      let out ← batchLoop updateFirst x2 P2 rows
      .ok (⟨x1, P1, x2, P2⟩ :: out)
    else do
      let (x1, P1) ← predict x P (.mat r.F) (.mat r.Q) r.bu
      let (x2, P2) ← update x1 P1 r.z (.mat r.R) (some r.H)
      let out ← batchLoop updateFirst x2 P2 rows
      .ok (⟨x2, P2, x1, P1⟩ :: out)

/-- `batch_filter(x, P, zs, Fs, Qs, Hs, Rs, Bs, us, update_first)`
(kalman_filter.py 1664-1788).  Without `us` both `us` and `Bs` become lists of `0.`
(lines 1753-1755); with `us` but `Bs=None` the `zip` raises `TypeError`. -/
noncomputable def batchFilter (x : Vec n) (P : Mat n n) (zs : List (Option (Vec m)))
    (Fs Qs : List (Mat n n)) (Hs : List (Mat m n)) (Rs : List (Mat m m))
    (Bs : Option (List (Mat n l))) (us : Option (List (Vec l))) (updateFirst : Bool := false) :
    Except Err (List (KF.BatchOut n)) :=
  match us, Bs with
  | none, _ =>
    batchLoop (l := l) updateFirst x P (KF.zip7 (fun z F Q H R B u => ⟨z, F, Q, H, R, .scalars B u⟩)
      zs Fs Qs Hs Rs (List.replicate zs.length 0) (List.replicate zs.length 0))
  | some _, none => .error .typeError
  | some us, some Bs =>
    batchLoop (l := l) updateFirst x P (KF.zip7 (fun z F Q H R B u => ⟨z, F, Q, H, R, .matVec B u⟩)
      zs Fs Qs Hs Rs Bs us)

/-- The backward loop of the *function* `rts_smoother` on the list of
`((Xs[k], Ps[k]), (Fs[k], Qs[k]))` (kalman_filter.py 1849-1856): it uses `Fs[k]`, `Qs[k]`
where the method uses `Fs[k+1]`, `Qs[k+1]`. -/
noncomputable def rtsLoop :
    List ((Vec n × Mat n n) × (Mat n n × Mat n n)) → Except Err (List (KF.RtsOut n))
  | [] => .ok []
  | [e] => .ok [⟨e.1.1, e.1.2, 0, e.1.2⟩]
  | e :: e' :: rest => do
    let tail ← rtsLoop (e' :: rest)
    match tail with
    | [] => .ok []
    | nxt :: _ =>
      let o ← KF.rtsStep npInv e.1.1 e.1.2 e.2.1 e.2.2 nxt
      .ok (o :: tail)

/-- `rts_smoother(Xs, Ps, Fs, Qs)` (kalman_filter.py 1792-1858).  `Fs[k]` is read for
`k ≤ n-2` only; an entry that is never read is padded with zero here. -/
noncomputable def rtsSmoother (Xs : List (Vec n)) (Ps Fs Qs : List (Mat n n)) :
    Except Err (List (KF.RtsOut n)) :=
  if Xs.length ≠ Ps.length then .error .valueError
  else if Fs.length + 1 < Xs.length ∨ Qs.length + 1 < Xs.length then .error .indexError
  else rtsLoop ((Xs.zip Ps).zip ((Fs ++ [0]).zip (Qs ++ [0])))

end Filterpy.KFun
