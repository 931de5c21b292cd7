import Verif.Model.KalmanFilter

/-!
# Model of `filterpy/hinfinity/hinfinity_filter.py`
-/

namespace Filterpy

open Matrix

/-- The attributes of an `HInfinityFilter` (hinfinity_filter.py 61-90).  `B = none` is the initial scalar
`0`; `K` (line 85) is never written after construction and is left out. -/
structure HInf (n m l : ℕ) where
  gamma : ℝ
  x : Vec n
  B : Option (Mat n l)
  F : Mat n n
  H : Mat m n
  P : Mat n n
  Q : Mat n n
  V : Mat m m
  VInv : Mat m m
  W : Mat n n
  y : Vec m
  z : Vec m

namespace HInf

variable {n m l : ℕ}

/-- `__init__(dim_x, dim_z, dim_u, gamma)` (hinfinity_filter.py 61-90); no argument is checked. -/
def fresh (n m l : ℕ) (gamma : ℝ) : HInf n m l where
  gamma := gamma
  x := 0
  B := none
  F := 1
  H := 0
  P := 1
  Q := 1
  V := 0
  VInv := 0
  W := 0
  y := 0
  z := 0

/-- `update(z)` (hinfinity_filter.py 93-142). -/
noncomputable def update (s : HInf n m l) (z : Option (Vec m)) : Exec (HInf n m l) :=
  match z with
  | none => .ok s
  | some z =>
    let HTVI := s.Hᵀ * s.VInv
    match npInv (1 - s.gamma • (s.Q * s.P) + HTVI * s.H * s.P) with
    | none => .error (.linAlgError, s)
    | some L =>
      let PL := s.P * L
      let K := s.F * PL * HTVI
      let y := z - s.H *ᵥ s.x
      let P := s.F * PL * s.Fᵀ + s.W
      .ok { s with y := y, x := s.x + K *ᵥ y, P := (1/2 : ℝ) • (P + Pᵀ), z := z }

/-- `dot(self.B, u)` (hinfinity_filter.py 157, 233) added to a state column.  `B = 0` and a vector `u` give a
column of `l` zeros; a matrix `B` and a scalar `u` give an `(n, l)` array.  Where numpy would broadcast the
state to another shape, or refuse to, the run leaves the model (`shape`). -/
noncomputable def control (B : Option (Mat n l)) (u : UArg l) : Except Err (Vec n) :=
  match B, u with
  | none, .scalar _ => .ok 0
  | none, .none => .error .typeError
  | some _, .none => .error .typeError
  | none, .vec _ => if l = n ∨ l = 1 then .ok 0 else .error .shape
  | some B, .vec u => .ok (B *ᵥ u)
  | some B, .scalar c => if h : l = 1 then .ok (fun i => c * B i ⟨0, by omega⟩) else .error .shape

/-- `predict(u=0)` (hinfinity_filter.py 145-157). -/
noncomputable def predict (s : HInf n m l) (u : UArg l := .scalar 0) : Exec (HInf n m l) :=
  match control s.B u with
  | .error e => .error (e, s)
  | .ok b => .ok { s with x := s.F *ᵥ s.x + b }

/-- `get_prediction(u=0)` (hinfinity_filter.py 219-233). -/
noncomputable def getPrediction (s : HInf n m l) (u : UArg l := .scalar 0) : Except Err (Vec n) :=
  match control s.B u with
  | .error e => .error e
  | .ok b => .ok (s.F *ᵥ s.x + b)

/-- `residual_of(z)` (hinfinity_filter.py 236-240). -/
def residualOf (s : HInf n m l) (z : Vec m) : Vec m := z - s.H *ᵥ s.x

/-- `measurement_of_state(x)` (hinfinity_filter.py 243-256). -/
def measurementOfState (s : HInf n m l) (x : Vec n) : Vec m := s.H *ᵥ x

/-- The setter of `V` (hinfinity_filter.py 265-273; the getter 259-262 returns `_V`).  A scalar is stored as a `1 × 1` array, which only fits
`dim_z = 1`; otherwise the run leaves the model (`shape`).  `_V` is stored before the inverse is taken.
`V = None` is refused by `scipy.linalg.inv` (`ValueError`: object arrays are not supported); the `None` left in `_V`
is not represented. -/
noncomputable def setV (s : HInf n m l) (v : MatArg m) : Exec (HInf n m l) :=
  match v with
  | .none => .error (.valueError, s)
  | .scalar c =>
    if m = 1 then
      match npInv (c • (1 : Mat m m)) with
      | some Vi => .ok { s with V := c • 1, VInv := Vi }
      | none => .error (.linAlgError, { s with V := c • 1 })
    else .error (.shape, s)
  | .mat A =>
    match npInv A with
    | some Vi => .ok { s with V := A, VInv := Vi }
    | none => .error (.linAlgError, { s with V := A })

/-- The `saver` argument of `batch_filter`: the default `False`, `None`, or a `Saver`. -/
inductive SaverArg
  | false
  | none
  | saver

/-- `saver.save()` as called by `batch_filter` (hinfinity_filter.py 203-204, 213-214): `False is not None`, and
`bool` has no attribute `save`. -/
def SaverArg.save (s : HInf n m l) : SaverArg → Exec (HInf n m l)
  | .false => .error (.attributeError, s)
  | .none => .ok s
  | .saver => .ok s

/-- One row of `batch_filter` (hinfinity_filter.py 196-214): the recorded pair and the object. -/
noncomputable def batchRow (updateFirst : Bool) (saver : SaverArg) (s : HInf n m l) (z : Option (Vec m)) :
    Except (Err × HInf n m l) ((Vec n × Mat n n) × HInf n m l) :=
  if updateFirst then do
    let s1 ← s.update z
    let s2 ← s1.predict
    let s3 ← saver.save s2
    .ok ((s1.x, s1.P), s3)
  else do
    let s1 ← s.predict
    let s2 ← s1.update z
    let s3 ← saver.save s2
    .ok ((s2.x, s2.P), s3)

/-- `batch_filter(Zs, update_first=False, saver=False)` (hinfinity_filter.py 160-216). -/
noncomputable def batchFilter (updateFirst : Bool := false) (saver : SaverArg := .false) :
    HInf n m l → List (Option (Vec m)) → Except (Err × HInf n m l) (List (Vec n × Mat n n) × HInf n m l)
  | s, [] => .ok ([], s)
  | s, z :: zs => do
    let (o, s1) ← batchRow updateFirst saver s z
    let (os, s2) ← batchFilter updateFirst saver s1 zs
    .ok (o :: os, s2)

end HInf
end Filterpy
