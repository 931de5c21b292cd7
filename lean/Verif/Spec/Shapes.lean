import Verif.Model.KalmanShapes
import Verif.Model.KalmanOps

/-! # What it means that arrays of a given shape store a filter -/

namespace Filterpy

open Matrix Nd

variable {n m l : ℕ}

namespace Spec

/-- A vector stored as a column of shape `(n, 1)` (`col = true`) or as a 1-D array `(n,)`. -/
def vecAs (col : Bool) (v : Vec n) : Nd :=
  if col then .d2 n 1 (of fun i _ => v i) else .d1 n v

/-- The arrays that hold the `m` measured values `v`: a number (if `m = 1`), a 1-D array, a row or a
column. -/
inductive Holds (v : Vec m) : Nd → Prop
  | number (a : ℝ) (hm : m = 1) (hv : ∀ i, v i = a) : Holds v (.d0 a)
  | vector : Holds v (.d1 m v)
  | row : Holds v (.d2 1 m (of fun _ j => v j))
  | column : Holds v (.d2 m 1 (of fun i _ => v i))

/-- The values `v` passed to `update_sequential`: a number (if there is one), a 1-D array or a column. -/
inductive HoldsCol {len : ℕ} (v : Vec len) : Nd → Prop
  | number (a : ℝ) (hm : len = 1) (hv : ∀ i, v i = a) : HoldsCol v (.d0 a)
  | vector : HoldsCol v (.d1 len v)
  | column : HoldsCol v (vecAs true v)

/-- A control argument as the user passes it: with the same number of axes as the state. -/
def controlAs (col : Bool) : UArg l → Option Nd
  | .none => none
  | .scalar c => some (.d0 c)
  | .vec u => some (vecAs col u)

/-- A matrix argument as the user passes it. -/
def matAs : MatArg n → NdArg
  | .none => .none
  | .scalar c => .scalar c
  | .mat A => .arr (.d2 n n A)

/-- The numpy object `s` stores the filter `t`, its state vectors all as columns or all 1-D.  The
residual of a filter with a 1-D state may have either shape (`update(None)` and the constructor store a column). -/
structure Stores (col : Bool) (s : NKF) (t : KF n m l) : Prop where
  dimX : s.dimX = n
  dimZ : s.dimZ = m
  x : s.x = vecAs col t.x
  P : s.P = .d2 n n t.P
  Q : s.Q = .d2 n n t.Q
  B : s.B = t.B.map fun B => .d2 n l B
  F : s.F = .d2 n n t.F
  H : s.H = .d2 m n t.H
  R : s.R = .d2 m m t.R
  alphaSq : s.alphaSq = t.alphaSq
  M : s.M = .d2 n m t.M
  z : (s.z = none ∧ ∀ i, t.z i = none) ∨ ∃ z v, s.z = some z ∧ Holds v z ∧ ∀ i, t.z i = some (v i)
  K : s.K = .d2 n m t.K
  y : ∃ c, (col = true → c = true) ∧ s.y = vecAs c t.y
  S : s.S = .d2 m m t.S
  SI : s.SI = .d2 m m t.SI
  xPrior : s.xPrior = vecAs col t.xPrior
  PPrior : s.PPrior = .d2 n n t.PPrior
  xPost : s.xPost = vecAs col t.xPost
  PPost : s.PPost = .d2 n n t.PPost
  logLik : s.logLik = t.logLik
  lik : s.lik = t.lik
  mahal : s.mahal = t.mahal
  inv : ∀ A : Mat m m, s.inv (.d2 m m A) = match t.inv A with
    | some B => .ok (.d2 m m B)
    | none => .error .linAlgError

end Spec

namespace Spec

/-- The numpy-level call `c` is the call `o` of the mathematical model, its vectors passed in the
representation of the state (any representation for a `z` without `H`). -/
inductive IsCall (col : Bool) : NKF.Call → KFOp n m l → Prop
  | predict (u : Option (Vec l)) (B F Q) :
      IsCall col (.predict (u.map (vecAs col)) (B.map fun B => .d2 n l B) (F.map fun F => .d2 n n F) (matAs Q))
        (.predict (match u with
          | none => .none
          | some u => .vec u) B F Q)
  | predictSteadystate (u : Vec l) (B) :
      IsCall col (.predictSteadystate (vecAs col u) (B.map fun B => .d2 n l B))
        (.predictSteadystate (.vec u) B)
  | update (z) (v : Vec m) (R) (hz : Holds v z) :
      IsCall col (.update (some z) (matAs R) none) (.update (some v) R none)
  | updateH (v : Vec m) (R) (H : Mat m n) :
      IsCall col (.update (some (vecAs col v)) (matAs R) (some (.d2 m n H))) (.update (some v) R (some H))
  | updateNone (R : MatArg m) (H : Option (Mat m n)) :
      IsCall col (.update none (matAs R) (H.map fun H => .d2 m n H)) (.update none R H)
  | updateSteadystate (z) (v : Vec m) (hz : Holds v z) :
      IsCall col (.updateSteadystate (some z)) (.updateSteadystate (some v))
  | updateSteadystateNone : IsCall col (.updateSteadystate none) (.updateSteadystate none)

end Spec

end Filterpy
