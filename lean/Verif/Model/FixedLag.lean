import Verif.Model.KalmanFilter

/-!
# Model of `filterpy/kalman/fixed_lag_smoother.py`
-/

namespace Filterpy

open Matrix

/-- The attributes of a `FixedLagSmoother` (fixed_lag_smoother.py 109-131).  `B = none` is the initial float `0.`.
`xSmooth` is only created when `N` is given.  `K` and `x_s` are never written after construction and are left out.
A negative `N` behaves as `0` (`range(N)` is empty, `k >= N` holds), so `N` is a natural number. -/
structure FLS (n m l : ℕ) where
  N : Option ℕ
  x : Vec n
  P : Mat n n
  Q : Mat n n
  F : Mat n n
  H : Mat m n
  R : Mat m m
  B : Option (Mat n l)
  y : Vec m
  S : Mat m m
  count : ℕ
  xSmooth : Option (List (Vec n))

namespace FLS

variable {n m l : ℕ}

/-- `__init__(dim_x, dim_z, N=None)` (fixed_lag_smoother.py 85-131). -/
def fresh (n m l : ℕ) (N : Option ℕ := none) : FLS n m l where
  N := N
  x := 0
  P := 1
  Q := 1
  F := 1
  H := fun i j => if i.val = j.val then 1 else 0
  R := 1
  B := none
  y := 0
  S := 0
  count := 0
  xSmooth := N.map fun _ => []

/-- `if u is not None: x_pre += dot(B, u)` (fixed_lag_smoother.py 175-176, 272-273): the term to add.  The addition is in
place, so a term that does not broadcast to the state column raises `ValueError`. -/
noncomputable def control (B : Option (Mat n l)) (u : UArg l) : Except Err (Vec n) :=
  match B, u with
  | _, .none => .ok 0
  | none, .scalar _ => .ok 0
  | none, .vec _ => if l = n ∨ l = 1 then .ok 0 else .error .valueError
  | some B, .vec u => .ok (B *ᵥ u)
  | some B, .scalar c => if h : l = 1 then .ok (fun i => c * B i ⟨0, by omega⟩) else .error .valueError

/-- What one predict/update cycle of the underlying Kalman filter computes. -/
structure Cycle (n m : ℕ) where
  xPre : Vec n
  P : Mat n n
  y : Vec m
  S : Mat m m
  SI : Mat m m
  K : Mat n m
  x : Vec n

/-- The prediction (fixed_lag_smoother.py 174-178 and 271-275). -/
noncomputable def priorOf (s : FLS n m l) (x : Vec n) (P : Mat n n) (bu : Vec n) : Vec n × Mat n n :=
  (s.F *ᵥ x + bu, s.F * P * s.Fᵀ + s.Q)

/-- The update after `S` has been inverted (fixed_lag_smoother.py 181-191 and 278-288). -/
noncomputable def cycleOf (s : FLS n m l) (xPre : Vec n) (P : Mat n n) (z : Vec m) (SI : Mat m m) : Cycle n m :=
  let y := z - s.H *ᵥ xPre
  let K := P * s.Hᵀ * SI
  let IKH := 1 - K * s.H
  { xPre := xPre, P := IKH * P * IKHᵀ + K * s.R * Kᵀ, y := y, S := s.H * P * s.Hᵀ + s.R, SI := SI, K := K
    x := xPre + K *ᵥ y }

/-- The loop `for i in range(N)` (fixed_lag_smoother.py 200-206 and 298-304), starting at index `si`.  An index beyond
the end of the list would raise `IndexError`; `xSmooth` always has `count` entries (C29_history), so the indices are valid. -/
def lagLoop (HTSI : Mat n m) (FLH : Mat n n) (y : Vec m) : ℕ → ℕ → Mat n n → List (Vec n) → List (Vec n)
  | 0, _, _, xs => xs
  | N + 1, si, PS, xs => lagLoop HTSI FLH y N (si - 1) (PS * FLH) (xs.modify si (· + (PS * HTSI) *ᵥ y))

/-- Lines 196-211 (and 294-309): the effect on the list of smoothed states, whose entry `k` already holds the prediction. -/
def lagStep (F : Mat n n) (H : Mat m n) (N k : ℕ) (c : Cycle n m) (xs : List (Vec n)) : List (Vec n) :=
  if N ≤ k then lagLoop (Hᵀ * c.SI) ((F - c.K * H)ᵀ) c.y N k c.P xs
  else xs.set k c.x

/-- `smooth(z, u=None)` (fixed_lag_smoother.py 133-215). -/
noncomputable def smooth (s : FLS n m l) (zu : Vec m × UArg l) : Exec (FLS n m l) :=
  match control s.B zu.2 with
  | .error e => .error (e, s)
  | .ok bu =>
    let (xPre, P) := s.priorOf s.x s.P bu
    let s1 := { s with y := zu.1 - s.H *ᵥ xPre, S := s.H * P * s.Hᵀ + s.R }
    match npInv s1.S with
    | none => .error (.linAlgError, s1)
    | some SI =>
      let c := s.cycleOf xPre P zu.1 SI
      match s.xSmooth with
      | none => .error (.attributeError, s1)
      | some xs =>
        match s.N with
        | none => .error (.typeError, { s1 with xSmooth := some (xs ++ [xPre]) })
        | some N =>
          .ok { s1 with
            xSmooth := some (lagStep s.F s.H N s.count c (xs ++ [xPre]))
            count := s.count + 1
            x := c.x
            P := c.P }

/-- `us[k]` (fixed_lag_smoother.py 272-273).  `us=None` adds no control input; an explicit `None` inside `us` makes
`dot(B, None)` raise `TypeError`. -/
def usAt (us : Option (List (UArg l))) (k : ℕ) : Except Err (UArg l) :=
  match us with
  | none => .ok .none
  | some us => match us[k]? with
    | none => .error .indexError
    | some .none => .error .typeError
    | some u => .ok u

/-- The loop of `smooth_batch` (fixed_lag_smoother.py 268-309): the local variables `x`, `P` and the two preallocated
arrays.  All in-place operations act on arrays made inside the loop, so no attribute of the object changes. -/
noncomputable def batchLoop (s : FLS n m l) (N : ℕ) (us : Option (List (UArg l))) :
    ℕ → Vec n → Mat n n → List (Vec n) → List (Vec n) → List (Vec m) → Except Err (List (Vec n) × List (Vec n))
  | _, _, _, xs, xh, [] => .ok (xs, xh)
  | k, x, P, xs, xh, z :: zs =>
    match usAt us k with
    | .error e => .error e
    | .ok u =>
      match control s.B u with
      | .error e => .error e
      | .ok bu =>
        let (xPre, P) := s.priorOf x P bu
        match npInv (s.H * P * s.Hᵀ + s.R) with
        | none => .error .linAlgError
        | some SI =>
          let c := s.cycleOf xPre P z SI
          batchLoop s N us (k + 1) c.x c.P (lagStep s.F s.H N k c (xs.set k xPre)) (xh.set k c.x) zs

/-- `smooth_batch(zs, N, us=None)` (fixed_lag_smoother.py 217-311): `(xSmooth, xhat)`. -/
noncomputable def smoothBatch (s : FLS n m l) (zs : List (Vec m)) (N : ℕ) (us : Option (List (UArg l)) := none) :
    Except Err (List (Vec n) × List (Vec n)) :=
  batchLoop s N us 0 s.x s.P (List.replicate zs.length 0) (List.replicate zs.length 0) zs

end FLS
end Filterpy
