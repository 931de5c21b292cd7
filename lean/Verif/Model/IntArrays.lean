import Verif.Model.KalmanOps
import Verif.Model.SquareRoot
import Verif.Model.FixedLag
import Verif.Model.MMAE
import Verif.Model.PolyFilters
import Verif.Model.DiscreteBayes

/-!
# Arrays of whole numbers

`np.array([0, 1])` is an array of *integers*.  numpy treats it differently from `np.array([0., 1.])` in two places:

* assigning to an element (`a[i] = v`) or to a slice stores the value truncated towards zero;
* an in-place operation (`a += b`) with a float result raises `UFuncTypeError`, a `TypeError`.

Every other operation the library uses (`+`, `dot`, `inv`, ...) makes a new array, of integers only if all operands are
arrays of integers and the operation is not a division or an inverse.

The other model files treat every array as an array of floats.  This file models the code that assigns to elements or
adds in place to arrays a user can supply, with the dtype as an extra flag (`true` = integers).  Overflow of 64-bit
integers is not modelled.  The smoother of `UnscentedKalmanFilter` (UKF.py 735-736) adds in place in the same way as
`KalmanFilter.rts_smoother` and is not repeated here.  All other methods of the library rebind their attributes or fill
arrays made by `zeros`, `empty` or `eye`, which hold floats.
-/

namespace Filterpy

open Matrix

/-- The conversion of a float to an integer: truncation towards zero. -/
noncomputable def truncZ (v : ℝ) : ℝ := if 0 ≤ v then (⌊v⌋ : ℝ) else (⌈v⌉ : ℝ)

/-- The number an array cell holds after `a[i] = v`; `int` says whether `a` is an array of integers. -/
noncomputable def store (int : Bool) (v : ℝ) : ℝ := if int then truncZ v else v

/-! ## `KalmanFilter` -/

/-- The dtypes of the arrays a call uses (arguments, or the attributes they default to); `true` = integers. -/
structure Dtypes where
  z : Bool
  H : Bool
  F : Bool
  /-- `dot(B, u)` -/
  Bu : Bool
  /-- `self.K`, which only `update_steadystate` reads -/
  K : Bool

/-- A `KalmanFilter` with the dtypes of `x`, `y` and `z`.  (`P`, `S`, `SI` and `K` are never assigned to in place, except
`self.K[:, start:stop]`, whose array is taken to hold floats, as it does after construction and after an update.) -/
structure IntKF (n m l : ℕ) where
  kf : KF n m l
  xInt : Bool
  yInt : Bool
  zInt : Bool

namespace IntKF

variable {n m l : ℕ}

/-- The gain of `update_sequential` (kalman_filter.py 800-809) from `PHT` and `S_i`. -/
noncomputable def seqGain {len : ℕ} (PHT : Mat n len) (Si : Mat len len) : Except Err (Mat n len) :=
  if hl : len = 1 then
    let s00 := Si ⟨0, by omega⟩ ⟨0, by omega⟩
    if s00 = 0 then .error .nonFinite else .ok ((1.0 / s00) • PHT)
  else match npInv Si with
    | none => .error .linAlgError
    | some SIi => .ok (PHT * SIi)

/-- `KalmanFilter.update_sequential(start, z_i, R_i, H_i)` (kalman_filter.py 754-824): as `KF.updateSequential`, with
`self.y[start:stop] = y_i` (797) and `self.z[start:stop] = z_i` (822) converted to the dtype of the array, and
`self.x += dot(K_i, y_i)` (816) refused if `x` holds integers: `y` and `K` have been written by then. -/
noncomputable def updateSequential (s : IntKF n m l) (start : ℕ) {len : ℕ} (zi : Vec len)
    (Ri : MatArg len := .none) (Hi : Option (Mat len n) := none) : Exec (IntKF n m l) :=
  if h : start + len ≤ m then
    let Ri := Ri.resolve (s.kf.R.submatrix (KF.sliceIdx h) (KF.sliceIdx h))
    let Hi := Hi.getD (s.kf.H.submatrix (KF.sliceIdx h) id)
    let yi := zi - Hi *ᵥ s.kf.x
    let s1 := { s.kf with y := KF.sliceSet h s.kf.y (fun i => store s.yInt (yi i)) }
    let PHT := s.kf.P * Hiᵀ
    let Si := Hi * PHT + Ri
    match seqGain PHT Si with
    | .error e => .error (e, { s with kf := s1 })
    | .ok Ki =>
      let I_KH := 1 - Ki * Hi
      let K : Mat n m := fun i => KF.sliceSet h (s.kf.K i) (Ki i)
      if s.xInt then .error (.typeError, { s with kf := { s1 with K := K } })
      else
        let x := s.kf.x + Ki *ᵥ yi
        let P := I_KH * s.kf.P * I_KHᵀ + Ki * Ri * Kiᵀ
        .ok { s with
          kf := { s1 with
            K := K
            x := x, P := P
            z := KF.sliceSet h s.kf.z (fun i => some (store s.zInt (zi i)))
            xPost := x, PPost := P } }
  else .error (KF.sliceErr len Ri Hi, s)

/-- Whether `dot(F, x)`, with `dot(B, u)` added if there is a control term, holds integers (kalman_filter.py 461-473,
582-587). -/
def priorInt (s : IntKF n m l) (d : Dtypes) (bu : Except Err (Option (Vec n))) : Bool :=
  match bu with
  | .error _ => s.xInt
  | .ok none => d.F && s.xInt
  | .ok (some _) => d.F && s.xInt && d.Bu

/-- The dtype of `x` after a successful call.  The gain computed by `update` and `update_correlated` holds floats. -/
noncomputable def xAfter (s : IntKF n m l) (d : Dtypes) : KFOp n m l → Bool
  | .predict u B _ _ => s.priorInt d (KF.control (B.or s.kf.B) u)
  | .predictSteadystate u B => s.priorInt d (KF.steadyControl (B.or s.kf.B) u)
  | .update (some _) _ _ | .updateCorrelated (some _) _ _ => false
  | .updateSteadystate (some _) => s.xInt && d.K && d.z && d.H
  | _ => s.xInt

/-- The dtype of `y = z - dot(H, x)` after a call (kalman_filter.py 539, 660, 733); `zeros` if `z` is `None`. -/
def yAfter (s : IntKF n m l) (d : Dtypes) : KFOp n m l → Bool
  | .update (some _) _ _ | .updateCorrelated (some _) _ _ | .updateSteadystate (some _) => d.z && d.H && s.xInt
  | .update none _ _ | .updateCorrelated none _ _ | .updateSteadystate none => false
  | _ => s.yInt

/-- The dtype of the stored copy of the measurement after a successful call; an array of `None` converts nothing. -/
def zAfter (s : IntKF n m l) (d : Dtypes) : KFOp n m l → Bool
  | .update (some _) _ _ | .updateCorrelated (some _) _ _ | .updateSteadystate (some _) => d.z
  | .update none _ _ | .updateCorrelated none _ _ | .updateSteadystate none => false
  | _ => s.zInt

/-- One call with arrays of the given dtypes.  No method but `update_sequential` assigns to elements or adds in place
(kalman_filter.py 437-824). -/
noncomputable def step (expf : ℝ → ℝ) (s : IntKF n m l) (c : KFOp n m l × Dtypes) : Exec (IntKF n m l) :=
  match c.1 with
  | .updateSequential start _ zi Ri Hi => s.updateSequential start zi Ri Hi
  | op =>
    match s.kf.step expf op with
    | .error e => .error (e.1, { s with kf := e.2, yInt := s.yAfter c.2 op })
    | .ok kf => .ok ⟨kf, s.xAfter c.2 op, s.yAfter c.2 op, s.zAfter c.2 op⟩

/-- A history of calls, stopping at the first exception. -/
noncomputable def run (expf : ℝ → ℝ) (s : IntKF n m l) (cs : List (KFOp n m l × Dtypes)) : Exec (IntKF n m l) :=
  runList (step expf) s cs

end IntKF

namespace KF

variable {n : ℕ}

/-- Assigning a matrix to an entry of an array of covariances. -/
noncomputable def storeMat (int : Bool) (A : Mat n n) : Mat n n := fun i j => store int (A i j)

/-- The loop body of `rts_smoother` (kalman_filter.py 1066-1072, 1850-1856) on arrays with the given dtypes: `Pp`, a copy
of `Ps`, has its dtype; the in-place additions are refused for arrays of integers. -/
noncomputable def rtsStepInt (inv : Mat n n → Option (Mat n n)) (xInt PInt : Bool) (x : Vec n) (P F Q : Mat n n)
    (nxt : RtsOut n) : Except Err (RtsOut n) :=
  let Pp := storeMat PInt (F * P * Fᵀ + Q)
  match inv Pp with
  | none => .error .linAlgError
  | some PpI =>
    let K := P * Fᵀ * PpI
    if xInt then .error .typeError
    else
      let x' := x + K *ᵥ (nxt.x - F *ᵥ x)
      if PInt then .error .typeError
      else .ok ⟨x', P + K * (nxt.P - Pp) * Kᵀ, K, Pp⟩

/-- The backward loop (kalman_filter.py 1064-1072) on such arrays. -/
noncomputable def rtsLoopInt (inv : Mat n n → Option (Mat n n)) (xInt PInt : Bool) :
    List ((Vec n × Mat n n) × (Mat n n × Mat n n)) → Except Err (List (RtsOut n))
  | [] => .ok []
  | [e] => .ok [⟨e.1.1, e.1.2, 0, e.1.2⟩]
  | e :: e' :: rest => do
    let tail ← rtsLoopInt inv xInt PInt (e' :: rest)
    match tail with
    | [] => .ok []
    | nxt :: _ =>
      let o ← rtsStepInt inv xInt PInt e.1.1 e.1.2 e'.2.1 e'.2.2 nxt
      .ok (o :: tail)

/-- `KalmanFilter.rts_smoother(Xs, Ps, Fs, Qs)` (kalman_filter.py 995-1074) with the dtypes of `Xs` and `Ps`. -/
noncomputable def rtsSmootherInt {m l : ℕ} (s : KF n m l) (xInt PInt : Bool) (Xs : List (Vec n)) (Ps : List (Mat n n))
    (Fs : Option (List (Mat n n)) := none) (Qs : Option (List (Mat n n)) := none)
    (inv : Mat n n → Option (Mat n n) := npInv) : Except Err (List (RtsOut n)) :=
  if Xs.length ≠ Ps.length then .error .valueError
  else
    let k := Xs.length
    let Fs := Fs.getD (List.replicate k s.F)
    let Qs := Qs.getD (List.replicate k s.Q)
    if 2 ≤ k ∧ (Fs.length < k ∨ Qs.length < k) then .error .indexError
    else if k < 2 then rtsLoopInt inv xInt PInt ((Xs.zip Ps).map fun e => (e, (0, 0)))
    else rtsLoopInt inv xInt PInt ((Xs.zip Ps).zip (Fs.zip Qs))

end KF

/-! ## `SquareRootKalmanFilter` -/

/-- A `SquareRootKalmanFilter` with the dtype of `x`. -/
structure IntSRKF (n m l : ℕ) where
  f : SRKF n m l
  xInt : Bool

namespace IntSRKF

variable {n m l : ℕ}

/-- `SquareRootKalmanFilter.update(z, R2)` (square_root.py 172-224): `self.x += dot(self.K, self.y)` (219) is refused if
`x` holds integers, when `S1_2`, `SI1_2`, `K` and `y` have been written. -/
noncomputable def update (L : SqrtLib n m) (s : IntSRKF n m l) (z : Option (Vec m)) (R2 : MatArg m := .none) :
    Exec (IntSRKF n m l) :=
  match z with
  | none => .ok { s with f := s.f.update L none R2 }
  | some z =>
    let r := L.qrU (SRKF.arrayU s.f (R2.resolve s.f.R12))
    let S12 := r.toBlocks₁₁ᵀ
    let SI12 := L.pinv S12
    let K := r.toBlocks₁₂ᵀ * SI12
    let y := z - s.f.H *ᵥ s.f.x
    if s.xInt then .error (.typeError, { s with f := { s.f with S12 := S12, SI12 := SI12, K := K, y := y } })
    else .ok { s with f := s.f.update L (some z) R2 }

/-- `SquareRootKalmanFilter.predict(u=0)` (square_root.py 226-248): `dot(F, x) + dot(B, u)` makes a new array, of floats
while `B` is the initial `0.`; `d.F` and `d.Bu` are the dtypes of `F` and `dot(B, u)`. -/
noncomputable def predict (L : SqrtLib n m) (s : IntSRKF n m l) (u : UArg l) (d : Dtypes) : Exec (IntSRKF n m l) :=
  match s.f.predict L u with
  | .error e => .error (e.1, { s with f := e.2 })
  | .ok f => .ok ⟨f, d.F && s.xInt && (s.f.B.isSome && d.Bu)⟩

end IntSRKF

/-! ## `FixedLagSmoother` -/

/-- A `FixedLagSmoother` with the dtype of `x`. -/
structure IntFLS (n m l : ℕ) where
  f : FLS n m l
  xInt : Bool

namespace IntFLS

variable {n m l : ℕ}

/-- `x_pre += dot(B, u)` (fixed_lag_smoother.py 174-176) is refused: `x_pre = dot(F, x)` holds integers and a control
term of floats is given (the initial `B = 0.` is a float). -/
def refuses (s : IntFLS n m l) (u : UArg l) (d : Dtypes) : Bool :=
  match u with
  | .none => false
  | _ => d.F && s.xInt && !(s.f.B.isSome && d.Bu)

/-- `smooth(z, u=None)` (fixed_lag_smoother.py 133-215) with the dtypes of `F` and `dot(B, u)`; nothing has been stored
when the addition is refused (the refusal comes before a mismatch of shapes is noticed).  Afterwards
`x = x_pre + dot(K, y)` holds floats. -/
noncomputable def smooth (s : IntFLS n m l) (c : (Vec m × UArg l) × Dtypes) : Exec (IntFLS n m l) :=
  if s.refuses c.1.2 c.2 then .error (.typeError, s)
  else match s.f.smooth c.1 with
    | .error e => .error (e.1, { s with f := e.2 })
    | .ok f => .ok ⟨f, false⟩

end IntFLS

/-! ## `MMAEFilterBank` -/

namespace MMAE

variable {σ : Type} {n N : ℕ} {ζ ρ η υ : Type}

/-- `update(z, R, H)` (mmae.py 162-212) with the dtype of `p`: `self.p[i] *= f.likelihood` (186) stores the product in an
array cell, and `self.p /= sum(self.p)` (188) is refused if the array holds integers. -/
noncomputable def updateInt (pInt : Bool) (c : FilterClass σ n (ζ × ρ × Option η) υ) (s : MMAE σ n N ζ η) (z : ζ)
    (R : ρ) (H : Option η) : Exec (MMAE σ n N ζ η) :=
  match bankMap (fun _ => c.updLik (fun p L => store pInt (p * L)) (z, R, H.or s.H))
      (fun i => (s.filters i, s.p i)) with
  | .error e => .error (e.1, { s with filters := fun i => (e.2 i).1, p := fun i => (e.2 i).2 })
  | .ok fp =>
    if pInt then .error (.typeError, { s with filters := fun i => (fp i).1, p := fun i => (fp i).2 })
    else if ∑ i, (fp i).2 = 0 then
      .error (.nonFinite, { s with filters := fun i => (fp i).1, p := fun i => (fp i).2 })
    else
      let p : Vec N := fun i => (fp i).2 / ∑ i, (fp i).2
      let x := ∑ i, p i • c.x (fp i).1
      let P := bankP c x (fun i => (fp i).1) p
      .ok { s with
        filters := fun i => (fp i).1, p := p, x := x, P := P
        z := some z, xPost := x, PPost := P }

end MMAE

/-! ## `FadingMemoryFilter` -/

/-- A `FadingMemoryFilter` with the dtype of `x`. -/
structure IntFading where
  f : FadingMemory
  xInt : Bool

namespace IntFading

/-- `__init__(x0, dt, order, beta)` (fading_memory.py 102-145): a scalar `x0` is put into an array of floats, an array is
copied with its dtype `int`. -/
noncomputable def init (x0 : X0) (int : Bool) (dt : ℝ) (order : ℤ) (β : ℝ) : Except Err IntFading :=
  match FadingMemory.init x0 dt order β with
  | .error e => .error e
  | .ok f => .ok ⟨f, match x0 with
    | .scalar _ => false
    | .array _ => int⟩

/-- `update(z)` (fading_memory.py 159-194): order 0 makes a new array (of floats unless `beta` and `z` are Python
integers, which `beta` in the open interval (0, 1) excludes); orders 1 and 2 assign to the elements of `x`. -/
noncomputable def update (s : IntFading) (z : ℝ) : Exec IntFading :=
  let st := store s.xInt
  match s.f.order with
  | 0 =>
    let G := 1 - s.f.beta
    .ok ⟨{ s.f with x := s.f.x.map fun x => x + G * (z - x) }, false⟩
  | 1 =>
    match s.f.x with
    | x :: dx :: rest =>
      let G := 1 - s.f.beta ^ 2
      let H := (1 - s.f.beta) ^ 2
      let dxdt := dx * s.f.dt
      let r := z - (x + dxdt)
      let x' := st (x + dxdt + G * r)
      if s.f.dt = 0 then .error (.zeroDivision, { s with f := { s.f with x := x' :: dx :: rest } })
      else .ok { s with f := { s.f with x := x' :: st (dx + (H / s.f.dt) * r) :: rest } }
    | _ => .error (.indexError, s)
  | _ =>
    match s.f.x with
    | x :: dx :: ddx :: rest =>
      let G := 1 - s.f.beta ^ 3
      let H := 1.5 * (1 + s.f.beta) * (1 - s.f.beta) ^ 2
      let K := 0.5 * (1 - s.f.beta) ^ 3
      let dxdt := dx * s.f.dt
      let T2 := s.f.dt ^ 2
      let r := z - (x + dxdt + 0.5 * ddx * T2)
      let x' := st (x + dxdt + 0.5 * ddx * T2 + G * r)
      if s.f.dt = 0 then .error (.zeroDivision, { s with f := { s.f with x := x' :: dx :: ddx :: rest } })
      else .ok { s with f := { s.f with
        x := x' :: st (dx + ddx * s.f.dt + (H / s.f.dt) * r) :: st (ddx + (2 * K / s.f.dt ^ 2) * r) :: rest } }
    | _ => .error (.indexError, s)

end IntFading

/-! ## `discrete_bayes` -/

namespace DiscreteBayes

variable {n m : ℕ}

/-- `normalize(pdf)` (discrete_bayes.py 26-48) for an array: `pdf /= sum` is refused for integers. -/
noncomputable def normalizeInt (int : Bool) (p : Fin n → ℝ) : Except Err (Fin n → ℝ) :=
  if int then .error .typeError else normalize p

/-- `update(likelihood, prior)` (discrete_bayes.py 51-89): the product holds integers only if both arrays do. -/
noncomputable def updateInt (likInt priorInt : Bool) (lik prior : Fin n → ℝ) : Except Err (Fin n → ℝ) :=
  normalizeInt (likInt && priorInt) fun i => prior i * lik i

/-- `predict(pdf, offset, kernel, mode, cval)` (discrete_bayes.py 93-128): `np.roll` and `scipy.ndimage.shift` keep the
dtype of `pdf`, and so does `scipy.ndimage.convolve`, which computes in floats and converts on output.  `cval` is taken
to be a whole number if `pdf` holds integers. -/
noncomputable def predictInt [NeZero n] (int : Bool) (p : Fin n → ℝ) (offset : ℤ) (kernel : Fin m → ℝ) (wrap : Bool)
    (cval : ℝ) : Fin n → ℝ :=
  fun i => store int (predict p offset kernel wrap cval i)

end DiscreteBayes

end Filterpy
