import Verif.Model.Basic
import Mathlib.Data.Real.Sqrt
import Mathlib.Analysis.SpecialFunctions.Pow.Real

/-!
# Model of `filterpy/gh/gh_filter.py`

A g-h filter works elementwise, so `x`, `dx`, `z` live in a real vector space `E`
(`E = ℝ` for scalar states, `Fin n → ℝ` for arrays).  A division by `dt = 0` raises
`ZeroDivisionError` for Python numbers (numpy arrays would become `nan`; those runs leave the
model, and are reported with the same marker).
-/

namespace Filterpy

variable {E : Type*} [AddCommGroup E] [Module ℝ E]

/-- Attributes of `GHFilter` (gh_filter.py 304-320). -/
structure GH (E : Type*) where
  x : E
  dx : E
  dt : ℝ
  g : ℝ
  h : ℝ
  dxPred : E
  xPred : E
  y : E
  z : E

namespace GH

/-- `GHFilter.__init__` (gh_filter.py 304-320). -/
def init (x dx : E) (dt g h : ℝ) : GH E :=
  { x := x, dx := dx, dt := dt, g := g, h := h, dxPred := dx, xPred := x, y := 0, z := 0 }

/-- `GHFilter.update(z, g, h)` (gh_filter.py 322-377).  The attribute `z` is not assigned. -/
noncomputable def update (s : GH E) (z : E) (g h : Option ℝ := none) : Exec (GH E) :=
  let g := g.getD s.g
  let h := h.getD s.h
  let xPred := s.x + s.dt • s.dx
  let y := z - xPred
  let s1 := { s with dxPred := s.dx, xPred := xPred, y := y }
  if s.dt = 0 then .error (.zeroDivision, s1)
  else .ok { s1 with dx := s.dx + (h / s.dt) • y, x := xPred + g • y }

/-- The loop of `GHFilter.batch_filter` (gh_filter.py 435-448); `hdt` is `h_dt`. -/
noncomputable def batchLoop (dt g hdt : ℝ) : ℝ → ℝ → List ℝ → List (ℝ × ℝ × ℝ)
  | _, _, [] => []
  | x, dx, z :: zs =>
    let xEst := x + dx * dt
    let r := z - xEst
    let dx' := dx + hdt * r
    let x' := xEst + g * r
    (x', dx', xEst) :: batchLoop dt g hdt x' dx' zs

/-- What a call of `GHFilter.batch_filter` yields: the array `results`, the array
`predictions` (returned with `save_predictions=True`), the objects the saver copied, and the
filter afterwards. -/
structure BatchResult (σ : Type*) where
  results : List (ℝ × ℝ)
  predictions : List ℝ
  saved : List σ
  after : σ

/-- `GHFilter.batch_filter(data, save_predictions, saver)` (gh_filter.py 380-455).  `h_dt` is
computed before the loop, so `dt = 0` raises even for empty data.  No attribute is assigned,
so the saver copies the unchanged object once per datum. -/
noncomputable def batchFilter (s : GH ℝ) (data : List ℝ) : Except Err (BatchResult (GH ℝ)) :=
  if s.dt = 0 then .error .zeroDivision
  else
    let out := batchLoop s.dt s.g (s.h / s.dt) s.x s.dx data
    .ok { results := (s.x, s.dx) :: out.map (fun o => (o.1, o.2.1))
          predictions := out.map (·.2.2)
          saved := data.map fun _ => s
          after := s }

/-- `GHFilter.VRF_prediction()` (gh_filter.py 458-478). -/
noncomputable def vrfPrediction (s : GH E) : Except Err ℝ :=
  if s.g * (4 - 2 * s.g - s.h) = 0 then .error .zeroDivision
  else .ok ((2 * s.g ^ 2 + 2 * s.h + s.g * s.h) / (s.g * (4 - 2 * s.g - s.h)))

/-- `GHFilter.VRF()` (gh_filter.py 481-509). -/
noncomputable def vrf (s : GH E) : Except Err (ℝ × ℝ) :=
  let den := s.g * (4 - 2 * s.g - s.h)
  if den = 0 then .error .zeroDivision
  else if s.dt ^ 2 * den = 0 then .error .zeroDivision
  else .ok ((2 * s.g ^ 2 + 2 * s.h - 3 * s.g * s.h) / den, 2 * s.h ^ 2 / (s.dt ^ 2 * den))

end GH

/-- Attributes of `GHKFilter` (gh_filter.py 609-628). -/
structure GHK (E : Type*) where
  x : E
  dx : E
  ddx : E
  xPred : E
  dxPred : E
  ddxPred : E
  dt : ℝ
  g : ℝ
  h : ℝ
  k : ℝ
  y : E
  z : E

namespace GHK

/-- `GHKFilter.__init__` (gh_filter.py 609-628). -/
def init (x dx ddx : E) (dt g h k : ℝ) : GHK E :=
  { x := x, dx := dx, ddx := ddx, xPred := x, dxPred := dx, ddxPred := ddx, dt := dt, g := g,
    h := h, k := k, y := 0, z := 0 }

/-- `GHKFilter.update(z, g, h, k)` (gh_filter.py 630-680). -/
noncomputable def update (s : GHK E) (z : E) (g h k : Option ℝ := none) : Exec (GHK E) :=
  let g := g.getD s.g
  let h := h.getD s.h
  let k := k.getD s.k
  let dt := s.dt
  let dtSqr := dt ^ 2
  let dxPred := s.dx + dt • s.ddx
  let xPred := s.x + dt • s.dx + (0.5 * dtSqr) • s.ddx
  let y := z - xPred
  let s1 := { s with ddxPred := s.ddx, dxPred := dxPred, xPred := xPred, y := y }
  if dt = 0 then .error (.zeroDivision, s1)
  else .ok { s1 with
    ddx := s.ddx + (2 * k / dtSqr) • y
    dx := dxPred + (h / dt) • y
    x := xPred + g • y }

/-- `GHKFilter.batch_filter(data, save_predictions)` (gh_filter.py 683-748).  The code is the
one of `GHFilter.batch_filter`: neither `ddx` nor `k` occurs in it. -/
noncomputable def batchFilter (s : GHK ℝ) (data : List ℝ) :
    Except Err (GH.BatchResult (GHK ℝ)) :=
  if s.dt = 0 then .error .zeroDivision
  else
    let out := GH.batchLoop s.dt s.g (s.h / s.dt) s.x s.dx data
    .ok { results := (s.x, s.dx) :: out.map (fun o => (o.1, o.2.1))
          predictions := out.map (·.2.2)
          saved := []
          after := s }

/-- `GHKFilter.VRF_prediction()` (gh_filter.py 751-774). -/
noncomputable def vrfPrediction (s : GHK E) : Except Err ℝ :=
  let gh2 := 2 * s.g + s.h
  let den := 2 * s.k - s.g * (s.h + s.k) * (gh2 - 4)
  if den = 0 then .error .zeroDivision
  else .ok ((s.g * s.k * (gh2 - 4) + s.h * (s.g * gh2 + 2 * s.h)) / den)

/-- `GHKFilter.bias_error(dddx)` (gh_filter.py 777-794). -/
noncomputable def biasError (s : GHK E) (dddx : ℝ) : Except Err ℝ :=
  if s.k = 0 then .error .zeroDivision else .ok (-(s.dt ^ 3) * dddx / (2 * s.k))

/-- `GHKFilter.VRF()` (gh_filter.py 797-836). -/
noncomputable def vrf (s : GHK E) : Except Err (ℝ × ℝ × ℝ) :=
  let g := s.g
  let h := s.h
  let k := s.k
  let hg4 := 4 - 2 * g - h
  let ghk := g * h + g * k - 2 * k
  if 2 * k - g * (h + k) * hg4 = 0 then .error .zeroDivision
  else if 2 * hg4 * ghk = 0 then .error .zeroDivision
  else if s.dt ^ 4 * hg4 * ghk = 0 then .error .zeroDivision
  else .ok
    ((2 * h * (2 * g ^ 2 + 2 * h - 3 * g * h) - 2 * g * k * hg4) / (2 * k - g * (h + k) * hg4),
     (2 * h ^ 3 - 4 * h ^ 2 * k + 4 * k ^ 2 * (2 - g)) / (2 * hg4 * ghk),
     8 * h * k ^ 2 / (s.dt ^ 4 * hg4 * ghk))

end GHK

/-- Attributes of `GHFilterOrder` (gh_filter.py 110-130).  `x` has `order + 1` entries when it
is built from a scalar; an array `x0` of any length is accepted. -/
structure GHO where
  x : List ℝ
  dt : ℝ
  order : ℕ
  g : ℝ
  h : Option ℝ
  k : Option ℝ
  y : ℝ
  z : ℝ

/-- The argument `x0`: a scalar or an array. -/
inductive X0
  | scalar (c : ℝ)
  | array (a : List ℝ)

/-- `if np.isscalar(x0): zeros(order+1) with x[0]=x0, else copy` (gh_filter.py 118-122,
fading_memory.py 107-111). -/
def X0.toList (a : X0) (order : ℕ) : List ℝ :=
  match a with
  | .scalar c => c :: List.replicate order 0
  | .array l => l

namespace GHO

/-- `GHFilterOrder.__init__` (gh_filter.py 110-130); the initial arrays `y`, `z` of zeros are
represented by the number `0`. -/
def init (x0 : X0) (dt : ℝ) (order : ℤ) (g : ℝ) (h k : Option ℝ := none) : Except Err GHO :=
  if order < 0 ∨ 2 < order then .error .valueError
  else .ok { x := x0.toList order.toNat, dt := dt, order := order.toNat, g := g, h := h, k := k,
             y := 0, z := 0 }

/-- Order 0 (gh_filter.py 140-144). -/
noncomputable def update0 (s : GHO) (z : ℝ) (g : ℝ) : Exec GHO :=
  match s.x with
  | [] => .error (.indexError, s)
  | x :: _ =>
    let y := z - x
    .ok { s with y := y, x := s.x.map (· + g * y) }

/-- Order 1 (gh_filter.py 146-159).  A missing `h` is multiplied as `None * y`: `TypeError`,
after `y` and `x[0]` were assigned. -/
noncomputable def update1 (s : GHO) (z : ℝ) (g : ℝ) (h : Option ℝ) : Exec GHO :=
  match s.x with
  | x :: dx :: rest =>
    let dxdt := dx * s.dt
    let y := z - (x + dxdt)
    let s1 := { s with y := y, x := (x + dxdt + g * y) :: dx :: rest }
    match h with
    | none => .error (.typeError, s1)
    | some h =>
      if s.dt = 0 then .error (.zeroDivision, s1)
      else .ok { s1 with x := (x + dxdt + g * y) :: (dx + h * y / s.dt) :: rest, z := z }
  | _ => .error (.indexError, s)

/-- Order 2 (gh_filter.py 161-180); `self.z` is not assigned. -/
noncomputable def update2 (s : GHO) (z : ℝ) (g : ℝ) (h k : Option ℝ) : Exec GHO :=
  match s.x with
  | x :: dx :: ddx :: rest =>
    let dxdt := dx * s.dt
    let T2 := s.dt ^ 2
    let y := z - (x + dxdt + 0.5 * ddx * T2)
    let x' := x + dxdt + 0.5 * ddx * T2 + g * y
    let s1 := { s with y := y, x := x' :: dx :: ddx :: rest }
    match h with
    | none => .error (.typeError, s1)
    | some h =>
      if s.dt = 0 then .error (.zeroDivision, s1)
      else
        let dx' := dx + ddx * s.dt + h * y / s.dt
        let s2 := { s1 with x := x' :: dx' :: ddx :: rest }
        match k with
        | none => .error (.typeError, s2)
        | some k => .ok { s2 with x := x' :: dx' :: (ddx + 2 * k * y / s.dt ^ 2) :: rest }
  | _ => .error (.indexError, s)

/-- `GHFilterOrder.update(z, g, h, k)` (gh_filter.py 134-180). -/
noncomputable def update (s : GHO) (z : ℝ) (g h k : Option ℝ := none) : Exec GHO :=
  match s.order with
  | 0 => s.update0 z (g.getD s.g)
  | 1 => s.update1 z (g.getD s.g) (h.or s.h)
  | _ => s.update2 z (g.getD s.g) (h.or s.h) (k.or s.k)

end GHO

/-! ## Gain selection functions -/

/-- `optimal_noise_smoothing(g)` (gh_filter.py 857-898).  The square root of a negative number
is complex in Python 3; such runs leave the model (`nonFinite`). -/
noncomputable def optimalNoiseSmoothing (g : ℝ) : Except Err (ℝ × ℝ × ℝ) :=
  let d := 4 * g ^ 6 - 64 * g ^ 5 + 64 * g ^ 4
  if d < 0 then .error .nonFinite
  else if g = 1 then .error .zeroDivision
  else
    let h := ((2 * g ^ 3 - 4 * g ^ 2) + Real.sqrt d) / (8 * (1 - g))
    if g = 0 then .error .zeroDivision
    else .ok (g, h, (h * (2 - g) - g ^ 2) / g)

/-- `least_squares_parameters(n)` (gh_filter.py 901-942). -/
noncomputable def leastSquaresParameters (n : ℤ) : Except Err (ℝ × ℝ) :=
  let den : ℤ := (n + 2) * (n + 1)
  if den = 0 then .error .zeroDivision
  else .ok ((2 * (2 * n + 1)) / den, 6 / den)

/-- The value of `critical_damping_parameters`: a pair for order 2, a triple for order 3. -/
inductive Gains
  | two (g h : ℝ)
  | three (g h k : ℝ)

/-- `critical_damping_parameters(theta, order)` (gh_filter.py 945-1027). -/
noncomputable def criticalDamping (θ : ℝ) (order : ℤ := 2) : Except Err Gains :=
  if θ < 0 ∨ θ > 1 then .error .valueError
  else if order = 2 then .ok (.two (1 - θ ^ 2) ((1 - θ) ^ 2))
  else if order = 3 then
    .ok (.three (1 - θ ^ 3) (1.5 * (1 - θ ^ 2) * (1 - θ)) (0.5 * (1 - θ) ^ 3))
  else .error .valueError

/-- `benedict_bornder_constants(g, critical)` (gh_filter.py 1030-1080). -/
noncomputable def benedictBornder (g : ℝ) (critical : Bool := false) : Except Err (ℝ × ℝ) :=
  if critical then
    if 1 - g ^ 2 < 0 then .error .nonFinite
    else if g ^ 2 = 0 then .error .zeroDivision
    else .ok (g, 0.8 * (2 - g ^ 2 - 2 * Real.sqrt (1 - g ^ 2)) / g ^ 2)
  else if 2 - g = 0 then .error .zeroDivision
  else .ok (g, g ^ 2 / (2 - g))

end Filterpy
