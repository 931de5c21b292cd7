import Verif.Model.GH

/-!
# Models of `filterpy/memory/fading_memory.py` and `filterpy/leastsq/least_squares.py`
-/

namespace Filterpy

/-- Attributes of `FadingMemoryFilter` (fading_memory.py 102-145). -/
structure FadingMemory where
  x : List ℝ
  dt : ℝ
  order : ℕ
  beta : ℝ
  P : List ℝ
  e : List ℝ

namespace FadingMemory

/-- The attribute `P` (fading_memory.py 118, 122-124, 131-139). -/
noncomputable def initP (order : ℕ) (dt β : ℝ) : List ℝ :=
  match order with
  | 0 => [(1 - β) / (1 + β)]
  | 1 => [(1 - β) * (1 + 4 * β + 5 * β ^ 2) / (1 + β) ^ 3, 2 * (1 - β) ^ 3 / (1 + β) ^ 3]
  | _ => [(1 - β) * ((1 + 6 * β + 16 * β ^ 2 + 24 * β ^ 3 + 19 * β ^ 4) / (1 + β) ^ 5),
      (1 - β) ^ 3 * ((13 + 50 * β + 49 * β ^ 2) / (2 * (1 + β) ^ 5 * dt ^ 2)),
      6 * (1 - β) ^ 5 / ((1 + β) ^ 5 * dt ^ 4)]

/-- The attribute `e` (fading_memory.py 119, 126-128, 141-145). -/
noncomputable def initE (order : ℕ) (dt β : ℝ) : List ℝ :=
  match order with
  | 0 => [dt * β / (1 - β)]
  | 1 => [2 * dt * 2 * (β / (1 - β)) ^ 2, dt * ((1 + 3 * β) / (1 - β))]
  | _ => [6 * dt ^ 3 * (β / (1 - β)) ^ 3, dt ^ 2 * (2 + 5 * β + 11 * β ^ 2) / (1 - β) ^ 2,
      6 * dt * (1 + 2 * β) / (1 - β)]

/-- `FadingMemoryFilter.__init__` (fading_memory.py 102-145).  `beta = ±1` divides by zero, and
so does `dt = 0` for order 2.  An integer array `x0` keeps its dtype: see `Model/IntArrays`. -/
noncomputable def init (x0 : X0) (dt : ℝ) (order : ℤ) (β : ℝ) : Except Err FadingMemory :=
  if order < 0 ∨ 2 < order then .error .valueError
  else if 1 + β = 0 ∨ 1 - β = 0 ∨ (order = 2 ∧ dt = 0) then .error .zeroDivision
  else .ok { x := x0.toList order.toNat, dt := dt, order := order.toNat, beta := β,
             P := initP order.toNat dt β, e := initE order.toNat dt β }

/-- `FadingMemoryFilter.update(z)` (fading_memory.py 159-194). -/
noncomputable def update (s : FadingMemory) (z : ℝ) : Exec FadingMemory :=
  match s.order with
  | 0 =>
    let G := 1 - s.beta
    .ok { s with x := s.x.map fun x => x + G * (z - x) }
  | 1 =>
    match s.x with
    | x :: dx :: rest =>
      let G := 1 - s.beta ^ 2
      let H := (1 - s.beta) ^ 2
      let dxdt := dx * s.dt
      let r := z - (x + dxdt)
      if s.dt = 0 then .error (.zeroDivision, { s with x := (x + dxdt + G * r) :: dx :: rest })
      else .ok { s with x := (x + dxdt + G * r) :: (dx + (H / s.dt) * r) :: rest }
    | _ => .error (.indexError, s)
  | _ =>
    match s.x with
    | x :: dx :: ddx :: rest =>
      let G := 1 - s.beta ^ 3
      let H := 1.5 * (1 + s.beta) * (1 - s.beta) ^ 2
      let K := 0.5 * (1 - s.beta) ^ 3
      let dxdt := dx * s.dt
      let T2 := s.dt ^ 2
      let r := z - (x + dxdt + 0.5 * ddx * T2)
      let x' := x + dxdt + 0.5 * ddx * T2 + G * r
      if s.dt = 0 then .error (.zeroDivision, { s with x := x' :: dx :: ddx :: rest })
      else .ok { s with x := x' :: (dx + ddx * s.dt + (H / s.dt) * r) ::
                          (ddx + (2 * K / s.dt ^ 2) * r) :: rest }
    | _ => .error (.indexError, s)

end FadingMemory

/-- Attributes of `LeastSquaresFilter` (least_squares.py 92-110). -/
structure LSQ where
  dt : ℝ
  sigma : ℝ
  order : ℕ
  n : ℕ
  x : List ℝ
  K : List ℝ
  y : ℝ

namespace LSQ

/-- `LeastSquaresFilter.reset()` (least_squares.py 104-110). -/
def reset (s : LSQ) : LSQ :=
  { s with n := 0, x := List.replicate (s.order + 1) 0, K := List.replicate (s.order + 1) 0,
           y := 0 }

/-- `LeastSquaresFilter.__init__` (least_squares.py 92-102). -/
def init (dt : ℝ) (order : ℤ) (sigma : ℝ := 0) : Except Err LSQ :=
  if order < 0 ∨ 2 < order then .error .valueError
  else .ok (reset { dt := dt, sigma := sigma, order := order.toNat, n := 0, x := [], K := [],
                    y := 0 })

/-- `LeastSquaresFilter.update(z)` (least_squares.py 112-155).  The local `y` is never written
back to the attribute.  `dt = 0` divides by zero in orders 1 and 2: `n` (and `K[0]`) are
already assigned then. -/
noncomputable def update (s : LSQ) (z : ℝ) : Exec LSQ :=
  let s := { s with n := s.n + 1 }
  let n : ℝ := s.n
  let dt := s.dt
  match s.order, s.x with
  | 0, [x0] =>
    let K0 := 1 / n
    .ok { s with K := [K0], x := [x0 + K0 * (z - x0)] }
  | 1, [x0, x1] =>
    let K0 := 2 * (2 * n - 1) / (n * (n + 1))
    if dt = 0 then .error (.zeroDivision, { s with K := s.K.set 0 K0 })
    else
      let K1 := 6 / (n * (n + 1) * dt)
      let y := z - x0 - dt * x1
      .ok { s with K := [K0, K1], x := [x0 + (K0 * y + dt * x1), x1 + K1 * y] }
  | 2, [x0, x1, x2] =>
    let den := n * (n + 1) * (n + 2)
    let K0 := 3 * (3 * n ^ 2 - 3 * n + 2) / den
    if dt = 0 then .error (.zeroDivision, { s with K := s.K.set 0 K0 })
    else
      let K1 := 18 * (2 * n - 1) / (den * dt)
      let K2 := 60 / (den * dt ^ 2)
      let y := z - x0 - dt * x1 - 0.5 * dt ^ 2 * x2
      .ok { s with K := [K0, K1, K2]
                   x := [x0 + (K0 * y + x1 * dt + 0.5 * dt ^ 2 * x2),
                         x1 + (K1 * y + x2 * dt), x2 + K2 * y] }
  | _, _ => .error (.indexError, s)

/-- Order 1 part of `errors()` (least_squares.py 185-190). -/
noncomputable def errors1 (n dt σ : ℝ) : Except Err (List ℝ × List ℝ) :=
  let error := if n > 1 then
      [σ * √(2 * (2 * n - 1) / (n * (n + 1))), σ * √(12 / (n * (n * n - 1) * dt * dt))]
    else [0, 0]
  if n * (n * n - 1) = 0 ∨ dt = 0 then .error .zeroDivision
  else .ok (error, [σ * √(2 * (2 * n - 1) / (n * (n + 1))), σ / dt * √(12 / (n * (n * n - 1)))])

/-- Order 2 part of `errors()` (least_squares.py 192-205). -/
noncomputable def errors2 (n dt σ : ℝ) : Except Err (List ℝ × List ℝ) :=
  let dt2 := dt * dt
  let d := n * (n * n - 1) * (n * n - 4)
  let error := if n ≥ 3 then
      [σ * √(3 * (3 * n * n - 3 * n + 2) / (n * (n + 1) * (n + 2))),
       σ * √(12 * (16 * n * n - 30 * n + 11) / (d * dt2)), σ * √(720 / (d * dt2 * dt2))]
    else [0, 0, 0]
  if d = 0 ∨ dt = 0 then .error .zeroDivision
  else .ok (error,
    [σ * √(3 * (3 * n * n - 3 * n + 2) / (n * (n + 1) * (n + 2))),
     σ / dt * √(12 * (16 * n * n - 30 * n + 11) / d), σ / dt2 * √(720 / d)])

/-- `LeastSquaresFilter.errors()` (least_squares.py 157-205): `(error, std)`. -/
noncomputable def errors (s : LSQ) : Except Err (List ℝ × List ℝ) :=
  if s.n = 0 then .ok (List.replicate (s.order + 1) 0, List.replicate (s.order + 1) 0)
  else
    match s.order with
    | 0 => .ok ([s.sigma / √s.n], [s.sigma / √s.n])
    | 1 => errors1 s.n s.dt s.sigma
    | _ => errors2 s.n s.dt s.sigma

end LSQ
end Filterpy
