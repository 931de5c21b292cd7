import Verif.Model.OtherShapes
import Verif.Model.SigmaShapes
import Verif.Model.UKF
import Verif.Model.EnKF

/-!
# The sigma point and ensemble filters with vectors of run-time shape

`UnscentedKalmanFilter`, `CubatureKalmanFilter` and `EnsembleKalmanFilter` once more, with the state (of the first two), the
residual and the measurement as arrays that carry their shape at run time.  None of these classes passes the measurement
through `reshape_z`.  The functions `residual_x`, `residual_z` and `state_add` are the defaults `np.subtract` and `np.add`;
`fx` and `hx` are total and return 1-D arrays.
-/

namespace Filterpy

open Matrix

/-! ## `UnscentedKalmanFilter` -/

/-- The attributes of an `UnscentedKalmanFilter` (UKF.py 300-362).  `z = none` is the column of `None`s. -/
structure NUKF (n m : ℕ) (p : SigmaPts n) where
  x : Nd
  P : Mat n n
  Q : Mat n n
  R : Mat m m
  dt : ℝ
  hx : Vec n → Vec m
  fx : Vec n → ℝ → Vec n
  xMean : Option (Mat p.num n → Vec p.num → Vec n)
  zMean : Option (Mat p.num m → Vec p.num → Vec m)
  sigmasF : Mat p.num n
  sigmasH : Mat p.num m
  z : Option Nd
  K : Mat n m
  y : Nd
  S : Mat m m
  SI : Mat m m
  xPrior : Nd
  PPrior : Mat n n
  xPost : Nd
  PPost : Mat n n
  logLik : Option ℝ
  lik : Option ℝ
  mahal : Option ℝ
  inv : ∀ {k : ℕ}, Mat k k → Option (Mat k k)

namespace NUKF

variable {n m : ℕ} {p : SigmaPts n}

/-- `UnscentedKalmanFilter.__init__` (UKF.py 284-362): `self.x = zeros(dim_x)`. -/
noncomputable def fresh (m : ℕ) (p : SigmaPts n) (dt : ℝ) (hx : Vec n → Vec m) (fx : Vec n → ℝ → Vec n)
    (xMean : Option (Mat p.num n → Vec p.num → Vec n) := none)
    (zMean : Option (Mat p.num m → Vec p.num → Vec m) := none) : NUKF n m p where
  x := .d1 n 0
  P := 1
  Q := 1
  R := 1
  dt := dt
  hx := hx
  fx := fx
  xMean := xMean
  zMean := zMean
  sigmasF := 0
  sigmasH := 0
  z := none
  K := 0
  y := .d1 m 0
  S := 0
  SI := 0
  xPrior := .d1 n 0
  PPrior := 1
  xPost := .d1 n 0
  PPost := 1
  logLik := some (Real.log floatMin)
  lik := some floatMin
  mahal := none
  inv := npInv

/-- `predict(dt, fx)` (UKF.py 364-411, 506-522).  `pts` is `points_fn.sigma_points`; the new `x` is
`np.dot(Wm, sigmas)` or the value of `x_mean`, a 1-D array. -/
noncomputable def predict (pts : Nd → Mat n n → Except Err (Mat p.num n)) (s : NUKF n m p) (dt : Option ℝ := none)
    (fx : Option (Vec n → ℝ → Vec n) := none) : Except (Err × NUKF n m p) (NUKF n m p) :=
  match pts s.x s.P with
  | .error e => .error (e, s)
  | .ok sigmas =>
    let s := { s with sigmasF := UKF.pushRows (fun v => fx.getD s.fx v (dt.getD s.dt)) sigmas }
    let xP := unscentedTransform s.sigmasF p.Wm p.Wc (some s.Q) s.xMean none
    let s := { s with x := .d1 n xP.1, P := xP.2 }
    match pts s.x s.P with
    | .error e => .error (e, s)
    | .ok sigmas => .ok { s with sigmasF := sigmas, xPrior := s.x, PPrior := s.P }

/-- One turn of the loop of `cross_variance` (UKF.py 500-504); `np.outer` flattens its arguments, and the sum must keep the
shape of `Pxz`. -/
def crossTurn {k : ℕ} (Wc : Vec k) (x : Nd) (zp : Vec m) (sf : Mat k n) (sh : Mat k m) (Pxz : Mat n m) (i : Fin k) :
    Except Err (Mat n m) :=
  match Nd.sub (.d1 n (sf i)) x with
  | .error e => .error e
  | .ok dx =>
    match Nd.addInto (.d2 n m Pxz) (.d2 dx.size m (of fun a b => Wc i * (dx.flat a * (sh i b - zp b)))) with
    | .error e => .error e
    | .ok c => .ok (of fun a b => c.get a b)

/-- `cross_variance(x, z, sigmas_f, sigmas_h)` (UKF.py 493-504). -/
def cross {k : ℕ} (Wc : Vec k) (x : Nd) (zp : Vec m) (sf : Mat k n) (sh : Mat k m) : Except Err (Mat n m) :=
  (List.finRange k).foldlM (crossTurn Wc x zp sf sh) 0

/-- `update(z, R, hx)` (UKF.py 413-491). -/
noncomputable def update (s : NUKF n m p) (z : Option Nd) (R : MatArg m := .none)
    (hx : Option (Vec n → Vec m) := none) : Except (Err × NUKF n m p) (NUKF n m p) :=
  match z with
  | none => .ok { s with z := none, xPost := s.x, PPost := s.P }
  | some z =>
    let sigmasH := UKF.pushRows (hx.getD s.hx) s.sigmasF
    let zpS := unscentedTransform sigmasH p.Wm p.Wc (some (R.resolve s.R)) s.zMean none
    let s := { s with sigmasH := sigmasH, S := zpS.2 }
    match s.inv zpS.2 with
    | none => .error (.linAlgError, s)
    | some SI =>
      let s := { s with SI := SI }
      match cross p.Wc s.x zpS.1 s.sigmasF sigmasH with
      | .error e => .error (e, s)
      | .ok Pxz =>
        let s := { s with K := Pxz * SI }
        match Nd.sub z (.d1 m zpS.1) with
        | .error e => .error (e, s)
        | .ok y =>
          let s := { s with y := y }
          match Nd.corr s.x s.K y with
          | .error e => .error (e, s)
          | .ok x =>
            let P := s.P - s.K * (s.S * s.Kᵀ)
            .ok { s with x := x, P := P, z := some z, xPost := x, PPost := P, logLik := none, lik := none, mahal := none }

end NUKF

/-! ## `CubatureKalmanFilter` -/

/-- The attributes of a `CubatureKalmanFilter` (CubatureKalmanFilter.py 240-290).  `K` starts as the number `0`, here the
zero array. -/
structure NCKF (n m : ℕ) where
  x : Nd
  P : Mat n n
  Q : Mat n n
  R : Mat m m
  dt : ℝ
  hx : Vec n → Vec m
  fx : Vec n → ℝ → Vec n
  sigmasF : Mat (2 * n) n
  sigmasH : Mat (2 * n) m
  z : Option Nd
  K : Mat n m
  y : Nd
  S : Mat m m
  SI : Mat m m
  xPrior : Nd
  PPrior : Mat n n
  xPost : Nd
  PPost : Mat n n
  logLik : Option ℝ
  lik : Option ℝ
  mahal : Option ℝ

/-- Rows `0 … k-1` of an array filled one by one (CubatureKalmanFilter.py 57-59, ensemble_kalman_filter.py 250-251). -/
def fillRows {n : ℕ} (f : ℕ → Except Err (Vec n)) : ℕ → Except Err (ℕ → Vec n)
  | 0 => .ok fun _ => 0
  | k + 1 =>
    match fillRows f k with
    | .error e => .error e
    | .ok s =>
      match f k with
      | .error e => .error e
      | .ok r => .ok (Function.update s k r)

/-- `sigmas[i] = x + U[i]` for `i < n` and `x - U[i - n]` beyond, `x` being flattened (CubatureKalmanFilter.py 53, 57-59). -/
def cubatureRow {n : ℕ} (x : Nd) (U : Mat n n) (i : ℕ) : Except Err (Vec n) :=
  if h : i < n then
    match Nd.add (.d1 x.size fun j => x.flat j) (.d1 n (U ⟨i, h⟩)) with
    | .error e => .error e
    | .ok r => assignRow n r
  else if h : i - n < n then
    match Nd.sub (.d1 x.size fun j => x.flat j) (.d1 n (U ⟨i - n, h⟩)) with
    | .error e => .error e
    | .ok r => assignRow n r
  else .error .indexError

/-- `spherical_radial_sigmas(x, P)` (CubatureKalmanFilter.py 32-61).  The rows are stored in the order of their indices; the
code alternates between the halves. -/
noncomputable def cubaturePoints {n : ℕ} (chol : Mat n n → Except Err (Mat n n)) (x : Nd) (P : Mat n n) :
    Except Err (Mat (2 * n) n) :=
  match chol P with
  | .error e => .error e
  | .ok C =>
    match fillRows (cubatureRow x (Real.sqrt n • C)) (2 * n) with
    | .error e => .error e
    | .ok s => .ok (rows fun i => s i)

namespace NCKF

variable {n m : ℕ}

/-- `CubatureKalmanFilter.__init__` (CubatureKalmanFilter.py 240-290): `self.x = zeros(dim_x)`, `self.y = 0`. -/
noncomputable def fresh (n m : ℕ) (dt : ℝ) (hx : Vec n → Vec m) (fx : Vec n → ℝ → Vec n) : NCKF n m where
  x := .d1 n 0
  P := 1
  Q := 1
  R := 1
  dt := dt
  hx := hx
  fx := fx
  sigmasF := 0
  sigmasH := 0
  z := none
  K := 0
  y := .d0 0
  S := 0
  SI := 0
  xPrior := .d1 n 0
  PPrior := 1
  xPost := .d1 n 0
  PPost := 1
  logLik := some (Real.log floatMin)
  lik := some floatMin
  mahal := none

/-- An array of shape `(n, 1)`, as `sum(Xs, 0)[:, None] / m` (CubatureKalmanFilter.py 89). -/
def column {k : ℕ} (v : Vec k) : Nd := .d2 k 1 (of fun i _ => v i)

/-- `predict(dt)` (CubatureKalmanFilter.py 292-327). -/
noncomputable def predict (chol : Mat n n → Except Err (Mat n n)) (s : NCKF n m) (dt : Option ℝ := none) :
    Except (Err × NCKF n m) (NCKF n m) :=
  match cubaturePoints chol s.x s.P with
  | .error e => .error (e, s)
  | .ok sigmas =>
    let sigmasF := rows fun k => s.fx (sigmas k) (dt.getD s.dt)
    let xP := ckfTransform sigmasF s.Q
    .ok { s with sigmasF := sigmasF, x := column xP.1, P := xP.2, xPrior := column xP.1, PPrior := xP.2 }

/-- `self.sigmas_f - xf` (CubatureKalmanFilter.py 371-373).  With one state variable and a state of another size the
difference has another shape: the run leaves the model (`shape`). -/
def deviations (x : Nd) (sf : Mat (2 * n) n) : Except Err (Mat (2 * n) n) :=
  if x.size = n ∨ x.size = 1 then .ok (rows fun i j => sf i j - x.flat (Nd.bidx x.size j))
  else if n = 1 then .error .shape else .error .valueError

/-- `update(z, R)` (CubatureKalmanFilter.py 329-390). -/
noncomputable def update (s : NCKF n m) (z : Option Nd) (R : MatArg m := .none) : Except (Err × NCKF n m) (NCKF n m) :=
  match z with
  | none => .ok { s with z := none, xPost := s.x, PPost := s.P }
  | some z =>
    let sigmasH := rows fun k => s.hx (s.sigmasF k)
    let zpS := ckfTransform sigmasH (R.resolve s.R)
    let s := { s with sigmasH := sigmasH, S := zpS.2 }
    match npInv zpS.2 with
    | none => .error (.linAlgError, s)
    | some SI =>
      let s := { s with SI := SI }
      match deviations s.x s.sigmasF with
      | .error e => .error (e, s)
      | .ok d =>
        let Pxz := ((1 : ℝ) / (2 * n : ℕ)) • outerSum d (rows fun k => sigmasH k - zpS.1)
        let s := { s with K := Pxz * SI }
        match Nd.sub z (column zpS.1) with
        | .error e => .error (e, s)
        | .ok y =>
          let s := { s with y := y }
          match Nd.corr s.x s.K y with
          | .error e => .error (e, s)
          | .ok x =>
            let P := s.P - s.K * s.S * s.Kᵀ
            .ok { s with x := x, P := P, z := some z, xPost := x, PPost := P, logLik := none, lik := none, mahal := none }

end NCKF

/-! ## `EnsembleKalmanFilter` -/

/-- The attributes of an `EnsembleKalmanFilter` (ensemble_kalman_filter.py 165-216).  The state is a 1-D array, checked by
`initialize`. -/
structure NEnKF (n m N : ℕ) where
  x : Vec n
  P : Mat n n
  Q : Mat n n
  R : Mat m m
  dt : ℝ
  hx : Vec n → Vec m
  fx : Vec n → ℝ → Vec n
  sigmas : Mat N n
  z : Option Nd
  K : Nd
  S : Nd
  SI : Nd
  xPrior : Vec n
  PPrior : Mat n n
  xPost : Vec n
  PPost : Mat n n

namespace NEnKF

variable {n m N : ℕ}

/-- `len(z)` (ensemble_kalman_filter.py 246); a number or array of no axes has no length. -/
def lenZ : Nd → Except Err ℕ
  | .d0 _ => .error .typeError
  | .d1 k _ => .ok k
  | .d2 k _ _ => .ok k

/-- `for i in range(N): sigmas_h[i] = self.hx(self.sigmas[i])`, rows of `k` entries (ensemble_kalman_filter.py 247-251). -/
def measureRows (k : ℕ) (hx : Vec n → Vec m) (sigmas : Mat N n) : Except Err (Mat N k) :=
  match fillRows (fun i => if h : i < N then assignRow k (.d1 m (hx (sigmas ⟨i, h⟩))) else .error .indexError) N with
  | .error e => .error e
  | .ok s => .ok (rows fun i => s i)

/-- `dot(self.K, z + e_r[i] - sigmas_h[i])` added to `self.sigmas[i]` in place (ensemble_kalman_filter.py 265). -/
def moveRow {k : ℕ} (K : Nd) (z : Nd) (e : Vec m) (h : Vec k) (row : Vec n) : Except Err (Vec n) :=
  match Nd.add z (.d1 m e) with
  | .error e => .error e
  | .ok a =>
    match Nd.sub a (.d1 k h) with
    | .error e => .error e
    | .ok b =>
      match Nd.dot K b with
      | .error e => .error e
      | .ok c =>
        match Nd.addInto (.d1 n row) c with
        | .error e => .error e
        | .ok r => .ok fun j => r.get 0 j

/-- The loop ensemble_kalman_filter.py 264-265; the members moved before an exception stay moved. -/
def moveRows {k : ℕ} (K : Nd) (z : Nd) (e : Mat N m) (h : Mat N k) :
    List (Fin N) → Mat N n → Except (Err × Mat N n) (Mat N n)
  | [], A => .ok A
  | i :: l, A =>
    match moveRow K z (e i) (h i) (A i) with
    | .error er => .error (er, A)
    | .ok r => moveRows K z e h l (rows (Function.update (fun k => A k) i r))

/-- `P - dot(dot(K, S), K.T)` (ensemble_kalman_filter.py 268). -/
def reduceP (P : Mat n n) (K S : Nd) : Except Err Nd := do
  let KS ← Nd.dot K S
  let KSK ← Nd.dot KS K.T
  Nd.sub (.d2 n n P) KSK

/-- `update(z, R)` (ensemble_kalman_filter.py 218-273); `e` are the drawn measurement errors.  `self.inv` is
`np.linalg.inv`. -/
noncomputable def update (s : NEnKF n m N) (z : Option Nd) (R : MatArg m) (e : Mat N m) :
    Except (Err × NEnKF n m N) (NEnKF n m N) :=
  match z with
  | none => .ok { s with z := none, xPost := s.x, PPost := s.P }
  | some z =>
    match lenZ z with
    | .error er => .error (er, s)
    | .ok k =>
      match measureRows k s.hx s.sigmas with
      | .error er => .error (er, s)
      | .ok sigmasH =>
        if N = 1 then .error (.nonFinite, s)
        else
          let dh := rows fun i => sigmasH i - meanRows sigmasH
          let dx := rows fun i => s.sigmas i - s.x
          let Pxz := ((1 : ℝ) / ((N : ℝ) - 1)) • outerSum dx dh
          match Nd.add (.d2 k k (((1 : ℝ) / ((N : ℝ) - 1)) • outerSum dh dh)) (.d2 m m (R.resolve s.R)) with
          | .error er => .error (er, s)
          | .ok S =>
            let s := { s with S := S }
            match Nd.inv S with
            | .error er => .error (er, s)
            | .ok SI =>
              let s := { s with SI := SI }
              match Nd.dot (.d2 n k Pxz) SI with
              | .error er => .error (er, s)
              | .ok K =>
                let s := { s with K := K }
                match moveRows K z e sigmasH (List.finRange N) s.sigmas with
                | .error er => .error (er.1, { s with sigmas := er.2 })
                | .ok sigmas =>
                  let s := { s with sigmas := sigmas, x := meanRows sigmas }
                  match reduceP s.P K S with
                  | .error er => .error (er, s)
                  | .ok P =>
                    let s := { s with P := of fun i j => P.get i j }
                    .ok { s with z := some z, xPost := s.x, PPost := s.P }

end NEnKF

end Filterpy
