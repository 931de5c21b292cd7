import Verif.Model.FadingKF

/-!
# Model of `filterpy/kalman/information_filter.py`, class `InformationFilter`
-/

namespace Filterpy

open Matrix

/-- The attributes of an `InformationFilter` (information_filter.py 130-176).  `B = none` is the
initial `B = 0.`, `F = none`, `Finv = none` the initial `_F = 0.`, `_F_inv = 0.`.  `K` and `S`
start as the scalar `0.`, here the zero matrix. -/
structure IF (n m l : ℕ) where
  x : Vec n
  Pinv : Mat n n
  Q : Mat n n
  B : Option (Mat n l)
  F : Option (Mat n n)
  Finv : Option (Mat n n)
  H : Mat m n
  Rinv : Mat m m
  z : Option (Vec m)
  K : Mat n m
  y : Vec m
  S : Mat n n
  noInformation : Bool
  computeLL : Bool
  logLik : ℝ
  lik : ℝ
  inv : Mat n n → Option (Mat n n)
  xPrior : Vec n
  PinvPrior : Mat n n
  xPost : Vec n
  PinvPost : Mat n n

namespace IF

variable {n m l : ℕ}

/-- The attribute values set by `__init__` (information_filter.py 139-176). -/
noncomputable def fresh (n m l : ℕ) (computeLL : Bool := true) : IF n m l where
  x := 0
  Pinv := 1
  Q := 1
  B := none
  F := none
  Finv := none
  H := 0
  Rinv := 1
  z := some 0
  K := 0
  y := 0
  S := 0
  noInformation := false
  computeLL := computeLL
  logLik := Real.log floatMin
  lik := floatMin
  inv := npInv
  xPrior := 0
  PinvPrior := 1
  xPost := 0
  PinvPost := 1

/-- An `InformationFilter` of some dimension. -/
structure Sized where
  n : ℕ
  m : ℕ
  l : ℕ
  f : IF n m l

/-- `InformationFilter.__init__` (information_filter.py 130-176). -/
noncomputable def init (dimX dimZ dimU : ℤ) (computeLL : Bool := true) : Except Err Sized :=
  if dimX < 1 then .error .valueError
  else if dimZ < 1 then .error .valueError
  else if dimU < 0 then .error .valueError
  else .ok ⟨dimX.toNat, dimZ.toNat, dimU.toNat, fresh _ _ _ computeLL⟩

/-- The `F` setter (information_filter.py 369-373): `_F` is stored before the inverse is taken. -/
def setF (s : IF n m l) (F : Mat n n) : Exec (IF n m l) :=
  match s.inv F with
  | none => .error (.linAlgError, { s with F := some F })
  | some Fi => .ok { s with F := some F, Finv := some Fi }

/-- The property `P` (information_filter.py 375-378). -/
def getP (s : IF n m l) : Except Err (Mat n n) :=
  match s.inv s.Pinv with
  | none => .error .linAlgError
  | some P => .ok P

/-- `logpdf(x=self.y, cov=self.S)` (information_filter.py 235; stats.py 131-154) where the
residual has `dim_z` entries and `S` is `dim_x × dim_x`.  scipy subtracts the (zero) mean of
length `dim_x`: equal lengths work, a single residual is broadcast to `dim_x` entries, for
`dim_x = 1` it is taken as `dim_z` separate points (and `math.exp` of the resulting array raises
`TypeError`), any other combination raises `ValueError`. -/
noncomputable def llOf (y : Vec m) (S : Mat n n) : Except Err ℝ :=
  if h : m = n then .ok (logpdf (fun i : Fin n => y ⟨i, by omega⟩) S)
  else if h : m = 1 then .ok (logpdf (fun _ : Fin n => y ⟨0, by omega⟩) S)
  else if n = 1 then .error .typeError
  else .error .valueError

/-- `InformationFilter.update(z, R_inv)` (information_filter.py 178-243).  `expf` is the
floating-point exponential.  An exception from the likelihood computation leaves the new `x`,
`P_inv`, `y`, `S`, `K`, `z` stored. -/
noncomputable def update (expf : ℝ → ℝ) (s : IF n m l) (z : Option (Vec m))
    (Rinv : MatArg m := .none) : Exec (IF n m l) :=
  match z with
  | none => .ok { s with z := none, xPost := s.x, PinvPost := s.Pinv }
  | some z =>
    let Rinv := Rinv.resolve s.Rinv
    let HTR := s.Hᵀ * Rinv
    if s.noInformation then
      let x := s.Pinv *ᵥ s.x + HTR *ᵥ z
      let Pinv := s.Pinv + HTR * s.H
      .ok { s with
        x := x, Pinv := Pinv, logLik := Real.log floatMin, lik := floatMin
        z := some z, xPost := x, PinvPost := Pinv }
    else
      let y := z - s.H *ᵥ s.x
      let S := s.Pinv + HTR * s.H
      match s.inv S with
      | none => .error (.linAlgError, { s with y := y, S := S })
      | some SI =>
        let K := SI * s.Hᵀ * Rinv
        let x := s.x + K *ᵥ y
        let Pinv := s.Pinv + HTR * s.H
        let s1 := { s with y := y, S := S, K := K, x := x, Pinv := Pinv, z := some z }
        if s.computeLL then
          match llOf y S with
          | .error e => .error (e, s1)
          | .ok ll =>
            .ok { s1 with
              logLik := ll
              lik := if expf ll = 0 then floatMin else expf ll
              xPost := x, PinvPost := Pinv }
        else .ok { s1 with xPost := x, PinvPost := Pinv }

/-- The recovery of the state inside the `try` of `predict` (information_filter.py 262-267):
`x` becomes `inv(P_inv) x`, or `0` if that raises. -/
def recover (s : IF n m l) : IF n m l :=
  if s.noInformation then
    match s.inv s.Pinv with
    | some P => { s with x := P *ᵥ s.x, noInformation := false }
    | none => { s with x := 0, noInformation := false }
  else s

/-- The invertible branch of `predict` (information_filter.py 272-278). -/
noncomputable def predictInv (s : IF n m l) (F AI : Mat n n) (u : UArg l) : Exec (IF n m l) :=
  match FKF.control s.B u with
  | .error e => .error (e, s)
  | .ok bu =>
    let x := F *ᵥ s.x + bu
    match s.inv (AI + s.Q) with
    | none => .error (.linAlgError, { s with x := x })
    | some Pinv => .ok { s with x := x, Pinv := Pinv, PinvPrior := Pinv, xPrior := x }

/-- The other branch of `predict` (information_filter.py 279-289); `P_inv` is not changed. -/
noncomputable def predictNoInfo (s : IF n m l) (F Finv A : Mat n n) : Exec (IF n m l) :=
  let I_PF := 1 - s.Pinv * Finv
  match s.inv Fᵀ with
  | none => .error (.linAlgError, s)
  | some FTI =>
    let FTIX := FTI *ᵥ s.x
    match s.inv (A + s.Q) with
    | none => .error (.linAlgError, s)
    | some AQI =>
      let x := FTI *ᵥ ((I_PF * AQI) *ᵥ FTIX)
      .ok { s with x := x, xPrior := x, PinvPrior := AQI }

/-- `InformationFilter.predict(u=0)` (information_filter.py 245-289).  Before `F` is assigned,
`self._F_inv.T` raises `AttributeError`. -/
noncomputable def predict (s : IF n m l) (u : UArg l := .scalar 0) : Exec (IF n m l) :=
  match s.F, s.Finv with
  | some F, some Finv =>
    let A := Finvᵀ * s.Pinv * Finv
    match s.inv A with
    | some AI => predictInv s.recover F AI u
    | none => predictNoInfo { s with noInformation := true } F Finv A
  | _, _ => .error (.attributeError, s)

/-- `InformationFilter.batch_filter` (information_filter.py 326). -/
def batchFilter (s : IF n m l) (_zs : List (Option (Vec m))) : Exec (IF n m l) :=
  .error (.notImplemented, s)

end IF
end Filterpy
