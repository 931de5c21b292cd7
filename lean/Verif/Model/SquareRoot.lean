import Verif.Model.FadingKF
import Mathlib.Data.Matrix.ColumnRowPartitioned

/-!
# Model of `filterpy/kalman/square_root.py`, class `SquareRootKalmanFilter`

The matrix factorisations are parameters (`SqrtLib`): the theorems hold for every library that
returns *some* valid factor.  Arrays of `dim_z + dim_x` rows are indexed by `Fin m ⊕ Fin n`,
the stacked array of `predict` by `Fin n ⊕ Fin n`.
-/

namespace Filterpy

open Matrix

/-- The linear algebra routines used (`scipy.linalg.qr`, `pinv`, `cholesky(lower=True)`), each
returning some result. -/
structure SqrtLib (n m : ℕ) where
  /-- the `R` factor of the square array in `update` -/
  qrU : Matrix (Fin m ⊕ Fin n) (Fin m ⊕ Fin n) ℝ → Matrix (Fin m ⊕ Fin n) (Fin m ⊕ Fin n) ℝ
  /-- the `R` factor of the tall array in `predict` -/
  qrP : Matrix (Fin n ⊕ Fin n) (Fin n) ℝ → Matrix (Fin n ⊕ Fin n) (Fin n) ℝ
  pinv : Mat m m → Mat m m
  cholX : Mat n n → Option (Mat n n)
  cholZ : Mat m m → Option (Mat m m)

/-- The attributes of a `SquareRootKalmanFilter` (square_root.py 136-169).  The scratch array
`M` (whose upper right block stays zero) and the write-only `_P`, `_Q`, `_R` are left out. -/
structure SRKF (n m l : ℕ) where
  x : Vec n
  P12 : Mat n n
  Q12 : Mat n n
  B : Option (Mat n l)
  F : Mat n n
  H : Mat m n
  R12 : Mat m m
  z : Fin m → Option ℝ
  K : Mat n m
  S12 : Mat m m
  SI12 : Mat m m
  y : Vec m
  xPrior : Vec n
  P12Prior : Mat n n
  xPost : Vec n
  P12Post : Mat n n

namespace SRKF

variable {n m l : ℕ}

/-- The attribute values set by `__init__` (square_root.py 136-169). -/
def fresh (n m l : ℕ) : SRKF n m l where
  x := 0
  P12 := 1
  Q12 := 1
  B := none
  F := 1
  H := 0
  R12 := 1
  z := fun _ => none
  K := 0
  S12 := 0
  SI12 := 0
  y := 0
  xPrior := 0
  P12Prior := 1
  xPost := 0
  P12Post := 1

/-- A `SquareRootKalmanFilter` of some dimension. -/
structure Sized where
  n : ℕ
  m : ℕ
  l : ℕ
  f : SRKF n m l

/-- `SquareRootKalmanFilter.__init__` (square_root.py 127-169).  `dim_z` is checked twice,
`dim_x` never; a negative `dim_x` makes `zeros((dim_x, 1))` raise `ValueError`. -/
def init (dimX dimZ dimU : ℤ) : Except Err Sized :=
  if dimZ < 1 then .error .valueError
  else if dimZ < 1 then .error .valueError
  else if dimU < 0 then .error .valueError
  else if dimX < 0 then .error .valueError
  else .ok ⟨dimX.toNat, dimZ.toNat, dimU.toNat, fresh _ _ _⟩

/-- The array handed to `qr` in `update` (square_root.py 203-205). -/
def arrayU (s : SRKF n m l) (R2 : Mat m m) : Matrix (Fin m ⊕ Fin n) (Fin m ⊕ Fin n) ℝ :=
  fromBlocks R2ᵀ 0 (s.H * s.P12)ᵀ s.P12ᵀ

/-- `SquareRootKalmanFilter.update(z, R2)` (square_root.py 172-224). -/
noncomputable def update (L : SqrtLib n m) (s : SRKF n m l) (z : Option (Vec m)) (R2 : MatArg m := .none) :
    SRKF n m l :=
  match z with
  | none => { s with z := fun _ => none, xPost := s.x, P12Post := s.P12 }
  | some z =>
    let r := L.qrU (arrayU s (R2.resolve s.R12))
    let S12 := r.toBlocks₁₁ᵀ
    let SI12 := L.pinv S12
    let K := r.toBlocks₁₂ᵀ * SI12
    let y := z - s.H *ᵥ s.x
    let x := s.x + K *ᵥ y
    let P12 := r.toBlocks₂₂ᵀ
    { s with
      S12 := S12, SI12 := SI12, K := K, y := y, x := x, P12 := P12
      z := fun i => some (z i), xPost := x, P12Post := P12 }

/-- `residual_of(z)` (square_root.py 250-255). -/
def residualOf (s : SRKF n m l) (z : Vec m) : Vec m := z - s.H *ᵥ s.x

/-- `measurement_of_state(x)` (square_root.py 257-272). -/
def measurementOfState (s : SRKF n m l) (x : Vec n) : Vec m := s.H *ᵥ x

/-- The array handed to `qr` in `predict`: `hstack([F P½, Q½]).T` (square_root.py 243). -/
def arrayP (s : SRKF n m l) : Matrix (Fin n ⊕ Fin n) (Fin n) ℝ :=
  (fromCols (s.F * s.P12) s.Q12)ᵀ

/-- `SquareRootKalmanFilter.predict(u=0)` (square_root.py 226-248). -/
noncomputable def predict (L : SqrtLib n m) (s : SRKF n m l) (u : UArg l := .scalar 0) :
    Exec (SRKF n m l) :=
  match FKF.control s.B u with
  | .error e => .error (e, s)
  | .ok bu =>
    let x := s.F *ᵥ s.x + bu
    let P12 := ((L.qrP (arrayP s)).toRows₁)ᵀ
    .ok { s with x := x, P12 := P12, xPrior := x, P12Prior := P12 }

/-- The properties `P`, `Q`, `R`, `S`, `SI` (square_root.py 274-340). -/
def getP (s : SRKF n m l) : Mat n n := s.P12 * s.P12ᵀ
/-- Property `Q` (square_root.py 274-277). -/
def getQ (s : SRKF n m l) : Mat n n := s.Q12 * s.Q12ᵀ
/-- Property `R` (square_root.py 316-319). -/
def getR (s : SRKF n m l) : Mat m m := s.R12 * s.R12ᵀ
/-- Property `S` (square_root.py 332-335). -/
def getS (s : SRKF n m l) : Mat m m := s.S12 * s.S12ᵀ
/-- Property `SI` (square_root.py 337-340). -/
def getSI (s : SRKF n m l) : Mat m m := s.SI12ᵀ * s.SI12
/-- Property `P_prior` (square_root.py 295-298). -/
def getPPrior (s : SRKF n m l) : Mat n n := s.P12Prior * s.P12Priorᵀ
/-- Property `P_post` (square_root.py 300-303); as in the code it reads `_P1_2_prior`. -/
def getPPost (s : SRKF n m l) : Mat n n := s.P12Prior * s.P12Priorᵀ

/-- The `P` setter (square_root.py 310-314). -/
def setP (L : SqrtLib n m) (s : SRKF n m l) (P : Mat n n) : Exec (SRKF n m l) :=
  match L.cholX P with
  | none => .error (.linAlgError, s)
  | some p => .ok { s with P12 := p }

/-- The `Q` setter (square_root.py 284-288). -/
def setQ (L : SqrtLib n m) (s : SRKF n m l) (Q : Mat n n) : Exec (SRKF n m l) :=
  match L.cholX Q with
  | none => .error (.linAlgError, s)
  | some q => .ok { s with Q12 := q }

/-- The `R` setter (square_root.py 326-330). -/
def setR (L : SqrtLib n m) (s : SRKF n m l) (R : Mat m m) : Exec (SRKF n m l) :=
  match L.cholZ R with
  | none => .error (.linAlgError, s)
  | some r => .ok { s with R12 := r }

end SRKF
end Filterpy
