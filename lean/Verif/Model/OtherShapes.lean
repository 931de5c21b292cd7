import Verif.Model.KalmanShapesMore
import Verif.Model.EKF
import Verif.Model.HInfinity
import Verif.Model.InformationFilter
import Verif.Model.SquareRoot
import Verif.Model.FixedLag

/-!
# The other filters with vectors of run-time shape

`FadingKalmanFilter`, `ExtendedKalmanFilter`, `HInfinityFilter`, `SquareRootKalmanFilter`, `InformationFilter` and
`FixedLagSmoother` once more, with the state, the residual, the measurement and the control input as arrays that carry their
shape at run time.  None of these classes passes the measurement through `reshape_z` before it is used, so the shapes meet
numpy's broadcasting.  The matrices keep the shapes given by the dimensions of the filter.
-/

namespace Filterpy

open Matrix

namespace Nd

variable {n m l : ℕ}

/-- The attribute `B`: the initial number `0` or a matrix (fading_memory.py 165, EKF.py 140, hinfinity_filter.py 71,
square_root.py 144, information_filter.py 146, fixed_lag_smoother.py 122). -/
def ofB : Option (Mat n l) → Nd
  | none => .d0 0
  | some B => .d2 n l B

/-- `dot(B, u)`; a `None` raises `TypeError`. -/
def dotB (B : Option (Mat n l)) : Option Nd → Except Err Nd
  | none => .error .typeError
  | some u => dot (ofB B) u

/-- `dot(F, x) + dot(B, u)` (fading_memory.py 267, 370; EKF.py 225, 351; hinfinity_filter.py 157, 233; square_root.py 240;
information_filter.py 274). -/
def moveX (F : Mat n n) (x : Nd) (B : Option (Mat n l)) (u : Option Nd) : Except Err Nd := do
  let Fx ← dot (.d2 n n F) x
  let Bu ← dotB B u
  add Fx Bu

/-- `z - dot(H, x)` (fading_memory.py 224, 379; hinfinity_filter.py 128, 240; square_root.py 215, 255;
information_filter.py 220; fixed_lag_smoother.py 181). -/
def resid (z : Nd) (H : Mat m n) (x : Nd) : Except Err Nd := NKF.residual z (.d2 m n H) x

/-- `x + dot(K, y)` (fading_memory.py 239; EKF.py 239, 326; hinfinity_filter.py 132; information_filter.py 229;
fixed_lag_smoother.py 188). -/
def corr (x : Nd) (K : Mat n m) (y : Nd) : Except Err Nd := NKF.correct x (.d2 n m K) y

/-- `x += dot(K, y)` (square_root.py 219). -/
def corrInto (x : Nd) (K : Mat n m) (y : Nd) : Except Err Nd := do
  let Ky ← dot (.d2 n m K) y
  addInto x Ky

/-- The value broadcast into a slot of shape `(n, 1)` by `means[i, :] = x` (fading_memory.py 334-348,
hinfinity_filter.py 199, 210); `ValueError` if the array does not fit. -/
def toColumn (n : ℕ) (x : Nd) : Except Err (Vec n) :=
  if fits x.rows x.cols n 1 then .ok fun i => x.get (bidx x.rows i) 0 else .error .valueError

end Nd

/-- An exception raised by an array operation while the object is in state `s`. -/
def liftAt {σ α : Type*} (s : σ) : Except Err α → Except (Err × σ) α
  | .ok a => .ok a
  | .error e => .error (e, s)

/-! ## `FadingKalmanFilter` -/

/-- The attributes of a `FadingKalmanFilter` (fading_memory.py 155-193).  `z = none` is the column of `None`s. -/
structure NFKF (n m l : ℕ) where
  alphaSq : ℝ
  x : Nd
  P : Mat n n
  Q : Mat n n
  B : Option (Mat n l)
  F : Mat n n
  H : Mat m n
  R : Mat m m
  z : Option Nd
  K : Mat n m
  y : Nd
  S : Mat m m
  SI : Mat m m
  logLik : Option ℝ
  lik : Option ℝ
  mahal : Option ℝ
  xPrior : Nd
  PPrior : Mat n n
  xPost : Nd
  PPost : Mat n n

namespace NFKF

variable {n m l : ℕ}

/-- The attribute values set by `__init__` (fading_memory.py 155-193). -/
noncomputable def fresh (alpha : ℝ) (n m l : ℕ) : NFKF n m l where
  alphaSq := alpha ^ 2
  x := .d2 n 1 0
  P := 1
  Q := 1
  B := none
  F := 1
  H := 0
  R := 1
  z := none
  K := 0
  y := .d2 m 1 0
  S := 0
  SI := 0
  logLik := some (Real.log floatMin)
  lik := some floatMin
  mahal := none
  xPrior := .d2 n 1 0
  PPrior := 1
  xPost := .d2 n 1 0
  PPost := 1

/-- `FadingKalmanFilter.update(z, R)` (fading_memory.py 195-253). -/
noncomputable def update (s : NFKF n m l) (z : Option Nd) (R : MatArg m) : Except (Err × NFKF n m l) (NFKF n m l) :=
  match z with
  | none => .ok { s with z := none, xPost := s.x, PPost := s.P }
  | some z => do
    let R := R.resolve s.R
    let y ← liftAt s (Nd.resid z s.H s.x)
    let PHT := s.P * s.Hᵀ
    let S := s.H * PHT + R
    match npInv S with
    | none => .error (.linAlgError, { s with y := y, S := S })
    | some SI => do
      let K := PHT * SI
      let s1 := { s with y := y, S := S, SI := SI, K := K }
      let x ← liftAt s1 (Nd.corr s.x K y)
      let I_KH := 1 - K * s.H
      let P := I_KH * s.P * I_KHᵀ + K * R * Kᵀ
      .ok { s1 with
        x := x, P := P, z := some z, xPost := x, PPost := P
        logLik := none, lik := none, mahal := none }

/-- `FadingKalmanFilter.predict(u=0)` (fading_memory.py 255-274); the default is the number `0`. -/
noncomputable def predict (s : NFKF n m l) (u : Option Nd := some (.d0 0)) : Except (Err × NFKF n m l) (NFKF n m l) := do
  let x ← liftAt s (Nd.moveX s.F s.x s.B u)
  let P := s.alphaSq • (s.F * s.P * s.Fᵀ) + s.Q
  .ok { s with x := x, P := P, xPrior := x, PPrior := P }

/-- `FadingKalmanFilter.get_prediction(u=0)` (fading_memory.py 353-372). -/
noncomputable def getPrediction (s : NFKF n m l) (u : Option Nd := some (.d0 0)) : Except Err (Nd × Mat n n) := do
  let x ← Nd.moveX s.F s.x s.B u
  .ok (x, s.alphaSq • (s.F * s.P * s.Fᵀ) + s.Q)

/-- `FadingKalmanFilter.residual_of(z)` (fading_memory.py 375-379). -/
def residualOf (s : NFKF n m l) (z : Nd) : Except Err Nd := Nd.resid z s.H s.x

/-- The loop of `batch_filter` (fading_memory.py 331-348): every state is assigned to a slot of shape `(dim_x, 1)`. -/
noncomputable def batchLoop (updateFirst : Bool) :
    NFKF n m l → List (Option Nd × MatArg m) → Except (Err × NFKF n m l) (List (KF.BatchOut n) × NFKF n m l)
  | s, [] => .ok ([], s)
  | s, r :: rows =>
    if updateFirst then do
      let s1 ← s.update r.1 r.2
      let x1 ← liftAt s1 (Nd.toColumn n s1.x)
      let s2 ← s1.predict
      let x2 ← liftAt s2 (Nd.toColumn n s2.x)
      let (out, s') ← batchLoop updateFirst s2 rows
      .ok (⟨x1, s1.P, x2, s2.P⟩ :: out, s')
    else do
      let s1 ← s.predict
      let x1 ← liftAt s1 (Nd.toColumn n s1.x)
      let s2 ← s1.update r.1 r.2
      let x2 ← liftAt s2 (Nd.toColumn n s2.x)
      let (out, s') ← batchLoop updateFirst s2 rows
      .ok (⟨x2, s2.P, x1, s1.P⟩ :: out, s')

/-- `FadingKalmanFilter.batch_filter(zs, Rs, update_first)` (fading_memory.py 276-350). -/
noncomputable def batchFilter (s : NFKF n m l) (zs : List (Option Nd)) (Rs : Option (List (MatArg m)) := none)
    (updateFirst : Bool := false) : Except (Err × NFKF n m l) (List (KF.BatchOut n) × NFKF n m l) :=
  batchLoop updateFirst s (zs.zip (Rs.getD (List.replicate zs.length .none)))

end NFKF

/-! ## `ExtendedKalmanFilter` -/

/-- The attributes of an `ExtendedKalmanFilter` (EKF.py 132-170). -/
structure NEKF (n m l : ℕ) where
  x : Nd
  P : Mat n n
  B : Option (Mat n l)
  F : Mat n n
  R : Mat m m
  Q : Mat n n
  y : Nd
  z : Option Nd
  K : Mat n m
  S : Mat m m
  SI : Mat m m
  logLik : Option ℝ
  lik : Option ℝ
  mahal : Option ℝ
  xPrior : Nd
  PPrior : Mat n n
  xPost : Nd
  PPost : Mat n n

namespace NEKF

variable {n m l : ℕ}

/-- The attribute values set by `__init__` (EKF.py 132-170). -/
noncomputable def fresh (n m l : ℕ) : NEKF n m l where
  x := .d2 n 1 0
  P := 1
  B := none
  F := 1
  R := 1
  Q := 1
  y := .d2 m 1 0
  z := none
  K := 0
  S := 0
  SI := 0
  logLik := some (Real.log floatMin)
  lik := some floatMin
  mahal := none
  xPrior := .d2 n 1 0
  PPrior := 1
  xPost := .d2 n 1 0
  PPost := 1

/-- `if np.isscalar(z) and self.dim_z == 1: z = np.asarray([z], float)` (EKF.py 212-213, 314-315);
`.d0` is a Python or numpy number. -/
def listed (m : ℕ) : Nd → Nd
  | .d0 a => if m = 1 then .d1 1 fun _ => a else .d0 a
  | z => z

/-- `ExtendedKalmanFilter.predict(u=0)` with `predict_x` (EKF.py 344-371). -/
noncomputable def predict (s : NEKF n m l) (u : Option Nd := some (.d0 0)) : Except (Err × NEKF n m l) (NEKF n m l) := do
  let x ← liftAt s (Nd.moveX s.F s.x s.B u)
  let P := s.F * s.P * s.Fᵀ + s.Q
  .ok { s with x := x, P := P, xPrior := x, PPrior := P }

/-- `ExtendedKalmanFilter.update(z, HJacobian, Hx, R, residual)` (EKF.py 254-342).  The user's functions get the state array
as it is stored; `HJacobian` returns a `dim_z × dim_x` matrix, `Hx` and `residual` arrays of any shape. -/
noncomputable def update (s : NEKF n m l) (z : Option Nd) (HJ : Nd → Mat m n) (hx : Nd → Nd) (R : MatArg m := .none)
    (residual : Nd → Nd → Except Err Nd := Nd.sub) : Except (Err × NEKF n m l) (NEKF n m l) :=
  match z with
  | none => .ok { s with z := none, xPost := s.x, PPost := s.P }
  | some z => do
    let R := R.resolve s.R
    let z := listed m z
    let H := HJ s.x
    let PHT := s.P * Hᵀ
    let S := H * PHT + R
    match npInv S with
    | none => .error (.linAlgError, { s with S := S })
    | some SI => do
      let K := PHT * SI
      let s1 := { s with S := S, SI := SI, K := K }
      let y ← liftAt s1 (residual z (hx s.x))
      let s2 := { s1 with y := y }
      let x ← liftAt s2 (Nd.corr s.x K y)
      let I_KH := 1 - K * H
      let P := I_KH * s.P * I_KHᵀ + K * R * Kᵀ
      .ok { s2 with
        x := x, P := P, z := some z, xPost := x, PPost := P
        logLik := none, lik := none, mahal := none }

end NEKF

/-! ## `HInfinityFilter` -/

/-- The attributes of an `HInfinityFilter` (hinfinity_filter.py 61-90). -/
structure NHInf (n m l : ℕ) where
  gamma : ℝ
  x : Nd
  B : Option (Mat n l)
  F : Mat n n
  H : Mat m n
  P : Mat n n
  Q : Mat n n
  V : Mat m m
  VInv : Mat m m
  W : Mat n n
  y : Nd
  z : Nd

namespace NHInf

variable {n m l : ℕ}

/-- `__init__(dim_x, dim_z, dim_u, gamma)` (hinfinity_filter.py 61-90). -/
def fresh (n m l : ℕ) (gamma : ℝ) : NHInf n m l where
  gamma := gamma
  x := .d2 n 1 0
  B := none
  F := 1
  H := 0
  P := 1
  Q := 1
  V := 0
  VInv := 0
  W := 0
  y := .d2 m 1 0
  z := .d2 m 1 0

/-- `update(z)` (hinfinity_filter.py 93-142). -/
noncomputable def update (s : NHInf n m l) (z : Option Nd) : Except (Err × NHInf n m l) (NHInf n m l) :=
  match z with
  | none => .ok s
  | some z =>
    let HTVI := s.Hᵀ * s.VInv
    match npInv (1 - s.gamma • (s.Q * s.P) + HTVI * s.H * s.P) with
    | none => .error (.linAlgError, s)
    | some L => do
      let PL := s.P * L
      let K := s.F * PL * HTVI
      let y ← liftAt s (Nd.resid z s.H s.x)
      let s1 := { s with y := y }
      let x ← liftAt s1 (Nd.corr s.x K y)
      let P := s.F * PL * s.Fᵀ + s.W
      .ok { s1 with x := x, P := (1/2 : ℝ) • (P + Pᵀ), z := z }

/-- `predict(u=0)` (hinfinity_filter.py 145-157). -/
noncomputable def predict (s : NHInf n m l) (u : Option Nd := some (.d0 0)) : Except (Err × NHInf n m l) (NHInf n m l) := do
  let x ← liftAt s (Nd.moveX s.F s.x s.B u)
  .ok { s with x := x }

end NHInf

/-! ## `SquareRootKalmanFilter` -/

/-- The attributes of a `SquareRootKalmanFilter` (square_root.py 136-169), as in `Model/SquareRoot`. -/
structure NSR (n m l : ℕ) where
  x : Nd
  P12 : Mat n n
  Q12 : Mat n n
  B : Option (Mat n l)
  F : Mat n n
  H : Mat m n
  R12 : Mat m m
  z : Option Nd
  K : Mat n m
  S12 : Mat m m
  SI12 : Mat m m
  y : Nd
  xPrior : Nd
  P12Prior : Mat n n
  xPost : Nd
  P12Post : Mat n n

namespace NSR

variable {n m l : ℕ}

/-- The attribute values set by `__init__` (square_root.py 136-169). -/
def fresh (n m l : ℕ) : NSR n m l where
  x := .d2 n 1 0
  P12 := 1
  Q12 := 1
  B := none
  F := 1
  H := 0
  R12 := 1
  z := none
  K := 0
  S12 := 0
  SI12 := 0
  y := .d2 m 1 0
  xPrior := .d2 n 1 0
  P12Prior := 1
  xPost := .d2 n 1 0
  P12Post := 1

/-- The array handed to `qr` in `update` (square_root.py 203-205). -/
def arrayU (s : NSR n m l) (R2 : Mat m m) : Matrix (Fin m ⊕ Fin n) (Fin m ⊕ Fin n) ℝ :=
  fromBlocks R2ᵀ 0 (s.H * s.P12)ᵀ s.P12ᵀ

/-- `SquareRootKalmanFilter.update(z, R2)` (square_root.py 172-224).  The state is corrected in place. -/
noncomputable def update (L : SqrtLib n m) (s : NSR n m l) (z : Option Nd) (R2 : MatArg m := .none) : Except (Err × NSR n m l) (NSR n m l) :=
  match z with
  | none => .ok { s with z := none, xPost := s.x, P12Post := s.P12 }
  | some z => do
    let r := L.qrU (arrayU s (R2.resolve s.R12))
    let S12 := r.toBlocks₁₁ᵀ
    let SI12 := L.pinv S12
    let K := r.toBlocks₁₂ᵀ * SI12
    let s1 := { s with S12 := S12, SI12 := SI12, K := K }
    let y ← liftAt s1 (Nd.resid z s.H s.x)
    let s2 := { s1 with y := y }
    let x ← liftAt s2 (Nd.corrInto s.x K y)
    let P12 := r.toBlocks₂₂ᵀ
    .ok { s2 with x := x, P12 := P12, z := some z, xPost := x, P12Post := P12 }

/-- The array handed to `qr` in `predict` (square_root.py 243). -/
def arrayP (s : NSR n m l) : Matrix (Fin n ⊕ Fin n) (Fin n) ℝ :=
  (fromCols (s.F * s.P12) s.Q12)ᵀ

/-- `SquareRootKalmanFilter.predict(u=0)` (square_root.py 226-248). -/
noncomputable def predict (L : SqrtLib n m) (s : NSR n m l) (u : Option Nd := some (.d0 0)) : Except (Err × NSR n m l) (NSR n m l) := do
  let x ← liftAt s (Nd.moveX s.F s.x s.B u)
  let P12 := ((L.qrP (arrayP s)).toRows₁)ᵀ
  .ok { s with x := x, P12 := P12, xPrior := x, P12Prior := P12 }

end NSR

/-! ## `InformationFilter` -/

/-- The attributes of an `InformationFilter` (information_filter.py 130-176), as in `Model/InformationFilter`. -/
structure NIF (n m l : ℕ) where
  x : Nd
  Pinv : Mat n n
  Q : Mat n n
  B : Option (Mat n l)
  F : Option (Mat n n)
  Finv : Option (Mat n n)
  H : Mat m n
  Rinv : Mat m m
  z : Option Nd
  K : Mat n m
  y : Nd
  S : Mat n n
  noInformation : Bool
  computeLL : Bool
  logLik : ℝ
  lik : ℝ
  inv : Mat n n → Option (Mat n n)
  xPrior : Nd
  PinvPrior : Mat n n
  xPost : Nd
  PinvPost : Mat n n

namespace NIF

variable {n m l : ℕ}

/-- The attribute values set by `__init__` (information_filter.py 139-176). -/
noncomputable def fresh (n m l : ℕ) (computeLL : Bool := true) : NIF n m l where
  x := .d2 n 1 0
  Pinv := 1
  Q := 1
  B := none
  F := none
  Finv := none
  H := 0
  Rinv := 1
  z := some (.d2 m 1 0)
  K := 0
  y := .d2 m 1 0
  S := 0
  noInformation := false
  computeLL := computeLL
  logLik := Real.log floatMin
  lik := floatMin
  inv := npInv
  xPrior := .d2 n 1 0
  PinvPrior := 1
  xPost := .d2 n 1 0
  PinvPost := 1

/-- `logpdf(x=self.y, cov=self.S)` (information_filter.py 235), which flattens the residual (stats.py 145-148). -/
noncomputable def llOf (y : Nd) (S : Mat n n) : Except Err ℝ := IF.llOf (fun i : Fin y.size => y.flat i) S

/-- `dot(P_inv, x) + dot(H_T, R_inv).dot(z)` (information_filter.py 212). -/
def infoX (Pinv : Mat n n) (x : Nd) (HTR : Mat n m) (z : Nd) : Except Err Nd := do
  let a ← Nd.dot (.d2 n n Pinv) x
  let b ← Nd.dot (.d2 n m HTR) z
  Nd.add a b

/-- `InformationFilter.update(z, R_inv)` (information_filter.py 178-243). -/
noncomputable def update (expf : ℝ → ℝ) (s : NIF n m l) (z : Option Nd) (Rinv : MatArg m := .none) : Except (Err × NIF n m l) (NIF n m l) :=
  match z with
  | none => .ok { s with z := none, xPost := s.x, PinvPost := s.Pinv }
  | some z =>
    let Rinv := Rinv.resolve s.Rinv
    let HTR := s.Hᵀ * Rinv
    if s.noInformation then do
      let x ← liftAt s (infoX s.Pinv s.x HTR z)
      let Pinv := s.Pinv + HTR * s.H
      .ok { s with
        x := x, Pinv := Pinv, logLik := Real.log floatMin, lik := floatMin
        z := some z, xPost := x, PinvPost := Pinv }
    else do
      let y ← liftAt s (Nd.resid z s.H s.x)
      let S := s.Pinv + HTR * s.H
      match s.inv S with
      | none => .error (.linAlgError, { s with y := y, S := S })
      | some SI => do
        let K := SI * s.Hᵀ * Rinv
        let s1 := { s with y := y, S := S, K := K }
        let x ← liftAt s1 (Nd.corr s.x K y)
        let Pinv := s.Pinv + HTR * s.H
        let s2 := { s1 with x := x, Pinv := Pinv }
        let z' ← liftAt s2 (Nd.reshapeZ z m x.ndim)
        let s3 := { s2 with z := some z' }
        if s.computeLL then do
          let ll ← liftAt s3 (llOf y S)
          .ok { s3 with
            logLik := ll
            lik := if expf ll = 0 then floatMin else expf ll
            z := some z, xPost := x, PinvPost := Pinv }
        else .ok { s3 with z := some z, xPost := x, PinvPost := Pinv }

/-- `try: x = dot(inv(P_inv), x)  except: x = dot(0, x)` (information_filter.py 264-267). -/
def recoverX (s : NIF n m l) : Nd :=
  match s.inv s.Pinv with
  | none => Nd.smul 0 s.x
  | some P => match Nd.dot (.d2 n n P) s.x with
    | .ok x => x
    | .error _ => Nd.smul 0 s.x

/-- The recovery of the state inside the `try` of `predict` (information_filter.py 263-268). -/
def recover (s : NIF n m l) : NIF n m l :=
  if s.noInformation then { s with x := recoverX s, noInformation := false } else s

/-- The invertible branch of `predict` (information_filter.py 273-279). -/
noncomputable def predictInv (s : NIF n m l) (F AI : Mat n n) (u : Option Nd) : Except (Err × NIF n m l) (NIF n m l) := do
  let x ← liftAt s (Nd.moveX F s.x s.B u)
  match s.inv (AI + s.Q) with
  | none => .error (.linAlgError, { s with x := x })
  | some Pinv => .ok { s with x := x, Pinv := Pinv, PinvPrior := Pinv, xPrior := x }

/-- `dot(FTI, dot(I_PF, AQI).dot(FTIX))` (information_filter.py 285). -/
def noInfoX (FTI IPFAQI : Mat n n) (FTIX : Nd) : Except Err Nd := do
  let a ← Nd.dot (.d2 n n IPFAQI) FTIX
  Nd.dot (.d2 n n FTI) a

/-- The other branch of `predict` (information_filter.py 280-289). -/
noncomputable def predictNoInfo (s : NIF n m l) (F Finv A : Mat n n) : Except (Err × NIF n m l) (NIF n m l) :=
  let I_PF := 1 - s.Pinv * Finv
  match s.inv Fᵀ with
  | none => .error (.linAlgError, s)
  | some FTI => do
    let FTIX ← liftAt s (Nd.dot (.d2 n n FTI) s.x)
    match s.inv (A + s.Q) with
    | none => .error (.linAlgError, s)
    | some AQI => do
      let x ← liftAt s (noInfoX FTI (I_PF * AQI) FTIX)
      .ok { s with x := x, xPrior := x, PinvPrior := AQI }

/-- `InformationFilter.predict(u=0)` (information_filter.py 245-289). -/
noncomputable def predict (s : NIF n m l) (u : Option Nd := some (.d0 0)) : Except (Err × NIF n m l) (NIF n m l) :=
  match s.F, s.Finv with
  | some F, some Finv =>
    let A := Finvᵀ * s.Pinv * Finv
    match s.inv A with
    | some AI => predictInv s.recover F AI u
    | none => predictNoInfo { s with noInformation := true } F Finv A
  | _, _ => .error (.attributeError, s)

end NIF

/-! ## `FixedLagSmoother` -/

/-- The attributes of a `FixedLagSmoother` (fixed_lag_smoother.py 109-131), as in `Model/FixedLag`. -/
structure NFLS (n m l : ℕ) where
  N : Option ℕ
  x : Nd
  P : Mat n n
  Q : Mat n n
  F : Mat n n
  H : Mat m n
  R : Mat m m
  B : Option (Mat n l)
  y : Nd
  S : Mat m m
  count : ℕ
  xSmooth : Option (List Nd)

namespace NFLS

variable {n m l : ℕ}

/-- `__init__(dim_x, dim_z, N=None)` (fixed_lag_smoother.py 85-131). -/
def fresh (n m l : ℕ) (N : Option ℕ := none) : NFLS n m l where
  N := N
  x := .d2 n 1 0
  P := 1
  Q := 1
  F := 1
  H := fun i j => if i.val = j.val then 1 else 0
  R := 1
  B := none
  y := .d2 m 1 0
  S := 0
  count := 0
  xSmooth := N.map fun _ => []

/-- `x_pre = dot(F, x); if u is not None: x_pre += dot(B, u)` (fixed_lag_smoother.py 174-176). -/
def preX (F : Mat n n) (x : Nd) (B : Option (Mat n l)) (u : Option Nd) : Except Err Nd := do
  let Fx ← Nd.dot (.d2 n n F) x
  match u with
  | none => .ok Fx
  | some u => do
    let Bu ← Nd.dot (Nd.ofB B) u
    Nd.addInto Fx Bu

/-- The loop `for i in range(N)` (fixed_lag_smoother.py 201-206), starting at index `si`; an exception leaves the entries
written so far. -/
def lagLoop (HTSI : Mat n m) (FLH : Mat n n) (y : Nd) :
    ℕ → ℕ → Mat n n → List Nd → Except (Err × List Nd) (List Nd)
  | 0, _, _, xs => .ok xs
  | N + 1, si, PS, xs =>
    match xs[si]? with
    | none => .error (.indexError, xs)
    | some x =>
      match Nd.corr x (PS * HTSI) y with
      | .error e => .error (e, xs)
      | .ok x' => lagLoop HTSI FLH y N (si - 1) (PS * FLH) (xs.set si x')

/-- Lines 196-211: the effect on the list of smoothed states, whose entry `k` already holds the prediction. -/
def lagStep (HTSI : Mat n m) (FLH : Mat n n) (y : Nd) (N k : ℕ) (P : Mat n n) (x : Nd) (xs : List Nd) :
    Except (Err × List Nd) (List Nd) :=
  if N ≤ k then lagLoop HTSI FLH y N k P xs else .ok (xs.set k x)

/-- `smooth(z, u=None)` (fixed_lag_smoother.py 133-215). -/
noncomputable def smooth (s : NFLS n m l) (z : Nd) (u : Option Nd := none) : Except (Err × NFLS n m l) (NFLS n m l) := do
  let xPre ← liftAt s (preX s.F s.x s.B u)
  let P := s.F * s.P * s.Fᵀ + s.Q
  let y ← liftAt s (Nd.resid z s.H xPre)
  let S := s.H * P * s.Hᵀ + s.R
  let s1 := { s with y := y, S := S }
  match npInv S with
  | none => .error (.linAlgError, s1)
  | some SI => do
    let K := P * s.Hᵀ * SI
    let x ← liftAt s1 (Nd.corr xPre K y)
    let IKH := 1 - K * s.H
    let P' := IKH * P * IKHᵀ + K * s.R * Kᵀ
    match s.xSmooth with
    | none => .error (.attributeError, s1)
    | some xs =>
      match s.N with
      | none => .error (.typeError, { s1 with xSmooth := some (xs ++ [xPre]) })
      | some N =>
        match lagStep (s.Hᵀ * SI) ((s.F - K * s.H)ᵀ) y N s.count P' x (xs ++ [xPre]) with
        | .error (e, xs') => .error (e, { s1 with xSmooth := some xs' })
        | .ok xs' => .ok { s1 with xSmooth := some xs', count := s.count + 1, x := x, P := P' }

end NFLS

end Filterpy
