import Verif.Model.Heap
import Verif.Model.PolyFilters
import Verif.Props.FilterBooks
import Verif.Props.MMAE
import Verif.Props.HInfinity

/-!
# Which calls give an attribute a new array and which overwrite the array

For every class: its array attributes, and what each call does with the arrays behind them, read off the
assignments in the code.  `self.x = expr` with an expression that numpy evaluates to a new array is a rebinding;
`self.x += expr`, `self.x[i] = expr` and `self.x.fill(c)` overwrite the array in place.  Matrices the methods
only read (`F`, `H`, `Q`, `R`, ...) are not listed.  Where a call raises part of the way, attributes of a class
without overwriting calls may be listed although the exception came before the assignment; such a rebinding to a
copy of the old contents makes no observable difference.
-/

namespace Filterpy

open Matrix

variable {n m l N : ℕ}

/-- New arrays for the attributes listed, nothing else. -/
def rebinds {ι : Type} [DecidableEq ι] (is : List ι) (i : ι) : Writes := if i ∈ is then .rebind else .keep

/-- The attributes in `here` overwritten in place, new arrays for those in `is`. -/
def overwrites {ι : Type} [DecidableEq ι] (here : List ι) (is : List ι) (i : ι) : Writes :=
  if i ∈ here then .inPlace else rebinds is i

/-- The array attributes that the methods of the Kalman filter classes assign. -/
inductive KFArr
  | x | P | K | y | S | SI | z | xPrior | PPrior | xPost | PPost
  deriving DecidableEq

/-- The contents of each. -/
def KFArr.Val (n m : ℕ) : KFArr → Type
  | .x | .xPrior | .xPost => Vec n
  | .P | .PPrior | .PPost => Mat n n
  | .K => Mat n m
  | .y => Vec m
  | .S | .SI => Mat m m
  | .z => Fin m → Option ℝ

/-! ## `KalmanFilter` -/

/-- What the calls on a `KalmanFilter` do with its arrays: `predict` (kalman_filter.py 472-482), `update`
(515-520, 533-561), `update_sequential` (798 `self.y[start:stop] = y_i`, 811 `self.K[:,start:stop] = K_i`,
816 `self.x += dot(K_i, y_i)`, 820 `self.P = ...`, 822 `self.z[start:stop] = z_i`, 823-824),
`predict_steadystate` (586-593), `update_steadystate` (644-668), `update_correlated` (701-752).  An exception
of `update` comes from the inverse, after `y` and `S` have been assigned. -/
def KF.writes : KFOp n m l → Bool → KFArr → Writes
  | .predict .., false => rebinds [.x, .P, .xPrior, .PPrior]
  | .update none .., false => rebinds [.z, .xPost, .PPost, .y]
  | .update (some _) .., false => rebinds [.y, .S, .SI, .K, .x, .P, .z, .xPost, .PPost]
  | .update .., true => rebinds [.y, .S]
  | .updateSequential .., true => overwrites [.y] []
  | .updateSequential .., false => overwrites [.y, .K, .x, .z] [.P, .xPost, .PPost]
  | .predictSteadystate .., false => rebinds [.x, .xPrior, .PPrior]
  | .updateSteadystate none, false => rebinds [.z, .xPost, .PPost, .y]
  | .updateSteadystate (some _), false => rebinds [.y, .x, .z, .xPost, .PPost]
  | .updateCorrelated none .., false => rebinds [.z, .xPost, .PPost, .y]
  | .updateCorrelated (some _) .., false => rebinds [.y, .S, .SI, .K, .x, .P, .z, .xPost, .PPost]
  | .updateCorrelated .., true => rebinds [.y, .S]
  | _, _ => rebinds []

/-- A `KalmanFilter` and its arrays (kalman_filter.py 398-434). -/
noncomputable def KF.arrays (expf : ℝ → ℝ) (n m l : ℕ) : ArrayClass (KF n m l) (KFOp n m l) KFArr (KFArr.Val n m) where
  step := KF.step expf
  get
    | .x => KF.x
    | .P => KF.P
    | .K => KF.K
    | .y => KF.y
    | .S => KF.S
    | .SI => KF.SI
    | .z => KF.z
    | .xPrior => KF.xPrior
    | .PPrior => KF.PPrior
    | .xPost => KF.xPost
    | .PPost => KF.PPost
  put v s := { s with
    x := v .x, P := v .P, K := v .K, y := v .y, S := v .S, SI := v .SI, z := v .z, xPrior := v .xPrior, PPrior := v .PPrior, xPost := v .xPost, PPost := v .PPost }
  how _ := KF.writes

/-! ## `ExtendedKalmanFilter`, `FadingKalmanFilter` -/

/-- What the calls on an `ExtendedKalmanFilter` do with its arrays: `predict` (EKF.py 351, 367-371), `update`
(297-301, 320-342). -/
def EkfOp.writes : EkfOp n m l → Bool → KFArr → Writes
  | .predict _, _ => rebinds [.x, .P, .xPrior, .PPrior]
  | .update none .., _ => rebinds [.z, .xPost, .PPost]
  | .update (some _) .., false => rebinds [.S, .SI, .K, .y, .x, .P, .z, .xPost, .PPost]
  | .update (some _) .., true => rebinds [.S]
  | _, _ => rebinds []

/-- An `ExtendedKalmanFilter` and its arrays (EKF.py 132-170). -/
noncomputable def EKF.arrays (expf : ℝ → ℝ) (n m l : ℕ) : ArrayClass (EKF n m l) (EkfOp n m l) KFArr (KFArr.Val n m) where
  step := EkfOp.on expf
  get
    | .x => EKF.x
    | .P => EKF.P
    | .K => EKF.K
    | .y => EKF.y
    | .S => EKF.S
    | .SI => EKF.SI
    | .z => EKF.z
    | .xPrior => EKF.xPrior
    | .PPrior => EKF.PPrior
    | .xPost => EKF.xPost
    | .PPost => EKF.PPost
  put v s := { s with
    x := v .x, P := v .P, K := v .K, y := v .y, S := v .S, SI := v .SI, z := v .z, xPrior := v .xPrior, PPrior := v .PPrior, xPost := v .xPost, PPost := v .PPost }
  how _ := EkfOp.writes

/-- What the calls on a `FadingKalmanFilter` do with its arrays: `predict` (kalman/fading_memory.py 267-274),
`update` (211-215, 224-248). -/
def FkfOp.writes : FkfOp n m l → Bool → KFArr → Writes
  | .predict _, _ => rebinds [.x, .P, .xPrior, .PPrior]
  | .update none .., _ => rebinds [.z, .xPost, .PPost]
  | .update (some _) .., false => rebinds [.y, .S, .SI, .K, .x, .P, .z, .xPost, .PPost]
  | .update (some _) .., true => rebinds [.y, .S]
  | _, _ => rebinds []

/-- A `FadingKalmanFilter` and its arrays (kalman/fading_memory.py 155-193). -/
noncomputable def FKF.arrays (expf : ℝ → ℝ) (n m l : ℕ) : ArrayClass (FKF n m l) (FkfOp n m l) KFArr (KFArr.Val n m) where
  step := FkfOp.on expf
  get
    | .x => FKF.x
    | .P => FKF.P
    | .K => FKF.K
    | .y => FKF.y
    | .S => FKF.S
    | .SI => FKF.SI
    | .z => FKF.z
    | .xPrior => FKF.xPrior
    | .PPrior => FKF.PPrior
    | .xPost => FKF.xPost
    | .PPost => FKF.PPost
  put v s := { s with
    x := v .x, P := v .P, K := v .K, y := v .y, S := v .S, SI := v .SI, z := v .z, xPrior := v .xPrior, PPrior := v .PPrior, xPost := v .xPost, PPost := v .PPost }
  how _ := FkfOp.writes

/-! ## `UnscentedKalmanFilter`, `CubatureKalmanFilter` -/

/-- What the calls on an `UnscentedKalmanFilter` do with its arrays: `predict` (UKF.py 403-411), `update`
(442-446, 469-486).  The scratch arrays `sigmas_f` (overwritten at 522) and `sigmas_h` are left out. -/
def UkfCall.writes : UkfCall n m → Bool → KFArr → Writes
  | .predict .., _ => rebinds [.x, .P, .xPrior, .PPrior]
  | .update none .., _ => rebinds [.z, .xPost, .PPost]
  | .update (some _) .., false => rebinds [.S, .SI, .K, .y, .x, .P, .z, .xPost, .PPost]
  | .update (some _) .., true => rebinds [.S]
  | _, _ => rebinds []

/-- An `UnscentedKalmanFilter` and its arrays (UKF.py 298-362). -/
noncomputable def UKF.arrays (expf : ℝ → ℝ) (n m : ℕ) (p : SigmaPts n) : ArrayClass (UKF n m p) (UkfCall n m) KFArr (KFArr.Val n m) where
  step := UkfCall.on expf
  get
    | .x => UKF.x
    | .P => UKF.P
    | .K => UKF.K
    | .y => UKF.y
    | .S => UKF.S
    | .SI => UKF.SI
    | .z => UKF.z
    | .xPrior => UKF.xPrior
    | .PPrior => UKF.PPrior
    | .xPost => UKF.xPost
    | .PPost => UKF.PPost
  put v s := { s with
    x := v .x, P := v .P, K := v .K, y := v .y, S := v .S, SI := v .SI, z := v .z, xPrior := v .xPrior, PPrior := v .PPrior, xPost := v .xPost, PPost := v .PPost }
  how _ := UkfCall.writes

/-- What the calls on a `CubatureKalmanFilter` do with its arrays: `predict` (CubatureKalmanFilter.py 323-327),
`update` (348-352, 366-385).  The scratch arrays `sigmas_f` and `sigmas_h` (overwritten at 321 and 363) are left
out. -/
def CkfCall.writes : CkfCall n m → Bool → KFArr → Writes
  | .predict .., _ => rebinds [.x, .P, .xPrior, .PPrior]
  | .update none .., _ => rebinds [.z, .xPost, .PPost]
  | .update (some _) .., _ => rebinds [.S, .SI, .K, .y, .x, .P, .z, .xPost, .PPost]
  | _, _ => rebinds []

/-- A `CubatureKalmanFilter` and its arrays (CubatureKalmanFilter.py 248-290). -/
noncomputable def CKF.arrays (chol : Mat n n → Except Err (Mat n n)) (expf : ℝ → ℝ) (m : ℕ) : ArrayClass (CKF n m) (CkfCall n m) KFArr (KFArr.Val n m) where
  step := CkfCall.on chol expf
  get
    | .x => CKF.x
    | .P => CKF.P
    | .K => CKF.K
    | .y => CKF.y
    | .S => CKF.S
    | .SI => CKF.SI
    | .z => CKF.z
    | .xPrior => CKF.xPrior
    | .PPrior => CKF.PPrior
    | .xPost => CKF.xPost
    | .PPost => CKF.PPost
  put v s := { s with
    x := v .x, P := v .P, K := v .K, y := v .y, S := v .S, SI := v .SI, z := v .z, xPrior := v .xPrior, PPrior := v .PPrior, xPost := v .xPost, PPost := v .PPost }
  how _ := CkfCall.writes

/-! ## `SquareRootKalmanFilter` -/

/-- What the calls on a `SquareRootKalmanFilter` do with its arrays: `predict` (square_root.py 240-248),
`update` (189-193, 208-224; 219 is `self.x += dot(self.K, self.y)`).  `P`, `S`, `SI` stand for the factors. -/
def SrCall.writes : SrCall m l → Bool → KFArr → Writes
  | .predict _, false => rebinds [.x, .P, .xPrior, .PPrior]
  | .update none _, _ => rebinds [.z, .xPost, .PPost]
  | .update (some _) _, _ => overwrites [.x] [.S, .SI, .K, .y, .P, .z, .xPost, .PPost]
  | _, _ => rebinds []

/-- A `SquareRootKalmanFilter` and its arrays (square_root.py 136-169). -/
noncomputable def SRKF.arrays (L : SqrtLib n m) (l : ℕ) : ArrayClass (SRKF n m l) (SrCall m l) KFArr (KFArr.Val n m) where
  step := SrCall.on L
  get
    | .x => SRKF.x
    | .P => SRKF.P12
    | .K => SRKF.K
    | .y => SRKF.y
    | .S => SRKF.S12
    | .SI => SRKF.SI12
    | .z => SRKF.z
    | .xPrior => SRKF.xPrior
    | .PPrior => SRKF.P12Prior
    | .xPost => SRKF.xPost
    | .PPost => SRKF.P12Post
  put v s := { s with
    x := v .x, P12 := v .P, K := v .K, y := v .y, S12 := v .S, SI12 := v .SI, z := v .z, xPrior := v .xPrior, P12Prior := v .PPrior, xPost := v .xPost, P12Post := v .PPost }
  how _ := SrCall.writes

/-! ## `InformationFilter`, `HInfinityFilter` -/

/-- The array attributes that the methods of `InformationFilter` assign. -/
inductive IFArr
  | x | Pinv | K | y | S | z | xPrior | PinvPrior | xPost | PinvPost
  deriving DecidableEq

/-- The contents of each. -/
def IFArr.Val (n m : ℕ) : IFArr → Type
  | .x | .xPrior | .xPost => Vec n
  | .Pinv | .PinvPrior | .PinvPost | .S => Mat n n
  | .K => Mat n m
  | .y => Vec m
  | .z => Option (Vec m)

/-- What the calls on an `InformationFilter` do with its arrays: `predict` (information_filter.py 265-267,
274-289), `update` (194-198, 212-243). -/
def IfCall.writes : IfCall m l → Bool → IFArr → Writes
  | .predict _, _ => rebinds [.x, .Pinv, .xPrior, .PinvPrior]
  | .update none _, _ => rebinds [.z, .xPost, .PinvPost]
  | .update (some _) _, _ => rebinds [.y, .S, .K, .x, .Pinv, .z, .xPost, .PinvPost]

/-- An `InformationFilter` and its arrays (information_filter.py 139-176). -/
noncomputable def IF.arrays (expf : ℝ → ℝ) (n m l : ℕ) : ArrayClass (IF n m l) (IfCall m l) IFArr (IFArr.Val n m) where
  step := IfCall.on expf
  get
    | .x => IF.x
    | .Pinv => IF.Pinv
    | .K => IF.K
    | .y => IF.y
    | .S => IF.S
    | .z => IF.z
    | .xPrior => IF.xPrior
    | .PinvPrior => IF.PinvPrior
    | .xPost => IF.xPost
    | .PinvPost => IF.PinvPost
  put v s := { s with
    x := v .x, Pinv := v .Pinv, K := v .K, y := v .y, S := v .S, z := v .z, xPrior := v .xPrior, PinvPrior := v .PinvPrior, xPost := v .xPost, PinvPost := v .PinvPost }
  how _ := IfCall.writes

/-- The array attributes that the methods of `HInfinityFilter` assign. -/
inductive HInfArr
  | x | P | y | z
  deriving DecidableEq

/-- The contents of each. -/
def HInfArr.Val (n m : ℕ) : HInfArr → Type
  | .x => Vec n
  | .P => Mat n n
  | .y | .z => Vec m

/-- What the calls on an `HInfinityFilter` do with its arrays: `predict` (hinfinity_filter.py 157), `update`
(128-142). -/
def HInfOp.writes : HInfOp m l → Bool → HInfArr → Writes
  | .predict _, _ => rebinds [.x]
  | .update (some _), false => rebinds [.y, .x, .P, .z]
  | _, _ => rebinds []

/-- An `HInfinityFilter` and its arrays (hinfinity_filter.py 61-92). -/
noncomputable def HInf.arrays (n m l : ℕ) : ArrayClass (HInf n m l) (HInfOp m l) HInfArr (HInfArr.Val n m) where
  step := HInfOp.run
  get
    | .x => HInf.x
    | .P => HInf.P
    | .y => HInf.y
    | .z => HInf.z
  put v s := { s with
    x := v .x, P := v .P, y := v .y, z := v .z }
  how _ := HInfOp.writes

/-! ## `EnsembleKalmanFilter` -/

/-- The array attributes that the methods of `EnsembleKalmanFilter` assign. -/
inductive EnArr
  | x | P | sigmas | K | S | SI | z | xPrior | PPrior | xPost | PPost
  deriving DecidableEq

/-- The contents of each. -/
def EnArr.Val (n m N : ℕ) : EnArr → Type
  | .x | .xPrior | .xPost => Vec n
  | .P | .PPrior | .PPost => Mat n n
  | .sigmas => Mat N n
  | .K => Mat n m
  | .S | .SI => Mat m m
  | .z => Fin m → Option ℝ

/-- What the calls on an `EnsembleKalmanFilter` do with its arrays: `predict` (ensemble_kalman_filter.py
280-290; 280 `self.sigmas[i] = ...`, 283 `self.sigmas += e`), `update` (234-238, 259-273; 265
`self.sigmas[i] += ...`). -/
def EnkfOp.writes : EnkfOp n m N → Bool → EnArr → Writes
  | .predict _, _ => overwrites [.sigmas] [.x, .P, .xPrior, .PPrior]
  | .update none .., _ => rebinds [.z, .xPost, .PPost]
  | .update (some _) .., false => overwrites [.sigmas] [.S, .SI, .K, .x, .P, .z, .xPost, .PPost]
  | .update (some _) .., true => rebinds [.S]

/-- An `EnsembleKalmanFilter` and its arrays (ensemble_kalman_filter.py 165-216). -/
noncomputable def EnKF.arrays (n m N : ℕ) : ArrayClass (EnKF n m N) (EnkfOp n m N) EnArr (EnArr.Val n m N) where
  step := EnkfOp.run
  get
    | .x => EnKF.x
    | .P => EnKF.P
    | .sigmas => EnKF.sigmas
    | .K => EnKF.K
    | .S => EnKF.S
    | .SI => EnKF.SI
    | .z => EnKF.z
    | .xPrior => EnKF.xPrior
    | .PPrior => EnKF.PPrior
    | .xPost => EnKF.xPost
    | .PPost => EnKF.PPost
  put v s := { s with
    x := v .x, P := v .P, sigmas := v .sigmas, K := v .K, S := v .S, SI := v .SI, z := v .z, xPrior := v .xPrior, PPrior := v .PPrior, xPost := v .xPost, PPost := v .PPost }
  how _ := EnkfOp.writes

/-! ## The banks -/

/-- The array attributes of an `IMMEstimator`. -/
inductive IMMArr
  | x | P | mu | likelihood | cbar | omega | xPrior | PPrior | xPost | PPost
  deriving DecidableEq

/-- The contents of each. -/
def IMMArr.Val (n N : ℕ) : IMMArr → Type
  | .x | .xPrior | .xPost => Vec n
  | .P | .PPrior | .PPost => Mat n n
  | .mu | .likelihood | .cbar => Vec N
  | .omega => Mat N N

/-- What the calls on an `IMMEstimator` do with its arrays: `update` (IMM.py 175 `self.likelihood[i] = ...`,
178-179, 185-186), `predict` (224-225), `_compute_state_estimate` (232-239: `self.x.fill(0)`, `self.x += ...`,
`self.P.fill(0)`, `self.P += ...`), `_compute_mixing_probabilities` (246-249; 249 `self.omega[i, j] = ...`). -/
def ImmOp.writes {ζ υ : Type} : ImmOp ζ υ → Bool → IMMArr → Writes
  | .predict _, false => overwrites [.x, .P] [.xPrior, .PPrior]
  | .predict _, true => rebinds []
  | .update _, false => overwrites [.likelihood, .omega, .x, .P] [.mu, .cbar, .xPost, .PPost]
  | .update _, true => overwrites [.likelihood, .omega] [.mu, .cbar]

/-- An `IMMEstimator` and its arrays (IMM.py 136-158). -/
noncomputable def IMM.arrays {σ ζ υ : Type} (c : FilterClass σ n ζ υ) (N : ℕ) : ArrayClass (IMM σ n N) (ImmOp ζ υ) IMMArr (IMMArr.Val n N) where
  step := ImmOp.run c
  get
    | .x => IMM.x
    | .P => IMM.P
    | .mu => IMM.mu
    | .likelihood => IMM.likelihood
    | .cbar => IMM.cbar
    | .omega => IMM.omega
    | .xPrior => IMM.xPrior
    | .PPrior => IMM.PPrior
    | .xPost => IMM.xPost
    | .PPost => IMM.PPost
  put v s := { s with
    x := v .x, P := v .P, mu := v .mu, likelihood := v .likelihood, cbar := v .cbar, omega := v .omega, xPrior := v .xPrior, PPrior := v .PPrior, xPost := v .xPost, PPost := v .PPost }
  how _ := ImmOp.writes

/-- The array attributes of an `MMAEFilterBank`. -/
inductive MMAEArr
  | p | x | P | xPrior | PPrior | xPost | PPost
  deriving DecidableEq

/-- The contents of each. -/
def MMAEArr.Val (n N : ℕ) : MMAEArr → Type
  | .x | .xPrior | .xPost => Vec n
  | .P | .PPrior | .PPost => Mat n n
  | .p => Vec N

/-- What the calls on an `MMAEFilterBank` do with its arrays: `predict` (mmae.py 157-158), `update` (186
`self.p[i] *= f.likelihood`, 188 `self.p /= sum(self.p)`; 191-206 fill new arrays `P` and `x`; 211-212).  The
constructor does not copy `p` (113 `np.asarray(p)`), so an array given for `p` is overwritten. -/
def MmaeOp.writes {ζ ρ η υ : Type} : MmaeOp ζ ρ η υ → Bool → MMAEArr → Writes
  | .predict _, false => rebinds [.xPrior, .PPrior]
  | .predict _, true => rebinds []
  | .update .., false => overwrites [.p] [.x, .P, .xPost, .PPost]
  | .update .., true => overwrites [.p] []

/-- An `MMAEFilterBank` and its arrays (mmae.py 105-137). -/
noncomputable def MMAE.arrays {σ ζ ρ η υ : Type} (c : FilterClass σ n (ζ × ρ × Option η) υ) (N : ℕ) : ArrayClass (MMAE σ n N ζ η) (MmaeOp ζ ρ η υ) MMAEArr (MMAEArr.Val n N) where
  step := MmaeOp.run c
  get
    | .p => MMAE.p
    | .x => MMAE.x
    | .P => MMAE.P
    | .xPrior => MMAE.xPrior
    | .PPrior => MMAE.PPrior
    | .xPost => MMAE.xPost
    | .PPost => MMAE.PPost
  put v s := { s with
    p := v .p, x := v .x, P := v .P, xPrior := v .xPrior, PPrior := v .PPrior, xPost := v .xPost, PPost := v .PPost }
  how _ := MmaeOp.writes

/-! ## The g-h filters, `LeastSquaresFilter`, `FadingMemoryFilter` -/

/-- The attributes of a `GHFilter` that may be arrays. -/
inductive GHArr
  | x | dx | xPred | dxPred | y
  deriving DecidableEq

/-- What `GHFilter.update` does with them (gh_filter.py 369-375).  `self.dx_prediction = self.dx` lets two
attributes refer to one array, which then has a new contents under neither name; here it is a copy. -/
def GH.writes : Bool → GHArr → Writes
  | false => rebinds [.x, .dx, .xPred, .dxPred, .y]
  | true => rebinds [.xPred, .dxPred, .y]

/-- `update(z, g, h)` as a call. -/
noncomputable def GH.arrStep {E : Type} [AddCommGroup E] [Module ℝ E] (s : GH E)
    (a : E × Option ℝ × Option ℝ) : Exec (GH E) := s.update a.1 a.2.1 a.2.2

/-- A `GHFilter` and its arrays (gh_filter.py 304-320). -/
noncomputable def GH.arrays (E : Type) [AddCommGroup E] [Module ℝ E] : ArrayClass (GH E) (E × Option ℝ × Option ℝ) GHArr (fun _ => E) where
  step := GH.arrStep
  get
    | .x => GH.x
    | .dx => GH.dx
    | .xPred => GH.xPred
    | .dxPred => GH.dxPred
    | .y => GH.y
  put v s := { s with
    x := v .x, dx := v .dx, xPred := v .xPred, dxPred := v .dxPred, y := v .y }
  how _ _ := GH.writes

/-- The attributes of a `GHKFilter` that may be arrays. -/
inductive GHKArr
  | x | dx | ddx | xPred | dxPred | ddxPred | y
  deriving DecidableEq

/-- What `GHKFilter.update` does with them (gh_filter.py 669-678). -/
def GHK.writes : Bool → GHKArr → Writes
  | false => rebinds [.x, .dx, .ddx, .xPred, .dxPred, .ddxPred, .y]
  | true => rebinds [.xPred, .dxPred, .ddxPred, .y]

/-- `update(z, g, h, k)` as a call. -/
noncomputable def GHK.arrStep {E : Type} [AddCommGroup E] [Module ℝ E] (s : GHK E)
    (a : E × Option ℝ × Option ℝ × Option ℝ) : Exec (GHK E) := s.update a.1 a.2.1 a.2.2.1 a.2.2.2

/-- A `GHKFilter` and its arrays (gh_filter.py 609-628). -/
noncomputable def GHK.arrays (E : Type) [AddCommGroup E] [Module ℝ E] : ArrayClass (GHK E) (E × Option ℝ × Option ℝ × Option ℝ) GHKArr (fun _ => E) where
  step := GHK.arrStep
  get
    | .x => GHK.x
    | .dx => GHK.dx
    | .ddx => GHK.ddx
    | .xPred => GHK.xPred
    | .dxPred => GHK.dxPred
    | .ddxPred => GHK.ddxPred
    | .y => GHK.y
  put v s := { s with
    x := v .x, dx := v .dx, ddx := v .ddx, xPred := v .xPred, dxPred := v .dxPred, ddxPred := v .ddxPred, y := v .y }
  how _ _ := GHK.writes

/-- The array attribute of a `GHFilterOrder`, a `FadingMemoryFilter` and (with `K`) a `LeastSquaresFilter`. -/
inductive PolyArr
  | x | K
  deriving DecidableEq

/-- What `GHFilterOrder.update` does with `x`: it overwrites the array (gh_filter.py 146 `self.x += ...`, 158-159,
179-181 `self.x[i] = ...`). -/
def GHO.writes : Writes := .inPlace

/-- `update(z, g, h, k)` as a call. -/
noncomputable def GHO.arrStep (s : GHO) (a : ℝ × Option ℝ × Option ℝ × Option ℝ) : Exec GHO :=
  s.update a.1 a.2.1 a.2.2.1 a.2.2.2

/-- A `GHFilterOrder` and its array `x` (gh_filter.py 110-130). -/
noncomputable def GHO.arrays : ArrayClass GHO (ℝ × Option ℝ × Option ℝ × Option ℝ) Unit (fun _ => List ℝ) where
  step := GHO.arrStep
  get _ := GHO.x
  put v s := { s with x := v () }
  how _ _ _ _ := GHO.writes

/-- What `FadingMemoryFilter.update` does with `x`: a new array for order 0 (memory/fading_memory.py 166),
otherwise it overwrites the array (176-177, 192-194). -/
def FadingMemory.writes (s : FadingMemory) : Writes := if s.order = 0 then .rebind else .inPlace

/-- A `FadingMemoryFilter` and its array `x` (memory/fading_memory.py 102-145). -/
noncomputable def FadingMemory.arrays : ArrayClass FadingMemory ℝ Unit (fun _ => List ℝ) where
  step := FadingMemory.update
  get _ := FadingMemory.x
  put v s := { s with x := v () }
  how s _ _ _ := s.writes

/-- The calls on a `LeastSquaresFilter`. -/
inductive LsqCall
  | update (z : ℝ)
  | reset

/-- What a call on a `LeastSquaresFilter` does. -/
noncomputable def LsqCall.on (s : LSQ) : LsqCall → Exec LSQ
  | .update z => s.update z
  | .reset => .ok s.reset

/-- What the calls do with `x` and `K`: `update` overwrites them through the local names of
least_squares.py 126-127 (`x[0] += ...`, `K[0] = ...`, 131-154) and returns the array itself (155); `reset`
makes new arrays (108-109). -/
def LsqCall.writes : LsqCall → PolyArr → Writes
  | .update _ => overwrites [.x, .K] []
  | .reset => rebinds [.x, .K]

/-- A `LeastSquaresFilter` and its arrays (least_squares.py 92-110). -/
noncomputable def LSQ.arrays : ArrayClass LSQ LsqCall PolyArr (fun _ => List ℝ) where
  step := LsqCall.on
  get
    | .x => LSQ.x
    | .K => LSQ.K
  put v s := { s with x := v .x, K := v .K }
  how _ op _ := op.writes

end Filterpy
