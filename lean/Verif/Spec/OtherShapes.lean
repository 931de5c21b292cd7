import Verif.Model.OtherShapes
import Verif.Spec.Shapes

/-! # Which arrays may be passed to filters that do not reshape their arguments -/

namespace Filterpy

open Matrix Nd

namespace Spec

variable {n m l : ℕ}

/-- The arrays that stand for the measured values `v` when the state is a column (`col`) or 1-D array: an array in the form
of the state, or a single number or value that is measured by every sensor. -/
inductive Accepted (col : Bool) (v : Vec m) : Nd → Prop
  | same : Accepted col v (vecAs col v)
  | number (a : ℝ) (hv : ∀ i, v i = a) : Accepted col v (.d0 a)
  | vec1 (w : Vec 1) (hv : ∀ i, v i = w 0) : Accepted col v (.d1 1 w)
  | mat1 (w : Mat 1 1) (hc : col = true) (hv : ∀ i, v i = w 0 0) : Accepted col v (.d2 1 1 w)

/-- The control inputs that keep the form of the state: with a matrix `B`, vectors in the form of the state, and numbers only
if the state is a column and `B` has one column; without a `B`, numbers and vectors that broadcast to the state. -/
def UOk (col : Bool) (B : Option (Mat n l)) : UArg l → Prop
  | .none => True
  | .scalar _ => B.isSome → col = true ∧ l = 1
  | .vec _ => B = none → l = n ∨ l = 1

/-- The attribute `z`: a column of `None`s, or an array that stands for the values. -/
def ZAs (col : Bool) (s : Option Nd) (t : Fin m → Option ℝ) : Prop :=
  (s = none ∧ ∀ i, t i = none) ∨ ∃ z v, s = some z ∧ Accepted col v z ∧ ∀ i, t i = some (v i)

/-- The object `s` stores the `FadingKalmanFilter` `t`. -/
structure FKFStores (col : Bool) (s : NFKF n m l) (t : FKF n m l) : Prop where
  alphaSq : s.alphaSq = t.alphaSq
  x : s.x = vecAs col t.x
  P : s.P = t.P
  Q : s.Q = t.Q
  B : s.B = t.B
  F : s.F = t.F
  H : s.H = t.H
  R : s.R = t.R
  z : ZAs col s.z t.z
  K : s.K = t.K
  y : ∃ c, s.y = vecAs c t.y
  S : s.S = t.S
  SI : s.SI = t.SI
  logLik : s.logLik = t.logLik
  lik : s.lik = t.lik
  mahal : s.mahal = t.mahal
  xPrior : s.xPrior = vecAs col t.xPrior
  PPrior : s.PPrior = t.PPrior
  xPost : s.xPost = vecAs col t.xPost
  PPost : s.PPost = t.PPost

/-- The object `s` stores the `ExtendedKalmanFilter` `t`. -/
structure EKFStores (col : Bool) (s : NEKF n m l) (t : EKF n m l) : Prop where
  x : s.x = vecAs col t.x
  P : s.P = t.P
  B : s.B = t.B
  F : s.F = t.F
  R : s.R = t.R
  Q : s.Q = t.Q
  y : ∃ c, s.y = vecAs c t.y
  z : ZAs col s.z t.z
  K : s.K = t.K
  S : s.S = t.S
  SI : s.SI = t.SI
  logLik : s.logLik = t.logLik
  lik : s.lik = t.lik
  mahal : s.mahal = t.mahal
  xPrior : s.xPrior = vecAs col t.xPrior
  PPrior : s.PPrior = t.PPrior
  xPost : s.xPost = vecAs col t.xPost
  PPost : s.PPost = t.PPost

/-- The object `s` stores the `HInfinityFilter` `t`. -/
structure HInfStores (col : Bool) (s : NHInf n m l) (t : HInf n m l) : Prop where
  gamma : s.gamma = t.gamma
  x : s.x = vecAs col t.x
  B : s.B = t.B
  F : s.F = t.F
  H : s.H = t.H
  P : s.P = t.P
  Q : s.Q = t.Q
  V : s.V = t.V
  VInv : s.VInv = t.VInv
  W : s.W = t.W
  y : ∃ c, s.y = vecAs c t.y
  z : ∃ c, Accepted c t.z s.z

/-- The object `s` stores the `SquareRootKalmanFilter` `t`. -/
structure SRStores (col : Bool) (s : NSR n m l) (t : SRKF n m l) : Prop where
  x : s.x = vecAs col t.x
  P12 : s.P12 = t.P12
  Q12 : s.Q12 = t.Q12
  B : s.B = t.B
  F : s.F = t.F
  H : s.H = t.H
  R12 : s.R12 = t.R12
  z : ZAs col s.z t.z
  K : s.K = t.K
  S12 : s.S12 = t.S12
  SI12 : s.SI12 = t.SI12
  y : ∃ c, s.y = vecAs c t.y
  xPrior : s.xPrior = vecAs col t.xPrior
  P12Prior : s.P12Prior = t.P12Prior
  xPost : s.xPost = vecAs col t.xPost
  P12Post : s.P12Post = t.P12Post

/-- The object `s` stores the `InformationFilter` `t`. -/
structure IFStores (col : Bool) (s : NIF n m l) (t : IF n m l) : Prop where
  x : s.x = vecAs col t.x
  Pinv : s.Pinv = t.Pinv
  Q : s.Q = t.Q
  B : s.B = t.B
  F : s.F = t.F
  Finv : s.Finv = t.Finv
  H : s.H = t.H
  Rinv : s.Rinv = t.Rinv
  z : (s.z = none ∧ t.z = none) ∨ ∃ z v, s.z = some z ∧ t.z = some v ∧ ∃ c, Accepted c v z
  K : s.K = t.K
  y : ∃ c, s.y = vecAs c t.y
  S : s.S = t.S
  noInformation : s.noInformation = t.noInformation
  computeLL : s.computeLL = t.computeLL
  logLik : s.logLik = t.logLik
  lik : s.lik = t.lik
  inv : s.inv = t.inv
  xPrior : s.xPrior = vecAs col t.xPrior
  PinvPrior : s.PinvPrior = t.PinvPrior
  xPost : s.xPost = vecAs col t.xPost
  PinvPost : s.PinvPost = t.PinvPost

/-- The object `s` stores the `FixedLagSmoother` `t`, which has a list of smoothed states, one per call, if it was built with a
lag (C29). -/
structure FLSStores (col : Bool) (s : NFLS n m l) (t : FLS n m l) : Prop where
  N : s.N = t.N
  x : s.x = vecAs col t.x
  P : s.P = t.P
  Q : s.Q = t.Q
  F : s.F = t.F
  H : s.H = t.H
  R : s.R = t.R
  B : s.B = t.B
  y : ∃ c, s.y = vecAs c t.y
  S : s.S = t.S
  count : s.count = t.count
  xSmooth : s.xSmooth = t.xSmooth.map fun xs => xs.map (vecAs col)
  len : ∀ xs, t.xSmooth = some xs → xs.length = t.count
  hasN : t.xSmooth ≠ none → t.N ≠ none

end Spec

end Filterpy
