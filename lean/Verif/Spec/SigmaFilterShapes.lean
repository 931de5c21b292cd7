import Verif.Model.SigmaFilterShapes
import Verif.Spec.OtherShapes

/-!
# Filters with vectors of run-time shape and the mathematical filters they stand for
-/

namespace Filterpy.Spec

open Matrix

variable {n m N : ℕ}

/-- The array `x`, of any shape, holds the `n` numbers `v` in row-major order. -/
def HasEntries (x : Nd) (v : Vec n) : Prop := x.size = n ∧ ∀ i : Fin n, x.flat i = v i

/-- The object `s` stores the `UnscentedKalmanFilter` `t` with default residual and addition functions; the state and the
residual are 1-D arrays. -/
structure UKFStores {p : SigmaPts n} (s : NUKF n m p) (t : UKF n m p) : Prop where
  x : s.x = .d1 n t.x
  P : s.P = t.P
  Q : s.Q = t.Q
  R : s.R = t.R
  dt : s.dt = t.dt
  hx : s.hx = t.hx
  fx : s.fx = t.fx
  xMean : s.xMean = t.xMean
  zMean : s.zMean = t.zMean
  sigmasF : s.sigmasF = t.sigmasF
  sigmasH : s.sigmasH = t.sigmasH
  z : ZAs false s.z t.z
  K : s.K = t.K
  y : s.y = .d1 m t.y
  S : s.S = t.S
  SI : s.SI = t.SI
  xPrior : s.xPrior = .d1 n t.xPrior
  PPrior : s.PPrior = t.PPrior
  xPost : s.xPost = .d1 n t.xPost
  PPost : s.PPost = t.PPost
  logLik : s.logLik = t.logLik
  lik : s.lik = t.lik
  mahal : s.mahal = t.mahal
  inv : @NUKF.inv n m p s = @UKF.inv n m p t
  residualX : t.residualX = none
  residualZ : t.residualZ = none
  stateAdd : t.stateAdd = none

/-- `pts` is the method `sigma_points` of the sigma point object `p`: it computes the points of `p` for a 1-D state, and
refuses a state that has not `n` entries with `ValueError`. -/
structure PointsOf (p : SigmaPts n) (pts : Nd → Mat n n → Except Err (Mat p.num n)) : Prop where
  flat : ∀ v P, pts (.d1 n v) P = p.points v P
  refuses : ∀ x P, x.size ≠ n → pts x P = .error .valueError

/-- The object `s` stores the `CubatureKalmanFilter` `t` with the default residual function.  If `col`, the state is a column;
otherwise it may be an array of any shape. -/
structure CKFStores (col : Bool) (s : NCKF n m) (t : CKF n m) : Prop where
  x : HasEntries s.x t.x
  column : col = true → s.x = vecAs true t.x
  P : s.P = t.P
  Q : s.Q = t.Q
  R : s.R = t.R
  dt : s.dt = t.dt
  hx : s.hx = t.hx
  fx : s.fx = t.fx
  sigmasF : s.sigmasF = t.sigmasF
  sigmasH : s.sigmasH = t.sigmasH
  z : ZAs true s.z t.z
  K : s.K = t.K
  y : t.yArray = true → s.y = vecAs true t.y
  S : s.S = t.S
  SI : s.SI = t.SI
  xPrior : HasEntries s.xPrior t.xPrior
  PPrior : s.PPrior = t.PPrior
  xPost : HasEntries s.xPost t.xPost
  PPost : s.PPost = t.PPost
  logLik : s.logLik = t.logLik
  lik : s.lik = t.lik
  mahal : s.mahal = t.mahal
  residualZ : t.residualZ = none

/-- The attribute `z` of an ensemble filter: a column of `None`s, or the 1-D array of the values. -/
def ZFlat (s : Option Nd) (t : Fin m → Option ℝ) : Prop :=
  (s = none ∧ ∀ i, t i = none) ∨ ∃ v : Vec m, s = some (.d1 m v) ∧ ∀ i, t i = some (v i)

/-- The object `s` stores the `EnsembleKalmanFilter` `t` with the default inverse. -/
structure EnKFStores (s : NEnKF n m N) (t : EnKF n m N) : Prop where
  x : s.x = t.x
  P : s.P = t.P
  Q : s.Q = t.Q
  R : s.R = t.R
  dt : s.dt = t.dt
  hx : s.hx = t.hx
  fx : s.fx = t.fx
  sigmas : s.sigmas = t.sigmas
  z : ZFlat s.z t.z
  K : s.K = .d2 n m t.K
  S : s.S = .d2 m m t.S
  SI : s.SI = .d2 m m t.SI
  xPrior : s.xPrior = t.xPrior
  PPrior : s.PPrior = t.PPrior
  xPost : s.xPost = t.xPost
  PPost : s.PPost = t.PPost
  inv : t.inv = npInv

end Filterpy.Spec
