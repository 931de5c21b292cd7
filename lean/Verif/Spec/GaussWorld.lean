import Verif.Spec.LinearWorld
import Mathlib.Probability.Distributions.Gaussian.Multivariate
import Mathlib.MeasureTheory.Measure.GiryMonad

/-!
# Specification: a linear system driven by normal noise

The system a `KalmanFilter` object has been told about, as a random process: what the true state and the
measurements are likely to be.
-/

namespace Filterpy.Spec

open MeasureTheory ProbabilityTheory Matrix WithLp

/-- The normal distribution with the given mean and covariance (Mathlib's, carried to `Vec n`); the covariance may be
singular. -/
noncomputable def normal {n : ℕ} (x : Vec n) (P : Mat n n) : Measure (Vec n) :=
  (multivariateGaussian (toLp 2 x) P).map (MeasurableEquiv.toLp 2 (Fin n → ℝ)).symm

/-- What the user plans to do: the system moves and `predict(u, B, F, Q)` is called; it is measured and
`update(z, R, H)` is called with whatever was measured; or the measurement is missing and `update(None)` is called. -/
inductive Act (n m l : ℕ)
  | move (u : Option (Vec l)) (B : Option (Mat n l)) (F : Option (Mat n n)) (Q : MatArg n)
  | measure (R : MatArg m) (H : Option (Mat m n))
  | miss

/-- How many measurements a plan takes. -/
def measurements {n m l : ℕ} : List (Act n m l) → ℕ
  | [] => 0
  | .move .. :: p => measurements p
  | .measure .. :: p => measurements p + 1
  | .miss :: p => measurements p

/-- From the true state `x` on: the joint distribution of the true state at the end of the plan and of all the
measurements taken on the way.  A move adds normal noise of covariance `Q`, a measurement adds normal noise of
covariance `R`, all of them independent.  The matrices are the arguments of the calls, or else the attributes of
the filter object `kf`. -/
noncomputable def unfolds {n m l : ℕ} (kf : KF n m l) :
    (p : List (Act n m l)) → Vec n → Measure (Vec n × (Fin (measurements p) → Vec m))
  | [], x => .dirac (x, Fin.elim0)
  | .move u B F Q :: p, x =>
      (normal (F.getD kf.F *ᵥ x + controlEffect (B.or kf.B) u) (Q.resolve kf.Q)).bind (unfolds kf p)
  | .measure R H :: p, x =>
      ((normal (H.getD kf.H *ᵥ x) (R.resolve kf.R)).prod (unfolds kf p x)).map fun q => (q.2.1, Fin.cons q.1 q.2.2)
  | .miss :: p, x => unfolds kf p x

/-- The same when the true state is at first normal with the mean and covariance of the filter object. -/
noncomputable def world {n m l : ℕ} (kf : KF n m l) (p : List (Act n m l)) :
    Measure (Vec n × (Fin (measurements p) → Vec m)) :=
  (normal kf.x kf.P).bind (unfolds kf p)

/-- The user's loop over the measurements `d`, which adds up `kf.log_likelihood` after every measurement. -/
noncomputable def listen {n m l : ℕ} : (p : List (Act n m l)) → (Fin (measurements p) → Vec m) → KF n m l → ℝ →
    Except (Err × KF n m l) (KF n m l × ℝ)
  | [], _, kf, total => .ok (kf, total)
  | .move u B F Q :: p, d, kf, total => do
      let kf ← kf.predict (uArg u) B F Q
      listen p d kf total
  | .measure R H :: p, d, kf, total => do
      let kf ← kf.update (some (d (0 : Fin (measurements p + 1)))) R H
      let (ll, kf) := kf.readLogLik
      listen p (Fin.tail d) kf (total + ll)
  | .miss :: p, d, kf, total => do
      let kf ← kf.update none
      listen p d kf total

end Filterpy.Spec
