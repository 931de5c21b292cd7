import Verif.Spec.Nearby
import Verif.Model.IMM
import Verif.Model.MMAE

/-!
# Nearby banks of Kalman filters
-/

namespace Filterpy.Spec

open Filter Topology

variable {ι : Type} {n m l N : ℕ}

/-- An interacting multiple model estimator approaches another: its filters, mode probabilities, transition matrix,
mixing weights and estimates do. -/
structure IMMNear (f : Filter ι) (s : ι → IMM (KF n m l) n N) (t : IMM (KF n m l) n N) : Prop where
  filters : ∀ k, KFNear f (fun i => (s i).filters k) (t.filters k)
  mu : Tendsto (fun i => (s i).mu) f (𝓝 t.mu)
  M : Tendsto (fun i => (s i).M) f (𝓝 t.M)
  cbar : Tendsto (fun i => (s i).cbar) f (𝓝 t.cbar)
  omega : Tendsto (fun i => (s i).omega) f (𝓝 t.omega)
  x : Tendsto (fun i => (s i).x) f (𝓝 t.x)
  P : Tendsto (fun i => (s i).P) f (𝓝 t.P)
  xPrior : Tendsto (fun i => (s i).xPrior) f (𝓝 t.xPrior)
  PPrior : Tendsto (fun i => (s i).PPrior) f (𝓝 t.PPrior)
  xPost : Tendsto (fun i => (s i).xPost) f (𝓝 t.xPost)
  PPost : Tendsto (fun i => (s i).PPost) f (𝓝 t.PPost)

/-- A bank of Kalman filters approaches another: its filters, probabilities, measurement matrix and estimates do. -/
structure MMAENear (f : Filter ι) (s : ι → MMAE (KF n m l) n N (Option (Vec m)) (Mat m n))
    (t : MMAE (KF n m l) n N (Option (Vec m)) (Mat m n)) : Prop where
  filters : ∀ k, KFNear f (fun i => (s i).filters k) (t.filters k)
  p : Tendsto (fun i => (s i).p) f (𝓝 t.p)
  H : OptNear f (fun i => (s i).H) t.H
  x : Tendsto (fun i => (s i).x) f (𝓝 t.x)
  P : Tendsto (fun i => (s i).P) f (𝓝 t.P)
  xPrior : Tendsto (fun i => (s i).xPrior) f (𝓝 t.xPrior)
  PPrior : Tendsto (fun i => (s i).PPrior) f (𝓝 t.PPrior)
  xPost : Tendsto (fun i => (s i).xPost) f (𝓝 t.xPost)
  PPost : Tendsto (fun i => (s i).PPost) f (𝓝 t.PPost)

end Filterpy.Spec
