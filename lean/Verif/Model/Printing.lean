import Verif.Model.Reads
import Verif.Model.EnKF
import Verif.Model.FadingKF
import Verif.Model.FixedLag
import Verif.Model.GH
import Verif.Model.HInfinity
import Verif.Model.IMM
import Verif.Model.InformationFilter
import Verif.Model.MMAE
import Verif.Model.PolyFilters
import Verif.Model.SquareRoot

/-!
# Model of `pretty_str` and of the `__repr__` methods

A text is the list of its lines, a line the list of its characters.  What `str(value)` makes of a number or an array is
a parameter of the model (its lines).  A `__repr__` is modelled by what it reads: the name of the class and the pairs of
label and value handed to `pretty_str`, in order, together with the effect the reading has on the object.
-/

namespace Filterpy

open Matrix

/-! ## `pretty_str` -/

/-- A line of text. -/
abbrev Line := List Char

/-- The argument `arr` of `pretty_str` (helpers.py 248-303): a list, tuple or deque (`empty` is how an empty one prints),
a column vector (`rows` are the lines of `str(arr.T)`), or anything else (`rows` are the lines of `str(arr)`; `str.split`
never returns an empty list, hence `first` and `rest`). -/
inductive PyVal
  | seq (empty : Line) (xs : List PyVal)
  | col (first : Line) (rest : List Line)
  | other (first : Line) (rest : List Line)

/-- `if label: label += " = "` with `None` replaced by the empty label (helpers.py 285-289). -/
def labelOf : Option Line → Line
  | none => []
  | some [] => []
  | some l => l ++ " = ".toList

/-- `label + "[" + str(i) + "]"` (helpers.py 282). -/
def indexed (l : Line) (i : ℕ) : Line := l ++ "[".toList ++ (toString i).toList ++ "]".toList

mutual
/-- `pretty_str(label, arr)` (helpers.py 248-303), as lines.  An empty sequence prints as its constructor call, except
that with the label `None` the attempt raises `TypeError`, which is swallowed, and the join of no lines is the empty text;
a non-empty sequence with the label `None` raises `TypeError`. -/
def prettyStr (label : Option Line) : PyVal → Except Err (List Line)
  | .seq empty [] => .ok [match label with
      | none => []
      | some l => l ++ " = ".toList ++ empty]
  | .seq _ (x :: xs) => match label with
      | none => .error .typeError
      | some l => prettySeq l 0 (x :: xs)
  | .col first rest => .ok [labelOf label ++ (first ++ rest.flatten) ++ ".T".toList]
  | .other first rest =>
      .ok ((labelOf label ++ first) :: rest.map fun r => List.replicate (labelOf label).length ' ' ++ r)
/-- The list comprehension over `enumerate(arr)` (helpers.py 280-283), from index `i` on. -/
def prettySeq (l : Line) (i : ℕ) : List PyVal → Except Err (List Line)
  | [] => .ok []
  | x :: xs => do
      let a ← prettyStr (some (indexed l i)) x
      let b ← prettySeq l (i + 1) xs
      .ok (a ++ b)
end

/-! ## The `__repr__` methods -/

/-- A value handed to `pretty_str`. -/
inductive Val
  | int (k : ℕ)
  | real (r : ℝ)
  | vec {n : ℕ} (v : Vec n)
  | mat {m n : ℕ} (A : Mat m n)
  | meas {m : ℕ} (z : Fin m → Option ℝ)
  | list (l : List ℝ)
  | maybe (r : Option ℝ)
  | fn (name : String)

/-- `B`, which is the number `0.` or `None` until the user sets it. -/
def Val.ofB {n l : ℕ} : Option (Mat n l) → Val
  | none => .real 0
  | some B => .mat B

/-- What is printed: the first line and the labelled values. -/
structure Printed where
  title : String
  items : List (String × Val)

/-- The outcome of `repr(obj)` for an object whose properties cache: the text or an exception, and the object. -/
abbrev Prints (σ : Type) := Except (Err × σ) (Printed × σ)

/-- The object afterwards. -/
def Prints.left {σ : Type} : Prints σ → σ
  | .ok r => r.2
  | .error e => e.2

variable {n m l N : ℕ}

/-- `KalmanFilter.__repr__` (kalman_filter.py 1269-1297). -/
noncomputable def KF.repr (expf : ℝ → ℝ) (s : KF n m l) : Prints (KF n m l) :=
  let a := s.readLogLik
  let b := a.2.readLik expf
  match b.2.readMahal with
  | .error e => .error (e, b.2)
  | .ok c => .ok (⟨"KalmanFilter object",
      [("dim_x", .int n), ("dim_z", .int m), ("dim_u", .int l), ("x", .vec s.x), ("P", .mat s.P),
       ("x_prior", .vec s.xPrior), ("P_prior", .mat s.PPrior), ("x_post", .vec s.xPost), ("P_post", .mat s.PPost),
       ("F", .mat s.F), ("Q", .mat s.Q), ("R", .mat s.R), ("H", .mat s.H), ("K", .mat s.K), ("y", .vec s.y),
       ("S", .mat s.S), ("SI", .mat s.SI), ("M", .mat s.M), ("B", .ofB s.B), ("z", .meas s.z),
       ("log-likelihood", .real a.1), ("likelihood", .real b.1), ("mahalanobis", .real c.1),
       ("alpha", .real s.alpha), ("inv", .fn "inv")]⟩, c.2)

/-- `ExtendedKalmanFilter.__repr__` (EKF.py 412-428). -/
noncomputable def EKF.repr (expf : ℝ → ℝ) (s : EKF n m l) : Prints (EKF n m l) :=
  let a := s.readLik expf
  let b := a.2.readLogLik
  match b.2.readMahal with
  | .error e => .error (e, b.2)
  | .ok c => .ok (⟨"KalmanFilter object",
      [("x", .vec s.x), ("P", .mat s.P), ("x_prior", .vec s.xPrior), ("P_prior", .mat s.PPrior), ("F", .mat s.F),
       ("Q", .mat s.Q), ("R", .mat s.R), ("K", .mat s.K), ("y", .vec s.y), ("S", .mat s.S),
       ("likelihood", .real a.1), ("log-likelihood", .real b.1), ("mahalanobis", .real c.1)]⟩, c.2)

/-- `FadingKalmanFilter.__repr__` (fading_memory.py 444-464): `dim_x` and `dim_z` are followed by the state. -/
noncomputable def FKF.repr (expf : ℝ → ℝ) (s : FKF n m l) : Prints (FKF n m l) :=
  let a := s.readLik expf
  let b := a.2.readLogLik
  match b.2.readMahal with
  | .error e => .error (e, b.2)
  | .ok c => .ok (⟨"FadingKalmanFilter object",
      [("dim_x", .vec s.x), ("dim_z", .vec s.x), ("dim_u", .int l), ("x", .vec s.x), ("P", .mat s.P), ("F", .mat s.F),
       ("Q", .mat s.Q), ("R", .mat s.R), ("H", .mat s.H), ("K", .mat s.K), ("y", .vec s.y), ("S", .mat s.S),
       ("B", .ofB s.B), ("likelihood", .real a.1), ("log-likelihood", .real b.1), ("mahalanobis", .real c.1),
       ("alpha", .real s.alpha)]⟩, c.2)

/-- `UnscentedKalmanFilter.__repr__` (UKF.py 779-805); `sigmas_h` is labelled `h`. -/
noncomputable def UKF.repr {p : SigmaPts n} (expf : ℝ → ℝ) (s : UKF n m p) : Prints (UKF n m p) :=
  let a := s.readLogLik
  let b := a.2.readLik expf
  match b.2.readMahal with
  | .error e => .error (e, b.2)
  | .ok c => .ok (⟨"UnscentedKalmanFilter object",
      [("x", .vec s.x), ("P", .mat s.P), ("x_prior", .vec s.xPrior), ("P_prior", .mat s.PPrior), ("Q", .mat s.Q),
       ("R", .mat s.R), ("S", .mat s.S), ("K", .mat s.K), ("y", .vec s.y),
       ("log-likelihood", .real a.1), ("likelihood", .real b.1), ("mahalanobis", .real c.1),
       ("sigmas_f", .mat s.sigmasF), ("h", .mat s.sigmasH), ("Wm", .vec p.Wm), ("Wc", .vec p.Wc),
       ("residual_x", .fn "residual_x"), ("residual_z", .fn "residual_z"), ("msqrt", .fn "msqrt"), ("hx", .fn "hx"),
       ("fx", .fn "fx"), ("x_mean", .fn "x_mean"), ("z_mean", .fn "z_mean")]⟩, c.2)

/-- `CubatureKalmanFilter.__repr__` (CubatureKalmanFilter.py 430-445). -/
noncomputable def CKF.repr (expf : ℝ → ℝ) (s : CKF n m) : Prints (CKF n m) :=
  let a := s.readLogLik
  let b := a.2.readLik expf
  match b.2.readMahal with
  | .error e => .error (e, b.2)
  | .ok c => .ok (⟨"CubatureKalmanFilter object",
      [("dim_x", .int n), ("dim_z", .int m), ("dt", .real s.dt), ("x", .vec s.x), ("P", .mat s.P), ("Q", .mat s.Q),
       ("R", .mat s.R), ("K", .mat s.K), ("y", .vec s.y),
       ("log-likelihood", .real a.1), ("likelihood", .real b.1), ("mahalanobis", .real c.1)]⟩, c.2)

/-- `EnsembleKalmanFilter.__repr__` (ensemble_kalman_filter.py 292-309). -/
def EnKF.repr (s : EnKF n m N) : Printed := ⟨"EnsembleKalmanFilter object",
  [("dim_x", .int n), ("dim_z", .int m), ("dt", .real s.dt), ("x", .vec s.x), ("P", .mat s.P),
   ("x_prior", .vec s.xPrior), ("P_prior", .mat s.PPrior), ("Q", .mat s.Q), ("R", .mat s.R), ("K", .mat s.K),
   ("S", .mat s.S), ("sigmas", .mat s.sigmas), ("hx", .fn "hx"), ("fx", .fn "fx")]⟩

/-- `InformationFilter.__repr__` (information_filter.py 381-404). -/
def IF.repr (s : IF n m l) : Printed := ⟨"InformationFilter object",
  [("dim_x", .int n), ("dim_z", .int m), ("dim_u", .int l), ("x", .vec s.x), ("P_inv", .mat s.Pinv),
   ("x_prior", .vec s.xPrior), ("P_inv_prior", .mat s.PinvPrior), ("F", .ofB s.F), ("_F_inv", .ofB s.Finv),
   ("Q", .mat s.Q), ("R_inv", .mat s.Rinv), ("H", .mat s.H), ("K", .mat s.K), ("y", .vec s.y),
   ("z", .meas fun i => s.z.map (· i)), ("S", .mat s.S), ("B", .ofB s.B), ("log-likelihood", .real s.logLik),
   ("likelihood", .real s.lik), ("inv", .fn "inv")]⟩

/-- `SquareRootKalmanFilter.__repr__` (square_root.py 342-360); the scratch array `M` is left out. -/
def SRKF.repr (s : SRKF n m l) : Printed := ⟨"SquareRootKalmanFilter object",
  [("dim_x", .int n), ("dim_z", .int m), ("dim_u", .int l), ("x", .vec s.x), ("P", .mat s.getP), ("F", .mat s.F),
   ("Q", .mat s.getQ), ("R", .mat s.getR), ("H", .mat s.H), ("K", .mat s.K), ("y", .vec s.y), ("S", .mat s.getS),
   ("SI", .mat s.getSI), ("B", .ofB s.B)]⟩

/-- `FixedLagSmoother.__repr__` (fixed_lag_smoother.py 313-330): `dim_x` and `dim_z` are followed by the state; `x_s`
and `K` still have the zeros of `__init__`, because no method ever writes them. -/
def FLS.repr (s : FLS n m l) : Printed := ⟨"FixedLagSmoother object",
  [("dim_x", .vec s.x), ("dim_z", .vec s.x), ("N", .maybe (s.N.map fun k => (k : ℝ))), ("x", .vec s.x),
   ("x_s", .vec (0 : Vec n)), ("P", .mat s.P), ("F", .mat s.F), ("Q", .mat s.Q), ("R", .mat s.R), ("H", .mat s.H),
   ("K", .vec (0 : Vec n)), ("y", .vec s.y), ("S", .mat s.S), ("B", .ofB s.B)]⟩

/-- `HInfinityFilter.__repr__` (hinfinity_filter.py 276-291): `gamma` is followed by `dim_u`; `K` still has the `0` of
`__init__`, because no method ever writes it. -/
def HInf.repr (s : HInf n m l) : Printed := ⟨"HInfinityFilter object",
  [("dim_x", .int n), ("dim_z", .int m), ("dim_u", .int l), ("gamma", .int l), ("x", .vec s.x), ("P", .mat s.P),
   ("F", .mat s.F), ("Q", .mat s.Q), ("V", .mat s.V), ("W", .mat s.W), ("K", .int 0), ("y", .vec s.y)]⟩

/-- `IMMEstimator.__repr__` (IMM.py 251-266). -/
def IMM.repr {σ : Type} (s : IMM σ n N) : Printed := ⟨"IMMEstimator object",
  [("x", .vec s.x), ("P", .mat s.P), ("x_prior", .vec s.xPrior), ("P_prior", .mat s.PPrior), ("x_post", .vec s.xPost),
   ("P_post", .mat s.PPost), ("N", .int N), ("mu", .vec s.mu), ("M", .mat s.M), ("cbar", .vec s.cbar),
   ("likelihood", .vec s.likelihood), ("omega", .mat s.omega)]⟩

/-- `MMAEFilterBank.__repr__` (mmae.py 214-221); the probabilities are labelled `log-p`. -/
def MMAE.repr {σ ζ η : Type} (s : MMAE σ n N ζ η) : Printed := ⟨"MMAEFilterBank object",
  [("dim_x", .int n), ("x", .vec s.x), ("P", .mat s.P), ("log-p", .vec s.p)]⟩

/-- `GHFilter.__repr__` (gh_filter.py 511-523) for a scalar state. -/
def GH.repr (s : GH ℝ) : Printed := ⟨"GHFilter object",
  [("dt", .real s.dt), ("g", .real s.g), ("h", .real s.h), ("x", .real s.x), ("dx", .real s.dx),
   ("x_prediction", .real s.xPred), ("dx_prediction", .real s.dxPred), ("y", .real s.y), ("z", .real s.z)]⟩

/-- `GHKFilter.__repr__` (gh_filter.py 839-854) for a scalar state: the title is that of `GHFilter`, and `ddx_prediction`
is followed by `dx_prediction`. -/
def GHK.repr (s : GHK ℝ) : Printed := ⟨"GHFilter object",
  [("dt", .real s.dt), ("g", .real s.g), ("h", .real s.h), ("k", .real s.k), ("x", .real s.x), ("dx", .real s.dx),
   ("ddx", .real s.ddx), ("x_prediction", .real s.xPred), ("dx_prediction", .real s.dxPred),
   ("ddx_prediction", .real s.dxPred), ("y", .real s.y), ("z", .real s.z)]⟩

/-- `GHFilterOrder.__repr__` (gh_filter.py 183-194). -/
def GHO.repr (s : GHO) : Printed := ⟨"GHFilterOrder object",
  [("dt", .real s.dt), ("order", .int s.order), ("x", .list s.x), ("g", .real s.g), ("h", .maybe s.h), ("k", .maybe s.k),
   ("y", .real s.y), ("z", .real s.z)]⟩

/-- `FadingMemoryFilter.__repr__` (memory/fading_memory.py 147-156). -/
def FadingMemory.repr (s : FadingMemory) : Printed := ⟨"FadingMemoryFilter object",
  [("dt", .real s.dt), ("order", .int s.order), ("beta", .real s.beta), ("x", .list s.x), ("P", .list s.P),
   ("e", .list s.e)]⟩

/-- `LeastSquaresFilter.__repr__` (least_squares.py 207-215). -/
def LSQ.repr (s : LSQ) : Printed := ⟨"LeastSquaresFilter object",
  [("dt", .real s.dt), ("sigma", .real s.sigma), ("_order", .int s.order), ("x", .list s.x), ("K", .list s.K)]⟩

end Filterpy
