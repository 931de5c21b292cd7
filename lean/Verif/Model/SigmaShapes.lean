import Verif.Model.NdArray
import Verif.Model.SigmaPoints

/-!
# `sigma_points(x, P)` with run-time shapes

`Model/SigmaPoints` types the arguments by the dimension `n`.  Here they are numbers, lists and arrays of any
shape, and the checks, broadcasting rules and exceptions of sigma_points.py 153-177, 330-357 and 484-513 are
followed.  `subtract` is the default `np.subtract`.  The square root is a parameter on square matrices of any
size; `scipy.linalg.cholesky`, the default, raises `ValueError` for an array that is not square.
-/

namespace Filterpy

open Matrix

/-- The argument `x`: a number (`np.isscalar`), a list of `n` numbers, or an array. -/
inductive SigX
  | scalar (c : ℝ)
  | list (n : ℕ) (v : Vec n)
  | arr (a : Nd)

/-- The argument `P`: a number (`np.isscalar`) or anything `np.atleast_2d` makes an array of. -/
inductive SigP
  | scalar (c : ℝ)
  | arr (a : Nd)

/-- `np.size(x)`. -/
def SigX.size : SigX → ℕ
  | .scalar _ => 1
  | .list n _ => n
  | .arr a => a.rows * a.cols

/-- `if np.isscalar(x): x = np.asarray([x])` (sigma_points.py 159-160, 336-337); a list is converted by the
numpy functions it is given to. -/
def SigX.nd : SigX → Nd
  | .scalar c => .d1 1 fun _ => c
  | .list n v => .d1 n v
  | .arr a => a

/-- `if np.isscalar(P): P = np.eye(n)*P  else: P = np.atleast_2d(P)` (sigma_points.py 162-165, 341-344,
494-497). -/
def SigP.nd (n : ℕ) : SigP → (m : ℕ) × (k : ℕ) × Mat m k
  | .scalar c => ⟨n, n, c • 1⟩
  | .arr a => ⟨a.rows, a.cols, fun i j => a.get i j⟩

/-- The square root of an array: `ValueError` if it is not square (scipy's check). -/
def sqrtNd (sqrt : ∀ k, Mat k k → Except Err (Mat k k)) : (m : ℕ) × (k : ℕ) × Mat m k → Except Err ((m : ℕ) × Mat m m)
  | ⟨m, k, A⟩ =>
    if h : k = m then
      match sqrt m (h ▸ A : Mat m m) with
      | .ok U => .ok ⟨m, U⟩
      | .error e => .error e
    else .error .valueError

/-- `U[k]`; `IndexError` beyond the last row. -/
def rowNd : (m : ℕ) × Mat m m → ℕ → Except Err Nd
  | ⟨m, U⟩, k => if h : k < m then .ok (.d1 m (U ⟨k, h⟩)) else .error .indexError

/-- `sigmas[i] = r`: leading axes of length one are dropped, a single number is repeated, and any other shape than
`(n,)` raises `ValueError`. -/
def assignRow (n : ℕ) (r : Nd) : Except Err (Vec n) :=
  if r.rows = 1 ∧ (r.cols = n ∨ r.cols = 1) then .ok fun j => r.get 0 (Nd.bidx r.cols j) else .error .valueError

/-- `subtract(x, ±U[k])` stored in row `i` of `sigmas` (sigma_points.py 174, 175, 355, 356). -/
def storeRow (n : ℕ) (x : Nd) (U : (m : ℕ) × Mat m m) (sign : ℝ) (k i : ℕ) (s : ℕ → Vec n) :
    Except Err (ℕ → Vec n) :=
  match rowNd U k with
  | .error e => .error e
  | .ok u =>
    match Nd.sub x (Nd.smul sign u) with
    | .error e => .error e
    | .ok d =>
      match assignRow n d with
      | .error e => .error e
      | .ok r => .ok (Function.update s i r)

/-- The body of `for k in range(n)` (sigma_points.py 172-175, 353-356). -/
def symTurn (n : ℕ) (x : Nd) (U : (m : ℕ) × Mat m m) (s : ℕ → Vec n) (k : ℕ) : Except Err (ℕ → Vec n) :=
  match storeRow n x U (-1) k (k + 1) s with
  | .error e => .error e
  | .ok s => storeRow n x U 1 k (n + k + 1) s

/-- `for k in range(n)`: the first `k` turns. -/
def symLoop (n : ℕ) (x : Nd) (U : (m : ℕ) × Mat m m) (s : ℕ → Vec n) : ℕ → Except Err (ℕ → Vec n)
  | 0 => .ok s
  | k + 1 =>
    match symLoop n x U s k with
    | .error e => .error e
    | .ok s => symTurn n x U s k

/-- `MerweScaledSigmaPoints.sigma_points` (sigma_points.py 153-177) and `JulierSigmaPoints.sigma_points`
(330-357), with `c = lambda_ + n` and `c = n + kappa`. -/
def symmetricNd (n : ℕ) (c : ℝ) (sqrt : ∀ k, Mat k k → Except Err (Mat k k)) (x : SigX) (P : SigP) :
    Except Err (Mat (2 * n + 1) n) :=
  if n ≠ x.size then .error .valueError
  else
    match sqrtNd sqrt ⟨(P.nd n).1, (P.nd n).2.1, c • (P.nd n).2.2⟩ with
    | .error e => .error e
    | .ok U =>
      match assignRow n x.nd with
      | .error e => .error e
      | .ok r =>
        match symLoop n x.nd U (Function.update (fun _ => 0) 0 r) n with
        | .error e => .error e
        | .ok s => .ok fun i => s i

/-- `x.reshape(-1, 1)` (sigma_points.py 492); a list has no such method. -/
def SigX.column (n : ℕ) : SigX → Except Err (Vec n)
  | .scalar c => .ok fun _ => c
  | .list _ _ => .error .attributeError
  | .arr a => .ok fun i => a.get (i / a.cols) (i % a.cols)

/-- `SimplexSigmaPoints.sigma_points` (sigma_points.py 484-513); `U.T.dot(I)` raises `ValueError` unless `U` has
`n` rows. -/
noncomputable def simplexNd (n : ℕ) (sqrt : ∀ k, Mat k k → Except Err (Mat k k)) (x : SigX) (P : SigP) :
    Except Err (Mat (n + 1) n) :=
  if n ≠ x.size then .error .valueError
  else
    match x.column n with
    | .error e => .error e
    | .ok v =>
      match sqrtNd sqrt (P.nd n) with
      | .error e => .error e
      | .ok ⟨m, U⟩ =>
        if h : m = n then .ok fun i => v - fun a => -((h ▸ U : Mat n n)ᵀ * SigmaPts.simplexI n) a i
        else .error .valueError

/-- The points of a typed sigma point object as one array of `num_sigmas()` rows. -/
def SigmaPts.call {n : ℕ} (p : SigmaPts n) (x : Vec n) (P : Mat n n) : Except Err ((k : ℕ) × Mat k n) :=
  (p.points x P).map fun A => ⟨p.num, A⟩

/-- `MerweScaledSigmaPoints(n, alpha, beta, kappa).sigma_points(x, P)`; `lambda_` is line 167. -/
noncomputable def merweNd (n : ℕ) (alpha kappa : ℝ) (sqrt : ∀ k, Mat k k → Except Err (Mat k k)) (x : SigX) (P : SigP) :
    Except Err ((k : ℕ) × Mat k n) :=
  (symmetricNd n (alpha ^ 2 * (n + kappa) - n + n) sqrt x P).map fun A => ⟨_, A⟩

/-- `JulierSigmaPoints(n, kappa).sigma_points(x, P)`. -/
noncomputable def julierNd (n : ℕ) (kappa : ℝ) (sqrt : ∀ k, Mat k k → Except Err (Mat k k)) (x : SigX) (P : SigP) :
    Except Err ((k : ℕ) × Mat k n) :=
  (symmetricNd n (n + kappa) sqrt x P).map fun A => ⟨_, A⟩

end Filterpy
