import Mathlib.LinearAlgebra.Matrix.NonsingularInverse
import Mathlib.Data.Real.Basic

/-!
# Shared conventions of the model

Scalars are real numbers (floating point rounding is not modelled, see DESIGN.md).
A numpy array of shape `(m, n)` is a `Mat m n`; a state or measurement vector, whether
stored 1-D or as a column, is a `Vec n`.
-/

namespace Filterpy

/-- numpy vector with `n` entries (1-D array or column vector). -/
abbrev Vec (n : ℕ) := Fin n → ℝ

/-- numpy array of shape `(m, n)`. -/
abbrev Mat (m n : ℕ) := Matrix (Fin m) (Fin n) ℝ

/-- The Python exceptions that occur in the modelled code.  `nonFinite` and `shape` are not
exceptions: they mark runs that leave the model, because numpy would carry on with
`inf`/`nan` (`nonFinite`) or with an attribute broadcast to another shape (`shape`). -/
inductive Err
  | valueError | typeError | indexError | attributeError | nameError
  | linAlgError | zeroDivision | assertion | notImplemented | nonFinite | shape
  deriving DecidableEq, Repr

/-- Outcome of a method that mutates an object of type `σ`: either the new state, or an
exception together with the state the object was left in when it was raised. -/
abbrev Exec (σ : Type*) := Except (Err × σ) σ

/-- The object after a call, whether the call returned or raised. -/
def Exec.left {σ : Type*} : Exec σ → σ
  | .ok s => s
  | .error e => e.2

/-- A sequence of calls of the same method on one object; the first exception ends it. -/
def runList {σ ι : Type*} (f : σ → ι → Exec σ) : σ → List ι → Exec σ
  | s, [] => .ok s
  | s, i :: is => match f s i with
    | .ok s' => runList f s' is
    | .error e => .error e

/-- `numpy.linalg.inv` / `scipy.linalg.inv`: the inverse, or `LinAlgError` (`none`) for a
singular matrix. -/
noncomputable def npInv {m : ℕ} (A : Mat m m) : Option (Mat m m) :=
  if A.det = 0 then none else some A⁻¹

/-- A matrix-valued optional argument that may also be a scalar (`isscalar(Q)`). -/
inductive MatArg (n : ℕ)
  | none
  | scalar (c : ℝ)
  | mat (A : Mat n n)

/-- The resolution `if Q is None: Q = self.Q  elif isscalar(Q): Q = eye(dim)*Q`
(kalman_filter.py 463-466, 521-524 and many more). -/
noncomputable def MatArg.resolve {n : ℕ} (a : MatArg n) (dflt : Mat n n) : Mat n n :=
  match a with
  | .none => dflt
  | .scalar c => c • (1 : Mat n n)
  | .mat A => A

end Filterpy
