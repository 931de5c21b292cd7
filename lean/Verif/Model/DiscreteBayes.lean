import Verif.Model.Basic
import Mathlib.Data.Int.ModEq

/-!
# Model of `filterpy/discrete_bayes/discrete_bayes.py`

Distributions are vectors over `Fin n`.  The two `scipy.ndimage` routines are modelled by their
documented formulas on a one-dimensional array: `convolve` reads
`out[i] = Σ_j weights[j] * input[i + len(weights)//2 - j]` with the input extended periodically
(`wrap`) or by `cval` (`constant`), and `shift` by an integer moves the samples, filling with
`cval` (its default cubic spline interpolates the samples exactly at integer positions).
-/

namespace Filterpy.DiscreteBayes

variable {n m : ℕ}

/-- `normalize(pdf)` (discrete_bayes.py 26-48).  A zero sum makes every entry `nan`/`inf`. -/
noncomputable def normalize (p : Fin n → ℝ) : Except Err (Fin n → ℝ) :=
  if ∑ i, p i = 0 then .error .nonFinite else .ok fun i => p i / ∑ j, p j

/-- `update(likelihood, prior)` (discrete_bayes.py 51-89). -/
noncomputable def update (lik prior : Fin n → ℝ) : Except Err (Fin n → ℝ) :=
  normalize fun i => prior i * lik i

/-- Position `k` of an array extended periodically. -/
def wrapIdx (n : ℕ) [NeZero n] (k : ℤ) : Fin n :=
  ⟨(k % n).toNat, by
    have h : (0 : ℤ) < n := by exact_mod_cast Nat.pos_of_ne_zero (NeZero.ne n)
    have h1 := Int.emod_nonneg k h.ne'
    have h2 := Int.emod_lt_of_pos k h
    omega⟩

/-- `np.roll(pdf, offset)`. -/
def roll [NeZero n] (p : Fin n → ℝ) (offset : ℤ) : Fin n → ℝ :=
  fun i => p (wrapIdx n (i - offset))

/-- `scipy.ndimage.convolve(x, kernel, mode='wrap')`. -/
def convolveWrap [NeZero n] (x : Fin n → ℝ) (kernel : Fin m → ℝ) : Fin n → ℝ :=
  fun i => ∑ j : Fin m, kernel j * x (wrapIdx n (i + (m / 2 : ℕ) - j))

/-- Entry `k` of an array extended by the constant `cval`. -/
def extend (x : Fin n → ℝ) (cval : ℝ) (k : ℤ) : ℝ :=
  if h : 0 ≤ k ∧ k < n then x ⟨k.toNat, by omega⟩ else cval

/-- `scipy.ndimage.shift(pdf, offset, cval=cval)` for an integer offset. -/
def shift (x : Fin n → ℝ) (offset : ℤ) (cval : ℝ) : Fin n → ℝ :=
  fun i => extend x cval (i - offset)

/-- `scipy.ndimage.convolve(x, kernel, cval=cval, mode='constant')`. -/
def convolveConst (x : Fin n → ℝ) (kernel : Fin m → ℝ) (cval : ℝ) : Fin n → ℝ :=
  fun i => ∑ j : Fin m, kernel j * extend x cval (i + (m / 2 : ℕ) - j)

/-- `predict(pdf, offset, kernel, mode, cval)` (discrete_bayes.py 93-128); `wrap` says whether
`mode == 'wrap'`. -/
def predict [NeZero n] (p : Fin n → ℝ) (offset : ℤ) (kernel : Fin m → ℝ) (wrap : Bool)
    (cval : ℝ) : Fin n → ℝ :=
  if wrap then convolveWrap (roll p offset) kernel
  else convolveConst (shift p offset cval) kernel cval

end Filterpy.DiscreteBayes
