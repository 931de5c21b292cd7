import Verif.Model.Basic
import Mathlib.Algebra.Order.Floor.Semiring
import Mathlib.Data.Real.Archimedean

/-!
# Model of `filterpy/monte_carlo/resampling.py`

The draws of `numpy.random.random` are explicit arguments, so every theorem quantifies over
them.  Weights are real; rounding of `cumsum` is not modelled.
-/

namespace Filterpy.Resampling

variable {N : ℕ}

/-- `np.cumsum(weights)[j]`. -/
def cum (w : Fin N → ℝ) (j : ℕ) : ℝ := ∑ i : Fin N, if (i : ℕ) ≤ j then w i else 0

/-- The `while i < N` loop shared by `stratified_resample` and `systematic_resample`
(resampling.py 107-113, 143-149): returns `indexes[i:]`.  Reading `cumulative_sum[j]` with
`j ≥ N` raises `IndexError`. -/
noncomputable def merge (N : ℕ) (pos cs : ℕ → ℝ) (i j : ℕ) : Except Err (List ℕ) :=
  if i < N then
    if j < N then
      if pos i < cs j then
        match merge N pos cs (i + 1) j with
        | .ok r => .ok (j :: r)
        | .error e => .error e
      else merge N pos cs i (j + 1)
    else .error .indexError
  else .ok []
termination_by (N - i) + (N - j)

/-- `stratified_resample(weights)` (resampling.py 80-114) with `u = random(N)`. -/
noncomputable def stratified (w : Fin N → ℝ) (u : ℕ → ℝ) : Except Err (List ℕ) :=
  merge N (fun i => (u i + i) / N) (cum w) 0 0

/-- `systematic_resample(weights)` (resampling.py 117-150) with `u = random()`. -/
noncomputable def systematic (w : Fin N → ℝ) (u : ℝ) : Except Err (List ℕ) :=
  merge N (fun i => (u + i) / N) (cum w) 0 0

/-- `cumulative_sum` with its last entry overwritten by `1.` (resampling.py 73, 175). -/
def forceLast (N : ℕ) (cs : ℕ → ℝ) (j : ℕ) : ℝ := if j + 1 = N then 1 else cs j

/-- `multinomial_resample(weights)` (resampling.py 153-176).  `ss` is `np.searchsorted` on an
array of length `N`.  `cumulative_sum[-1] = 1.` raises `IndexError` when there are no weights. -/
noncomputable def multinomial (ss : (ℕ → ℝ) → ℝ → ℕ) (w : Fin N → ℝ) (u : ℕ → ℝ) :
    Except Err (List ℕ) :=
  if N = 0 then .error .indexError
  else .ok ((List.range N).map fun k => ss (forceLast N (cum w)) (u k))

/-- `num_copies[i] = int(floor(N * w[i]))` (resampling.py 60), for nonnegative weights. -/
noncomputable def numCopies (w : Fin N → ℝ) (i : Fin N) : ℕ := ⌊(N : ℝ) * w i⌋₊

/-- The filled part `indexes[:k]` after the copying loop (resampling.py 61-65). -/
noncomputable def copies (w : Fin N → ℝ) : List ℕ :=
  (List.finRange N).flatMap fun i => List.replicate (numCopies w i) (i : ℕ)

/-- `residual = weights - num_copies; residual /= sum(residual)` (resampling.py 69-70). -/
noncomputable def residual (w : Fin N → ℝ) (i : Fin N) : ℝ :=
  (w i - numCopies w i) / ∑ j, (w j - numCopies w j)

/-- `residual_resample(weights)` (resampling.py 27-76), `u = random(N-k)`.  Writing past the end
of `indexes` raises `IndexError`, and so does `cumulative_sum[-1]` without weights.  If there is
something left to draw and the residuals sum to `0`, the normalisation divides by zero and the
table holds `inf`/`nan` (`nonFinite`). -/
noncomputable def residualResample (ss : (ℕ → ℝ) → ℝ → ℕ) (w : Fin N → ℝ) (u : ℕ → ℝ) :
    Except Err (List ℕ) :=
  let k := (copies w).length
  if N < k then .error .indexError
  else if N = 0 then .error .indexError
  else if k = N then .ok (copies w)
  else if ∑ j, (w j - numCopies w j) = 0 then .error .nonFinite
  else .ok (copies w ++
    (List.range (N - k)).map fun t => ss (forceLast N (cum (residual w))) (u t))

end Filterpy.Resampling
