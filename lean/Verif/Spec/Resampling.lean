import Verif.Model.Resampling

/-! # Specification vocabulary for resampling -/

namespace Filterpy.Spec

/-- Normalised weights. -/
structure IsWeights {N : ℕ} (w : Fin N → ℝ) : Prop where
  nonneg : ∀ i, 0 ≤ w i
  total : ∑ i, w i = 1

/-- A draw of `random()`. -/
def IsDraw (u : ℝ) : Prop := 0 ≤ u ∧ u < 1

/-- What binary search for `v` (side `left`) guarantees about its answer `i` on an array `c` of
length `N`, sorted or not: everything just before is smaller, the entry there is not. -/
def IsSearch (N : ℕ) (c : ℕ → ℝ) (v : ℝ) (i : ℕ) : Prop :=
  i ≤ N ∧ (0 < i → c (i - 1) < v) ∧ (i < N → v ≤ c i)

/-- `ss` behaves like `np.searchsorted` on arrays of length `N`. -/
def IsSearchSorted (N : ℕ) (ss : (ℕ → ℝ) → ℝ → ℕ) : Prop := ∀ c v, IsSearch N c v (ss c v)

end Filterpy.Spec
