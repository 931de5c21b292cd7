import Verif.Model.SigmaShapes

/-!
# Arguments of `sigma_points` that name a state and a covariance
-/

namespace Filterpy.Spec

open Matrix

/-- What the documentation calls an array-like of the means of length `n`: `1` if `n = 1`, `[1, 2]`,
`np.array([1, 2])`, also as a single row. -/
inductive StateOf (n : ℕ) : SigX → Vec n → Prop
  | number (h : n = 1) (c : ℝ) : StateOf n (.scalar c) fun _ => c
  | list (v : Vec n) : StateOf n (.list n v) v
  | flat (v : Vec n) : StateOf n (.arr (.d1 n v)) v
  | row (v : Vec n) : StateOf n (.arr (.d2 1 n fun _ => v)) v
  | single (h : n = 1) (c : ℝ) : StateOf n (.arr (.d0 c)) fun _ => c

/-- An array, not a list, of `n` entries in any arrangement, read row by row. -/
inductive EntriesOf (n : ℕ) : SigX → Vec n → Prop
  | number (h : n = 1) (c : ℝ) : EntriesOf n (.scalar c) fun _ => c
  | flat (v : Vec n) : EntriesOf n (.arr (.d1 n v)) v
  | single (h : n = 1) (c : ℝ) : EntriesOf n (.arr (.d0 c)) fun _ => c
  | shaped (a b : ℕ) (A : Mat a b) (v : Vec n) (h : a * b = n)
      (hv : ∀ (i : Fin a) (j : Fin b) (k : Fin n), (k : ℕ) = b * i + j → v k = A i j) : EntriesOf n (.arr (.d2 a b A)) v

/-- A covariance: a number `c` for `c·I`, an `n × n` array, and for `n = 1` also arrays `c` and `[c]`. -/
inductive CovOf (n : ℕ) : SigP → Mat n n → Prop
  | number (c : ℝ) : CovOf n (.scalar c) (c • 1)
  | matrix (M : Mat n n) : CovOf n (.arr (.d2 n n M)) M
  | flat (h : n = 1) (c : ℝ) : CovOf n (.arr (.d1 1 fun _ => c)) fun _ _ => c
  | single (h : n = 1) (c : ℝ) : CovOf n (.arr (.d0 c)) fun _ _ => c

end Filterpy.Spec
