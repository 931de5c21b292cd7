import Verif.Model.KalmanFilter

/-!
# Filter banks: what `IMMEstimator` and `MMAEFilterBank` use of their filters

Both classes work with any objects that have `x`, `P`, `predict`, `update` and `likelihood`.  The filters of
a bank are assumed to be distinct objects.
-/

namespace Filterpy

open Matrix

/-- The interface of a filter in a bank; `ζ` are the arguments of `update`, `υ` those of `predict`.
`likelihood` returns the value and the object with its caches filled. -/
structure FilterClass (σ : Type) (n : ℕ) (ζ υ : Type) where
  x : σ → Vec n
  P : σ → Mat n n
  setXP : σ → Vec n → Mat n n → σ
  predict : σ → υ → Exec σ
  update : σ → ζ → Exec σ
  likelihood : σ → ℝ × σ

/-- `KalmanFilter` in a bank: `update(z, R, H)`, `predict(u)` (kalman_filter.py 437-561, 1212-1225). -/
noncomputable def kfClass (expf : ℝ → ℝ) (n m l : ℕ) :
    FilterClass (KF n m l) n (Option (Vec m) × MatArg m × Option (Mat m n)) (UArg l) where
  x := KF.x
  P := KF.P
  setXP s x P := { s with x := x, P := P }
  predict s u := s.predict u
  update s a := s.update a.1 a.2.1 a.2.2
  likelihood s := s.readLik expf

/-- The same with `update(z)` only, as `IMMEstimator` calls it. -/
noncomputable def kfClassZ (expf : ℝ → ℝ) (n m l : ℕ) :
    FilterClass (KF n m l) n (Option (Vec m)) (UArg l) where
  x := KF.x
  P := KF.P
  setXP s x P := { s with x := x, P := P }
  predict s u := s.predict u
  update s z := s.update z
  likelihood s := s.readLik expf

/-- Call a method on filter `i`. -/
def bankStep {σ : Type} {N : ℕ} (g : Fin N → σ → Exec σ) (fs : Fin N → σ) (i : Fin N) : Exec (Fin N → σ) :=
  match g i (fs i) with
  | .ok f => .ok (Function.update fs i f)
  | .error e => .error (e.1, Function.update fs i e.2)

/-- Call a method on every filter in order; an exception leaves the earlier filters changed. -/
def bankMap {σ : Type} {N : ℕ} (g : Fin N → σ → Exec σ) (fs : Fin N → σ) : Exec (Fin N → σ) :=
  runList (bankStep g) fs (List.finRange N)

/-- `f.update(z)` and then `f.likelihood`; the number `v` becomes `comb v likelihood`. -/
noncomputable def FilterClass.updLik {σ : Type} {n : ℕ} {ζ υ : Type} (c : FilterClass σ n ζ υ)
    (comb : ℝ → ℝ → ℝ) (a : ζ) (fv : σ × ℝ) : Exec (σ × ℝ) :=
  match c.update fv.1 a with
  | .error e => .error (e.1, (e.2, fv.2))
  | .ok f => .ok ((c.likelihood f).2, comb fv.2 (c.likelihood f).1)

end Filterpy
