import Verif.Model.Bank

/-!
# Model of `filterpy/kalman/IMM.py`

Division by zero (`np.sum(mu) = 0` or `cbar[j] = 0`) gives `nan`: the run leaves the model (`nonFinite`).
The sums are accumulation loops in the source.
-/

namespace Filterpy

open Matrix

/-- The attributes of an `IMMEstimator` with `N` filters (IMM.py 132-158). -/
structure IMM (σ : Type) (n N : ℕ) where
  filters : Fin N → σ
  mu : Vec N
  M : Mat N N
  x : Vec n
  P : Mat n n
  likelihood : Vec N
  cbar : Vec N
  omega : Mat N N
  xPrior : Vec n
  PPrior : Mat n n
  xPost : Vec n
  PPost : Mat n n

namespace IMM

variable {σ : Type} {n N : ℕ} {ζ υ : Type}

/-- `_compute_state_estimate()` (IMM.py 227-239). -/
noncomputable def estimate (c : FilterClass σ n ζ υ) (s : IMM σ n N) : IMM σ n N :=
  let x := ∑ i, s.mu i • c.x (s.filters i)
  let P := ∑ i, s.mu i • (vecMulVec (c.x (s.filters i) - x) (c.x (s.filters i) - x) + c.P (s.filters i))
  { s with x := x, P := P }

/-- `_compute_mixing_probabilities()` (IMM.py 241-249). -/
noncomputable def mixing (s : IMM σ n N) : Exec (IMM σ n N) :=
  let cbar := s.mu ᵥ* s.M
  let s := { s with cbar := cbar, omega := fun i j => s.M i j * s.mu i / cbar j }
  if ∃ j, cbar j = 0 then .error (.nonFinite, s) else .ok s

/-- `__init__(filters, mu, M)` (IMM.py 132-158); `shape i` is the shape of the `i`-th filter's `x`. -/
noncomputable def init (c : FilterClass σ n ζ υ) (shape : Fin N → List ℕ) (filters : Fin N → σ)
    (mu : Vec N) (M : Mat N N) : Except Err (IMM σ n N) :=
  if N < 2 then .error .valueError
  else if ∃ i j, shape i ≠ shape j then .error .valueError
  else if ∑ i, mu i = 0 then .error .nonFinite
  else
    let s : IMM σ n N :=
      { filters := filters, mu := fun i => mu i / ∑ i, mu i, M := M, x := 0, P := 0, likelihood := 0
        cbar := 0, omega := 0, xPrior := 0, PPrior := 0, xPost := 0, PPost := 0 }
    match s.mixing with
    | .error e => .error e.1
    | .ok s =>
      let s := s.estimate c
      .ok { s with xPrior := s.x, PPrior := s.P, xPost := s.x, PPost := s.P }

/-- `update(z)` (IMM.py 160-186). -/
noncomputable def update (c : FilterClass σ n ζ υ) (s : IMM σ n N) (z : ζ) : Exec (IMM σ n N) :=
  match bankMap (fun _ => c.updLik (fun _ L => L) z) (fun i => (s.filters i, s.likelihood i)) with
  | .error e => .error (e.1, { s with filters := fun i => (e.2 i).1, likelihood := fun i => (e.2 i).2 })
  | .ok fl =>
    let s := { s with filters := fun i => (fl i).1, likelihood := fun i => (fl i).2 }
    let w : Vec N := fun i => s.cbar i * s.likelihood i
    if ∑ i, w i = 0 then .error (.nonFinite, s)
    else
      match ({ s with mu := fun i => w i / ∑ i, w i } : IMM σ n N).mixing with
      | .error e => .error e
      | .ok s =>
        let s := s.estimate c
        .ok { s with xPost := s.x, PPost := s.P }

/-- The mixed initial mean for filter `i` (IMM.py 203-207). -/
noncomputable def mixX (c : FilterClass σ n ζ υ) (s : IMM σ n N) (i : Fin N) : Vec n :=
  ∑ j, s.omega j i • c.x (s.filters j)

/-- The mixed initial covariance for filter `i` (IMM.py 209-213). -/
noncomputable def mixP (c : FilterClass σ n ζ υ) (s : IMM σ n N) (i : Fin N) : Mat n n :=
  ∑ j, s.omega j i • (vecMulVec (c.x (s.filters j) - mixX c s i) (c.x (s.filters j) - mixX c s i)
    + c.P (s.filters j))

/-- `predict(u)` (IMM.py 188-225). -/
noncomputable def predict (c : FilterClass σ n ζ υ) (s : IMM σ n N) (u : υ) : Exec (IMM σ n N) :=
  match bankMap (fun i f => c.predict (c.setXP f (mixX c s i) (mixP c s i)) u) s.filters with
  | .error e => .error (e.1, { s with filters := e.2 })
  | .ok fs =>
    let s := ({ s with filters := fs } : IMM σ n N).estimate c
    .ok { s with xPrior := s.x, PPrior := s.P }

end IMM
end Filterpy
