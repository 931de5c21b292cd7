import Verif.Model.Bank

/-!
# Model of `filterpy/kalman/mmae.py`

`p` holds floats; the state vectors have `dim_x` entries.  `np.asarray(p)` shares the caller's array when one is
passed: see `Model/Arrays`.  A zero total probability gives `nan` (`nonFinite`).
-/

namespace Filterpy

open Matrix

/-- The attributes of an `MMAEFilterBank` of `N` filters (mmae.py 105-137).  `H` is the bank's default for
the measurement matrix argument; `z` is `none` until the first update (it starts as a copy of the first
filter's). -/
structure MMAE (σ : Type) (n N : ℕ) (ζ η : Type) where
  filters : Fin N → σ
  p : Vec N
  H : Option η
  z : Option ζ
  x : Vec n
  P : Mat n n
  xPrior : Vec n
  PPrior : Mat n n
  xPost : Vec n
  PPost : Mat n n

namespace MMAE

variable {σ : Type} {n N : ℕ} {ζ ρ η υ : Type}

/-- `__init__(filters, p, dim_x, H)` (mmae.py 105-137) for `N` filters and `k` probabilities. -/
noncomputable def init (c : FilterClass σ n (ζ × ρ × Option η) υ) (filters : Fin N → σ) {k : ℕ} (p : Vec k)
    (dimX : ℤ) (H : Option η) : Except Err (MMAE σ n N ζ η) :=
  if h : N = k then
    if dimX < 1 then .error .valueError
    else if h0 : N = 0 then .error .indexError
    else
      let f0 := filters ⟨0, by omega⟩
      .ok { filters := filters, p := fun i => p (Fin.cast h i), H := H, z := none, x := c.x f0, P := c.P f0
            xPrior := c.x f0, PPrior := c.P f0, xPost := c.x f0, PPost := c.P f0 }
  else .error .valueError

/-- `predict(u)` (mmae.py 140-158). -/
def predict (c : FilterClass σ n (ζ × ρ × Option η) υ) (s : MMAE σ n N ζ η) (u : υ) : Exec (MMAE σ n N ζ η) :=
  match bankMap (fun _ f => c.predict f u) s.filters with
  | .error e => .error (e.1, { s with filters := e.2 })
  | .ok fs => .ok { s with filters := fs, xPrior := s.x, PPrior := s.P }

/-- The loop that forms `P` (mmae.py 204-206): `zip(self.x, self.filters, self.p)` pairs filter `i` with the
`i`-th *entry* of the state, and stops with the shorter of the two. -/
noncomputable def bankP (c : FilterClass σ n (ζ × ρ × Option η) υ) (x : Vec n) (fs : Fin N → σ) (p : Vec N) :
    Mat n n :=
  ∑ i : Fin N, if h : (i : ℕ) < n then
    p i • (vecMulVec (fun a => c.x (fs i) a - x ⟨i, h⟩) (fun a => c.x (fs i) a - x ⟨i, h⟩) + c.P (fs i))
  else 0

/-- `update(z, R, H)` (mmae.py 160-212). -/
noncomputable def update (c : FilterClass σ n (ζ × ρ × Option η) υ) (s : MMAE σ n N ζ η) (z : ζ) (R : ρ)
    (H : Option η) : Exec (MMAE σ n N ζ η) :=
  match bankMap (fun _ => c.updLik (fun p L => p * L) (z, R, H.or s.H)) (fun i => (s.filters i, s.p i)) with
  | .error e => .error (e.1, { s with filters := fun i => (e.2 i).1, p := fun i => (e.2 i).2 })
  | .ok fp =>
    if ∑ i, (fp i).2 = 0 then
      .error (.nonFinite, { s with filters := fun i => (fp i).1, p := fun i => (fp i).2 })
    else
      let p : Vec N := fun i => (fp i).2 / ∑ i, (fp i).2
      let x := ∑ i, p i • c.x (fp i).1
      let P := bankP c x (fun i => (fp i).1) p
      .ok { s with
        filters := fun i => (fp i).1, p := p, x := x, P := P
        z := some z, xPost := x, PPost := P }

end MMAE
end Filterpy
