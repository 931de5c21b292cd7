import Verif.Spec.Shapes
import Verif.Lemmas.NdArray

/-! # Array operations on vectors stored as 1-D arrays or columns -/

namespace Filterpy

open Matrix Nd

variable {n m l : ℕ}

open Spec

theorem vecAs_shape (col : Bool) (v : Vec n) : (vecAs col v).shape = if col then [n, 1] else [n] := by
  cases col <;> rfl

theorem vecAs_ndim (col : Bool) (v : Vec n) : (vecAs col v).ndim = if col then 2 else 1 := by
  cases col <;> rfl

theorem dot_vecAs (col : Bool) (A : Mat m n) (v : Vec n) :
    dot (.d2 m n A) (vecAs col v) = .ok (vecAs col (A *ᵥ v)) := by
  cases col
  · exact dot_mv A v
  · simp only [vecAs, if_true, dot_mm]
    congr 2

theorem add_vecAs (col : Bool) (v w : Vec n) :
    add (vecAs col v) (vecAs col w) = .ok (vecAs col (v + w)) := by
  cases col
  · exact add_vv v w
  · exact add_mm _ _

theorem sub_vecAs (col : Bool) (v w : Vec n) :
    sub (vecAs col v) (vecAs col w) = .ok (vecAs col (v - w)) := by
  cases col
  · exact sub_vv v w
  · exact sub_mm _ _

theorem reshapeZ_holds (col : Bool) {v : Vec m} {z : Nd} (h : Holds v z) :
    Nd.reshapeZ z m (if col then 2 else 1) = .ok (vecAs col v) := by
  cases h with
  | number a hm hv =>
    subst hm
    cases col <;> simp [Nd.reshapeZ, toArr, Helpers.reshapeZ, Helpers.reshape2, ofArr, vecAs]
    · funext i; exact (hv i).symm
    · congr 1; ext i j; exact (hv i).symm
  | vector =>
    cases col <;>
      simp [Nd.reshapeZ, toArr, Helpers.reshapeZ, Helpers.reshape2, ofArr, vecAs, Nd.get] <;> rfl
  | row =>
    cases col <;>
      simp [Nd.reshapeZ, toArr, Helpers.reshapeZ, Helpers.reshape2, ofArr, vecAs, Nd.get] <;> rfl
  | column =>
    by_cases hm : 1 = m
    · subst hm
      cases col <;>
        simp [Nd.reshapeZ, toArr, Helpers.reshapeZ, Helpers.reshape2, ofArr, vecAs, Nd.get]
      · funext i; rw [Subsingleton.elim i 0]
      · congr 1; ext i j; rw [Subsingleton.elim i 0]; rfl
    · cases col <;>
        simp [Nd.reshapeZ, toArr, Helpers.reshapeZ, Helpers.reshape2, ofArr, vecAs, Nd.get, hm]
      rfl

end Filterpy
