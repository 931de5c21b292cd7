import Verif.Model.Basic
import Mathlib.Topology.Instances.Matrix
import Mathlib.Analysis.SpecialFunctions.Log.Basic

/-!
# Limits of matrices
-/

namespace Filterpy

open Matrix Filter Topology

variable {a b c : ℕ}

theorem tendsto_mmul {ι : Type*} {l : Filter ι} {A : ι → Mat a b} {B : ι → Mat b c} {A' : Mat a b} {B' : Mat b c} (hA : Tendsto A l (𝓝 A'))
    (hB : Tendsto B l (𝓝 B')) : Tendsto (fun N => A N * B N) l (𝓝 (A' * B')) :=
  ((continuous_fst.matrix_mul continuous_snd).tendsto (A', B')).comp (hA.prodMk_nhds hB)

theorem tendsto_mulVec {ι : Type*} {l : Filter ι} {A : ι → Mat a b} {x : ι → Vec b} {A' : Mat a b} {x' : Vec b} (hA : Tendsto A l (𝓝 A'))
    (hx : Tendsto x l (𝓝 x')) : Tendsto (fun N => A N *ᵥ x N) l (𝓝 (A' *ᵥ x')) :=
  ((continuous_fst.matrix_mulVec continuous_snd).tendsto (A', x')).comp (hA.prodMk_nhds hx)

theorem tendsto_transpose {ι : Type*} {l : Filter ι} {A : ι → Mat a b} {A' : Mat a b} (hA : Tendsto A l (𝓝 A')) :
    Tendsto (fun N => (A N)ᵀ) l (𝓝 A'ᵀ) := (continuous_id.matrix_transpose.tendsto A').comp hA

theorem tendsto_minv {ι : Type*} {l : Filter ι} {A : ι → Mat a a} {A' : Mat a a} (hA : Tendsto A l (𝓝 A')) (h : A'.det ≠ 0) :
    Tendsto (fun N => (A N)⁻¹) l (𝓝 A'⁻¹) := by
  simp only [Matrix.inv_def, Ring.inverse_eq_inv']
  have h1 := (continuous_id.matrix_det.tendsto A').comp hA
  have h2 := (continuous_id.matrix_adjugate.tendsto A').comp hA
  exact (h1.inv₀ h).smul h2

end Filterpy
