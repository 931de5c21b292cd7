import Verif.Props.KalmanNearby
import Verif.Props.UKFSmallNoise
import Verif.Lemmas.Cholesky
import Mathlib.Topology.Order.Compact
import Mathlib.Topology.Compactness.Compact

/-! # The Cholesky factor depends continuously on the matrix -/

namespace Filterpy

open Matrix Filter Topology Spec

variable {ι : Type} {f : Filter ι} {n : ℕ}

/-- Factors of matrices that approach a matrix with a factor approach that factor. -/
theorem cholFactor_tendsto {A U : ι → Mat n n} {A' U' : Mat n n} (hA : Tendsto A f (𝓝 A'))
    (hU : ∀ᶠ i in f, CholFactor (A i) (U i)) (hU' : CholFactor A' U') : Tendsto U f (𝓝 U') := by
  rw [tendsto_iff_ultrafilter]
  intro g hg
  have hA := hA.mono_left hg
  have hU := hU.filter_mono hg
  have hent (a b : Fin n) : Tendsto (fun i => A i a b) g (𝓝 (A' a b)) :=
    ((continuous_apply_apply a b).tendsto A').comp hA
  let K : Set (Mat n n) := Set.pi Set.univ fun _ => Set.pi Set.univ fun b => Set.Icc (-(A' b b + 2)) (A' b b + 2)
  have hK : IsCompact K := isCompact_univ_pi fun a => isCompact_univ_pi fun b => isCompact_Icc
  have hmem : ∀ᶠ i in (g : Filter ι), U i ∈ K := by
    have h1 : ∀ᶠ i in (g : Filter ι), ∀ b, A i b b < A' b b + 1 :=
      eventually_all.2 fun b => (hent b b).eventually (gt_mem_nhds (by linarith))
    filter_upwards [h1, hU] with i hi hu
    intro a _ b _
    have e : U i a b ^ 2 ≤ A i b b := by
      rw [← hu.eq, mul_apply]
      simp only [transpose_apply, ← sq]
      exact Finset.single_le_sum (f := fun j => U i j b ^ 2) (fun _ _ => sq_nonneg _) (Finset.mem_univ a)
    have e2 := hi b
    constructor <;> nlinarith [sq_nonneg (U i a b - 1), sq_nonneg (U i a b + 1), sq_nonneg (U i a b)]
  obtain ⟨V, -, hV⟩ := hK.ultrafilter_le_nhds (g.map U) (by
    rw [Ultrafilter.coe_map]; exact le_principal_iff.2 hmem)
  have hV : Tendsto U g (𝓝 V) := by rwa [Ultrafilter.coe_map] at hV
  have hVe (a b : Fin n) : Tendsto (fun i => U i a b) g (𝓝 (V a b)) :=
    ((continuous_apply_apply a b).tendsto V).comp hV
  have heq : Vᵀ * V = A' := by
    refine tendsto_nhds_unique (tendsto_mmul (tendsto_transpose hV) hV) (hA.congr' ?_)
    filter_upwards [hU] with i hi using hi.eq.symm
  have hup (a b : Fin n) (h : b < a) : V a b = 0 := by
    refine tendsto_nhds_unique (hVe a b) (tendsto_const_nhds.congr' ?_)
    filter_upwards [hU] with i hi using (hi.upper a b h).symm
  have hnn (a : Fin n) : 0 ≤ V a a := by
    refine ge_of_tendsto (hVe a a) ?_
    filter_upwards [hU] with i hi using (hi.pos a).le
  have hdet : V.det ≠ 0 := by
    have h1 : V.det * V.det = U'.det * U'.det := by
      have := congrArg det (heq.trans hU'.eq.symm)
      simpa only [det_mul, det_transpose] using this
    intro h0
    rw [h0, mul_zero] at h1
    exact mul_self_ne_zero.2 hU'.det_ne h1.symm
  have hpos (a : Fin n) : 0 < V a a := by
    refine (hnn a).lt_of_ne' ?_
    rw [det_of_isUpperTriangular (fun i j hij => hup i j hij)] at hdet
    exact Finset.prod_ne_zero_iff.1 hdet a (Finset.mem_univ a)
  have : V = U' := CholFactor.unique ⟨hup, hpos, heq⟩ hU'
  rwa [← this]

theorem continuous_symUpper : Continuous (symUpper : Mat n n → Mat n n) := by
  refine continuous_matrix fun i j => ?_
  simp only [symUpper]
  split_ifs
  · exact continuous_id.matrix_elem i j
  · exact continuous_id.matrix_elem j i

/-- Where the factorisation succeeds it succeeds nearby, and the factor is continuous. -/
theorem chol_near {chol : Mat n n → Except Err (Mat n n)} (hc : IsCholesky chol) {A : ι → Mat n n} {A' U' : Mat n n}
    (hA : Tendsto A f (𝓝 A')) (h : chol A' = .ok U') :
    ∃ U, (∀ᶠ i in f, chol (A i) = .ok (U i)) ∧ Tendsto U f (𝓝 U') := by
  classical
  have hp' : (symUpper A').PosDef := by
    by_contra hn
    rw [(hc A').2 hn] at h; cases h
  have hU' : CholFactor (symUpper A') U' := by
    obtain ⟨V, h1, h2⟩ := (hc A').1 hp'
    rw [h] at h1
    obtain rfl := Except.ok.inj h1
    exact h2
  have hs : Tendsto (fun i => symUpper (A i)) f (𝓝 (symUpper A')) := (continuous_symUpper.tendsto A').comp hA
  have hp : ∀ᶠ i in f, (symUpper (A i)).PosDef :=
    eventually_posDef hp' hs (.of_forall fun i => symUpper_transpose _)
  let U (i : ι) : Mat n n := if h : (symUpper (A i)).PosDef then ((hc (A i)).1 h).choose else 0
  have hU : ∀ᶠ i in f, chol (A i) = .ok (U i) ∧ CholFactor (symUpper (A i)) (U i) := by
    filter_upwards [hp] with i hi
    simp only [U, dif_pos hi]
    exact ((hc (A i)).1 hi).choose_spec
  exact ⟨U, hU.mono fun i hi => hi.1, cholFactor_tendsto hs (hU.mono fun i hi => hi.2) hU'⟩

end Filterpy
