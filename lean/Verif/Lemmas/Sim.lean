import Verif.Model.Basic

/-! # Simulation between two objects driven by the same calls -/

namespace Filterpy

/-- Two runs agree: both end normally in related states, or both end with the same exception in
related states. -/
def Agree {σ τ : Type*} (R : σ → τ → Prop) : Exec σ → Exec τ → Prop
  | .ok s, .ok t => R s t
  | .error e, .error e' => e.1 = e'.1 ∧ R e.2 e'.2
  | _, _ => False

theorem Agree.mono {σ τ : Type*} {R R' : σ → τ → Prop} (h : ∀ s t, R s t → R' s t)
    {a : Exec σ} {b : Exec τ} (hab : Agree R a b) : Agree R' a b := by
  cases a <;> cases b <;> simp only [Agree] at hab ⊢
  · exact ⟨hab.1, h _ _ hab.2⟩
  · exact h _ _ hab

theorem Agree.ok_left {σ τ : Type*} {R : σ → τ → Prop} {s : σ} {b : Exec τ}
    (h : Agree R (.ok s) b) : ∃ t, b = .ok t ∧ R s t := by
  cases b with
  | ok t => exact ⟨t, rfl, h⟩
  | error e => exact h.elim

theorem Agree.ok_right {σ τ : Type*} {R : σ → τ → Prop} {t : τ} {a : Exec σ}
    (h : Agree R a (.ok t)) : ∃ s, a = .ok s ∧ R s t := by
  cases a with
  | ok s => exact ⟨s, rfl, h⟩
  | error e => exact h.elim

/-- A simulation step lifts to call sequences. -/
theorem runList_agree {σ τ ι : Type*} {R : σ → τ → Prop} {f : σ → ι → Exec σ}
    {g : τ → ι → Exec τ} (is : List ι)
    (step : ∀ s t, ∀ i ∈ is, R s t → Agree R (f s i) (g t i)) (s : σ) (t : τ) (h : R s t) :
    Agree R (runList f s is) (runList g t is) := by
  induction is generalizing s t with
  | nil => exact h
  | cons i is ih =>
    have h1 := step s t i (by simp) h
    simp only [runList]
    cases hf : f s i <;> cases hg : g t i <;> rw [hf, hg] at h1 <;> simp only [Agree] at h1
    · exact h1
    · exact ih (fun s t j hj => step s t j (by simp [hj])) _ _ h1

end Filterpy
