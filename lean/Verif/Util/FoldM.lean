/-! # Loops that may fail: `List.foldlM` in `Option` -/
namespace Cdec
variable {σ β : Type}

/-- Invariant rule; `I done s` may mention the elements processed so far. -/
theorem foldlM_inv (step : σ → β → Option σ) (I : List β → σ → Prop) :
    ∀ (ps done : List β) (s : σ), I done s →
      (∀ d p rest s, done ++ ps = d ++ p :: rest → I d s → ∃ s', step s p = some s' ∧ I (d ++ [p]) s') →
      ∃ s', ps.foldlM step s = some s' ∧ I (done ++ ps) s' := by
  intro ps
  induction ps with
  | nil => intro done s h _; exact ⟨s, rfl, by simpa using h⟩
  | cons p ps ih =>
    intro done s h hstep
    obtain ⟨s1, h1, h2⟩ := hstep done p ps s rfl h
    obtain ⟨s2, h3, h4⟩ := ih (done ++ [p]) s1 h2 (fun d q rest s he => hstep d q rest s (by simpa using he))
    refine ⟨s2, ?_, by simpa using h4⟩
    rw [List.foldlM_cons, h1]
    exact h3

/-- Simple invariant rule. -/
theorem foldlM_inv' (step : σ → β → Option σ) (I : σ → Prop) (ps : List β) (s : σ) (h : I s)
    (hstep : ∀ s, ∀ p ∈ ps, I s → ∃ s', step s p = some s' ∧ I s') :
    ∃ s', ps.foldlM step s = some s' ∧ I s' := by
  obtain ⟨s', h1, h2⟩ := foldlM_inv step (fun _ => I) ps [] s h (fun d p rest s he => by
    have he' : ps = d ++ p :: rest := by simpa using he
    exact hstep s p (by rw [he']; simp))
  exact ⟨s', h1, h2⟩

end Cdec
