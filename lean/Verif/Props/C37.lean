import Verif.Mteval.EditLemmas
/-!
# C37: the edit distances are the least number of insertions, deletions and substitutions
-/
namespace Cdec.Edit

variable {α : Type _} [DecidableEq α]

/-- `LevenshteinDistance(a, b)` is the edit distance. -/
theorem C37_levenshtein (a b : List α) : IsEditDistance a b (levenshtein a b) := by
  rw [levenshtein_eq]; exact isEditDistance_ed a b

/-- TER's `MinimumEditDistance` is the edit distance. -/
theorem C37_ter (hyp ref : List α) : IsEditDistance hyp ref (minimumEditDistance hyp ref).1 := by
  rw [(med_ok hyp ref).1]; exact isEditDistance_ed hyp ref

/-- The path it reports leads through the whole of both sentences, labels each word rightly, and has as many errors
as the distance. -/
theorem C37_path (hyp ref : List α) :
    Explains (minimumEditDistance hyp ref).2 hyp ref ∧
      errors (minimumEditDistance hyp ref).2 = (minimumEditDistance hyp ref).1 := by
  obtain ⟨h1, h2, h3⟩ := med_ok hyp ref
  exact ⟨h2, by rw [h3, h1]⟩

omit [DecidableEq α] in
/-- The specification determines the distance. -/
theorem C37_distance_unique (a b : List α) (d d' : Nat) (h : IsEditDistance a b d) (h' : IsEditDistance a b d') :
    d = d' := Nat.le_antisymm (h.2 _ h'.1) (h'.2 _ h.1)

example : levenshtein [1, 2, 3, 4] [1, 3, 5, 4, 6] = 3 ∧ (minimumEditDistance [1, 2, 3, 4] [1, 3, 5, 4, 6]).1 = 3 := by
  decide +kernel

end Cdec.Edit
