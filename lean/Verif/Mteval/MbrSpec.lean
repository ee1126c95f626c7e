import Verif.Mteval.Mbr
import Mathlib.Algebra.BigOperators.Group.List.Basic
/-!
# What minimum Bayes risk decoding should print
-/
namespace Cdec.Mbr

/-- The probability of an item of a list. -/
noncomputable def posterior (l : List Item) (x : Item) : ℝ := x.weight / (l.map Item.weight).sum

/-- The expected error of a translation: `error hyp ref` is the error of a hypothesis if the right translation is `ref`. -/
noncomputable def expectedError (error : List Nat → List Nat → ℝ) (l : List Item) (hyp : List Nat) : ℝ :=
  (l.map fun x => error hyp x.words * posterior l x).sum

/-- A translation of the list with the least expected error. -/
def IsMbr (error : List Nat → List Nat → ℝ) (l : List Item) (hyp : List Nat) : Prop :=
  (∃ x ∈ l, x.words = hyp) ∧ ∀ x ∈ l, expectedError error l hyp ≤ expectedError error l x.words

/-- The lines of a file in which the sentences are `gs`: their ids and their hypotheses. -/
def fileOf (gs : List (Nat × List (List Nat × ℝ))) : List Line :=
  gs.flatMap fun g => g.2.map fun h => { id := g.1, words := h.1, value := h.2 }

/-- No id is empty, no list is empty, and neighbours have different ids. -/
def Grouped : List (Nat × List (List Nat × ℝ)) → Prop
  | [] => True
  | [g] => g.1 ≠ 0 ∧ g.2 ≠ []
  | g :: h :: gs => g.1 ≠ 0 ∧ g.2 ≠ [] ∧ g.1 ≠ h.1 ∧ Grouped (h :: gs)

/-- The list of a sentence, with the scaled scores. -/
noncomputable def itemsOf (scale offset : ℝ) (g : Nat × List (List Nat × ℝ)) : List Item :=
  g.2.map fun h => { words := h.1, weight := Real.exp (h.2 * scale + offset) }

end Cdec.Mbr
