import Verif.Util.DedupLemmas
/-!
# C124: removing repeated lines
-/
namespace Cdec.Dedup

/-- A hash for examples: the length. -/
def lengthHash (l : List UInt8) : Fin (2 ^ 64) := Fin.ofNat _ l.length

/-- What is printed are lines of the file in their order, none twice, whatever the hash function. -/
theorem C124_lines (hash : List UInt8 → Fin (2 ^ 64)) (file : List (List UInt8)) : (main hash file).Sublist file ∧ (main hash file).Nodup :=
  ⟨loop_sublist hash file [], List.Nodup.of_map hash (loop_hashes hash file []).1⟩

example : (main lengthHash [[1], [1, 2], [1], []]).Nodup := (C124_lines _ _).2

/-- If different lines of the file have different hashes, every line is printed.  Missing from the full claim: other files (C124_collision_fails). -/
theorem C124_all_partial (hash : List UInt8 → Fin (2 ^ 64)) (file : List (List UInt8)) (hinj : ∀ a ∈ file, ∀ b ∈ file, hash a = hash b → a = b) :
    ∀ l, l ∈ main hash file ↔ l ∈ file := by
  intro l
  constructor
  · exact fun h => (loop_sublist hash file []).subset h
  · intro h
    rcases loop_covers hash file [] l h with h' | ⟨m, hm, e⟩
    · simp at h'
    · have := hinj m ((loop_sublist hash file []).subset hm) l h e
      exact this ▸ hm

/-- In this case a line is printed at its first occurrence: what a longer file adds to the output are the new lines of the rest. -/
theorem C124_first_partial (hash : List UInt8 → Fin (2 ^ 64)) (xs : List (List UInt8)) (l : List UInt8)
    (hinj : ∀ a ∈ xs, hash a = hash l → a = l) : main hash (xs ++ [l]) = if l ∈ xs then main hash xs else main hash xs ++ [l] := by
  obtain ⟨s, e, hs⟩ := loop_append hash [l] xs []
  unfold main
  rw [e]
  by_cases hl : l ∈ xs
  · have : hash l ∈ s := (hs _).2 (Or.inr ⟨l, hl, rfl⟩)
    simp [loop, this, hl]
  · have : hash l ∉ s := by
      intro hm
      rcases (hs _).1 hm with h | ⟨x, hx, e⟩
      · simp at h
      · exact hl (hinj x hx e ▸ hx)
    simp [loop, this, hl]

example : ∀ l, l ∈ main lengthHash [[1], [1, 2], [1], []] ↔ l ∈ [[1], [1, 2], [1], ([] : List UInt8)] := C124_all_partial _ _ (by decide)
example : main lengthHash ([[1], [1, 2], [1]] ++ [[]]) = main lengthHash [[1], [1, 2], [1]] ++ [[]] := by
  rw [C124_first_partial _ _ _ (by decide), if_neg (by decide)]

/-- Running it again changes nothing. -/
theorem C124_again (hash : List UInt8 → Fin (2 ^ 64)) (file : List (List UInt8)) : main hash (main hash file) = main hash file :=
  loop_id hash _ [] (loop_hashes hash file []).1 (by simp)

example : main lengthHash (main lengthHash [[1], [2], [1, 2]]) = main lengthHash [[1], [2], [1, 2]] := C124_again _ _

/-- With any hash function of 64 bits there is a file of two different lines of which only one is printed. -/
theorem C124_collision_fails (hash : List UInt8 → Fin (2 ^ 64)) : ∃ a b : List UInt8, a ≠ b ∧ main hash [a, b] = [a] := by
  have hni := not_injective_infinite_finite hash
  simp only [Function.Injective, not_forall] at hni
  obtain ⟨a, b, e, hne⟩ := hni
  exact ⟨a, b, hne, by simp [main, loop, e]⟩

end Cdec.Dedup
