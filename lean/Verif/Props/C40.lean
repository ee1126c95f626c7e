import Verif.Extract.SuffixInitLemmas
import Verif.Props.C62
/-!
# C40: The suffix array is the sorted list of suffixes

The text is the sequence of word numbers of a data array built from any lines.  The reserved word `__NULL__` must
not occur in the corpus: its number is the sentinel of the sort (see `C40_null_word_fails`).
-/
namespace Cdec.Extract

theorem data_words (lines : List (List String)) (h : ∀ l ∈ lines, "__NULL__" ∉ l) :
    ∀ w ∈ (createDataArray lines).data, 0 < w ∧ w < (createDataArray lines).id2word.length := by
  obtain ⟨ok, dec, _⟩ := createDataArray_fields lines
  intro w hw
  have hm : (createDataArray lines).id2word[w]? ∈ (textOf lines).map some := by
    rw [← dec]; exact List.mem_map_of_mem hw
  obtain ⟨x, hx, e⟩ := List.mem_map.1 hm
  refine ⟨?_, (List.getElem?_eq_some_iff.1 e.symm).1⟩
  rcases Nat.eq_zero_or_pos w with rfl | hp
  · rw [ok.null] at e
    have hxe : x = "__NULL__" := Option.some.inj e
    subst hxe
    obtain ⟨l, hl, hxl⟩ := List.mem_flatMap.1 hx
    rcases List.mem_append.1 hxl with h1 | h1
    · exact absurd h1 (h l hl)
    · exact absurd h1 (by simp [eolStr])
  · exact hp

/-- For every corpus and every sequence of pivots, the construction terminates without an access outside its
vectors and yields a permutation of all positions (including the end of the text) in strictly increasing
lexicographic order of the suffixes. -/
theorem C40_suffix_array (lines : List (List String)) (h : ∀ l ∈ lines, "__NULL__" ∉ l) (rnd : Nat → Nat) :
    ∃ s, buildSuffixArray (createDataArray lines).data (createDataArray lines).id2word.length rnd = some s ∧
      s.sa.Perm (List.range ((createDataArray lines).data.length + 1)) ∧
      s.sa.Pairwise (fun p q => (createDataArray lines).data.drop p < (createDataArray lines).data.drop q) := by
  obtain ⟨ok, _⟩ := createDataArray_fields lines
  have hpos : 0 < (createDataArray lines).id2word.length := (List.getElem?_eq_some_iff.1 ok.null).1
  obtain ⟨s, e, h1, h2, _⟩ := build_spec (createDataArray lines).data (createDataArray lines).id2word.length rnd hpos
    (data_words lines h)
  exact ⟨s, e, h1, h2⟩

/-- The result does not depend on the pivots. -/
theorem C40_pivots_irrelevant (lines : List (List String)) (h : ∀ l ∈ lines, "__NULL__" ∉ l) (rnd rnd' : Nat → Nat) :
    (buildSuffixArray (createDataArray lines).data (createDataArray lines).id2word.length rnd).map SuffixArray.sa =
    (buildSuffixArray (createDataArray lines).data (createDataArray lines).id2word.length rnd').map SuffixArray.sa := by
  obtain ⟨s, e, h1, h2⟩ := C40_suffix_array lines h rnd
  obtain ⟨s', e', h1', h2'⟩ := C40_suffix_array lines h rnd'
  rw [e, e', Option.map_some, Option.map_some, Option.some.injEq]
  have asym : ∀ p q, (createDataArray lines).data.drop p < (createDataArray lines).data.drop q →
      (createDataArray lines).data.drop q < (createDataArray lines).data.drop p → p = q := by
    intro p q h3 h4; exact absurd h4 (List.lt_asymm h3)
  exact List.Perm.eq_of_pairwise (fun p q _ _ h3 h4 => asym p q h3 h4) h2 h2' (h1.trans h1'.symm)

/-- A corpus holding the reserved word makes the construction read outside its vectors. -/
theorem C40_null_word_fails :
    buildSuffixArray (createDataArray [["__NULL__"]]).data (createDataArray [["__NULL__"]]).id2word.length
      (fun _ => 0) = none := by decide +kernel

example : (∀ l ∈ [["a", "b", "a", "b"], ["b", "a"]], "__NULL__" ∉ l) ∧
    (buildSuffixArray (createDataArray [["a", "b", "a", "b"], ["b", "a"]]).data
      (createDataArray [["a", "b", "a", "b"], ["b", "a"]]).id2word.length (fun k => k * 7 + 3)).map SuffixArray.sa =
    some [8, 7, 4, 6, 2, 0, 3, 5, 1] := by decide +kernel

end Cdec.Extract
