import Verif.Extract.DataArrayLemmas
import Mathlib.Tactic.ByContra
/-!
# C62: A data array represents its text
-/
namespace Cdec.Extract

theorem createDataArray_fields (lines : List (List String)) :
    WordsOK (createDataArray lines) ∧
    (createDataArray lines).data.map ((createDataArray lines).id2word[·]?) = (textOf lines).map some ∧
    (createDataArray lines).sentenceStart =
      (List.range (lines.length + 1)).map (fun i => (textOf (lines.take i)).length) ∧
    (createDataArray lines).sentenceId = lines.zipIdx.flatMap (fun li => List.replicate (li.1.length + 1) li.2) := by
  have inv := lines_inv lines
  refine ⟨⟨inv.ok.iff, inv.ok.null, inv.ok.eol⟩, inv.dec, ?_, inv.sid⟩
  simp only [createDataArray, inv.starts]
  rw [List.range_succ (n := lines.length), List.map_append]
  have := congrArg List.length inv.dec
  simp only [List.length_map] at this
  simp [this]

/-- The word at every index is the word of the text at that index, where the text is the concatenation of the
lines with an end-of-line marker after each. -/
theorem C62_words (lines : List (List String)) (i : Nat) :
    (createDataArray lines).getWordAtIndex i = (lines.flatMap (· ++ ["__END_OF_LINE__"]))[i]? := by
  obtain ⟨_, h, _⟩ := createDataArray_fields lines
  have := congrArg (fun l : List (Option String) => l[i]?) h
  simp only [List.getElem?_map, textOf, eolStr] at this
  unfold DataArray.getWordAtIndex
  cases hd : (createDataArray lines).data[i]? with
  | none =>
    rw [hd] at this
    cases hr : (lines.flatMap (· ++ ["__END_OF_LINE__"]))[i]? with
    | none => rfl
    | some x => rw [hr] at this; simp at this
  | some k =>
    rw [hd] at this
    cases hr : (lines.flatMap (· ++ ["__END_OF_LINE__"]))[i]? with
    | none => rw [hr] at this; simp at this
    | some x => rw [hr] at this; simpa using this

/-- Word numbers and words are in bijection, and exactly the words of the text and the two reserved words have
a number. -/
theorem C62_word_ids (lines : List (List String)) :
    (∀ w i, (createDataArray lines).word2id w = some i ↔ (createDataArray lines).id2word[i]? = some w) ∧
    (∀ w, (createDataArray lines).word2id w ≠ none ↔
      w = "__NULL__" ∨ w = "__END_OF_LINE__" ∨ ∃ l ∈ lines, w ∈ l) := by
  obtain ⟨ok, dec, _⟩ := createDataArray_fields lines
  refine ⟨ok.iff, fun w => ⟨fun h => ?_, fun h => ?_⟩⟩
  · obtain ⟨i, hi⟩ := Option.ne_none_iff_exists'.1 h
    exact (lines_inv lines).known w (List.mem_of_getElem? ((ok.iff w i).1 hi))
  · have key : ∀ j : Nat, (createDataArray lines).id2word[j]? = some w →
        (createDataArray lines).word2id w ≠ none := by
      intro j e; rw [(ok.iff w j).2 e]; simp
    rcases h with rfl | rfl | ⟨l, hl, hw⟩
    · exact key 0 ok.null
    · exact key 1 ok.eol
    · have : some w ∈ (textOf lines).map some := by
        refine List.mem_map_of_mem ?_
        exact List.mem_flatMap.2 ⟨l, hl, List.mem_append.2 (Or.inl hw)⟩
      rw [← dec] at this
      obtain ⟨j, _, hj⟩ := List.mem_map.1 this
      exact key j hj

/-- Each sentence starts where the previous ones end, has the length of its line, and every position from its
first word to its end-of-line marker is attributed to it. -/
theorem C62_sentences (lines : List (List String)) :
    (createDataArray lines).getNumSentences = lines.length ∧
    ∀ i (h : i < lines.length),
      (createDataArray lines).getSentenceLength i = lines[i].length ∧
      ∀ j ≤ lines[i].length,
        (createDataArray lines).getWordAtIndex ((createDataArray lines).getSentenceStart i + j) =
          (lines[i] ++ ["__END_OF_LINE__"])[j]? ∧
        (createDataArray lines).getSentenceId ((createDataArray lines).getSentenceStart i + j) = i := by
  obtain ⟨_, _, hs, hid⟩ := createDataArray_fields lines
  refine ⟨by simp [DataArray.getNumSentences, hs], ?_⟩
  intro i h
  have hst : ∀ k, k ≤ lines.length → (createDataArray lines).sentenceStart.getD k 0 = (textOf (lines.take k)).length := by
    intro k hk
    rw [hs, List.getD_eq_getElem?_getD, List.getElem?_map, List.getElem?_range (by omega)]
    rfl
  have hsplit : lines = lines.take i ++ lines[i] :: lines.drop (i + 1) := by
    conv_lhs => rw [← List.take_append_drop i lines, List.drop_eq_getElem_cons h]
  have hti : lines.take (i + 1) = lines.take i ++ [lines[i]] := by
    rw [List.take_succ, List.getElem?_eq_getElem h]; rfl
  refine ⟨?_, ?_⟩
  · rw [DataArray.getSentenceLength, hst _ (by omega), hst _ (by omega), hti, textOf_append]
    simp [textOf]
  · intro j hj
    have hg : (createDataArray lines).getSentenceStart i = (textOf (lines.take i)).length := hst i (by omega)
    rw [hg]
    constructor
    · rw [C62_words]
      have : lines.flatMap (· ++ ["__END_OF_LINE__"]) =
          textOf (lines.take i) ++ ((lines[i] ++ ["__END_OF_LINE__"]) ++ textOf (lines.drop (i + 1))) := by
        have h' := congrArg (List.flatMap (· ++ ["__END_OF_LINE__"])) hsplit
        rw [List.flatMap_append, List.flatMap_cons] at h'
        exact h'
      rw [this, List.getElem?_append_right (by omega), Nat.add_sub_cancel_left, List.getElem?_append_left]
      simp; omega
    · rw [DataArray.getSentenceId, hid]
      have hlen : ∀ (ls : List (List String)) k, ((ls.zipIdx k).flatMap (fun li => List.replicate (li.1.length + 1) li.2)).length = (textOf ls).length := by
        intro ls
        induction ls with
        | nil => intro k; simp [textOf]
        | cons l ls ih =>
          intro k
          have := ih (k + 1)
          simp only [textOf] at this
          simp only [List.zipIdx_cons, List.flatMap_cons, List.length_append, List.length_replicate, this, textOf,
            List.length_singleton]
      have hz : lines.zipIdx = (lines.take i).zipIdx ++ (lines[i], i) :: (lines.drop (i + 1)).zipIdx (i + 1) := by
        conv_lhs => rw [hsplit]
        rw [List.zipIdx_append, List.zipIdx_cons]
        simp [Nat.min_eq_left (Nat.le_of_lt h)]
      rw [hz, List.flatMap_append, List.flatMap_cons, List.getD_eq_getElem?_getD, List.getElem?_append_right
        (by rw [hlen _ _]; omega), hlen _ _, Nat.add_sub_cancel_left, List.getElem?_append_left
        (by simp; omega), List.getElem?_replicate, if_pos (by simp only []; omega)]
      rfl

example : (createDataArray [["a", "b", "a"], [], ["b"]]).data = [2, 3, 2, 1, 1, 3, 1] ∧
    (createDataArray [["a", "b", "a"], [], ["b"]]).sentenceStart = [0, 4, 5, 7] := by decide

end Cdec.Extract
