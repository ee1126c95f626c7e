import Verif.Mteval.TerLemmas
/-!
# C38: TER's shifts permute the words, the search ends, and the score is at most the edit distance
-/
namespace Cdec.Ter

open Cdec.Edit

variable {α : Type _} [DecidableEq α]

omit [DecidableEq α] in
/-- `PerformShift` takes the block `start..stop` out and puts it back in one piece elsewhere; so its result is a
permutation of its input. The place is in front if `moveto` is −1, just after the word `moveto` if that is outside
the block, and otherwise `moveto - start` words to the right (or at the end). -/
theorem C38_perform_shift (l : List α) (start stop : Nat) (moveto : Int) (h1 : start ≤ stop) (h2 : stop < l.length)
    (h3 : -1 ≤ moveto) (h4 : moveto < l.length) :
    ∃ (pre block post : List α) (p : Nat) (out : List α), l = pre ++ block ++ post ∧ pre.length = start ∧
      block.length = stop + 1 - start ∧ performShift l start stop moveto = some out ∧ out.Perm l ∧
      out = (pre ++ post).take p ++ block ++ (pre ++ post).drop p ∧
      (moveto = -1 → p = 0) ∧ (0 ≤ moveto → moveto < start → (p : Int) = moveto + 1) ∧
      (stop < moveto → (p : Int) = moveto - block.length + 1) ∧
      (start ≤ moveto → moveto ≤ stop → (p : Int) = min moveto ((pre ++ post).length : Int)) := by
  have hperm := performShift_perm l start stop moveto h1 h2 h3 h4
  obtain ⟨out, ho, hp⟩ := hperm
  have heq := performShift_eq l start stop moveto h1 h2 h3 h4
  simp only at heq
  have hl : (l.take start).length = start := by simp; omega
  have hb : ((l.drop start).take (stop + 1 - start)).length = stop + 1 - start := by simp; omega
  refine ⟨l.take start, (l.drop start).take (stop + 1 - start), l.drop (stop + 1),
    landing l.length start stop moveto, out, ?_, hl, hb, ho, hp, ?_, ?_, ?_, ?_, ?_⟩
  · have : l.drop (stop + 1) = (l.drop start).drop (stop + 1 - start) := by rw [List.drop_drop]; congr 1; omega
    rw [this, List.append_assoc, List.take_append_drop, List.take_append_drop]
  · rw [ho] at heq; exact Option.some.inj heq
  · intro h; simp [landing, h]
  · intro h h'
    unfold landing
    rw [if_neg (by omega), if_pos h']; omega
  · intro h
    unfold landing
    rw [if_neg (by omega), if_neg (by omega), if_pos h, hb]; omega
  · intro h h'
    unfold landing
    rw [if_neg (by omega), if_neg (by omega), if_neg (by omega)]
    simp only [List.length_append, hl, List.length_drop]
    omega

/-- For sentences of at most 1024 words (1025 in the reference): the search for shifts ends, after at most as many
rounds as the plain edit distance, without ever reading outside a vector; the score is the number of substitutions,
insertions, deletions and shifts it reports; the edits other than shifts are those, kind by kind, of a shortest path
from some permutation of the hypothesis to the reference; and the score is at most the plain edit distance. -/
theorem C38_search (ref hyp : List α) (hn : hyp.length ≤ 1024) (hr : ref.length ≤ 1025) :
    ∃ r : Result, (∀ rounds, levenshtein hyp ref < rounds → calculate ref hyp rounds = .done r) ∧
      r.score = r.subs + r.ins + r.dels + r.shifts ∧
      r.score ≤ levenshtein hyp ref ∧
      ∃ (fin : List α) (path : List Trans), fin.Perm hyp ∧ IsEditDistance fin ref (r.subs + r.ins + r.dels) ∧
        Explains path fin ref ∧ r.subs = path.count .SUBSTITUTION ∧ r.ins = path.count .INSERTION ∧
        r.dels = path.count .DELETION := by
  have hlev : (minimumEditDistance hyp ref).1 = levenshtein hyp ref := by
    rw [levenshtein_eq, (med_ok hyp ref).1]
  have main := fun f hf => shiftLoop_ok (buildWordMatches ref hyp) ref hyp (buildWordMatches_ok ref hyp) hn hr f hyp 0
    (List.Perm.refl _) hf
  -- more rounds give the same answer
  have mono : ∀ (nmap : Matches α) (f : Nat) (cur : List α) (med : Int) (path : List Trans) (sh : Nat) (r : Result),
      shiftLoop nmap ref f cur med path sh = .done r → ∀ g, f ≤ g → shiftLoop nmap ref g cur med path sh = .done r := by
    intro nmap f
    induction f with
    | zero => intro cur med path sh r h; simp [shiftLoop] at h
    | succ f ih =>
      intro cur med path sh r h g hg
      obtain ⟨g, rfl⟩ : ∃ g', g = g' + 1 := ⟨g - 1, by omega⟩
      rw [shiftLoop] at h ⊢
      split at h
      · exact h
      · exact ih _ _ _ _ _ h g (by omega)
      · exact h
  obtain ⟨r, fin, e1, e2, e3, e4, e5, e6⟩ := main ((minimumEditDistance hyp ref).1 + 1) (Nat.lt_succ_self _)
  rw [pathStats_eq] at e6
  simp only [Prod.mk.injEq] at e6
  refine ⟨r, ?_, e4, ?_, fin, (minimumEditDistance fin ref).2, e2, ?_, (med_ok fin ref).2.1, e6⟩
  · intro rounds hrd
    unfold calculate
    exact mono _ _ _ _ _ _ _ e1 rounds (by omega)
  · rw [← hlev]; simpa using e5
  · rw [e3, (med_ok fin ref).1]; exact isEditDistance_ed fin ref

/-- Beyond these lengths the packed representation of a shift loses the place it refers to: the place 1025 of the
reference becomes −1, which is then used as an index, and the word 1024 of the hypothesis becomes the word 0. -/
theorem C38_long_sentences_fails : shiftMoveto (pack 0 0 1025) = -1 ∧ shiftBegin (pack 1024 1024 0) = 0 ∧
    ∀ v : List Int, readAt v (shiftMoveto (pack 0 0 1025)) = none := by
  refine ⟨by decide, by decide, ?_⟩
  intro v
  have : shiftMoveto (pack 0 0 1025) = -1 := by decide
  rw [this]
  rfl

/-- A hypothesis for which one shift and no other edit is enough, while the plain distance is 2. -/
example : calculate [1, 2, 3, 4] [2, 3, 4, 1] 5 = .done ⟨1, 0, 0, 0, 1⟩ ∧ levenshtein [2, 3, 4, 1] [1, 2, 3, 4] = 2 := by
  decide +kernel

end Cdec.Ter
