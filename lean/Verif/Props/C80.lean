import Verif.Extract.RuleFactoryLoop
/-!
# C80: The grammar of a sentence comes from every pattern of the sentence that occurs in the corpus, once, with all its occurrences

`lines` is the source side of the corpus, `words` the sentence (vocabulary ids), `F.I.terminal` the vocabulary.  The
trie with its suffix links is a cache: the property does not mention it.
-/
namespace Cdec.Extract
open Spec

/-- `GetGrammar` asks for the rules of exactly the patterns of the sentence within the limits that occur in the corpus,
each once and with the list of all its occurrences, each once; it terminates without reading outside the sentence or
through a null pointer. -/
theorem C80_calls (lines : List (List String)) (hnull : ∀ l ∈ lines, "__NULL__" ∉ l) (rnd : Nat → Nat) (F : Factory)
    (hd : F.I.d = createDataArray lines) (hsa : buildSuffixArray F.I.d.data F.I.d.id2word.length rnd = some F.I.sa)
    (hpre : ∀ s m, F.I.pre s = some m → F.I.Exact lines s (.ofMatchings m ((buildPhrase s).arity + 1)))
    (hch : F.maxChunks = F.maxNt + 1) (words : List Int) (hpos : ∀ w ∈ words, 0 ≤ w)
    (hplain : ∀ w ∈ words, F.I.terminal w ≠ "__NULL__" ∧ F.I.terminal w ≠ "__END_OF_LINE__")
    (fuel : Nat) (hfuel : 3 ^ (words.length + 1) ≤ fuel) :
    ∃ cs, F.calls words fuel = some cs ∧ (cs.map Prod.fst).Nodup ∧
      (∀ s, (∃ l, (s, l) ∈ cs) ↔ PatternOf words F.I.gap F.I.span F.maxNt F.maxSym s ∧
        ∃ ps, OccursAt lines F.I.gap F.I.span (F.I.wordChunks s) ps) ∧
      ∀ s l, (s, l) ∈ cs → (F.I.matchesOf l).Nodup ∧
        ∀ ps, ps ∈ F.I.matchesOf l ↔ OccursAt lines F.I.gap F.I.span (F.I.wordChunks s) ps :=
  calls_spec ⟨hnull, hd, hsa, hpos, hplain, hpre⟩ hch fuel hfuel

/-- The rules of the grammar of a sentence are the rules extracted for those patterns, whatever `extract` makes of a
pattern and its occurrences. -/
theorem C80_grammar {R : Type} (lines : List (List String)) (hnull : ∀ l ∈ lines, "__NULL__" ∉ l) (rnd : Nat → Nat)
    (F : Factory) (hd : F.I.d = createDataArray lines)
    (hsa : buildSuffixArray F.I.d.data F.I.d.id2word.length rnd = some F.I.sa)
    (hpre : ∀ s m, F.I.pre s = some m → F.I.Exact lines s (.ofMatchings m ((buildPhrase s).arity + 1)))
    (hch : F.maxChunks = F.maxNt + 1) (words : List Int) (hpos : ∀ w ∈ words, 0 ≤ w)
    (hplain : ∀ w ∈ words, F.I.terminal w ≠ "__NULL__" ∧ F.I.terminal w ≠ "__END_OF_LINE__")
    (fuel : Nat) (hfuel : 3 ^ (words.length + 1) ≤ fuel) (extract : List Int → PhraseLocation → List R) :
    ∃ g, F.getGrammar extract words fuel = some g ∧
      (∀ r ∈ g, ∃ s l, r ∈ extract s l ∧ PatternOf words F.I.gap F.I.span F.maxNt F.maxSym s ∧
        ∀ ps, ps ∈ F.I.matchesOf l ↔ OccursAt lines F.I.gap F.I.span (F.I.wordChunks s) ps) ∧
      ∀ s ps, PatternOf words F.I.gap F.I.span F.maxNt F.maxSym s →
        OccursAt lines F.I.gap F.I.span (F.I.wordChunks s) ps →
        ∃ l, (∀ qs, qs ∈ F.I.matchesOf l ↔ OccursAt lines F.I.gap F.I.span (F.I.wordChunks s) qs) ∧
          ∀ r ∈ extract s l, r ∈ g := by
  obtain ⟨cs, e, _, h2, h3⟩ := C80_calls lines hnull rnd F hd hsa hpre hch words hpos hplain fuel hfuel
  refine ⟨cs.flatMap fun c => extract c.1 c.2, by rw [Factory.getGrammar, e]; rfl, ?_, ?_⟩
  · intro r hr
    obtain ⟨⟨s, l⟩, hc, hr⟩ := List.mem_flatMap.1 hr
    exact ⟨s, l, hr, ((h2 s).1 ⟨l, hc⟩).1, (h3 s l hc).2⟩
  · intro s ps hp ho
    obtain ⟨l, hl⟩ := (h2 s).2 ⟨hp, ps, ho⟩
    exact ⟨l, (h3 s l hl).2, fun r hr => List.mem_flatMap.2 ⟨(s, l), hl, hr⟩⟩

/-- The sentence `a c d` with the corpus of `exampleIntersector`. -/
def exampleFactory : Factory := ⟨exampleIntersector, 1, 2, 3⟩

/-- The hypotheses hold for it; among the calls is one for `a X d`, with the occurrence at 0 and 5. -/
example : ∃ cs l, exampleFactory.calls [1, 2, 3] 81 = some cs ∧ ([1, -1, 3], l) ∈ cs ∧
    [0, 5] ∈ exampleIntersector.matchesOf l := by
  have hsa : buildSuffixArray exampleIntersector.d.data exampleIntersector.d.id2word.length (fun _ => 0) =
      some exampleIntersector.sa := by decide +kernel
  obtain ⟨cs, e, _, h2, h3⟩ := C80_calls [["a", "b", "c", "d", "c", "d"], ["a", "c", "d"]] (by decide) (fun _ => 0)
    exampleFactory rfl hsa (by intro s m h; cases h) rfl [1, 2, 3] (by decide) (by decide) 81 (by decide)
  have hp : PatternOf [1, 2, 3] 1 6 1 3 [1, -1, 3] :=
    ⟨[[1], [3]], 0, 3, ⟨by simp, by simp, 2, by simp, by simp, by simp, by simp⟩, rfl, by simp, by simp, Or.inl (by simp)⟩
  have ho : OccursAt [["a", "b", "c", "d", "c", "d"], ["a", "c", "d"]] 1 6 (exampleIntersector.wordChunks [1, -1, 3]) [0, 5] := by
    refine ⟨⟨?_, 0, _, rfl, by decide +kernel, by decide +kernel⟩, fun _ => by decide +kernel⟩
    refine ⟨by decide +kernel, by decide +kernel, ?_⟩
    change _ <+: _
    decide +kernel
  obtain ⟨l, hl⟩ := (h2 [1, -1, 3]).2 ⟨hp, _, ho⟩
  exact ⟨cs, l, e, hl, ((h3 _ l hl).2 _).2 ho⟩

/-- The limit `max_rule_span` is on the distance between the first and the last word: a pattern may be one word longer. -/
example : PatternOf [1, 2, 3] 1 2 0 3 [1, 2, 3] :=
  ⟨[[1, 2, 3]], 0, 3, ⟨by simp, by simp, rfl⟩, rfl, by simp, by simp, Or.inl (by simp)⟩

end Cdec.Extract
