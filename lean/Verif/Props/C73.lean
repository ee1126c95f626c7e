import Verif.Extract.TargetPhraseOrder
/-!
# C73: The target phrases of a span are exactly the ways to attach unaligned words to it and its gaps
-/
namespace Cdec.Extract
open Spec RuleSpec

/-- The order of up to two gaps that share no word. -/
theorem sortsGaps_two {lo hi : Nat} {gaps : List (Nat × Nat)} (hg : GapsIn lo hi gaps) (h2 : gaps.length ≤ 2) :
    SortsGaps (castGaps gaps) (gapOrder (castGaps gaps)) := by
  refine C44_two_gaps_partial _ ?_ (by simpa [castGaps] using h2)
  have : (castGaps gaps).Pairwise (· ≠ ·) := by
    unfold castGaps
    rw [List.pairwise_map]
    refine hg.2.2.imp_of_mem ?_
    intro a b ha hb hab e
    simp only [Prod.mk.injEq, Nat.cast_inj] at e
    have := hg.2.1 a ha
    have := hg.2.1 b hb
    unfold Apart at hab
    omega
  exact this

theorem mapM_isSome {α β : Type} (f : α → Option β) : ∀ l : List α, (∃ r, l.mapM f = some r) ↔ ∀ a ∈ l, (f a).isSome
  | [] => by simp
  | a :: l => by
    have ih := mapM_isSome f l
    rw [List.forall_mem_cons, ← ih, List.mapM_cons]
    cases f a with
    | none => simp
    | some b =>
      cases l.mapM f with
      | none => simp
      | some r => simp

theorem mapM_map_fst {α β γ δ : Type} (g : α → Option γ) (h : α → β) (k : β → δ) : ∀ (l : List α) (r : List (β × γ)),
    l.mapM (fun a => (g a).map fun c => (h a, c)) = some r → r.map (fun x => k x.1) = l.map fun a => k (h a)
  | [], r, hr => by simp at hr; subst hr; rfl
  | a :: l, r, hr => by
    rw [List.mapM_cons] at hr
    cases ha : g a with
    | none => rw [ha] at hr; simp at hr
    | some c =>
      cases hl : l.mapM (fun a => (g a).map fun c => (h a, c)) with
      | none => rw [ha, hl] at hr; simp at hr
      | some r' =>
        rw [ha, hl] at hr
        simp only [Option.map_some, Option.bind_eq_bind, Option.bind_some, pure, Option.some.injEq] at hr
        subst hr
        rw [List.map_cons, List.map_cons, mapM_map_fst g h k l r' hl]

/-- Given a target span in the sentence with up to two gaps that share no word, the target phrases returned are, each once, the spans and gaps
that arise by adding unaligned words (none if tight phrases are required) on either side of the span and of each gap, such that the gaps stay
inside the phrase and apart and the phrase within the maximum span; each is written as its words with the gaps' nonterminals in place of the
gaps.  Nothing is returned only if some aligned word of a phrase has no index. -/
theorem C73_target_phrases (E : XEnv) (hE : ∀ l ∈ E.links, l.1 < E.src.length ∧ l.2 < E.tgt.length) (gaps : List (Nat × Nat)) (low high : Nat)
    (hg : GapsIn low high gaps) (h2 : gaps.length ≤ 2) (hh : high ≤ E.tgt.length) (idx : Nat → Option Nat) :
    ∃ choices : List Choice, choices.Nodup ∧ (∀ ch, ch ∈ choices ↔ IsChoice E gaps low high ch) ∧
      (∀ ts, extractPhrases E gaps low high idx = some ts → ts.map (·.1) = choices.map fun ch => (side ch.lo ch.hi ch.gaps).map (Slot.sym E.tgt)) ∧
      ((∃ ts, extractPhrases E gaps low high idx = some ts) ↔
        ∀ ch ∈ choices, ∀ l ∈ E.links, Slot.word l.2 ∈ side ch.lo ch.hi ch.gaps → (idx l.1).isSome) := by
  obtain ⟨choices, h1, h2', h3⟩ := extractPhrases_eq hE hg hh (sortsGaps_two hg h2)
  refine ⟨choices, h1, h2', ?_, ?_⟩
  · intro ts hts
    rw [h3] at hts
    exact mapM_map_fst _ _ id _ _ hts
  · rw [h3, mapM_isSome]
    refine forall_congr' fun ch => forall_congr' fun _ => ?_
    rw [Option.isSome_map, phraseLinks, Option.isSome_iff_exists, mapM_isSome]
    simp only [List.mem_filter, decide_eq_true_eq, Option.isSome_map, and_imp]

/-- With any number of gaps, every phrase returned is one of those. -/
theorem C73_any_gaps (E : XEnv) (hE : ∀ l ∈ E.links, l.1 < E.src.length ∧ l.2 < E.tgt.length) (gaps : List (Nat × Nat)) (low high : Nat)
    (hg : GapsIn low high gaps) (hh : high ≤ E.tgt.length) (idx : Nat → Option Nat) (ts : List (List Int × List (Nat × Nat)))
    (h : extractPhrases E gaps low high idx = some ts) :
    ∀ t ∈ ts, ∃ ch, IsChoice E gaps low high ch ∧ t.1 = (side ch.lo ch.hi ch.gaps).map (Slot.sym E.tgt) := by
  by_cases hs : SortsGaps (castGaps gaps) (gapOrder (castGaps gaps))
  · obtain ⟨choices, h1, h2, h3⟩ := extractPhrases_eq hE hg hh hs
    rw [h3] at h
    have := mapM_map_fst _ _ id _ _ h
    intro t ht
    have hm : t.1 ∈ ts.map fun x => id x.1 := List.mem_map_of_mem (f := fun x : List Int × List (Nat × Nat) => id x.1) ht
    rw [this, List.mem_map] at hm
    obtain ⟨ch, hc, e⟩ := hm
    exact ⟨ch, (h2 ch).1 hc, e.symm⟩
  · rw [extractPhrases_unsorted hg hs] at h
    cases h
    simp

theorem choices_tight (E : XEnv) (gaps : List (Nat × Nat)) (low high : Nat) (hg : GapsIn low high gaps) (hh : high ≤ E.tgt.length) (ht : E.tight = true)
    (hm : (high : Int) - low ≤ E.maxSpan) (choices : List Choice) (h1 : choices.Nodup) (h2' : ∀ ch, ch ∈ choices ↔ IsChoice E gaps low high ch) :
    choices = [⟨low, high, gaps⟩] := by
  have none : ∀ a b, Free E a b → b ≤ a := by
    intro a b hf
    by_contra hc
    have := (hf a (Nat.le_refl _) (by omega)).1
    rw [ht] at this
    cases this
  have free : ∀ a, Free E a a := fun a p h1 h2 => by omega
  have only : ∀ ch, ch ∈ choices ↔ ch = ⟨low, high, gaps⟩ := by
    intro ch
    rw [h2']
    constructor
    · rintro ⟨s, f, l, g, _⟩
      have e1 := none _ _ f.1
      have e2 := none _ _ f.2
      obtain ⟨lo, hi, gs⟩ := ch
      simp only [] at s f l g e1 e2
      rw [Choice.mk.injEq]
      refine ⟨by omega, by omega, ?_⟩
      apply List.ext_getElem l
      intro k hk hk'
      obtain ⟨a1, a2, a3, a4⟩ := g k _ _ (List.getElem?_eq_getElem hk') (List.getElem?_eq_getElem hk)
      have b1 := none _ _ a3
      have b2 := none _ _ a4
      exact Prod.ext (by omega) (by omega)
    · rintro rfl
      refine ⟨⟨Nat.le_refl _, Nat.le_refl _, hh, hm⟩, ⟨free _, free _⟩, rfl, ?_, hg⟩
      intro k g g' e e'
      rw [e] at e'
      cases e'
      exact ⟨Nat.le_refl _, Nat.le_refl _, free _, free _⟩
  have := (List.perm_ext_iff_of_nodup h1 (List.nodup_singleton (⟨low, high, gaps⟩ : Choice))).2 (fun ch => by rw [only, List.mem_singleton])
  exact List.perm_singleton.1 this

/-- With tight phrases there is one target phrase: the span itself. -/
theorem C73_tight (E : XEnv) (hE : ∀ l ∈ E.links, l.1 < E.src.length ∧ l.2 < E.tgt.length) (gaps : List (Nat × Nat)) (low high : Nat)
    (hg : GapsIn low high gaps) (h2 : gaps.length ≤ 2) (hh : high ≤ E.tgt.length) (ht : E.tight = true) (hm : (high : Int) - low ≤ E.maxSpan)
    (idx : Nat → Option Nat) (ts : List (List Int × List (Nat × Nat))) (h : extractPhrases E gaps low high idx = some ts) :
    ts.map (·.1) = [(side low high gaps).map (Slot.sym E.tgt)] := by
  obtain ⟨choices, h1, h2', h3, _⟩ := C73_target_phrases E hE gaps low high hg h2 hh idx
  rw [h3 ts h]
  rw [choices_tight E gaps low high hg hh ht hm choices h1 h2']
  rfl

/-- Four target words, the second and the last unaligned: the gap `[2, 3)` of the phrase `[0, 3)` may take the second word, and
the phrase the last. -/
def exampleEnv : XEnv := ⟨[10, 11], [20, 21, 22, 23], [(0, 0), (1, 2)], 5, 1, 2, 5, true, false, false⟩

example : (∀ l ∈ exampleEnv.links, l.1 < exampleEnv.src.length ∧ l.2 < exampleEnv.tgt.length) ∧ GapsIn 0 3 [(2, 3)] := by
  refine ⟨by decide, by decide, by decide, by simp⟩

example : extractPhrases exampleEnv [(2, 3)] 0 3 (fun p => if p = 0 then some 0 else none) =
    some [([20, -1], [(0, 0)]), ([20, -1, 23], [(0, 0)]), ([20, -1], [(0, 0)]), ([20, 21, -1], [(0, 0)]), ([20, 21, -1, 23], [(0, 0)]), ([20, 21, -1], [(0, 0)])] := by
  decide

/-- Without an index for an aligned source word the look-up in the index is undefined. -/
example : extractPhrases exampleEnv [(2, 3)] 0 3 (fun _ => none) = none := by decide

end Cdec.Extract
