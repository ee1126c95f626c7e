import Verif.Extract.OccurSpec
/-!
# Specification: the source patterns of a sentence
-/
namespace Cdec.Extract.Spec

/-- The chunks stand in the sentence, the first at `p` and each at least `gap` words after the end of the one before it;
`e` is the end (exclusive) of the last chunk. -/
def ChunksAt (words : List Int) (gap : Nat) : List (List Int) → Nat → Nat → Prop
  | [], _, _ => False
  | [c], p, e => c ≠ [] ∧ c <+: words.drop p ∧ e = p + c.length
  | c :: c' :: cs, p, e => c ≠ [] ∧ c <+: words.drop p ∧ ∃ q, p + c.length + gap ≤ q ∧ ChunksAt words gap (c' :: cs) q e

/-- The chunks joined by the nonterminals `-k`, `-(k+1)`, ... -/
def joinFrom : Nat → List (List Int) → List Int
  | _, [] => []
  | _, [c] => c
  | k, c :: c' :: cs => c ++ -(k : Int) :: joinFrom (k + 1) (c' :: cs)

/-- `s` is a pattern of the sentence within the limits: the words of one to `maxNt + 1` stretches of the sentence, each
but the last followed by a nonterminal that stands for at least `gap` words, with the nonterminals numbered in order;
the first and the last word are at most `span` positions apart, and there are at most `maxSym` symbols unless the
pattern is a single word. -/
def PatternOf (words : List Int) (gap span maxNt maxSym : Nat) (s : List Int) : Prop :=
  ∃ cs p e, ChunksAt words gap cs p e ∧ s = joinFrom 1 cs ∧ cs.length ≤ maxNt + 1 ∧ e ≤ p + span + 1 ∧
    (s.length ≤ maxSym ∨ s.length = 1)

/-- The chunks occur in a line of the corpus at the given positions; patterns with gaps span at most `span` words. -/
def OccursAt (lines : List (List String)) (gap span : Nat) (cs : List (List String)) (ps : List Nat) : Prop :=
  InLine lines gap cs ps ∧ (2 ≤ cs.length → endOf cs ps - ps.headD 0 ≤ span)

end Cdec.Extract.Spec
