/-!
# Specification: occurrences of a phrase with gaps
-/
namespace Cdec.Extract.Spec

/-- The chunks of a phrase: maximal runs of terminals, separated by nonterminals (negative symbols). -/
def chunks : List Int → List (List Int)
  | [] => [[]]
  | s :: ss =>
    match chunks ss with
    | c :: cs => if 0 ≤ s then (s :: c) :: cs else [] :: c :: cs
    | [] => [[s]]

/-- The phrase without its last terminal, and without the nonterminal before it if there is one. -/
def prefixPart (s : List Int) : List Int := if s.dropLast.getLastD 0 < 0 then s.dropLast.dropLast else s.dropLast

/-- The phrase without its first terminal, and without the nonterminal after it if there is one. -/
def suffixPart (s : List Int) : List Int := if s.tail.headD 0 < 0 then s.tail.tail else s.tail

/-- The chunks occur in the text at the given positions, with at least `gap` words between consecutive chunks. -/
def OccFrom (text : List String) (gap : Nat) : List (List String) → List Nat → Prop
  | [c], [p] => c <+: text.drop p
  | c :: c' :: cs, p :: q :: ps => c <+: text.drop p ∧ p + c.length + gap ≤ q ∧ OccFrom text gap (c' :: cs) (q :: ps)
  | _, _ => False

/-- End (exclusive) of an occurrence. -/
def endOf (cs : List (List String)) (ps : List Nat) : Nat := ps.getLastD 0 + (cs.getLastD []).length

/-- The text: the lines, each followed by an end-of-line word. -/
def text (lines : List (List String)) : List String := lines.flatMap (· ++ ["__END_OF_LINE__"])

/-- Index of the first word of line `k` in the text. -/
def lineStart (lines : List (List String)) (k : Nat) : Nat := (text (lines.take k)).length

/-- An occurrence inside one line. -/
def InLine (lines : List (List String)) (gap : Nat) (cs : List (List String)) (ps : List Nat) : Prop :=
  OccFrom (text lines) gap cs ps ∧
  ∃ k l, lines[k]? = some l ∧ lineStart lines k ≤ ps.headD 0 ∧ endOf cs ps ≤ lineStart lines k + l.length

/-- An occurrence inside one line spanning at most `span` words. -/
def Occurs (lines : List (List String)) (gap span : Nat) (cs : List (List String)) (ps : List Nat) : Prop :=
  InLine lines gap cs ps ∧ endOf cs ps - ps.headD 0 ≤ span

/-- A list of matches for the chunks: only occurrences, at least all those within the span limit, each once. -/
structure Matches (lines : List (List String)) (gap span : Nat) (cs : List (List String)) (ts : List (List Nat)) :
    Prop where
  sound : ∀ ps ∈ ts, InLine lines gap cs ps
  complete : ∀ ps, Occurs lines gap span cs ps → ps ∈ ts
  nodup : ts.Nodup

end Cdec.Extract.Spec
