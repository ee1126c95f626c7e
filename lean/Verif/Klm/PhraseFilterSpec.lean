import Verif.Klm.FilterSpec
/-!
# What the phrase filter is for

Independent of the program.  The input has one sentence on each line; a sentence is a list of phrases
between tabs and a phrase is a list of words between spaces.  Lines without words are no sentences.
-/
namespace Cdec.Klm.PhraseSpec
open FilterSpec

/-- The end of a line: any white space other than space, tab and vertical tab. -/
def lineEnd (c : Char) : Bool := c ∈ ['\n', '\x0c', '\r']

/-- Between two phrases. -/
def tab (c : Char) : Bool := c ∈ ['\t', '\x0b']

/-- The words of a phrase. -/
def phraseWords (s : Txt) : List Txt := (s.splitOnP (· == ' ')).filter (· ≠ [])

/-- The phrases of a line. -/
def phrases (s : Txt) : List (List Txt) := ((s.splitOnP tab).map phraseWords).filter (· ≠ [])

/-- The sentences of a text. -/
def sentences (s : Txt) : List (List (List Txt)) := ((s.splitOnP lineEnd).map phrases).filter (· ≠ [])

/-- The words `g` stand next to each other in some string of phrases from `ps`. -/
def Covers (ps : List (List Txt)) (g : List Txt) : Prop :=
  ∃ qs : List (List Txt), (∀ q ∈ qs, q ∈ ps) ∧ g <:+: qs.flatten

/-- The words of an n-gram that are looked at: not a tag in the first place, and nothing from `</s>` on. -/
def core (ws : List Txt) : List Txt :=
  (match ws with
    | [] => []
    | w :: t => if Tag w then t else w :: t).takeWhile (· ≠ "</s>".toList)

/-- The line is kept for a sentence with the phrases `ps`. -/
def Kept (raw context : Bool) (ps : List (List Txt)) (line : Txt) : Prop :=
  Covers ps (core (looked context (ngramWords raw line)))

/-- The line has nothing to look at. -/
def Bare (raw context : Bool) (line : Txt) : Prop := core (looked context (ngramWords raw line)) = []

instance (raw context : Bool) (line : Txt) : Decidable (Bare raw context line) :=
  inferInstanceAs (Decidable (_ = []))

end Cdec.Klm.PhraseSpec
