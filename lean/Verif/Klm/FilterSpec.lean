import Verif.Klm.NGramSpec
import Verif.Util.Decimal
import Mathlib.Data.List.Basic
/-!
# What the language model filter is for

Independent of the program.  The vocabulary is a text with one sentence on each line; blank lines
hold no sentence.  A line of an ARPA file has fields between tabs, the second is the n-gram; a line
of a file of counts starts with the n-gram.
-/
namespace Cdec.Klm.FilterSpec

abbrev Txt := List Char

/-- White space. -/
def space (c : Char) : Bool := c ∈ [' ', '\t', '\n', '\x0b', '\x0c', '\r']

/-- The words of a text: the non-empty pieces between white space. -/
def words (s : Txt) : List Txt := (s.splitOnP space).filter (· ≠ [])

/-- The lines of a text. -/
def lines (s : Txt) : List Txt := s.splitOnP (· == '\n')

/-- The sentences of a text: the words of its lines, without blank lines. -/
def sentences (s : Txt) : List (List Txt) := ((lines s).map words).filter (· ≠ [])

/-- The fields of a line. -/
def fields (line : Txt) : List Txt := line.splitOnP (· == '\t')

/-- The n-gram of a line of a file of counts (`raw`) or of an ARPA file. -/
def ngramField (raw : Bool) (line : Txt) : Txt := (fields line).getD (if raw then 0 else 1) []

/-- The words of the n-gram of a line. -/
def ngramWords (raw : Bool) (line : Txt) : List Txt :=
  ((ngramField raw line).splitOnP (· == ' ')).filter (· ≠ [])

/-- A tag such as `<s>` or `<unk>`. -/
def Tag (w : Txt) : Prop := w.head? = some '<' ∧ w.getLast? = some '>'

instance (w : Txt) : Decidable (Tag w) := inferInstanceAs (Decidable (_ ∧ _))

/-- All the words are tags or words of `S`. -/
def Within (S : List Txt) (ws : List Txt) : Prop := ∀ w ∈ ws, Tag w ∨ w ∈ S

instance (S ws : List Txt) : Decidable (Within S ws) := inferInstanceAs (Decidable (∀ w ∈ ws, _))

/-- The words that are looked at: with `context`, all but the last. -/
def looked (context : Bool) (ws : List Txt) : List Txt := if context then ws.dropLast else ws

/-- The line is kept for a sentence with the words `S`. -/
def Kept (raw context : Bool) (S : List Txt) (line : Txt) : Prop :=
  Within S (looked context (ngramWords raw line))

instance (raw context : Bool) (S : List Txt) (line : Txt) : Decidable (Kept raw context S line) :=
  inferInstanceAs (Decidable (Within _ _))

/-- Lines as text. -/
def linesText (ls : List Txt) : Txt := ls.flatMap (· ++ ['\n'])

/-- The header of an ARPA file: how many n-grams of each order. -/
def headerText (counts : List Nat) : Txt :=
  "\n\\data\\\n".toList ++
    (counts.zipIdx 1).flatMap (fun p =>
      "ngram ".toList ++ showNat p.2 ++ "=".toList ++ showNat p.1 ++ "\n".toList) ++ "\n".toList

/-- An ARPA file with the lines `sections`, the counts of which are those in the header, and with
`blank` blank lines after the header. -/
def arpaText (blank : Nat) (sections : List (List Txt)) : Txt :=
  headerText (sections.map List.length) ++ List.replicate blank '\n' ++
    (sections.zipIdx 1).flatMap (fun p =>
      "\\".toList ++ showNat p.2 ++ "-grams:\n".toList ++ linesText p.1 ++ "\n".toList) ++
    "\\end\\\n".toList

/-- A section of an ARPA file read into a table: n-grams with the newest word first.  `ident` numbers
the words, `val` reads the log probability and back-off weight of a line. -/
def readSection {K : Type} (ident : Txt → Nat) (val : Txt → K × K) (sec : List Txt) :
    List (List Nat × K × K) :=
  sec.map fun line => (((ngramWords false line).map ident).reverse, val line)

/-- The model that an ARPA file holds; a word without unigram is given `unk`. -/
def readArpa {K : Type} (ident : Txt → Nat) (val : Txt → K × K) (unk : K × K)
    (sections : List (List Txt)) : LM.Spec.Arpa K where
  order := sections.length
  uni w := ((readSection ident val (sections.getD 0 [])).lookup [w]).getD unk
  sect n := readSection ident val (sections.getD (n - 1) [])

end Cdec.Klm.FilterSpec
