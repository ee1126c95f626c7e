import Mathlib.Data.List.Basic
/-!
# Reading parallel corpora

utils/corpus_tools.cc.  Lines are lists of words (`TD::ConvertSentence` is not modelled here); `div` is the word `|||`.
-/
namespace Cdec.Corpus

/-- `CorpusTools::ReadLine`, corpus_tools.cc:11-29: the loop over the source side, then the rest after the bar. -/
def readLine (div : Nat) : List Nat → List Nat × List Nat
  | [] => ([], [])
  | w :: ws => if w ≠ div then (w :: (readLine div ws).1, (readLine div ws).2) else ([], ws)

/-- What `ReadFromFile` fills: the sides and the vocabularies (sets, as lists).  A vocabulary that is not asked for is filled nevertheless. -/
structure State where
  src : List (List Nat)
  trg : List (List Nat)
  srcVocab : List Nat
  trgVocab : List Nat

/-- `back().push_back(w)`. -/
def pushLast (w : Nat) : List (List Nat) → List (List Nat)
  | [] => []
  | [x] => [x ++ [w]]
  | x :: xs => x :: pushLast w xs

/-- A word that is not the bar, corpus_tools.cc:75-76: `d` and `v` belong to the source until the bar has been seen. -/
def word (skip : Bool) (s w : Nat) (st : State) : State :=
  if s = 0 then { st with src := if skip then st.src else pushLast w st.src, srcVocab := w :: st.srcVocab }
  else { st with trg := if skip then st.trg else pushLast w st.trg, trgVocab := w :: st.trgVocab }

/-- The loop over the words of a line, corpus_tools.cc:63-78; `s` is the number of bars so far.  `none`: `abort` or a failed assertion. -/
def words (div : Nat) (both skip : Bool) : List Nat → Nat → State → Option (Nat × State)
  | [], s, st => some (s, st)
  | w :: ws, s, st =>
    if w = div then
      if s + 1 > 1 then none
      else if both = false then none
      else words div both skip ws (s + 1) { st with trg := if skip then st.trg else st.trg ++ [[]] }
    else words div both skip ws s (word skip s w st)

/-- A line, corpus_tools.cc:54-82. -/
def line (div : Nat) (both : Bool) (rank size lc : Nat) (l : List Nat) (st : State) : Option State :=
  let skip := decide (lc % size ≠ rank)
  match words div both skip l 0 { st with src := if skip then st.src else st.src ++ [[]] } with
  | none => none
  | some (s, st') => if (1 + if both then 1 else 0) ≠ s + 1 then none else some st'

/-- The loop over the lines, corpus_tools.cc:53-83. -/
def lines (div : Nat) (both : Bool) (rank size : Nat) : Nat → List (List Nat) → State → Option State
  | _, [], st => some st
  | lc, l :: ls, st =>
    match line div both rank size lc l st with
    | none => none
    | some st' => lines div both rank size (lc + 1) ls st'

/-- `CorpusTools::ReadFromFile`, corpus_tools.cc:31-84; `both` is `trg != NULL`. -/
def readFromFile (div : Nat) (both : Bool) (rank size : Nat) (file : List (List Nat)) : Option State :=
  if size = 0 then none
  else if size ≤ rank then none
  else lines div both rank size 0 file { src := [], trg := [], srcVocab := [], trgVocab := [] }

end Cdec.Corpus
