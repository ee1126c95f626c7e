import Verif.Klm.MultiInter
import Verif.Klm.TokenIter
import Verif.Util.Decimal
import Mathlib.Order.Nat
/-!
# The language model filter, run in one thread

Models klm/lm/filter/vocab.hh, vocab.cc, wrapper.hh, arpa_io.hh, arpa_io.cc, count_io.hh and the
parts of format.hh and filter_main.cc that connect them.  Text is a list of characters.  `none`
stands for undefined behaviour, an exception, or a loop that does not end within its fuel.
Failures of the output stream are not modelled.
-/
namespace Cdec.Klm.Filter

abbrev Txt := List Char

/-- `isspace` in the C locale. -/
def isSpace (c : Char) : Bool := c ∈ [' ', '\t', '\n', '\x0b', '\x0c', '\r']

/-- `in >> word`: skips white space, then reads up to the next white space; `none` when there is no
further word (the stream fails). -/
def nextWord (s : Txt) : Option (Txt × Txt) :=
  match s.dropWhile isSpace with
  | [] => none
  | c :: t => some ((c :: t).takeWhile fun x => !isSpace x, (c :: t).dropWhile fun x => !isSpace x)

/-- `IsLineEnd`, vocab.cc:20-29: what it returns and the rest of the input. -/
def isLineEnd : Txt → Bool × Txt
  | [] => (true, [])
  | c :: s => if c = '\n' then (true, s) else if isSpace c then isLineEnd s else (false, c :: s)

/-- `ReadSingle`, vocab.cc:11-17: the words in the order they are inserted. -/
def readSingle : Nat → Txt → Option (List Txt)
  | 0, _ => none
  | n + 1, s =>
    match nextWord s with
    | none => some []
    | some (w, s') => (readSingle n s').map (w :: ·)

/-- `unordered_map<string, vector<unsigned>>`; a word that is not a key has the empty list (the
program never leaves an empty list at a key). -/
abbrev Postings := Txt → List Nat

/-- vocab.cc:41-43: `out[word]`, and `push_back` unless the last entry is this sentence. -/
def addPosting (p : Postings) (w : Txt) (sentence : Nat) : Postings := fun v =>
  if v = w then (if p w = [] ∨ (p w).getLast? ≠ some sentence then p w ++ [sentence] else p w)
  else p v

/-- `ReadMultiple`, vocab.cc:34-50: the postings and the number of sentences. -/
def readMultiple : Nat → Txt → Postings → Nat → Bool → Option (Postings × Nat)
  | 0, _, _, _, _ => none
  | n + 1, s, p, sentence, used =>
    match nextWord s with
    | none => some (p, sentence + (if used then 1 else 0))
    | some (w, s') =>
      match isLineEnd s' with
      | (true, s'') => readMultiple n s'' (addPosting p w sentence) (sentence + 1) false
      | (false, s'') => readMultiple n s'' (addPosting p w sentence) sentence true

/-- `IsTag`, vocab.hh:31-35: the first character and the character at `size - 1`. -/
def isTag (w : Txt) : Bool := w[0]? == some '<' && w[w.length - 1]? == some '>'

/-- `Single::PassNGram`, vocab.hh:43-49. -/
def passSingle (vocab : List Txt) : List Txt → Bool
  | [] => true
  | w :: ws => if isTag w then passSingle vocab ws else if w ∉ vocab then false else passSingle vocab ws

/-- The loop that collects the posting lists, vocab.hh:64-69 and 103-108; `none` when a word has
no posting list (the functions return there). -/
def collect (p : Postings) : List Txt → Option (List (List Nat))
  | [] => some []
  | w :: ws =>
    if isTag w then collect p ws
    else if p w = [] then none
    else (collect p ws).map (p w :: ·)

/-- `Union::PassNGram`, vocab.hh:61-71.  `srt` is what `std::sort` by size does to the list of sets. -/
def passUnion (srt : List (List Nat) → List (List Nat)) (p : Postings) (ws : List Txt) : Option Bool :=
  match collect p ws with
  | none => some false
  | some [] => some true
  | some (x :: xs) => (firstIntersectionSorted (srt (x :: xs))).map fun r => r.1.isSome

/-- What a filter calls on its output: `AddNGram(line)` or `SingleAddNGram(offset, line)`. -/
inductive Call where
  | all (line : Txt)
  | one (offset : Nat) (line : Txt)
deriving DecidableEq, Repr

/-- A filter with the interface `AddNGram(ngram, line, output)`; `none` for undefined behaviour. -/
abbrev Flt := Txt → Txt → Option (List Call)

/-- The words of an n-gram: `TokenIter<SingleCharacter, true>(ngram, ' ')`. -/
def wordsOf (ngram : Txt) : Option (List Txt) :=
  tokens (findSingle ' ') true (ngram.length + 2) (some ngram)

/-- `BinaryFilter<Single>::AddNGram`, wrapper.hh:19-26. -/
def singleFilter (vocab : List Txt) : Flt := fun ngram line =>
  (wordsOf ngram).map fun ws => if passSingle vocab ws then [.all line] else []

/-- `BinaryFilter<Union>::AddNGram`, wrapper.hh:19-26. -/
def unionFilter (srt : List (List Nat) → List (List Nat)) (p : Postings) : Flt := fun ngram line =>
  match wordsOf ngram with
  | none => none
  | some ws => (passUnion srt p ws).map fun b => if b then [.all line] else []

/-- `Multiple::AddNGram`, vocab.hh:101-120. -/
def multipleFilter (srt : List (List Nat) → List (List Nat)) (p : Postings) : Flt := fun ngram line =>
  match wordsOf ngram with
  | none => none
  | some ws =>
    match collect p ws with
    | none => some []
    | some [] => some [.all line]
    | some (x :: xs) => (allIntersection (srt (x :: xs))).map fun ks => ks.map fun k => .one k line

/-- The scan of `ContextFilter::AddNGram`, wrapper.hh:44: from index `i` down to a space or to 0. -/
def lastSpace (ngram : Txt) : Nat → Nat
  | 0 => 0
  | i + 1 => if ngram[i + 1]? ≠ some ' ' then lastSpace ngram i else i + 1

/-- `ContextFilter::AddNGram`, wrapper.hh:41-46.  For an empty n-gram the scan starts before the
beginning of the text and the piece has length -1. -/
def contextFilter (f : Flt) : Flt := fun ngram line =>
  if ngram = [] then none else f (ngram.take (lastSpace ngram (ngram.length - 1))) line

/-- With or without `ContextFilter` (filter_main.cc:99-106). -/
def wrap (context : Bool) (f : Flt) : Flt := if context then contextFilter f else f

/-- `WriteCounts`, arpa_io.cc:32-38; `i` is the number of counts written before. -/
def countLines (i : Nat) : List Nat → Txt
  | [] => []
  | n :: ns => "ngram ".toList ++ showNat (i + 1) ++ "=".toList ++ showNat n ++ "\n".toList ++
      countLines (i + 1) ns

def writeCounts (number : List Nat) : Txt :=
  "\n\\data\\\n".toList ++ countLines 0 number ++ "\n".toList

/-- `ARPAOutput`: the file so far, `fast_counter_` and `counts_`. -/
structure ArpaOut where
  file : Txt
  counter : Nat
  counts : List Nat
deriving DecidableEq, Repr

/-- `ReserveForCounts`, arpa_io.cc:66-74; `SizeNeededForCounts`, arpa_io.cc:40-44. -/
def ArpaOut.reserve (o : ArpaOut) (number : List Nat) : ArpaOut :=
  { o with file := o.file ++ List.replicate (writeCounts number).length '\n' }

/-- `BeginLength`, arpa_io.cc:76-83. -/
def ArpaOut.beginLength (o : ArpaOut) (length : Nat) : ArpaOut :=
  { o with counter := 0, file := o.file ++ ("\\".toList ++ showNat length ++ "-grams:\n".toList) }

/-- `AddNGram`, arpa_io.hh:57-64. -/
def ArpaOut.addNGram (o : ArpaOut) (line : Txt) : ArpaOut :=
  { o with file := o.file ++ (line ++ ['\n']), counter := o.counter + 1 }

/-- `EndLength`, arpa_io.cc:85-95. -/
def ArpaOut.endLength (o : ArpaOut) (length : Nat) : ArpaOut :=
  let counts := if length > o.counts.length then o.counts ++ List.replicate (length - o.counts.length) 0
    else o.counts
  { o with file := o.file ++ ['\n'], counts := counts.set (length - 1) o.counter }

/-- `Finish`, arpa_io.cc:97-106: the counts overwrite the beginning of the file. -/
def ArpaOut.finish (o : ArpaOut) : Txt :=
  let f := o.file ++ "\\end\\\n".toList
  writeCounts o.counts ++ f.drop (writeCounts o.counts).length

/-- `MultipleOutput::AddNGram` and `SingleAddNGram`, format.hh:30-42; one file is `ARPAOutput`
itself.  `none`: an offset outside the vector of files. -/
def doCall (files : List ArpaOut) : Call → Option (List ArpaOut)
  | .all line => some (files.map (·.addNGram line))
  | .one k line => if k < files.length then some (files.modify k (·.addNGram line)) else none

def doCalls (files : List ArpaOut) : List Call → Option (List ArpaOut)
  | [] => some files
  | c :: cs => (doCall files c).bind (doCalls · cs)

/-- The n-gram of a line: in an ARPA file the second field between tabs, `none` when an exception is
thrown (arpa_io.hh:92-94); in a file of counts the first field (count_io.hh:77-82). -/
def ngramOf (raw : Bool) (line : Txt) : Option Txt :=
  match tokens (findSingle '\t') false (line.length + 2) (some line) with
  | some (a :: g :: _) => some (if raw then a else g)
  | some [a] => if raw then some a else none
  | _ => none

/-- The loop of `ReadNGrams`, arpa_io.hh:90-97, and of `ReadCount`, count_io.hh:75-83, through
`DispatchInput`. -/
def addLines (raw : Bool) (f : Flt) (files : List ArpaOut) : List Txt → Option (List ArpaOut)
  | [] => some files
  | line :: rest =>
    match ngramOf raw line with
    | none => none
    | some g =>
      match f g line with
      | none => none
      | some cs => (doCalls files cs).bind (addLines raw f · rest)

/-- The loop of `ReadARPA`, arpa_io.hh:105-107 (the header of a section is checked by
`ReadNGramHeader`, which is not modelled here); `i` is the number of sections before. -/
def addSections (f : Flt) (files : List ArpaOut) (i : Nat) : List (List Txt) → Option (List ArpaOut)
  | [] => some files
  | sec :: rest =>
    match addLines false f (files.map (·.beginLength (i + 1))) sec with
    | none => none
    | some fs => addSections f (fs.map (·.endLength (i + 1))) (i + 1) rest

/-- `ReadARPA`, arpa_io.hh:101-110, on an ARPA file whose header gives the number of lines of each of
its sections: the contents of the files in the end. -/
def filterArpa (f : Flt) (nfiles : Nat) (sections : List (List Txt)) : Option (List Txt) :=
  let start := List.replicate nfiles (ArpaOut.mk [] 0 [])
  (addSections f (start.map (·.reserve (sections.map List.length))) 0 sections).map
    fun files => files.map ArpaOut.finish

/-- `ReadCount` on a file of counts.  `CountOutput::AddNGram`, count_io.hh:18-20, is that of
`ARPAOutput` without the counter. -/
def filterRaw (f : Flt) (nfiles : Nat) (lines : List Txt) : Option (List Txt) :=
  (addLines true f (List.replicate nfiles (ArpaOut.mk [] 0 [])) lines).map
    fun files => files.map ArpaOut.file

/-- The filter and the number of output files in mode `single`, filter_main.cc:136-141. -/
def singleMode (context : Bool) (vocab : Txt) : Option (Flt × Nat) :=
  (readSingle (vocab.length + 1) vocab).map fun ws => (wrap context (singleFilter ws), 1)

/-- Mode `union`, filter_main.cc:143-154. -/
def unionMode (srt : List (List Nat) → List (List Nat)) (context : Bool) (vocab : Txt) :
    Option (Flt × Nat) :=
  (readMultiple (vocab.length + 1) vocab (fun _ => []) 0 false).map fun r =>
    (wrap context (unionFilter srt r.1), 1)

/-- Mode `multiple`, filter_main.cc:114-127: one file for each sentence of the vocabulary. -/
def multipleMode (srt : List (List Nat) → List (List Nat)) (context : Bool) (vocab : Txt) :
    Option (Flt × Nat) :=
  (readMultiple (vocab.length + 1) vocab (fun _ => []) 0 false).map fun r =>
    (wrap context (multipleFilter srt r.1), r.2)

/-- `ARPAFormat::RunFilter`, format.hh:117-120: the contents of the output files. -/
def runArpa (mode : Option (Flt × Nat)) (sections : List (List Txt)) : Option (List Txt) :=
  mode.bind fun m => filterArpa m.1 m.2 sections

/-- `CountFormat::RunFilter`, format.hh:129-132. -/
def runRaw (mode : Option (Flt × Nat)) (lines : List Txt) : Option (List Txt) :=
  mode.bind fun m => filterRaw m.1 m.2 lines

end Cdec.Klm.Filter
