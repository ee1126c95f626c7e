/-!
# Data array

Models extractor/data_array.cc: a text as a sequence of word numbers with sentence boundaries.  Lines are given
already split into words (`istringstream >> word`, 63-65); the splitting itself, file reading and serialization
are not modelled.  `word2id` is the partial function computed by the `unordered_map`.
-/
namespace Cdec.Extract

/-- data_array.cc:14-17. -/
def nullWordStr : String := "__NULL__"
/-- data_array.cc:17. -/
def eolStr : String := "__END_OF_LINE__"

/-- Members of `DataArray`, data_array.h. -/
structure DataArray where
  word2id : String → Option Nat
  id2word : List String
  data : List Nat
  sentenceId : List Nat
  sentenceStart : List Nat

/-- `word2id[w] = i`. -/
def setId (m : String → Option Nat) (w : String) (i : Nat) : String → Option Nat :=
  fun x => if x = w then some i else m x

/-- `InitializeDataArray`, data_array.cc:52-57. -/
def initDataArray : DataArray where
  word2id := setId (setId (fun _ => none) nullWordStr 0) eolStr 1
  id2word := [nullWordStr, eolStr]
  data := []
  sentenceId := []
  sentenceStart := []

/-- data_array.cc:66-71: one word of line `i`. -/
def addWord (i : Nat) (d : DataArray) (w : String) : DataArray :=
  let d := if (d.word2id w).isNone then
      { d with word2id := setId d.word2id w d.id2word.length, id2word := d.id2word ++ [w] } else d
  { d with data := d.data ++ [(d.word2id w).getD 0], sentenceId := d.sentenceId ++ [i] }

/-- data_array.cc:60-75: one line. -/
def addLine (d : DataArray) (li : List String × Nat) : DataArray :=
  let d := { d with sentenceStart := d.sentenceStart ++ [d.data.length] }
  let d := li.1.foldl (addWord li.2) d
  { d with data := d.data ++ [1], sentenceId := d.sentenceId ++ [li.2] }

/-- `CreateDataArray`, data_array.cc:59-81. -/
def createDataArray (lines : List (List String)) : DataArray :=
  let d := lines.zipIdx.foldl addLine initDataArray
  { d with sentenceStart := d.sentenceStart ++ [d.data.length] }

/-- `GetSentenceStart`, data_array.cc:121-123. -/
def DataArray.getSentenceStart (d : DataArray) (i : Nat) : Nat := d.sentenceStart.getD i 0
/-- `GetSentenceLength`, data_array.cc:125-128. -/
def DataArray.getSentenceLength (d : DataArray) (i : Nat) : Nat :=
  d.sentenceStart.getD (i + 1) 0 - d.sentenceStart.getD i 0 - 1
/-- `GetNumSentences`, data_array.cc:117-119. -/
def DataArray.getNumSentences (d : DataArray) : Nat := d.sentenceStart.length - 1
/-- `GetWordAtIndex`, data_array.cc:93-95; `none` outside the vectors. -/
def DataArray.getWordAtIndex (d : DataArray) (i : Nat) : Option String := (d.data[i]?).bind (d.id2word[·]?)
/-- `GetSentenceId`, data_array.cc:130-132. -/
def DataArray.getSentenceId (d : DataArray) (i : Nat) : Nat := d.sentenceId.getD i 0

end Cdec.Extract
