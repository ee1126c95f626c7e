import Verif.Klm.LmSort
/-!
# Counting the n-grams of a corpus

Models lm/builder/corpus_count.cc.  Lines are lists of word numbers (the vocabulary maps strings to numbers one to one), so
reading and tokenising are not modelled.
-/
namespace Cdec.Klm.Builder

/-- lm/word_index.hh and lm/builder/ngram.hh:15: the numbers of the special words. -/
def kUNK : Nat := 0
@[inherit_doc kUNK] def kBOS : Nat := 1
/-- `</s>`, the third word of the vocabulary (lm/builder/corpus_count.cc:203). -/
def kEOS : Nat := 2

/-- `Writer`, lm/builder/corpus_count.cc:152-164: the blocks already passed on, the records written to the current block, and
the first order - 1 words of the record that is being written.  The hash table of the current block is not kept apart: a lookup
in it is a search in `cur` (the two special records of a unigram model are not in the table, but their words are never looked
up). -/
structure Writer where
  blocks : List (List (Gram × Nat))
  cur : List (Gram × Nat)
  ctx : List Nat
  deriving Repr, DecidableEq

/-- Passing on a full block, lm/builder/corpus_count.cc:127, 133-138 and 146-149.  `cap` is the number of records of a block. -/
def Writer.flush (cap : Nat) (w : Writer) : Writer :=
  if w.cur.length = cap then ⟨w.blocks ++ [w.cur], [], w.ctx⟩ else w

/-- `++(already.Count())`, lm/builder/corpus_count.cc:118-119. -/
def bumpCount (g : Gram) : List (Gram × Nat) → List (Gram × Nat)
  | [] => []
  | e :: es => if e.1 = g then (e.1, e.2 + 1) :: es else e :: bumpCount g es

/-- `AddUnigramWord`, lm/builder/corpus_count.cc:142-150. -/
def Writer.addUnigram (cap : Nat) (w : Writer) (x : Nat) : Writer :=
  Writer.flush cap ⟨w.blocks, w.cur ++ [([x], 0)], w.ctx⟩

/-- The constructor, lm/builder/corpus_count.cc:85-98. -/
def Writer.init (order cap : Nat) : Writer :=
  if order = 1 then ((⟨[], [], []⟩ : Writer).addUnigram cap kUNK).addUnigram cap kBOS else ⟨[], [], []⟩

/-- `StartSentence`, lm/builder/corpus_count.cc:106-110. -/
def Writer.startSentence (order : Nat) (w : Writer) : Writer := ⟨w.blocks, w.cur, List.replicate (order - 1) kBOS⟩

/-- `Append`, lm/builder/corpus_count.cc:112-139. -/
def Writer.append (cap : Nat) (w : Writer) (x : Nat) : Writer :=
  let gram := w.ctx ++ [x]
  if gram ∈ w.cur.map (·.1) then ⟨w.blocks, bumpCount gram w.cur, gram.drop 1⟩
  else Writer.flush cap ⟨w.blocks, w.cur ++ [(gram, 1)], gram.drop 1⟩

/-- One line, lm/builder/corpus_count.cc:211-221: the special words are skipped, `</s>` is added. -/
def Writer.line (order cap : Nat) (w : Writer) (ws : List Nat) : Writer :=
  ((ws.filter fun x => ¬ x ≤ 2).foldl (Writer.append cap) (w.startSentence order)).append cap kEOS

/-- `CorpusCount::Run`, lm/builder/corpus_count.cc:199-226, and the destructor of `Writer`, lines 100-103. -/
def corpusBlocks (order cap : Nat) (corpus : List (List Nat)) : List (List (Gram × Nat)) :=
  let w := corpus.foldl (Writer.line order cap) (Writer.init order cap)
  w.blocks ++ [w.cur]

/-- `CountText`, lm/builder/pipeline.cc:210-236, and the reading of the sorted stream (`InitForAdjust`): `out` is a possible
stream of n-grams for blocks of `cap` records. -/
def CountsTo (order cap : Nat) (corpus : List (List Nat)) (out : List (Gram × Nat)) : Prop :=
  ∃ runs, Runs (fun r : Gram × Nat => suffixKey r.1) (corpusBlocks order cap corpus) runs ∧
    Sorts (fun r : Gram × Nat => suffixKey r.1) addCombine runs out

namespace CountSpec

/-- The words of a line that are counted, with the order - 1 `<s>` before and the `</s>` after them. -/
def padded (order : Nat) (ws : List Nat) : List Nat :=
  List.replicate (order - 1) kBOS ++ (ws.filter fun x => ¬ x ≤ 2) ++ [kEOS]

/-- The n-grams of a list of words: one for each position at which `order` words are left. -/
def ngrams (order : Nat) (ws : List Nat) : List Gram :=
  (List.range (ws.length + 1 - order)).map fun i => (ws.drop i).take order

/-- All n-grams of a corpus. -/
def corpusNgrams (order : Nat) (corpus : List (List Nat)) : List Gram :=
  corpus.flatMap fun l => ngrams order (padded order l)

end CountSpec

end Cdec.Klm.Builder
