import Verif.Klm.TrieSpec
import Mathlib.Data.List.Basic
import Mathlib.Data.List.Perm.Basic
/-!
# The sorted files of the trie builder

Models klm/lm/trie_sort.{hh,cc}: an order of an ARPA file is read in batches that fit into a buffer; each batch is sorted and written, with its contexts, and the files are merged two by two.

Simplifications: files are lists; reading the lines of the ARPA file is not part of this model, so the input is the list of records in the order of the file.
-/
namespace Cdec.Klm.LM

variable {K : Type}

/-- The sorts (`std::sort`) of the records and of the contexts of a batch, trie_sort.cc:80-87 and 270-277. -/
structure Sorters (K : Type) where
  recs : List (Rec K) → List (Rec K)
  ctxs : List (List Word) → List (List Word)

/-- The contexts, each once, trie_sort.cc:91-103: a context is written when it differs from the one before. -/
def uniq : List (List Word) → List (List Word)
  | [] => []
  | [c] => [c]
  | c :: d :: l => if c = d then uniq (d :: l) else c :: uniq (d :: l)

/-- The batches, trie_sort.cc:252-281: `b` records each, and what remains in the last.  For `b = 0` the program does not stop. -/
def batches (b : Nat) (l : List (Rec K)) : List (List (Rec K)) :=
  if h : b = 0 ∨ l = [] then [] else l.take b :: batches b (l.drop b)
termination_by l.length
decreasing_by
  have : 0 < l.length := List.length_pos_iff.2 fun e => h (.inr e)
  rw [List.length_drop]
  omega

/-- `MergeSortedFiles`, trie_sort.cc:127-149; `none` is the exception of `combine`. -/
def mergeFiles {α : Type} (key : α → List Word) (combine : α → α → Option α) : List α → List α → Option (List α)
  | [], l => some l
  | l, [] => some l
  | x :: xs, y :: ys =>
    if key x < key y then (mergeFiles key combine xs (y :: ys)).map (x :: ·)
    else if key y < key x then (mergeFiles key combine (x :: xs) ys).map (y :: ·)
    else
      match combine x y with
      | none => none
      | some z => (mergeFiles key combine xs ys).map (z :: ·)
termination_by l l' => l.length + l'.length

/-- `DiskFlush` and `WriteContextFile` for a batch, trie_sort.cc:72-104 and 270-279. -/
def flush (st : Sorters K) (l : List (Rec K)) : List (Rec K) × List (List Word) :=
  (st.recs l, uniq (st.ctxs ((st.recs l).map fun r => r.g.tail)))

/-- Merging the files, trie_sort.cc:285-300: the first two are merged into a new last one, with `ThrowCombine` for the records and `FirstCombine` for the contexts.  Without a file, the readers find nothing
(trie_sort.cc:153-164). -/
def mergeQueue : List (List (Rec K) × List (List Word)) → Option (List (Rec K) × List (List Word))
  | [] => some ([], [])
  | [x] => some x
  | x :: y :: q =>
    match mergeFiles (·.g) (fun _ _ => none) x.1 y.1, mergeFiles id (fun c _ => some c) x.2 y.2 with
    | some f, some c => mergeQueue (q ++ [(f, c)])
    | _, _ => none
termination_by q => q.length

/-- `ConvertToSorted`, trie_sort.cc:239-303. -/
def convertToSorted (st : Sorters K) (b : Nat) (l : List (Rec K)) : Option (List (Rec K) × List (List Word)) := mergeQueue ((batches b l).map (flush st))

/-- `SortedFiles`, trie_sort.cc:194-222: all orders; `sect n` are the records of order `n` as read, `b n` the number of records that fit into the buffer. -/
def sortFiles (st : Sorters K) (order : Nat) (b : Nat → Nat) (sect : Nat → List (Rec K)) : Option (Files K) :=
  (List.range' 2 (order - 1)).foldl (fun o n => match o, convertToSorted st (b n) (sect n) with
    | some f, some x => some ⟨fun i => if i = n then x.1 else f.full i, fun i => if i + 1 = n then x.2 else f.ctx i⟩
    | _, _ => none) (some ⟨fun _ => [], fun _ => []⟩)

/-! ## Specification -/

/-- The sorts sort. -/
structure Spec.SortersOk (st : Sorters K) : Prop where
  recs : ∀ l, (st.recs l).Perm l ∧ (st.recs l).Pairwise fun r r' => r.g ≤ r'.g
  ctxs : ∀ l, (st.ctxs l).Perm l ∧ (st.ctxs l).Pairwise (· ≤ ·)

end Cdec.Klm.LM
