import Verif.Klm.SortedSearch
import Verif.Klm.Probing
/-!
# The vocabulary of a language model

Models klm/lm/vocab.cc and klm/lm/vocab.hh: `SortedVocabulary`, `ProbingVocabulary`, `WriteWordsWrapper` and `ReadWords`.
A word is the list of its bytes.  The 64-bit hash function is a parameter, as is the (unstable) sort `JointSort`.  Word
indices are natural numbers: fewer than 2^32 words are assumed.  The results `none` are accesses outside of the memory
that was set up, exceptions, or loops without end.  `GrowableVocab` is not modelled.
-/
namespace Cdec.Klm.Vocab

/-- A word: its bytes. -/
abbrev Word := List Nat

/-- `"<unk>"`. -/
def unk : Word := [60, 117, 110, 107, 62]

/-- `"<UNK>"`. -/
def unkCap : Word := [60, 85, 78, 75, 62]

/-- `JointSort`, klm/util/joint_sort.hh: sorts keys and moves the values along. -/
abbrev JointSort := ∀ (β : Type), List (Nat × β) → List (Nat × β)

/-- `EnumerateVocab::Add(i, word)` for consecutive indices. -/
def numbered : Nat → List Word → List (Nat × Word)
  | _, [] => []
  | i, w :: ws => (i, w) :: numbered (i + 1) ws

/-! ## The sorted vocabulary -/

/-- `SortedVocabulary`, vocab.hh:49-110. -/
structure Sorted where
  /-- the word before `begin_` -/
  count : Nat
  /-- `[begin_, end_)` -/
  hashes : List Nat
  /-- how many words have been allocated from `begin_` on -/
  capacity : Nat
  sawUnk : Bool
  bound : Nat
  /-- `strings_to_enumerate_` up to the words inserted; none if `enumerate_` is null -/
  strings : Option (List Word)
  /-- the calls of `enumerate_->Add` -/
  out : List (Nat × Word)

/-- `SetupMemory` and `ConfigureEnumerate`, vocab.cc:89-109; the memory is zero. -/
def Sorted.setup (enumerate : Bool) (entries : Nat) : Sorted :=
  { count := 0, hashes := [], capacity := entries, sawUnk := false, bound := 0,
    strings := if enumerate then some [] else none, out := if enumerate then [(0, unk)] else [] }

/-- `SortedVocabulary::Insert`, vocab.cc:111-126. -/
def Sorted.insert (h : Word → Nat) (s : Sorted) (w : Word) : Option (Nat × Sorted) :=
  if h w = h unk ∨ h w = h unkCap then some (0, { s with sawUnk := true })
  else if s.hashes.length < s.capacity then
    some (s.hashes.length + 1, { s with hashes := s.hashes ++ [h w], strings := s.strings.map (· ++ [w]) })
  else none

/-- The unigrams of the model are inserted one after the other; the indices are those returned. -/
def Sorted.insertAll (h : Word → Nat) : Sorted → List Word → Option (List Nat × Sorted)
  | s, [] => some ([], s)
  | s, w :: ws =>
    match s.insert h w with
    | none => none
    | some (i, s') =>
      match s'.insertAll h ws with
      | none => none
      | some (is, s'') => some (i :: is, s'')

/-- `SortedVocabulary::FinishedLoading`, vocab.cc:128-149: the weights and the vocabulary. -/
def Sorted.finish {W : Type} (sort : JointSort) (s : Sorted) (weights : List W) : Option (List W × Sorted) :=
  let n := s.hashes.length
  if weights.length < n + 1 then none
  else
    match s.strings with
    | some strs =>
      let r := sort _ (s.hashes.zip (((weights.drop 1).take n).zip strs))
      some (weights.take 1 ++ r.map (fun x => x.2.1) ++ weights.drop (n + 1),
        { s with hashes := r.map Prod.fst, strings := some [],
                 out := s.out ++ numbered 1 (r.map fun x => x.2.2), count := n, bound := n + 1 })
    | none =>
      let r := sort _ (s.hashes.zip ((weights.drop 1).take n))
      some (weights.take 1 ++ r.map Prod.snd ++ weights.drop (n + 1),
        { s with hashes := r.map Prod.fst, count := n, bound := n + 1 })

/-- Loading the unigrams: the indices that `Insert` returned, the reordered weights and the vocabulary. -/
def Sorted.load {W : Type} (sort : JointSort) (h : Word → Nat) (enumerate : Bool) (entries : Nat) (ws : List Word)
    (weights : List W) : Option (List Nat × List W × Sorted) :=
  match (Sorted.setup enumerate entries).insertAll h ws with
  | none => none
  | some (is, s) =>
    match s.finish sort weights with
    | none => none
    | some (weights', s') => some (is, weights', s')

/-- `SortedVocabulary::Index`, vocab.hh:53-65; `q` is the quotient of the interpolation (C51). -/
def Sorted.index (q : Nat → Nat → Nat → Nat) (h : Word → Nat) (s : Sorted) (w : Word) : Option Nat :=
  match boundedFind (pivot64 q) (s.count :: s.hashes) (h w) 0 0 (s.hashes.length + 1) (2 ^ 64 - 1) with
  | none => none
  | some (some p) => some p
  | some none => some 0

/-- The memory that is written to the binary file. -/
def Sorted.image (s : Sorted) : List Nat :=
  s.count :: s.hashes ++ List.replicate (s.capacity - s.hashes.length) 0

/-! ## The hashed vocabulary -/

/-- `ProbingVocabulary`, vocab.hh:130-187. -/
structure Probing where
  /-- `lookup_` -/
  lookup : Table Nat Nat
  bound : Nat
  sawUnk : Bool
  enumerate : Bool
  out : List (Nat × Word)
  /-- `header_->bound` -/
  header : Nat

/-- `SetupMemory` and `ConfigureEnumerate`, vocab.cc:178-195: `buckets` buckets of zero bytes. -/
def Probing.setup (enumerate : Bool) (buckets : Nat) : Probing :=
  { lookup := ⟨List.replicate buckets (0, 0), 0⟩, bound := 1, sawUnk := false, enumerate := enumerate
    out := if enumerate then [(0, unk)] else [], header := 0 }

/-- `ProbingVocabulary::Insert`, vocab.cc:197-208. -/
def Probing.insert (h : Word → Nat) (s : Probing) (w : Word) : Outcome (Nat × Probing) :=
  if h w = h unk ∨ h w = h unkCap then .ok (0, { s with sawUnk := true })
  else
    match s.lookup.insert 0 id (h w, s.bound) with
    | .ok t =>
      .ok (s.bound, { s with lookup := t, bound := s.bound + 1, out := if s.enumerate then s.out ++ [(s.bound, w)] else s.out })
    | .throw => .throw
    | .diverge => .diverge

/-- The unigrams are inserted one after the other. -/
def Probing.insertAll (h : Word → Nat) : Probing → List Word → Outcome (List Nat × Probing)
  | s, [] => .ok ([], s)
  | s, w :: ws =>
    match s.insert h w with
    | .throw => .throw
    | .diverge => .diverge
    | .ok (i, s') =>
      match s'.insertAll h ws with
      | .throw => .throw
      | .diverge => .diverge
      | .ok (is, s'') => .ok (i :: is, s'')

/-- `ProbingVocabulary::FinishedLoading`, vocab.cc:210-215. -/
def Probing.finish (s : Probing) : Probing := { s with header := s.bound }

/-- Loading the unigrams. -/
def Probing.load (h : Word → Nat) (enumerate : Bool) (buckets : Nat) (ws : List Word) : Outcome (List Nat × Probing) :=
  match (Probing.setup enumerate buckets).insertAll h ws with
  | .throw => .throw
  | .diverge => .diverge
  | .ok (is, s) => .ok (is, s.finish)

/-- `ProbingVocabulary::Index`, vocab.hh:134-137. -/
def Probing.index (h : Word → Nat) (s : Probing) (w : Word) : Option Nat :=
  match find 0 id s.lookup.t (h w) with
  | none => none
  | some (some p) => (s.lookup.t[p]?).map Prod.snd
  | some none => some 0

/-! ## The words in the binary file -/

/-- `WriteWordsWrapper::Add`, vocab.cc:79-83, for all words enumerated: the buffer. -/
def writeWords (out : List (Nat × Word)) : List Nat := out.flatMap fun x => x.2 ++ [0]

/-- `while (buf[buf.size() - 1])` read one more byte, vocab.cc:57-61; none is an exception at the end of the file. -/
def extend (buf : List Nat) : List Nat → Option (List Nat × List Nat)
  | [] => if buf.getLast? = some 0 then some (buf, []) else none
  | c :: rest => if buf.getLast? = some 0 then some (buf, c :: rest) else extend (buf ++ [c]) rest

/-- The loop over the terminated strings in the buffer, vocab.cc:63-67. -/
def splitWords (b : List Nat) : List Word :=
  if _hb : b = [] then []
  else
    let w := b.takeWhile (· ≠ 0)
    w :: splitWords (b.drop (w.length + 1))
termination_by b.length
decreasing_by
  have := List.length_pos_iff.mpr _hb
  simp only [List.length_drop]; omega

/-- `while (true)`, vocab.cc:53-68, reading `K` bytes at a time; the words found.  The fuel is more than the bytes. -/
def readLoop (K : Nat) : Nat → List Nat → Option (List Word)
  | 0, _ => none
  | fuel + 1, file =>
    if file.take K = [] then some []
    else
      match extend (file.take K) (file.drop K) with
      | none => none
      | some (buf, rest) =>
        match readLoop K fuel rest with
        | none => none
        | some ws => some (splitWords buf ++ ws)

/-- `ReadWords` with an enumerator, vocab.cc:35-72, on the bytes from the offset on: the words enumerated; none is an
exception.  (In the code `K` is 16384.) -/
def readWords (K : Nat) (file : List Nat) (expected : Nat) : Option (List (Nat × Word)) :=
  if file.take 6 = unk ++ [0] then
    match readLoop K (file.length + 1) (file.drop 6) with
    | none => none
    | some ws => if expected ≠ ws.length + 1 then none else some ((0, unk) :: numbered 1 ws)
  else none

/-- `SortedVocabulary::LoadedBinary`, vocab.cc:151-156, with words and an enumerator. -/
def Sorted.loadedBinary (K : Nat) (image file : List Nat) : Option Sorted :=
  let count := image.headD 0
  match readWords K file (count + 1) with
  | none => none
  | some out =>
    some { count := count, hashes := (image.drop 1).take count, capacity := image.length - 1, sawUnk := false,
           bound := count + 1, strings := none, out := out }

/-- `ProbingVocabulary::LoadedBinary`, vocab.cc:217-222, with words and an enumerator; the image is the header and the
buckets. -/
def Probing.loadedBinary (K : Nat) (image : Nat × List (Nat × Nat)) (file : List Nat) : Option Probing :=
  match readWords K file image.1 with
  | none => none
  | some out =>
    some { lookup := ⟨image.2, 0⟩, bound := image.1, sawUnk := false, enumerate := true, out := out, header := image.1 }

end Cdec.Klm.Vocab
