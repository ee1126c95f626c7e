import Verif.Klm.NGram
import Verif.Klm.SortedSearch
import Mathlib.Data.List.Lex
/-!
# The trie of a language model

Models klm/lm/search_trie.{hh,cc} and klm/lm/trie.{hh,cc} without quantisation: building a trie from sorted files of n-grams (`BuildTrie`) and looking n-grams up in it (`TrieSearch`).

Simplifications, besides those of `NGram.lean`.  Bit-packed arrays are lists of records (`Klm/Packed.lean` models the packing and the two ways of storing next
pointers, and C107 shows that they give these lists back); memory is not bounded, so the counting of `FindBlanks` and `SanityCheckCounts` are left out.  Files are lists.  N-grams are written newest word first, as in the files.  The calls that
`RecursiveInsert` makes on its argument `doing` are a list; the two passes go through it.
-/
namespace Cdec.Klm.LM

variable {K : Type}

/-- A record of a sorted file, trie_sort.cc:262-271; `ext` says that the back-off is not the bit pattern `-0.0`. -/
structure Rec (K : Type) where
  g : List Word
  prob : K
  bo : K
  ext : Bool

/-- Probability and back-off of a unigram, weights.hh. -/
structure Wt (K : Type) where
  prob : K
  bo : K
  ext : Bool

/-- What the visitor of `RecursiveInsert` is told: `Unigram`, `MiddleBlank`, `Middle`, `Longest`. -/
inductive Call (K : Type) where
  | unigram (w : Word)
  | blank (g : List Word) (lower : Nat) (basis : K)
  | middle (r : Rec K)
  | longest (r : Rec K)

/-! ## `RecursiveInsert` -/

/-- `BlankManager`, search_trie.cc:310-357.  `basis n` is `basis_[n - 1]`, with `none` for `kBadProb`. -/
structure Blank (K : Type) where
  been : List Word
  basis : Nat → Option K

/-- The number of leading words in which two n-grams agree, search_trie.cc:319-323. -/
def common : List Word → List Word → Nat
  | x :: xs, y :: ys => if x = y then common xs ys + 1 else 0
  | _, _ => 0

/-- search_trie.cc:332-334: the highest order, from `n` downwards, with a probability; `none` is a read before the array. -/
def findBasis (basis : Nat → Option K) : Nat → Option (Nat × K)
  | 0 => none
  | n + 1 =>
    match basis (n + 1) with
    | some q => some (n + 1, q)
    | none => findBasis basis n

/-- `BlankManager::Visit`, search_trie.cc:315-345, with the calls of `MiddleBlank`; `none` is the exception. -/
def visit (b : Blank K) (g : List Word) (p : K) : Option (List (Call K) × Blank K) :=
  let basis : Nat → Option K := fun n => if n = g.length then some p else b.basis n
  let cur := common g.dropLast b.been
  if cur = g.length - 1 then some ([], ⟨g, basis⟩)
  else if cur = 0 then none
  else
    match findBasis basis cur with
    | none => none
    | some q =>
      some ((List.range' (cur + 1) (g.length - 1 - cur)).map fun n => Call.blank (g.take n) q.1 q.2,
        ⟨g, fun n => if cur < n ∧ n < g.length then none else basis n⟩)

/-- The top of the priority queue of the heads of the files, search_trie.cc:298-308 and 369-370: the smallest n-gram. -/
def popMin : List (List (Rec K)) → Option (Rec K × List (List (Rec K)))
  | [] => none
  | [] :: qs => (popMin qs).map fun x => (x.1, [] :: x.2)
  | (r :: q) :: qs =>
    match popMin qs with
    | none => some (r, q :: qs)
    | some (r', qs') => if r.g < r'.g then some (r, q :: qs) else some (r', (r :: q) :: qs')

/-- The order in which `RecursiveInsert` takes the n-grams, search_trie.cc:359-391; `fuel` is the number of n-grams. -/
def mergeAll : Nat → List (List (Rec K)) → List (Rec K)
  | 0, _ => []
  | fuel + 1, qs =>
    match popMin qs with
    | none => []
    | some (r, qs') => r :: mergeAll fuel qs'

/-- search_trie.cc:372-387. -/
def callOf (order : Nat) (r : Rec K) : Call K :=
  if r.g.length = 1 then .unigram (r.g.headD 0) else if r.g.length = order then .longest r else .middle r

/-- The loop of `RecursiveInsert`, search_trie.cc:369-391. -/
def insertLoop (order : Nat) : Blank K → List (Rec K) → Option (List (Call K))
  | _, [] => some []
  | b, r :: rs =>
    match visit b r.g r.prob with
    | none => none
    | some (cs, b') => (insertLoop order b' rs).map fun t => cs ++ callOf order r :: t

/-- `RecursiveInsert`, search_trie.cc:359-392; the unigrams `0`, …, `vocab - 1` are one of the files. -/
def recursiveInsert (order vocab : Nat) (uni : Word → Wt K) (full : Nat → List (Rec K)) : Option (List (Call K)) :=
  let qs := ((List.range vocab).map fun w => (⟨[w], (uni w).prob, (uni w).bo, (uni w).ext⟩ : Rec K)) :: (List.range' 2 (order - 1)).map full
  insertLoop order ⟨[], fun _ => none⟩ (mergeAll (qs.map List.length).sum qs)

/-! ## The probabilities of blanks -/

/-- A message to a context: its words, and where its back-off is to be added (order and index), search_trie.cc:53-72. -/
abbrev Message := List Word × Nat × Nat

/-- `SRISucks`, search_trie.cc:176-230: the probabilities of the blanks of each order, and the messages to contexts by number of words. -/
structure Sri (K : Type) where
  values : Nat → List K
  messages : Nat → List Message

/-- `SRISucks::Send`, search_trie.cc:183-193, for the blank `g`. -/
def Sri.send (s : Sri K) (lower : Nat) (g : List Word) (basis : K) : Sri K :=
  { values := fun n => if n = g.length then s.values n ++ [basis] else s.values n
    messages := fun i => if lower ≤ i ∧ i < g.length then s.messages i ++ [(g.tail.take i, g.length, (s.values g.length).length)] else s.messages i }

/-- The first pass, `FindBlanks`, search_trie.cc:232-266. -/
def findBlanks (calls : List (Call K)) : Sri K :=
  calls.foldl (fun s c => match c with
    | .blank g lower basis => s.send lower g basis
    | _ => s) ⟨fun _ => [], fun _ => []⟩

variable [AddCommGroup K]

/-- `base[write_to.array][write_to.index] += x`. -/
def addTo (v : Nat → List K) (p : Nat × Nat) (x : K) : Nat → List K := fun n => if n = p.1 then (v n).modify p.2 (· + x) else v n

/-- `SetExtension` on a back-off without extension, blank.hh:28-40: `kExtensionBackoff` is `0.0`. -/
def Wt.mark (u : Wt K) : Wt K := if u.ext then u else ⟨u.prob, 0, true⟩

/-- `BackoffMessages::Apply` to the unigrams, search_trie.cc:74-95. -/
def applyUni (uni : Word → Wt K) (values : Nat → List K) : List Message → (Word → Wt K) × (Nat → List K)
  | [] => (uni, values)
  | m :: ms =>
    let u := (uni (m.1.headD 0)).mark
    applyUni (fun w => if w = m.1.headD 0 then u else uni w) (addTo values m.2 u.bo) ms

/-- `BackoffMessages::Apply` to a file, search_trie.cc:97-131.  The results are the file, the probabilities of blanks, and the messages that nobody received.  When the file ends, the rest of the
messages is forgotten. -/
def apply (values : Nat → List K) : List (Rec K) → List Message → List (Rec K) × (Nat → List K) × List (List Word)
  | [], _ => ([], values, [])
  | rs, [] => (rs, values, [])
  | r :: rs, m :: ms =>
    if r.g < m.1 then
      let o := apply values rs (m :: ms)
      (r :: o.1, o.2)
    else if m.1 < r.g then
      let o := apply values (r :: rs) ms
      (o.1, o.2.1, m.1 :: o.2.2)
    else if r.ext then apply (addTo values m.2 r.bo) (r :: rs) ms
    else apply values (⟨r.g, r.prob, 0, true⟩ :: rs) ms
termination_by rs ms => rs.length + ms.length

/-- What `ObtainBackoffs` changes. -/
structure Obtained (K : Type) where
  uni : Word → Wt K
  full : Nat → List (Rec K)
  values : Nat → List K
  extend : Nat → List (List Word)

/-- `SRISucks::ObtainBackoffs`, search_trie.cc:195-206; `srt` is `std::sort` (`FinishedAdding`, search_trie.cc:151-159). -/
def obtainBackoffs (srt : List Message → List Message) (order : Nat) (uni : Word → Wt K) (full : Nat → List (Rec K)) (s : Sri K) : Obtained K :=
  let u := applyUni uni s.values (srt (s.messages 1))
  (List.range' 2 (order - 2)).foldl (fun o i =>
    let r := apply o.values (o.full i) (srt (s.messages i))
    { uni := o.uni, values := r.2.1
      full := fun n => if n = i then r.1 else o.full n
      extend := fun n => if n = i then r.2.2 else o.extend n }) ⟨u.1, full, u.2, fun _ => []⟩

/-! ## Writing the trie -/

/-- An entry of a table, trie.hh:90-135.  The table of the highest order holds no back-offs and next pointers; they are zero here. -/
structure Slot (K : Type) where
  word : Word
  prob : K
  bo : K
  ext : Bool
  next : Nat

/-- `WriteEntries`, search_trie.cc:268-296: what has been written (`uniNext`, and `tab n` for the order `n`) and what is left of the contexts (by number of words), of the probabilities of blanks and of
the list of blanks that are contexts. -/
structure Writer (K : Type) where
  uniNext : List Nat
  tab : Nat → List (Slot K)
  contexts : Nat → List (List Word)
  values : Nat → List K
  extend : Nat → List (List Word)

/-- `BackoffMessages::Extends`, search_trie.cc:134-148. -/
def extendsBlank : List (List Word) → List Word → Bool × List (List Word)
  | [], _ => (false, [])
  | c :: cs, g => if c < g then extendsBlank cs g else (decide (c = g), c :: cs)

/-- `Insert`, trie.cc:80-93 and 116-123: the next pointer is the number of entries of the next order so far. -/
def Writer.insert (b : Writer K) (g : List Word) (prob bo : K) (ext : Bool) (hasNext : Bool) : Writer K :=
  { b with tab := fun n => if n = g.length then b.tab n ++ [⟨g.getLastD 0, prob, bo, ext, if hasNext then (b.tab (g.length + 1)).length else 0⟩] else b.tab n }

/-- One call, search_trie.cc:279-308; `none` is a read after the probabilities of blanks. -/
def Writer.step (order : Nat) (b : Writer K) : Call K → Option (Writer K)
  | .unigram _ => some { b with uniNext := b.uniNext ++ [(b.tab 2).length] }
  | .blank g _ _ =>
    match b.values g.length with
    | [] => none
    | v :: vs =>
      let e : Bool × List (List Word) := if g.length ≠ order - 1 then extendsBlank (b.extend g.length) g else (false, b.extend g.length)
      let b' : Writer K := { b with values := fun n => if n = g.length then vs else b.values n, extend := fun n => if n = g.length then e.2 else b.extend n }
      some (b'.insert g v 0 e.1 true)
  | .middle r =>
    match b.contexts r.g.length with
    | c :: cs =>
      if c = r.g then
        let b' : Writer K := { b with contexts := fun n => if n = r.g.length then cs else b.contexts n }
        some (b'.insert r.g r.prob r.bo true true)
      else some (b.insert r.g r.prob r.bo r.ext true)
    | [] => some (b.insert r.g r.prob r.bo r.ext true)
  | .longest r => some (b.insert r.g r.prob 0 false false)

/-- The second pass. -/
def Writer.run (order : Nat) : Writer K → List (Call K) → Option (Writer K)
  | b, [] => some b
  | b, c :: cs =>
    match b.step order c with
    | none => none
    | some b' => Writer.run order b' cs

/-- `PopulateUnigramWeights`, search_trie.cc:427-441: the words `w`, …, `w + n - 1`. -/
def populate (uni : Word → Wt K) (contexts : List (List Word)) (w : Word) : Nat → (Word → Wt K) × List (List Word)
  | 0 => (uni, contexts)
  | n + 1 =>
    match contexts with
    | c :: cs =>
      if c.headD 0 = w then populate (fun x => if x = w then ⟨(uni w).prob, (uni w).bo, true⟩ else uni x) cs (w + 1) n
      else populate uni (c :: cs) (w + 1) n
    | [] => populate uni [] (w + 1) n

/-- `TrieSearch`, search_trie.hh:28-125. -/
structure Trie (K : Type) where
  order : Nat
  vocab : Nat
  uni : Word → Wt K
  uniNext : List Nat
  tab : Nat → List (Slot K)

/-- The sorted files of n-grams (by order) and contexts (by number of words), trie_sort.hh:79-110. -/
structure Files (K : Type) where
  full : Nat → List (Rec K)
  ctx : Nat → List (List Word)

/-- `BuildTrie`, search_trie.cc:445-541; `none` is an exception. -/
def buildTrie (srt : List Message → List Message) (order vocab : Nat) (uni : Word → Wt K) (f : Files K) : Option (Trie K) :=
  match recursiveInsert order vocab uni f.full with
  | none => none
  | some calls =>
    let o := obtainBackoffs srt order uni f.full (findBlanks calls)
    let u := populate o.uni (f.ctx 1) 0 vocab
    match recursiveInsert order vocab o.uni o.full with
    | none => none
    | some calls' =>
      match Writer.run order ⟨[], fun _ => [], fun n => if n = 1 then u.2 else if 2 ≤ n ∧ n < order then f.ctx n else [], o.values, o.extend⟩ calls' with
      | none => none
      | some b =>
        if (List.range' 1 (order - 1)).any (fun n => !(b.contexts n).isEmpty) then none
        else some ⟨order, vocab, u.1, b.uniNext ++ [(b.tab 2).length], b.tab⟩

/-! ## Looking n-grams up -/

/-- `FindBitPacked`, trie.cc:34-38: interpolation search between `begin - 1` and `end`.  Indices are one higher here, because `begin - 1` can be the number before zero. -/
def findSlot (vocab : Nat) (tab : List (Slot K)) (w : Word) (b e : Nat) : Option Nat :=
  match boundedFind pivot32 (0 :: tab.map (·.word)) w b 0 (e + 1) vocab with
  | some (some p) => some (p - 1)
  | _ => none

/-- The next pointer at an index (`ReadNext`, bhiksha.hh:43-47); the one after the last entry is written by `FinishedLoading`, trie.cc:107-114, search_trie.cc:535-540. -/
def Trie.next (t : Trie K) (n i : Nat) : Nat :=
  match (t.tab n)[i]? with
  | some s => s.next
  | none => (t.tab (n + 1)).length

/-- `Find` for one word after another (`LookupMiddle`, `LookupLongest`, search_trie.hh:83-92): the words `ws` below the node with the range `r`, in the tables from order `n` on.  The result is the index of
the last entry. -/
def Trie.descend (t : Trie K) (n : Nat) (r : Nat × Nat) : List Word → Option Nat
  | [] => none
  | [w] => findSlot t.vocab (t.tab n) w r.1 r.2
  | w :: x :: ws =>
    match findSlot t.vocab (t.tab n) w r.1 r.2 with
    | none => none
    | some i => t.descend (n + 1) (t.next n i, t.next n (i + 1)) (x :: ws)

/-- The range of a unigram, trie.hh:62-67. -/
def Trie.uniRange (t : Trie K) (w : Word) : Nat × Nat := (t.uniNext.getD w 0, t.uniNext.getD (w + 1) 0)

/-- The index of an n-gram in the table of its order. -/
def Trie.locate (t : Trie K) : List Word → Option Nat
  | [] => none
  | w :: ws => t.descend 2 (t.uniRange w) ws

/-- The entry of an n-gram. -/
def Trie.slot (t : Trie K) (g : List Word) : Option (Slot K) := (t.locate g).bind fun i => (t.tab g.length)[i]?

/-- The interface of the queries, search_trie.hh:66-104: `independent_left` says that the range of the node is empty. -/
def Trie.search (t : Trie K) : Search K where
  order := t.order
  uni := fun w => ⟨(t.uni w).prob, (t.uni w).prob, (t.uni w).bo, (t.uni w).ext, decide ((t.uniRange w).1 = (t.uniRange w).2)⟩
  mid := fun i g => if g.length = i + 2 then (t.locate g).bind fun j => ((t.tab g.length)[j]?).map fun s =>
    ⟨s.prob, s.prob, s.bo, s.ext, decide (t.next g.length j = t.next g.length (j + 1))⟩ else none
  long := fun g => if g.length = t.order then (t.slot g).map (·.prob) else none

end Cdec.Klm.LM
