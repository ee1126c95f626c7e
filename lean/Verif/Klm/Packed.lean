import Verif.Props.C48
import Verif.Klm.SortedSearch
/-!
# The packed tables of the trie

Models klm/lm/trie.{hh,cc} (`BitPackedMiddle`, `BitPackedLongest`) and klm/lm/bhiksha.{hh,cc} on memory: an entry is a word, the bits of its values and (except in the table of the highest order) a pointer
to the first entry below it in the next table.  `DontBhiksha` stores the pointers in full; `ArrayBhiksha` stores their low bits in the entries, and the high bits in a sorted array of the places where
they change.

Simplifications.  Bit offsets are numbers, counted from address zero; they do not overflow 64 bits.  What is written into the bits of the values is a list of calls of the functions of
`util/bit_packing.hh` (`Write`), with offsets from the address that `Insert` returns; it is written right after `Insert`, as in search_trie.cc:291-307.  Between two calls other parts of the program can
write to memory (`Op.other`).  Reading a binary file that was written before gives the memory back.
-/
namespace Cdec.Klm.Packed
open Cdec.Klm

/-- `BitPackedLongest`, `BitPackedMiddle<DontBhiksha>` and `BitPackedMiddle<ArrayBhiksha>` with `config.pointer_bhiksha_bits`. -/
inductive Kind where
  | longest
  | plain
  | array (bits : Nat)
deriving DecidableEq

/-- The arguments of the constructors, trie.cc:65 and trie.hh:130; `maxNext` is the number of entries of the next table. -/
structure Table where
  kind : Kind
  base : Nat
  quant : Nat
  entries : Nat
  vocab : Nat
  maxNext : Nat

/-- The loop of `ChopBits`, bhiksha.cc:33-42, from `chop` on, with 64-bit arithmetic. -/
def chopLoop (required maxOffset maxNext : Nat) : List Nat → Nat × Int → Nat × Int
  | [], best => best
  | chop :: rest, best =>
    let change : Int := (BitVec.ofNat 64 (maxNext >>> (required - chop)) * 64#64 - BitVec.ofNat 64 maxOffset * BitVec.ofNat 64 chop).toInt
    chopLoop required maxOffset maxNext rest (if change < best.2 then (chop, change) else best)

/-- `ChopBits`, bhiksha.cc:28-44. -/
def chopBits (maxOffset maxNext bits : Nat) : Nat :=
  (chopLoop (requiredBits maxNext) maxOffset maxNext (List.range (min (requiredBits maxNext) bits + 1)) (0, 2 ^ 63 - 1)).1

/-- `ArrayCount`, bhiksha.cc:46-50. -/
def arrayCount (maxOffset maxNext bits : Nat) : Nat := (maxNext >>> (requiredBits maxNext - chopBits maxOffset maxNext bits)) + 1

/-- `AlignTo8`, bhiksha.cc:63-68. -/
def alignTo8 (a : Nat) : Nat := if a % 8 = 0 then a else a + 8 - a % 8

/-- The pointer bits of an entry: `InlineBits`, bhiksha.hh:39-41 and bhiksha.cc:57-59, with `max_offset = entries + 1`, trie.cc:62 and 69. -/
def Table.inlineBits (t : Table) : Nat :=
  match t.kind with
  | .longest => 0
  | .plain => requiredBits t.maxNext
  | .array bits => requiredBits t.maxNext - chopBits (t.entries + 1) t.maxNext bits

/-- The number of elements of the array of high bits. -/
def Table.count (t : Table) : Nat :=
  match t.kind with
  | .array bits => arrayCount (t.entries + 1) t.maxNext bits
  | _ => 0

/-- `Bhiksha::Size`, bhiksha.hh:37 and bhiksha.cc:53-55. -/
def Table.headSize (t : Table) : Nat :=
  match t.kind with
  | .array _ => 8 * (1 + t.count) + 7
  | _ => 0

/-- `word_bits_`, trie.cc:51. -/
def Table.wordBits (t : Table) : Nat := requiredBits t.vocab

/-- `total_bits_`, trie.cc:54. -/
def Table.totalBits (t : Table) : Nat := t.wordBits + (t.quant + t.inlineBits)

/-- `base_` (trie.cc:56 and 72) as a bit offset. -/
def Table.start (t : Table) : Nat := 8 * (t.base + t.headSize)

/-- `Size`, trie.cc:40-47 and 61-63, trie.hh:124-126. -/
def Table.size (t : Table) : Nat := t.headSize + (((1 + t.entries) * t.totalBits + 7) / 8 + 8)

/-- `offset_begin_`, bhiksha.cc:74. -/
def Table.offsetBegin (t : Table) : Nat := alignTo8 t.base + 8

/-- Memory, and the members that change: `insert_index_`, and `write_to_` as an index of the array. -/
structure State where
  mem : Mem
  index : Nat
  writeTo : Nat

/-- The constructors: trie.cc:58 and bhiksha.cc:76 (the first entry of the array is skipped). -/
def init (m : Mem) : State := ⟨m, 0, 1⟩

/-- The calls of `WriteInt57` and so on with offsets from `addr`. -/
def shift (addr : Nat) : Write → Write
  | .int57 o l v => .int57 (addr + o) l v
  | .int25 o l v => .int25 (addr + o) l v
  | .float32 o v => .float32 (addr + o) v
  | .float31 o v => .float31 (addr + o) v

/-- bhiksha.hh:98: `for (; write_to_ <= offset_begin_ + encode; ++write_to_) *write_to_ = index`. -/
def fill (t : Table) (index : Nat) : Nat → Nat → Mem → Mem
  | _, 0, m => m
  | k, n + 1, m => fill t index (k + 1) n (store64 m (t.offsetBegin + 8 * k) (BitVec.ofNat 64 index))

/-- `WriteNext`, bhiksha.hh:49-51 and 96-100. -/
def writeNext (t : Table) (s : State) (off index value : Nat) : State :=
  match t.kind with
  | .longest => s
  | .plain => { s with mem := writeInt57 s.mem off t.inlineBits (BitVec.ofNat 64 value) }
  | .array _ =>
    let encode := value >>> t.inlineBits
    let m := fill t index s.writeTo (encode + 1 - s.writeTo) s.mem
    { s with mem := writeInt57 m off t.inlineBits (BitVec.ofNat 64 value &&& maskOf t.inlineBits), writeTo := max s.writeTo (encode + 1) }

/-- `Insert`, trie.cc:75-87 and 113-120, with `next_source_->InsertIndex()` as `next`, and then the values. -/
def insert (t : Table) (s : State) (word : Nat) (vals : List Write) (next : Nat) : State :=
  let atPointer := t.start + s.index * t.totalBits
  let s1 : State := { s with mem := writeInt57 s.mem atPointer t.wordBits (BitVec.ofNat 64 word) }
  let addr := atPointer + t.wordBits
  let s2 := writeNext t s1 (addr + t.quant) s.index next
  { s2 with mem := (vals.map (shift addr)).foldl Write.run s2.mem, index := s2.index + 1 }

/-- One byte of memory. -/
def store8 (m : Mem) (a : Nat) (v : BitVec 8) : Mem := fun x => if x = a then v else m x

/-- `FinishedLoading`, trie.cc:104-111 and bhiksha.cc:79-88 (version 0); `none` is the exception.  The table of the highest order has no such function. -/
def finish (t : Table) (s : State) (nextEnd : Nat) : Option State :=
  let s' := writeNext t s (t.start + s.index * t.totalBits + (t.totalBits - t.inlineBits)) s.index nextEnd
  match t.kind with
  | .array bits =>
    let m := store64 s'.mem t.offsetBegin 0#64
    if s'.writeTo ≠ t.count then none
    else some { s' with mem := store8 (store8 m t.base 0#8) (t.base + 1) (BitVec.ofNat 8 bits) }
  | _ => some s'

/-- What happens between the construction of a table and `FinishedLoading`. -/
inductive Op where
  | insert (word : Nat) (vals : List Write) (next : Nat)
  | other (f : Mem → Mem)

def step (t : Table) (s : State) : Op → State
  | .insert w vals next => insert t s w vals next
  | .other f => { s with mem := f s.mem }

/-! ## Reading -/

/-- `std::upper_bound`, as in libstdc++ (`__upper_bound` in stl_algo.h), on the elements `first`, …, `first + len - 1`; the first argument bounds the number of rounds. -/
def upperBound (get : Nat → Nat) (x : Nat) : Nat → Nat → Nat → Nat
  | 0, first, _ => first
  | fuel + 1, first, len =>
    if 0 < len then
      let half := len >>> 1
      if x < get (first + half) then upperBound get x fuel first half
      else upperBound get x fuel (first + half + 1) (len - half - 1)
    else first

/-- bhiksha.hh:82: the first index from `k` on, among `n` of them, whose element is above `x`. -/
def skip (get : Nat → Nat) (x : Nat) : Nat → Nat → Nat
  | k, 0 => k
  | k, n + 1 => if get k ≤ x then skip get x (k + 1) n else k

/-- An element of the array of high bits. -/
def Table.offset (t : Table) (m : Mem) (k : Nat) : Nat := (load64 m (t.offsetBegin + 8 * k)).toNat

/-- `ReadNext`, bhiksha.hh:43-47 and 75-94: begin and end of the range. -/
def readNext (t : Table) (m : Mem) (off index : Nat) : Nat × Nat :=
  let lo := (readInt57 m off t.inlineBits (maskOf t.inlineBits)).toNat
  let hi := (readInt57 m (off + t.totalBits) t.inlineBits (maskOf t.inlineBits)).toNat
  match t.kind with
  | .array _ =>
    let beginIt := upperBound (t.offset m) index t.count 0 t.count - 1
    let endIt := skip (t.offset m) (index + 1) (beginIt + 1) (t.count - (beginIt + 1)) - 1
    (beginIt <<< t.inlineBits ||| lo, endIt <<< t.inlineBits ||| hi)
  | _ => (lo, hi)

/-- The address of the values of an entry and the range below it: `ReadEntry`, trie.hh:108-113. -/
def readEntry (t : Table) (m : Mem) (pointer : Nat) : Nat × (Nat × Nat) :=
  let addr := t.start + pointer * t.totalBits + t.wordBits
  (addr, readNext t m (addr + t.quant) pointer)

/-- `KeyAccessor`, trie.cc:16-32; the mask is a `WordIndex`, a number of 32 bits. -/
def Table.key (t : Table) (m : Mem) (i : Nat) : Nat :=
  (readInt57 m (t.start + i * t.totalBits) t.wordBits ((maskOf t.wordBits).setWidth 32 |>.setWidth 64)).toNat

/-- `FindBitPacked`, trie.cc:34-38.  Indices are one higher here, because `begin - 1` can be the number before zero; reading a key at or after `n` is not allowed. -/
def findIndex (t : Table) (m : Mem) (n w b e : Nat) : Option Nat :=
  match boundedFind pivot32 (0 :: (List.range n).map (t.key m)) w b 0 (e + 1) t.vocab with
  | some (some p) => some (p - 1)
  | _ => none

/-- `Find`, trie.cc:89-102 and 122-127: the index, the address of the values and the range below. -/
def find (t : Table) (m : Mem) (n w b e : Nat) : Option (Nat × Nat × (Nat × Nat)) :=
  (findIndex t m n w b e).map fun i => (i, readEntry t m i)

/-- `LookupMiddle` and `LookupLongest` for one word after another (search_trie.hh:83-92) with the tables of all orders in one memory: the words `ws` below the node with the range `r`, in the tables from
order `n` on; `len` is the number of entries of a table.  The result is the index of the last entry and the address of its values. -/
def descend (tabs : Nat → Table) (len : Nat → Nat) (m : Mem) (n : Nat) (r : Nat × Nat) : List Nat → Option (Nat × Nat)
  | [] => none
  | [w] => (find (tabs n) m (len n) w r.1 r.2).map fun x => (x.1, x.2.1)
  | w :: x :: ws =>
    match find (tabs n) m (len n) w r.1 r.2 with
    | none => none
    | some (_, _, r') => descend tabs len m (n + 1) r' (x :: ws)

end Cdec.Klm.Packed
