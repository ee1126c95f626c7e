import Verif.Klm.BitPack
import Mathlib.Algebra.Order.Field.Rat
/-!
# Quantisation of probabilities and backoffs

Models klm/lm/quantize.{hh,cc} and the training passes of klm/lm/search_trie.cc:419-442.  Finite floating-point
numbers are rational numbers (rounding is not modelled); the sign of a zero, which carries the information whether
an n-gram can be extended, and minus infinity, which marks the bins below all values, are kept.  A table of centres
is a list; `tableStarts` models where the tables are in memory.
-/
namespace Cdec.Klm.Quantize

/-- The floating-point numbers of the tables: minus infinity, minus zero, and the other finite ones
(`fin 0` is plus zero). -/
inductive Num where
  | negInf
  | negZero
  | fin (q : Rat)
deriving DecidableEq, Repr

/-- `a < v` for a finite `v`. -/
def Num.lt : Num → Rat → Bool
  | .negInf, _ => true
  | .negZero, v => decide (0 < v)
  | .fin q, v => decide (q < v)

/-- `value == 0.0`. -/
def Num.isZero : Num → Bool
  | .negInf => false
  | .negZero => true
  | .fin q => decide (q = 0)

/-- `HasExtension`, klm/lm/blank.hh:33-39: the encoding is not that of minus zero. -/
def hasExtension (x : Num) : Bool := decide (x ≠ .negZero)

/-- `std::accumulate(start, finish, 0.0) / (finish - start)`, quantize.cc:34. -/
def mean (l : List Rat) : Rat := l.foldl (· + ·) 0 / (l.length : Rat)

/-- The loop of `MakeBins`, quantize.cc:27-36; `prev` is `*(centers - 1)`, which exists from the second bin on. -/
def makeLoop (vs : List Rat) (bins : Nat) : Nat → Nat → Nat → Num → List Num
  | 0, _, _, _ => []
  | fuel + 1, i, start, prev =>
    let finish := vs.length * (i + 1) / bins
    let c := if finish = start then (if i ≠ 0 then prev else .negInf) else .fin (mean ((vs.drop start).take (finish - start)))
    c :: makeLoop vs bins fuel (i + 1) finish c

/-- `MakeBins`, quantize.cc:24-37. -/
def makeBins (values : List Rat) (bins : Nat) : List Num :=
  makeLoop (values.mergeSort (fun a b => decide (a ≤ b))) bins bins 0 0 .negInf

/-- `value - *(above - 1) < *above - value`, quantize.hh:130.  Subtracting minus infinity gives plus infinity, which
is less than nothing. -/
def closer (below above : Num) (v : Rat) : Bool :=
  match below, above with
  | .negInf, _ => false
  | _, .negInf => false
  | .negZero, .negZero => decide (v - 0 < 0 - v)
  | .negZero, .fin h => decide (v - 0 < h - v)
  | .fin l, .negZero => decide (v - l < 0 - v)
  | .fin l, .fin h => decide (v - l < h - v)

/-- `Bins::Encode`, quantize.hh:126-131.  `std::lower_bound` on a sorted range is the position of the first element
that is not less. -/
def encode (centers : List Num) (reserved : Nat) (v : Rat) : Nat :=
  let above := reserved + ((centers.drop reserved).takeWhile (fun c => c.lt v)).length
  if above = reserved then reserved
  else if above = centers.length then centers.length - 1
  else above - (if closer (centers.getD (above - 1) .negInf) (centers.getD above .negInf) v then 1 else 0)

/-- `Bins::EncodeProb`, quantize.hh:106-108. -/
def encodeProb (centers : List Num) (v : Rat) : Nat := encode centers 0 v

/-- `Bins::EncodeBackoff`, quantize.hh:110-115, with `kNoExtensionQuant` and `kExtensionQuant` of blank.hh:23-24
(backoffs are finite: the case of minus infinity is not used). -/
def encodeBackoff (centers : List Num) (v : Num) : Nat :=
  if v.isZero then (if hasExtension v then 1 else 0)
  else match v with
    | .fin q => encode centers 2 q
    | _ => 2

/-- `Bins::Decode`, quantize.hh:117. -/
def decode (centers : List Num) (off : Nat) : Num := centers.getD off .negInf

/-- `Config::prob_bits` and `Config::backoff_bits`. -/
structure Bits where
  prob : Nat
  backoff : Nat

/-- The checks of `SetupMemory`, quantize.cc:56-59. -/
def Bits.accepted (b : Bits) : Bool :=
  !(b.prob == 0) && !(b.backoff == 0) && !(decide (25 < b.prob)) && !(decide (25 < b.backoff))

/-- The tables of an order that is not the longest. -/
structure Tables where
  prob : List Num
  backoff : List Num

/-- `TrainProb`, quantize.cc:83-86. -/
def trainProb (bits : Nat) (probs : List Rat) : List Num := makeBins probs (2 ^ bits)

/-- `Train`, quantize.cc:73-81, with `kNoExtensionBackoff` and `kExtensionBackoff` of blank.hh:21-22. -/
def train (b : Bits) (probs backoffs : List Rat) : Tables :=
  { prob := trainProb b.prob probs
    backoff := .negZero :: .fin 0 :: makeBins backoffs (2 ^ b.backoff - 2) }

/-- The backoffs that `TrainQuantizer` collects: `weights.backoff != 0.0`, search_trie.cc:426. -/
def nonZero : List Num → List Rat
  | [] => []
  | .fin q :: l => if q = 0 then nonZero l else q :: nonZero l
  | _ :: l => nonZero l

/-- `TrainQuantizer`, search_trie.cc:419-430: the probabilities of the blanks, then the records. -/
def trainQuantizer (b : Bits) (additional : List Rat) (records : List (Rat × Num)) : Tables :=
  train b (additional ++ records.map Prod.fst) (nonZero (records.map Prod.snd))

/-- `MiddlePointer::Write`, quantize.hh:169-172, at a bit address. -/
def writeMiddle (b : Bits) (t : Tables) (m : Mem) (off : Nat) (prob : Rat) (backoff : Num) : Mem :=
  writeInt57 m off (b.prob + b.backoff)
    ((BitVec.ofNat 64 (encodeProb t.prob prob) <<< b.backoff) ||| BitVec.ofNat 64 (encodeBackoff t.backoff backoff))

/-- `mask_`, quantize.hh:102, as the 32 bits that `ReadInt25` takes. -/
def mask (bits : Nat) : BitVec 32 := (maskOf bits).truncate 32

/-- `MiddlePointer::Prob`, quantize.hh:159-161. -/
def readProb (b : Bits) (t : Tables) (m : Mem) (off : Nat) : Num :=
  decode t.prob (readInt25 m (off + b.backoff) b.prob (mask b.prob)).toNat

/-- `MiddlePointer::Backoff`, quantize.hh:163-165. -/
def readBackoff (b : Bits) (t : Tables) (m : Mem) (off : Nat) : Num :=
  decode t.backoff (readInt25 m off b.backoff (mask b.backoff)).toNat

/-- `LongestPointer::Write`, quantize.hh:190-192. -/
def writeLongest (bits : Nat) (centers : List Num) (m : Mem) (off : Nat) (prob : Rat) : Mem :=
  writeInt25 m off bits (BitVec.ofNat 32 (encodeProb centers prob))

/-- `LongestPointer::Prob`, quantize.hh:194-196. -/
def readLongest (bits : Nat) (centers : List Num) (m : Mem) (off : Nat) : Num :=
  decode centers (readInt25 m off bits (mask bits)).toNat

/-- `Size`, quantize.hh:141-147. -/
def size (order : Nat) (b : Bits) : Nat :=
  let longest := 2 ^ b.prob * 4
  let middle := 2 ^ b.backoff * 4 + longest
  (order - 2) * middle + longest + 8

/-- The loop of `SetupMemory`, quantize.cc:63-68: the addresses and lengths in bytes of the tables. -/
def startsLoop (b : Bits) : Nat → Nat → List (Nat × Nat)
  | 0, start => [(start, 2 ^ b.prob * 4)]
  | n + 1, start =>
    (start, 2 ^ b.prob * 4) :: (start + 2 ^ b.prob * 4, 2 ^ b.backoff * 4) :: startsLoop b n (start + 2 ^ b.prob * 4 + 2 ^ b.backoff * 4)

/-- `SetupMemory`, quantize.cc:61-69. -/
def tableStarts (base order : Nat) (b : Bits) : List (Nat × Nat) := startsLoop b (order - 2) (base + 8)

/-- `*p = v` for a byte. -/
def setByte (m : Mem) (a : Nat) (v : BitVec 8) : Mem := fun x => if x = a then v else m x

/-- `FinishedLoading`, quantize.cc:88-93. -/
def finishedLoading (m : Mem) (base : Nat) (b : Bits) : Mem :=
  setByte (setByte (setByte m base 2#8) (base + 1) (BitVec.ofNat 8 b.prob)) (base + 2) (BitVec.ofNat 8 b.backoff)

/-- `UpdateConfigFromBinary`, quantize.cc:43-50; none is the exception. -/
def updateConfig (m : Mem) (offset : Nat) : Option Bits :=
  if m offset = 2#8 then some { prob := (m (offset + 1)).toNat, backoff := (m (offset + 2)).toNat } else none

end Cdec.Klm.Quantize
