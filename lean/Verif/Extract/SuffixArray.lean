/-!
# Suffix array construction, longest common prefixes and lookup

Models extractor/suffix_array.cc.  A `vector<int>` of fixed size is a function on indices; every access whose
index is read from another array is bounds-checked and yields `none` (undefined behaviour) outside the vector.
`rand()` is a stream `rnd`, so that statements for all `rnd` cover all pivot choices.  `int` is unbounded.
Loops take an iteration budget and yield `none` when it runs out, so a `some` result also shows termination.
Timing and progress output are not modelled.
-/
namespace Cdec.Extract

/-- Assignment `a[i] = v`. -/
def upd {α : Type _} (a : Nat → α) (i : Nat) (v : α) : Nat → α := fun j => if j = i then v else a j

/-- `swap(a[i], a[j])`, as at suffix_array.cc:107. -/
def swp {α : Type _} (a : Nat → α) (i j : Nat) : Nat → α := upd (upd a i (a j)) j (a i)

/-- The mutable state of the sort: `suffix_array`, `groups` and the number of calls to `rand()` so far. -/
structure SortState where
  sa : Nat → Int
  g : Nat → Nat
  rc : Nat

/-- `groups[suffix_array[i] + step]`, suffix_array.cc:106,110,117; `n` is the size of `groups`. -/
def keyAt (n step : Nat) (g : Nat → Nat) (sa : Nat → Int) (i : Nat) : Option Nat :=
  if 0 ≤ sa i + step ∧ sa i + step < n then some (g (sa i + step).toNat) else none

/-- One iteration of the partition loop, suffix_array.cc:109-123; state: `suffix_array`, `mid_left`, `mid_right`. -/
def partStep (n step : Nat) (g : Nat → Nat) (pv : Nat) (s : (Nat → Int) × Nat × Nat) (i : Nat) :
    Option ((Nat → Int) × Nat × Nat) := do
  let k ← keyAt n step g s.1 i
  if k < pv then
    let mr := s.2.2 + 1
    let temp := s.1 i
    let a := upd s.1 i (s.1 mr)
    let a := upd a mr (a s.2.1)
    let a := upd a s.2.1 temp
    return (a, s.2.1 + 1, mr)
  else if k = pv then
    let mr := s.2.2 + 1
    let temp := s.1 i
    let a := upd s.1 i (s.1 mr)
    let a := upd a mr temp
    return (a, s.2.1, mr)
  else
    return s

/-- `groups[suffix_array[i]] = v`, suffix_array.cc:128,132. -/
def setGroup (n : Nat) (sa : Nat → Int) (v : Nat) (g : Nat → Nat) (i : Nat) : Option (Nat → Nat) :=
  if 0 ≤ sa i ∧ sa i < n then some (upd g (sa i).toNat v) else none

/-- suffix_array.cc:127-134: naming the middle part of the partition. -/
def nameMid (n ml mr : Nat) (st : SortState) : Option SortState :=
  if ml = mr then do
    let g ← setGroup n st.sa ml st.g ml
    return { st with g := g, sa := upd st.sa ml (-1) }
  else do
    let g ← (List.range' ml (mr + 1 - ml)).foldlM (setGroup n st.sa mr) st.g
    return { st with g := g }

/-- `TernaryQuicksort(left, right, step, groups)` with `lo = left` and `hi = right + 1`, suffix_array.cc:99-137.
The first argument is the budget. -/
def ternaryQuicksort (n step : Nat) (rnd : Nat → Nat) : Nat → Nat → Nat → SortState → Option SortState
  | 0, lo, hi, st => if hi ≤ lo then some st else none
  | fuel + 1, lo, hi, st =>
    if hi ≤ lo then some st else do
      let pivot := lo + rnd st.rc % (hi - lo)
      let pv ← keyAt n step st.g st.sa pivot
      let r ← (List.range' (lo + 1) (hi - lo - 1)).foldlM (partStep n step st.g pv) (swp st.sa pivot lo, lo, lo)
      let st1 ← ternaryQuicksort n step rnd fuel lo r.2.1 { st with sa := r.1, rc := st.rc + 1 }
      let st2 ← nameMid n r.2.1 r.2.2 st1
      ternaryQuicksort n step rnd fuel (r.2.2 + 1) hi st2

/-- One pass of prefix doubling, suffix_array.cc:80-94; arguments: budget, `i`, `combined_group_size`. -/
def passLoop (n step : Nat) (rnd : Nat → Nat) : Nat → Nat → Nat → SortState → Option SortState
  | 0, _, _, _ => none
  | fuel + 1, i, c, st =>
    if i < n then
      if st.sa i < 0 then
        let skip := (-st.sa i).toNat
        let c := c + skip
        let i := i + skip
        passLoop n step rnd fuel i c { st with sa := upd st.sa (i - c) (-(c : Int)) }
      else if st.sa i < n then do
        let j := st.g (st.sa i).toNat
        let st1 ← ternaryQuicksort n step rnd (j + 1 - i) i (j + 1) st
        passLoop n step rnd fuel (j + 1) 0 st1
      else none
    else some st

/-- `PrefixDoublingSort`, suffix_array.cc:77-97. -/
def prefixDoubling (n : Nat) (rnd : Nat → Nat) : Nat → Nat → SortState → Option SortState
  | 0, _, _ => none
  | fuel + 1, step, st =>
    if st.sa 0 = -(n : Int) then some st
    else do
      let st1 ← passLoop n step rnd (n + 1) 0 0 st
      prefixDoubling n rnd fuel (step * 2) st1

/-- suffix_array.cc:56-58: counting the words. -/
def countWords (text : List Nat) : Nat → Nat := text.foldl (fun ws w => upd ws w (ws w + 1)) (fun _ => 0)

/-- suffix_array.cc:60-62: prefix sums; `m` is `word_start.size()`. -/
def prefixSums (m : Nat) (ws : Nat → Nat) : Nat → Nat :=
  (List.range' 1 (m - 1)).foldl (fun ws i => upd ws i (ws i + ws (i - 1))) ws

/-- suffix_array.cc:65-66: one iteration of the placement loop, for the word `w` at position `i`. -/
def placeStep (s : (Nat → Nat) × (Nat → Int)) (wi : Nat × Nat) : (Nat → Nat) × (Nat → Int) :=
  let ws := upd s.1 wi.1 (s.1 wi.1 - 1)
  (ws, upd s.2 (ws wi.1) wi.2)

/-- `InitialBucketSort`, suffix_array.cc:54-75: the final `word_start`, `suffix_array` and `groups`, for the text
with the null word appended and `m = GetVocabularySize() + 1`. -/
def initialBucketSort (m : Nat) (text : List Nat) : (Nat → Nat) × (Nat → Int) × (Nat → Nat) :=
  let ws := prefixSums m (countWords text)
  let s := text.zipIdx.foldl placeStep (ws, fun _ => 0)
  (s.1, s.2, fun i => s.1 (text.getD i 0 + 1) - 1)

/-- suffix_array.cc:37-44: one iteration marking the buckets of size one; state: `suffix_array`,
`combined_group_size`. -/
def markStep (ws : Nat → Nat) (s : (Nat → Int) × Nat) (i : Nat) : (Nat → Int) × Nat :=
  if (ws i : Int) - ws (i - 1) = 1 then (upd s.1 (ws i - (s.2 + 1)) (-((s.2 : Int) + 1)), s.2 + 1) else (s.1, 0)

/-- The members set by the constructor: `suffix_array` and `word_start`. -/
structure SuffixArray where
  sa : List Nat
  wordStart : List Nat
deriving DecidableEq, Repr

/-- `BuildSuffixArray`, suffix_array.cc:27-52, for the contents `data` of the data array and the vocabulary size
`vocab`. -/
def buildSuffixArray (data : List Nat) (vocab : Nat) (rnd : Nat → Nat) : Option SuffixArray := do
  let text := data ++ [0]
  let n := text.length
  let b := initialBucketSort (vocab + 1) text
  let marked := ((List.range' 1 vocab).foldl (markStep b.1) (b.2.1, 0)).1
  let st ← prefixDoubling n rnd (n + 2) 1 ⟨marked, b.2.2, 0⟩
  let fin := (List.range n).foldl (fun sa i => upd sa (st.g i) (i : Int)) st.sa
  return ⟨(List.range n).map fun r => (fin r).toNat, (List.range (vocab + 1)).map b.1⟩

/-- suffix_array.cc:147-149: the inverse of the suffix array. -/
def rankOf (sa : List Nat) : Nat → Nat :=
  sa.zipIdx.foldl (fun rk pi => upd rk pi.1 pi.2) (fun _ => 0)

/-- suffix_array.cc:157-160: the `while` loop extending the common prefix of the suffixes at `i` and `j`; the
budget is the first argument. -/
def extendPrefix (data : List Nat) (i j : Nat) : Nat → Nat → Nat
  | 0, k => k
  | fuel + 1, k =>
    if i + k < data.length ∧ j + k < data.length ∧ data.getD (i + k) 0 = data.getD (j + k) 0 then
      extendPrefix data i j fuel (k + 1)
    else k

/-- suffix_array.cc:152-167: one iteration; state: `lcp`, `prefix_len`. -/
def lcpStep (data sa : List Nat) (rank : Nat → Nat) (s : (Nat → Int) × Nat) (i : Nat) : (Nat → Int) × Nat :=
  let s := if rank i = 0 then (upd s.1 (rank i) (-1), s.2)
    else
      let j := sa.getD (rank i - 1) 0
      let k := extendPrefix data i j data.length s.2
      (upd s.1 (rank i) (k : Int), k)
  if 0 < s.2 then (s.1, s.2 - 1) else s

/-- `BuildLCPArray`, suffix_array.cc:139-174. -/
def buildLCPArray (data sa : List Nat) : List Int :=
  let r := (List.range sa.length).foldl (lcpStep data sa (rankOf sa)) (fun _ => 0, 0)
  (List.range sa.length).map r.1

/-- The loop of `LookupRangeStart`, suffix_array.cc:206-217; arguments: budget, `low`, `high`, `result`. -/
def lookupLoop (data sa : List Nat) (word offset : Nat) : Nat → Nat → Nat → Nat → Nat
  | 0, _, _, result => result
  | fuel + 1, low, high, result =>
    if low < high then
      let middle := low + (high - low) / 2
      if sa.getD middle 0 + offset ≥ data.length ∨ data.getD (sa.getD middle 0 + offset) 0 < word then
        lookupLoop data sa word offset fuel (middle + 1) high result
      else lookupLoop data sa word offset fuel low middle middle
    else result

/-- `LookupRangeStart`, suffix_array.cc:204-218. -/
def lookupRangeStart (data sa : List Nat) (low high word offset : Nat) : Nat :=
  lookupLoop data sa word offset (high - low) low high high

/-- `Lookup`, suffix_array.cc:188-202; the word is given by the result of `GetWordId` (`none` for -1). -/
def lookup (data : List Nat) (s : SuffixArray) (low high : Nat) (word : Option Nat) (offset : Nat) : Nat × Nat :=
  match word with
  | none => (0, 0)
  | some w =>
    if offset = 0 then (s.wordStart.getD w 0, s.wordStart.getD (w + 1) 0)
    else (lookupRangeStart data s.sa low high w offset, lookupRangeStart data s.sa low high (w + 1) offset)

/-- Looking up a phrase word by word: `MatchingsFinder::Find`, matchings_finder.cc:15-23, called for each word with
the location found for the words before it, as the rule factory does for contiguous patterns.  The words are
given by their `GetWordId` results; arguments: `offset`, current location. -/
def findFrom (data : List Nat) (s : SuffixArray) : List (Option Nat) → Nat → Nat × Nat → Nat × Nat
  | [], _, loc => loc
  | w :: ws, offset, loc => findFrom data s ws (offset + 1) (lookup data s loc.1 loc.2 w offset)

/-- The location of a phrase, starting from `(0, GetSize())`, matchings_finder.cc:17-20. -/
def findPhrase (data : List Nat) (s : SuffixArray) (words : List (Option Nat)) : Nat × Nat :=
  findFrom data s words 0 (0, s.sa.length)

end Cdec.Extract
