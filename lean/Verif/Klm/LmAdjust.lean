import Verif.Klm.LmCount
import Mathlib.Data.Set.Card
/-!
# Adjusted counts

Models lm/builder/adjust_counts.cc.  In the loop the words of an n-gram are listed from the last to the first, so that the
suffixes of an n-gram are the prefixes of its list; `adjustCounts` translates.  Record memory is replaced by lists: a stream is the
list of the records passed on, `valid` has the records that are being filled.
-/
namespace Cdec.Klm.Builder

/-- An n-gram passed on: its words, its adjusted count and whether it is marked for pruning. -/
structure AdjRec where
  words : List Nat
  count : Nat
  marked : Bool
  deriving Repr, DecidableEq

/-- `FindDifference`, lm/builder/adjust_counts.cc:15-21, and line 221: how many words, from the last on, are the same. -/
def sameWords : List Nat → List Nat → Nat
  | a :: as, b :: bs => if a = b then sameWords as bs + 1 else 0
  | _, _ => 0

/-- lm/builder/adjust_counts.cc:202-216: `valid` are the records of `streams[0]` to `*lower_valid`, `real` is `lower_counts`,
`out i` the records passed on in `streams[i]`, `full` the n-grams of highest order seen by `AddFull`. -/
structure AdjState where
  valid : List (List Nat × Nat)
  real : List Nat
  out : Nat → List AdjRec
  full : List (List Nat × Nat)

/-- lm/builder/adjust_counts.cc:207-216. -/
def AdjState.init (order : Nat) : AdjState :=
  ⟨[([kBOS], 0)], List.replicate order 0, fun i => if i = 0 then [⟨[kUNK], 0, false⟩] else [], []⟩

/-- lm/builder/adjust_counts.cc:246-266: the records of the suffixes of `g` from the one with `i + 1` words on, of which at most
`n` fit, up to the first `<s>`; and whether there is no `<s>` beyond the first word. -/
def newValid (g : List Nat) (c : Nat) (i : Nat) : Nat → List (List Nat × Nat) × Bool
  | 0 => ([], true)
  | n + 1 =>
    if g[i]? = some kBOS then ([(g.take (i + 1), c)], false)
    else
      let r := newValid g c (i + 1) n
      ((g.take (i + 1), 1) :: r.1, r.2)

/-- `++streams[same - 1]->Count()`, lm/builder/adjust_counts.cc:223. -/
def bumpValid (same : Nat) (v : List (List Nat × Nat)) : List (List Nat × Nat) :=
  if same = 0 then v else v.modify (same - 1) fun r => (r.1, r.2 + 1)

/-- lm/builder/adjust_counts.cc:228-232. -/
def pruneMark (prune : Nat → Nat) (i real : Nat) : Bool := 1 ≤ i ∧ prune i ≠ 0 ∧ real ≤ prune i

/-- The body of the loop, lm/builder/adjust_counts.cc:219-268. -/
def AdjState.step (order : Nat) (prune : Nat → Nat) (s : AdjState) (f : List Nat × Nat) : AdjState :=
  let same := sameWords f.1 (s.valid.getLast?.getD ([], 0)).1
  let v := bumpValid same s.valid
  let nv := newValid f.1 f.2 same (order - 1 - same)
  ⟨v.take same ++ nv.1,
   (List.range order).map fun i => (if same ≤ i then 0 else s.real.getD i 0) + f.2,
   fun i => if same ≤ i then
      s.out i ++ (v[i]?.toList.map fun r => ⟨r.1, r.2, pruneMark prune i (s.real.getD i 0)⟩) else s.out i,
   if nv.2 then s.full ++ [f] else s.full⟩

/-- lm/builder/adjust_counts.cc:270-276. -/
def AdjState.finish (prune : Nat → Nat) (s : AdjState) (i : Nat) : List AdjRec :=
  s.out i ++ (s.valid[i]?.toList.map fun r => ⟨r.1, r.2, r.2 ≤ prune i⟩)

/-- `CollapseStream::UpdateCopyFrom`, lm/builder/adjust_counts.cc:171-175: the last record before `copyFrom` and not before `cur`
that has no `<s>` in second place, plus one; `cur` if there is none. -/
def updateCopyFrom (b : List (Gram × Nat)) (cur : Nat) : Nat → Nat
  | 0 => cur
  | cf + 1 =>
    if cf < cur then cur
    else if (b.getD cf ([], 0)).1[1]? ≠ some kBOS then cf + 1
    else updateCopyFrom b cur cf

/-- The walk of `CollapseStream` over one block, lm/builder/adjust_counts.cc:123-168.  `cf` is the position after `copy_from_`;
`n` counts the records that are left.  The result is what is left of the block at its end. -/
def collapseLoop (b : List (Gram × Nat)) (cur cf : Nat) : Nat → List (Gram × Nat)
  | 0 => b.take cf
  | n + 1 =>
    if (b.getD cur ([], 0)).1[1]? = some kBOS ∧ cur + 1 < cf then
      let b' := b.set cur (b.getD (cf - 1) ([], 0))
      collapseLoop b' (cur + 1) (updateCopyFrom b' cur (cf - 1)) n
    else collapseLoop b (cur + 1) cf n

/-- A block after `CollapseStream` has gone over it.  The marks of highest-order n-grams depend on the count only, see
`AdjRec` in `adjustCounts`. -/
def collapse (b : List (Gram × Nat)) : List (Gram × Nat) :=
  collapseLoop b 0 (updateCopyFrom b 0 b.length) b.length

/-- `AdjustCounts::Run`, lm/builder/adjust_counts.cc:187-284, for `order` at least 2: the stream of order `i + 1`. -/
def adjustCounts (order : Nat) (prune : Nat → Nat) (counts : List (Gram × Nat)) (i : Nat) : List AdjRec :=
  let s := (counts.map fun r => (r.1.reverse, r.2)).foldl (AdjState.step order prune) (AdjState.init order)
  if i + 1 < order then (s.finish prune i).map fun r => ⟨r.words.reverse, r.count, r.marked⟩
  else s.full.map fun r => ⟨r.1.reverse, r.2, r.2 ≤ prune i⟩

namespace AdjSpec

/-- How often the words `s` end a counted n-gram. -/
def raw (counts : List (Gram × Nat)) (s : Gram) : Nat := ((counts.filter fun r => s <:+ r.1).map (·.2)).sum

/-- How many different words come before `s`. -/
noncomputable def preceding (counts : List (Gram × Nat)) (s : Gram) : Nat := Set.ncard {x : Nat | ∃ r ∈ counts, (x :: s) <:+ r.1}

end AdjSpec

end Cdec.Klm.Builder
