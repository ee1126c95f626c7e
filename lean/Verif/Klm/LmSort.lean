import Mathlib.Data.List.Lex
/-!
# Sorting of n-gram streams

Models util/stream/sort.hh and the comparators of lm/builder/sort.hh.  Files, buffers and threads are not modelled: a stream is
the list of its blocks, a block the list of its records.  How the blocks are grouped in a merge depends on the memory; which of
several equal records a priority queue pops first is not specified.  The relations below allow every possibility.
-/
namespace Cdec.Klm.Builder

/-- The words of an n-gram, first word first. -/
abbrev Gram := List Nat

/-- Loop common to the comparators, lm/builder/sort.hh:82-88, 127-133: compare words one by one. -/
def compareWords : List Nat → List Nat → Bool
  | a :: as, b :: bs => if a ≠ b then a < b else compareWords as bs
  | _, _ => false

/-- `SuffixOrder`, lm/builder/sort.hh:82-88: words in the order in which they are compared, from the last to the first. -/
def suffixKey (g : Gram) : List Nat := g.reverse

/-- `ContextOrder`, lm/builder/sort.hh:127-133: from the last but one to the first, then the last. -/
def contextKey (g : Gram) : List Nat := g.dropLast.reverse ++ g.getLast?.toList

/-- On words of equal number the loop is the lexicographic order. -/
theorem compareWords_eq : ∀ (a b : List Nat), a.length = b.length → (compareWords a b = true ↔ a < b)
  | [], [], _ => by simp [compareWords]
  | a :: as, b :: bs, h => by
    rw [compareWords, List.cons_lt_cons_iff]
    by_cases e : a = b
    · subst e
      simp only [ne_eq, not_true, if_false, lt_irrefl, true_and, false_or]
      exact compareWords_eq as bs (by simpa using h)
    · simp [e]

variable {α κ : Type} [LinearOrder κ]

/-- `BlockSorter`, util/stream/sort.hh:357-381: `std::sort` leaves the order of equal records open. -/
def BlockSorted (key : α → κ) (b b' : List α) : Prop := b'.Perm b ∧ b'.Pairwise fun x y => key x ≤ key y

/-- `MergeQueue`, util/stream/sort.hh:124-213: the records in the order in which they are popped from a queue of non-empty
sorted runs.  A run whose first record is minimal is popped and pushed again if it is not finished. -/
inductive Pops (key : α → κ) : List (List α) → List α → Prop
  | done : Pops key [] []
  | pop (l r : List (List α)) (x : α) (xs out : List α) :
      (∀ q ∈ l ++ r, ∀ y ∈ q.head?, key x ≤ key y) →
      Pops key (l ++ (if xs.isEmpty then [] else [xs]) ++ r) out → Pops key (l ++ (x :: xs) :: r) (x :: out)

/-- The merge loop, util/stream/sort.hh:287-296: `s` is the record being written. -/
def combineAdj (comb : α → α → Option α) (s : α) : List α → List α
  | [] => [s]
  | x :: xs =>
    match comb s x with
    | some s' => combineAdj comb s' xs
    | none => s :: combineAdj comb x xs

/-- The loop over groups of runs, util/stream/sort.hh:259-300.  A group is not empty. -/
inductive Groups (key : α → κ) (comb : α → α → Option α) : List (List α) → List (List α) → Prop
  | nil : Groups key comb [] []
  | cons (group rest : List (List α)) (t : α) (ts : List α) (outs : List (List α)) :
      group ≠ [] → Pops key group (t :: ts) → Groups key comb rest outs →
      Groups key comb (group ++ rest) (combineAdj comb t ts :: outs)

/-- `MergingReader::Run`, util/stream/sort.hh:237-302, with the special cases of no run and of one run, which is copied. -/
inductive MergeRun (key : α → κ) (comb : α → α → Option α) : List (List α) → List (List α) → Prop
  | none : MergeRun key comb [] []
  | one (b : List α) : MergeRun key comb [b] [b]
  | groups (bs outs : List (List α)) : 2 ≤ bs.length → Groups key comb bs outs → MergeRun key comb bs outs

/-- `Merge` and `Output`, util/stream/sort.hh:415-482: some passes, and one that leaves a single run, or none. -/
inductive Sorts (key : α → κ) (comb : α → α → Option α) : List (List α) → List α → Prop
  | last (bs : List (List α)) (outs : List (List α)) :
      MergeRun key comb bs outs → outs.length ≤ 1 → Sorts key comb bs outs.flatten
  | pass (bs bs' : List (List α)) (out : List α) :
      MergeRun key comb bs bs' → Sorts key comb bs' out → Sorts key comb bs out

/-- `NeverCombine`, util/stream/sort.hh:39-43. -/
def neverCombine (_ _ : α) : Option α := none

/-- `AddCombiner`, lm/builder/sort.hh:179-188. -/
def addCombine (a b : Gram × Nat) : Option (Gram × Nat) := if a.1 = b.1 then some (a.1, a.2 + b.2) else none

/-- The runs: the blocks that are not empty (util/stream/sort.hh:54-55), each sorted. -/
def Runs (key : α → κ) (blocks runs : List (List α)) : Prop :=
  List.Forall₂ (BlockSorted key) (blocks.filter fun b => !b.isEmpty) runs

end Cdec.Klm.Builder
