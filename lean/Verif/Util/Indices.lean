/-!
# Index compaction

Models utils/indices_after.h.  `none` stands for `REMOVED` (`(unsigned)-1`); sizes are assumed to be below
that value.
-/
namespace Cdec

/-- `new_indices_keep`, indices_after.h:32-38, starting with counter `f`: the written map and the final
counter. -/
def newIndicesKeep : List Bool → Nat → List (Option Nat) × Nat
  | [], f => ([], f)
  | true :: ks, f => let r := newIndicesKeep ks (f + 1); (some f :: r.1, r.2)
  | false :: ks, f => let r := newIndicesKeep ks f; (none :: r.1, r.2)

variable {β : Type}

/-- indices_after.h:179-181: the loop `if (keeping(i)) v[map[i]]=v[i]` from position `i` on; `ms` is the
rest of the map. -/
def moveLoop (v : List β) (i : Nat) : List (Option Nat) → List β
  | [] => v
  | none :: ms => moveLoop v (i + 1) ms
  | some m :: ms =>
    moveLoop (match v[i]? with
      | some x => v.set m x
      | none => v) (i + 1) ms

/-- indices_after.h:192-194: the same loop with `std::swap(v[map[i]],v[i])`. -/
def swapLoop (v : List β) (i : Nat) : List (Option Nat) → List β
  | [] => v
  | none :: ms => swapLoop v (i + 1) ms
  | some m :: ms =>
    swapLoop (match v[i]?, v[m]? with
      | some x, some y => (v.set m x).set i y
      | _, _ => v) (i + 1) ms

/-- indices_after.h:178, 191: number of leading kept elements. -/
def leadingKept (ms : List (Option Nat)) : Nat := (ms.takeWhile Option.isSome).length

/-- `do_moves`, indices_after.h:173-183. -/
def doMoves (ms : List (Option Nat)) (nKept : Nat) (v : List β) : List β :=
  (moveLoop v (leadingKept ms) (ms.drop (leadingKept ms))).take nKept

/-- `do_moves_swap`, indices_after.h:185-196. -/
def doMovesSwap (ms : List (Option Nat)) (nKept : Nat) (v : List β) : List β :=
  (swapLoop v (leadingKept ms) (ms.drop (leadingKept ms))).take nKept

/-- `copy_to`, indices_after.h:198-204, into default-initialised elements `d`. -/
def copyTo (d : β) (ms : List (Option Nat)) (nKept : Nat) (v : List β) : List β :=
  (ms.zip v).foldl (fun to p => match p.1 with
    | some m => to.set m p.2
    | none => to) (List.replicate nKept d)

/-- `reindex`, indices_after.h:207-214: translate indices, dropping removed ones. -/
def reindex (ms : List (Option Nat)) (is : List Nat) : List Nat :=
  is.filterMap fun i => (ms[i]?).join

end Cdec
