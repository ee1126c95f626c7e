/-!
# Enumerating combinations in cube pruning

Models the three successor functions of `CubePruningRescorer` and the loops that drive them (decoder/apply_models.cc:288-507).
A candidate is an edge of the node being processed and a vector `j_` of indices into the lists `D` of the edge's tails; `bounds e` are the sizes of
these lists.  Which candidate `pop_heap` takes depends on estimated scores; here a schedule, a list of numbers taken modulo the size of the heap, says which.
-/
namespace Cdec.Dec.Cube

/-- `JVector j = item.j_; ++j[i];` -/
def bump (j : List Nat) (i : Nat) : List Nat := j.modify i (· + 1)

/-- A candidate `<edge, j>` (apply_models.cc:52-60); scores and states are not needed here. -/
abbrev Cand := Nat × List Nat

/-- The loop of `PushSuccFast`, apply_models.cc:464-475, over the dimensions that are left. -/
def succFastLoop (b j : List Nat) : List Nat → List (List Nat)
  | [] => []
  | i :: is => (if j.getD i 0 + 1 < b.getD i 0 then [bump j i] else []) ++ (if j.getD i 0 ≠ 0 then [] else succFastLoop b j is)

/-- `PushSuccFast`, apply_models.cc:462-476: the candidates pushed when `c` is popped. -/
def pushSuccFast (bounds : Nat → List Nat) (c : Cand) : List Cand :=
  (succFastLoop (bounds c.1) c.2 (List.range c.2.length)).map fun j => (c.1, j)

/-- One round of the loop of `PushSucc`, apply_models.cc:446-457; the pair is the heap and the set `cs`. -/
def pushSuccStep (bounds : Nat → List Nat) (c : Cand) (s : List Cand × List Cand) (i : Nat) : List Cand × List Cand :=
  if c.2.getD i 0 + 1 < (bounds c.1).getD i 0 then
    if s.2.contains (c.1, bump c.2 i) then s else (s.1 ++ [(c.1, bump c.2 i)], s.2 ++ [(c.1, bump c.2 i)])
  else s

/-- `PushSucc`, apply_models.cc:443-459. -/
def pushSucc (bounds : Nat → List Nat) (c : Cand) (s : List Cand × List Cand) : List Cand × List Cand :=
  (List.range c.2.length).foldl (pushSuccStep bounds c) s

/-- `HasAllAncestors`, apply_models.cc:495-507; `j[i]` is an `int` that becomes -1. -/
def hasAllAncestors (cs : List Cand) (c : Cand) : Bool :=
  (List.range c.2.length).all fun i => c.2.getD i 0 == 0 || cs.contains (c.1, c.2.modify i (· - 1))

/-- `PushSuccFast2`, apply_models.cc:479-493: the candidates pushed when `c` is popped; `ps` are the popped ones, with `c`. -/
def pushSuccFast2 (bounds : Nat → List Nat) (ps : List Cand) (c : Cand) : List Cand :=
  (List.range c.2.length).flatMap fun i =>
    if c.2.getD i 0 + 1 < (bounds c.1).getD i 0 then
      if hasAllAncestors ps (c.1, bump c.2 i) then [(c.1, bump c.2 i)] else []
    else []

/-- The heap and the candidates popped so far. -/
structure St where
  heap : List Cand
  popped : List Cand

/-- The candidates at the start: the all-zero vector of every in-edge (apply_models.cc:299-305, 345-349, 399-403). -/
def start (bounds : Nat → List Nat) (inEdges : List Nat) : List Cand := inEdges.map fun e => (e, List.replicate (bounds e).length 0)

/-- One pop of `KBestFast`, apply_models.cc:354-364. -/
def stepFast (bounds : Nat → List Nat) (s : St) (k : Nat) : St :=
  match s.heap[k % s.heap.length]? with
  | none => s
  | some c => ⟨s.heap.eraseIdx (k % s.heap.length) ++ pushSuccFast bounds c, s.popped ++ [c]⟩

/-- One pop of `KBest`, apply_models.cc:310-318.  The set `unique_cands` has what was ever on the heap. -/
def stepNormal (bounds : Nat → List Nat) (s : St × List Cand) (k : Nat) : St × List Cand :=
  match s.1.heap[k % s.1.heap.length]? with
  | none => s
  | some c => (⟨(pushSucc bounds c (s.1.heap.eraseIdx (k % s.1.heap.length), s.2)).1, s.1.popped ++ [c]⟩, (pushSucc bounds c (s.1.heap.eraseIdx (k % s.1.heap.length), s.2)).2)

/-- One pop of `KBestFast2`, apply_models.cc:408-419; `unique_accepted` is the set of popped candidates. -/
def stepFast2 (bounds : Nat → List Nat) (s : St) (k : Nat) : St :=
  match s.heap[k % s.heap.length]? with
  | none => s
  | some c => ⟨s.heap.eraseIdx (k % s.heap.length) ++ pushSuccFast2 bounds (s.popped ++ [c]) c, s.popped ++ [c]⟩

/-- The loop `while (!cand.empty() && pops < pop_limit_)` of `KBestFast`, for a schedule. -/
def runFast (bounds : Nat → List Nat) (inEdges : List Nat) (sched : List Nat) : St := sched.foldl (stepFast bounds) ⟨start bounds inEdges, []⟩

/-- The loop of `KBest`. -/
def runNormal (bounds : Nat → List Nat) (inEdges : List Nat) (sched : List Nat) : St :=
  (sched.foldl (stepNormal bounds) (⟨start bounds inEdges, []⟩, start bounds inEdges)).1

/-- The loop of `KBestFast2`. -/
def runFast2 (bounds : Nat → List Nat) (inEdges : List Nat) (sched : List Nat) : St := sched.foldl (stepFast2 bounds) ⟨start bounds inEdges, []⟩

end Cdec.Dec.Cube
