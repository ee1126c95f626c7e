import Verif.HG.Model
import Verif.Util.Sort
/-!
# Topological sort and relocation

Models `Hypergraph::TopologicallySortNodesAndEdges`, decoder/hg.cc:482-603.  Arrays indexed by node or
edge are modelled as functions (`color`, `reloc_node`); `-1` is `none`.  The `abort()` on a cycle is the
outcome `none`.  `prune e = true` iff `prune_edges && (*prune_edges)[e]`
(the code indexes the mask with `cur_edge.id_`, which is the position `e`, see C01).
-/
namespace Cdec.HG
variable {α : Type}

/-- `enum ColorType`, hg.cc:467. -/
inductive Color where
  | white | gray | black
deriving DecidableEq, Repr

/-- Pointwise update of an array modelled as a function. -/
def upd {β : Type} (f : Nat → β) (i : Nat) (x : β) : Nat → β := fun j => if j = i then x else f j

/-- Local variables of the DFS loop, hg.cc:486-501: the current frame (`cur_ni`, `edge_i`, `tail_i`),
the stack of suspended frames (top first), `color`, `reloc_node`, `node_count`. -/
structure DFS where
  cur : Nat
  ei : Nat
  ti : Nat
  stack : List (Nat × Nat × Nat)
  color : Nat → Color
  reloc : Nat → Option Nat
  count : Nat

/-- Result of one pass of the loop body. -/
inductive StepR where
  | next (s : DFS)
  | done (reloc : Nat → Option Nat) (count : Nat)
  | abort

/-- One pass of the inner `while` (hg.cc:502-534) or, when `edge_i == edge_end`, the code after it
(hg.cc:535-536) followed by popping the next frame (hg.cc:494-500). -/
def dfsStep (g : Hypergraph α) (prune : Nat → Bool) (s : DFS) : StepR :=
  match (g.inE s.cur)[s.ei]? with
  | none =>
    -- edge_i == edge_end: color BLACK, assign the next number, pop
    let color := upd s.color s.cur .black
    let reloc := upd s.reloc s.cur (some s.count)
    match s.stack with
    | [] => .done reloc (s.count + 1)
    | (n, e, t) :: st =>
      .next { cur := n, ei := e, ti := t, stack := st, color := color, reloc := reloc, count := s.count + 1 }
  | some e =>
    if prune e then .next { s with ei := s.ei + 1, ti := 0 } else
    match (g.tails e)[s.ti]? with
    | none => .next { s with ei := s.ei + 1, ti := 0 }
    | some tn =>
      match s.color tn with
      | .white => .next { s with cur := tn, ei := 0, ti := 0
                                 stack := (s.cur, s.ei, s.ti + 1) :: s.stack
                                 color := upd s.color tn .gray }
      | .black => .next { s with ti := s.ti + 1 }
      | .gray => .abort

/-- Initial state, hg.cc:486-493. -/
def dfsInit (goal : Nat) : DFS :=
  { cur := goal, ei := 0, ti := 0, stack := [], color := fun _ => .white, reloc := fun _ => none, count := 0 }

/-- The loop `while(!stack.empty())` with a step bound.  `none` = bound exhausted or abort. -/
def dfsRun (g : Hypergraph α) (prune : Nat → Bool) : Nat → DFS → Option ((Nat → Option Nat) × Nat)
  | 0, _ => none
  | f + 1, s =>
    match dfsStep g prune s with
    | .next s' => dfsRun g prune f s'
    | .done r c => some (r, c)
    | .abort => none

/-- hg.cc:537-546: an edge gets a non-negative `reloc_edge` iff it is listed at a finished node and
is not pruned. -/
def edgeKept (g : Hypergraph α) (prune : Nat → Bool) (reloc : Nat → Option Nat) (e : Nat) : Bool :=
  (List.range g.nodes.length).any (fun v => (reloc v).isSome && (g.inE v).contains e) && !prune e

/-- hg.cc:548-554: after the renumbering loop `reloc_edge[i]` is the number of kept edges before `i`. -/
def edgeReloc (g : Hypergraph α) (prune : Nat → Bool) (reloc : Nat → Option Nat) (e : Nat) : Option Nat :=
  if edgeKept g prune reloc e then
    some ((List.range e).countP fun i => edgeKept g prune reloc i)
  else none

/-- hg.cc:572-589: relocate a node.  Returns `none` if the node is to be erased (`id_ == -1`). -/
def relocNode (rn : Nat → Option Nat) (re : Nat → Option Nat) (i : Nat) (n : Node) : Option Node :=
  match rn i with
  | none => none
  | some k => some { id := k, cat := n.cat
                     inEdges := n.inEdges.filterMap re
                     outEdges := n.outEdges.filterMap re }

/-- hg.cc:590-596: relocate an edge.  (`reloc_node` of a tail of a kept edge is never -1; the model
writes 0 there.) -/
def relocEdge (rn : Nat → Option Nat) (re : Nat → Option Nat) (i : Nat) (e : Edge α) : Option (Edge α) :=
  match re i with
  | none => none
  | some k => some { id := k, head := e.head.bind rn
                     tails := e.tails.map fun t => (rn t).getD 0
                     val := e.val }

/-- hg.cc:566-603: apply the relocation, erase, sort by id.  (The early `return` for a relocation
that is the identity, hg.cc:566-571, gives the same tables when ids equal positions and is omitted.) -/
def relocate (g : Hypergraph α) (rn : Nat → Option Nat) (re : Nat → Option Nat) : Hypergraph α :=
  { nodes := isort (fun a b => decide (a.id ≤ b.id)) ((g.nodes.mapIdx fun i n => relocNode rn re i n).filterMap id)
    edges := isort (fun a b => decide (a.id ≤ b.id)) ((g.edges.mapIdx fun i e => relocEdge rn re i e).filterMap id) }

/-- `TopologicallySortNodesAndEdges(goal, &prune)` with a step bound for the loop. -/
def topoSort (g : Hypergraph α) (goal : Nat) (prune : Nat → Bool) (fuel : Nat) : Option (Hypergraph α) :=
  match dfsRun g prune fuel (dfsInit goal) with
  | none => none
  | some (rn, _) => some (relocate g rn (edgeReloc g prune rn))

end Cdec.HG
