import Verif.HG.TopoModel
import Verif.HG.InsideModel
import Mathlib.Algebra.Ring.Defs
/-!
# Pruning and union

Models `PruneEdges` (decoder/hg.cc:257-290), and `Union` (decoder/hg.cc:412-455).
-/
namespace Cdec.HG
variable {α : Type}

/-- `struct Boolean`, decoder/inside_outside.h:9-24: `+` is or, `*` is and. -/
structure Boolean where
  x : Bool
deriving DecidableEq, Repr

instance : Zero Boolean := ⟨⟨false⟩⟩
instance : One Boolean := ⟨⟨true⟩⟩
instance : Add Boolean := ⟨fun a b => ⟨a.x || b.x⟩⟩
instance : Mul Boolean := ⟨fun a b => ⟨a.x && b.x⟩⟩

/-- hg.cc:261-264: `reachable`, the Boolean inside scores with `EdgeExistsWeightFunction`
(hg.cc:248-255). -/
def reachable (g : Hypergraph α) (prune : Nat → Bool) : List Boolean :=
  insideScores g fun e => (⟨!prune e⟩ : Boolean)

/-- hg.cc:272-285: an edge is filtered if it is pruned or one of its tails cannot be built. -/
def filtered (g : Hypergraph α) (prune : Nat → Bool) (e : Nat) : Bool :=
  prune e || (g.tails e).any fun t => !((reachable g prune).getD t 0).x

/-- `Hypergraph::PruneEdges(prune_edge, run_inside_algorithm)`, hg.cc:257-290.  When the goal cannot
be derived any more the result is a single default node without edges (hg.cc:265-270). -/
def pruneEdges (g : Hypergraph α) (prune : Nat → Bool) (runInside : Bool) (fuel : Nat) :
    Option (Hypergraph α) :=
  if runInside then
    if ((reachable g prune).getLastD 0).x then
      topoSort g (g.nodes.length - 1) (filtered g prune) fuel
    else some ⟨[default], []⟩
  else topoSort g (g.nodes.length - 1) prune fuel

/-- hg.cc:415-452: tables of `Union` before the final sort, for non-empty `g` and `o`.  `strip` is what
copying keeps of an edge's payload: `rule_` and `feature_values_` only (hg.cc:441-442; `edge_prob_`
and the spans stay default-constructed), and nodes lose `cat_` (hg.cc:424-435 copies only the edge
lists).  The edges of `o` entering its goal are appended to the in-edges of the goal of `g`. -/
def unionTables (strip : α → α) (g o : Hypergraph α) : Hypergraph α :=
  let noff := g.nodes.length
  let eoff := g.edges.length
  let ogoal := o.nodes.length - 1
  let cgoal := noff - 1
  let newGoalEdges := (List.range o.edges.length).filter fun i => decide (o.head i = some ogoal)
  { nodes := (g.nodes.modify cgoal fun n => { n with inEdges := n.inEdges ++ newGoalEdges.map (· + eoff) })
      ++ (o.nodes.take ogoal).mapIdx fun i n =>
        { id := i + noff, cat := 0, inEdges := n.inEdges.map (· + eoff), outEdges := n.outEdges.map (· + eoff) }
    edges := g.edges ++ o.edges.mapIdx fun i e =>
      { id := i + eoff
        head := e.head.map fun h => if h = ogoal then cgoal else h + noff
        tails := e.tails.map (· + noff), val := strip e.val } }

/-- `Hypergraph::Union`, hg.cc:412-455, for a non-empty argument (with an empty argument `ogoal` is -1
and the code drops its own goal node before indexing it: undefined behaviour). -/
def union (strip : α → α) (g o : Hypergraph α) (fuel : Nat) : Option (Hypergraph α) :=
  if g.nodes.isEmpty then some o
  else topoSort (unionTables strip g o) (g.nodes.length - 1) (fun _ => false) fuel

end Cdec.HG
