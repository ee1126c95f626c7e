import Verif.HG.Model
import Verif.Util.Indices
/-!
# Sub-hypergraphs by edge and node masks

Models `CreateEdgeSubset` and `CreateNodeEdgeSubset` (decoder/hg.cc:632-674) and the `copy_reindex`
members (decoder/hg.h:118-123, 187-192).
-/
namespace Cdec.HG
variable {α : Type}

/-- `(unsigned)-1`, what `indices_after::operator[]` yields for a removed index. -/
def removedId : Nat := 4294967295

/-- `Node::copy_reindex`, hg.h:187-192.  As in the code, the new id is looked up with the *own* `id_`
of the freshly constructed destination node, which is 0, not with the id of the source node. -/
def copyNode (n2 e2 : List (Option Nat)) (o : Node) : Node :=
  { id := (n2[(default : Node).id]?).join.getD removedId
    cat := o.cat
    inEdges := reindex e2 o.inEdges
    outEdges := reindex e2 o.outEdges }

/-- `Edge::copy_reindex`, hg.h:118-123; `copy_fixed` (hg.h:113-117) copies the whole payload. -/
def copyEdge (n2 e2 : List (Option Nat)) (o : Edge α) : Edge α :=
  { id := (e2[o.id]?).join.getD removedId
    head := o.head.bind fun h => (n2[h]?).join
    tails := reindex n2 o.tails
    val := o.val }

/-- `Hypergraph::CreateNodeEdgeSubset`, hg.cc:661-674: both loops write the kept elements at their new
positions into tables of default elements. -/
def createNodeEdgeSubset [Inhabited α] (g : Hypergraph α) (keepNodes keepEdges : List Bool) : Hypergraph α :=
  let n2 := newIndicesKeep keepNodes 0
  let e2 := newIndicesKeep keepEdges 0
  { nodes := copyTo default n2.1 n2.2 (g.nodes.map (copyNode n2.1 e2.1))
    edges := copyTo ⟨0, none, [], default⟩ e2.1 e2.2 (g.edges.map (copyEdge n2.1 e2.1)) }

/-- hg.cc:640-654: one iteration of the inner loop of `CreateEdgeSubset`; the state is
`(keep_edges, kn)`, here as functions from indices. -/
def subsetStep (g : Hypergraph α) (s : (Nat → Bool) × (Nat → Bool)) (ei : Nat) :
    (Nat → Bool) × (Nat → Bool) :=
  if s.1 ei then
    if (g.tails ei).all s.2 then
      (s.1, fun v => if g.head ei = some v then true else s.2 v)
    else (fun e => if e = ei then false else s.1 e, s.2)
  else s

/-- hg.cc:635-657: the two loops of `CreateEdgeSubset`. -/
def subsetMasks (g : Hypergraph α) (keep : Nat → Bool) : (Nat → Bool) × (Nat → Bool) :=
  (List.range g.nodes.length).foldl (fun s n => (g.inE n).foldl (subsetStep g) s) (keep, fun _ => false)

/-- `Hypergraph::CreateEdgeSubset`, hg.cc:632-659. -/
def createEdgeSubset [Inhabited α] (g : Hypergraph α) (keep : Nat → Bool) : Hypergraph α :=
  let m := subsetMasks g keep
  createNodeEdgeSubset g ((List.range g.nodes.length).map m.2) ((List.range g.edges.length).map m.1)

end Cdec.HG
