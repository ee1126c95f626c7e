import Verif.HG.TopoModel
import Mathlib.Data.Finsupp.Basic
import Mathlib.Algebra.Order.Ring.Rat
import Mathlib.Algebra.Order.Group.Abs
/-!
# The union of two forests

decoder/hg_union.cc.  The edges into a node are those with this head, in the order of the table of edges (C01); out-edges,
categories, spans and probabilities are left out.  The sorting at the end, which keeps the derivations of the goal (C06),
is `sortUnion`.  Features are rational numbers.
-/
namespace Cdec.HashUnion

/-- `HG::Edge`, hg.h:48-72: its head, its tails, the sides of its rule and its features. -/
structure Edge where
  head : Nat
  tails : List Nat
  e : List Int
  f : List Int
  feats : Nat →₀ ℚ

/-- A forest: `node_hash` of its nodes, and its edges. -/
structure Forest where
  hash : List Nat
  edges : List Edge

/-- The hash of a node. -/
def Forest.hashOf (g : Forest) (v : Nat) : Nat := g.hash.getD v 0

/-- The loop over the tails in `EdgesMatch`, hg_union.cc:24-25. -/
def tailsMatch (a b : Forest) : List Nat → List Nat → Bool
  | s :: ss, t :: ts => if a.hashOf s ≠ b.hashOf t then false else tailsMatch a b ss ts
  | _, _ => true

/-- `EdgesMatch`, hg_union.cc:18-30. -/
noncomputable def edgesMatch (x : Edge) (a : Forest) (y : Edge) (b : Forest) : Bool :=
  if x.tails.length ≠ y.tails.length then false
  else if x.e ≠ y.e then false
  else if x.f ≠ y.f then false
  else if tailsMatch a b x.tails y.tails = false then false
  else decide (∀ k ∈ (x.feats - y.feats).support, ¬ |(x.feats - y.feats) k| > 1 / 1000000)

/-- `AreNodesUniquelyIdentified`, hg.cc:23-29. -/
def unique : List Nat → Bool
  | [] => true
  | h :: hs => !hs.contains h && unique hs

/-- `h2n[node.node_hash] = node.id_` for the nodes of the output, hg_union.cc:53-54. -/
def index : List Nat → Nat → (Nat → Option Nat) → Nat → Option Nat
  | [], _, m => m
  | h :: hs, i, m => index hs (i + 1) fun x => if x = h then some i else m x

/-- The nodes of the input that the output does not have, hg_union.cc:55-61. -/
def addNodes : List Nat → List Nat → (Nat → Option Nat) → List Nat × (Nat → Option Nat)
  | [], out, m => (out, m)
  | h :: hs, out, m =>
    if m h = none then addNodes hs (out ++ [h]) fun x => if x = h then some out.length else m x
    else addNodes hs out m

/-- An edge of the input, hg_union.cc:71-88; `v` is the node of the output for its head. -/
noncomputable def addEdge (i : Forest) (m : Nat → Option Nat) (v : Nat) (o : Forest) (x : Edge) : Forest :=
  if o.edges.any fun y => decide (y.head = v) && edgesMatch x i y o then o
  else { o with edges := o.edges ++ [{ x with head := v, tails := x.tails.map fun t => (m (i.hashOf t)).getD 0 }] }

/-- The loop over the edges of the input, node by node, hg_union.cc:65-96. -/
noncomputable def addEdges (i : Forest) (m : Nat → Option Nat) : List Nat → Forest → Forest
  | [], o => o
  | v :: vs, o =>
    addEdges i m vs ((i.edges.filter fun x => decide (x.head = v)).foldl (addEdge i m ((m (i.hashOf v)).getD 0)) o)

/-- The union without the tests, hg_union.cc:52-96. -/
noncomputable def merge (i o : Forest) : Forest :=
  let n := addNodes i.hash o.hash (index o.hash 0 fun _ => none)
  addEdges i n.2 (List.range i.hash.length) { o with hash := n.1 }

/-- `Union`, hg_union.cc:32-102; `none` if one of its checks aborts (the sorting is `sortUnion`).  A union of a forest with itself, which does nothing, is left out. -/
noncomputable def union (i o : Forest) : Option Forest :=
  if o.hash = [] then some i
  else if unique i.hash = false then none
  else if unique o.hash = false then none
  else if o.hash.getLast? ≠ i.hash.getLast? then none
  else some (merge i o)

/-- The tables of a forest: `nodes_` with their in-edges and out-edges, and `edges_` (hg.h:157-192). -/
def tables (g : Forest) : HG.Hypergraph (List Int × List Int × (Nat →₀ ℚ)) where
  nodes := (List.range g.hash.length).map fun v =>
    ⟨v, 0, (List.range g.edges.length).filter fun e => decide ((g.edges[e]?).map Edge.head = some v),
      (List.range g.edges.length).flatMap fun e => List.replicate ((((g.edges[e]?).map Edge.tails).getD []).count v) e⟩
  edges := g.edges.mapIdx fun k x => ⟨k, some x.head, x.tails, (x.e, x.f, x.feats)⟩

/-- The sorting at the end, `out->TopologicallySortNodesAndEdges(cgoal)`, hg_union.cc:50 and 102, on a result `u` for the stored forest `o`. -/
def sortUnion (o u : Forest) (fuel : Nat) : Option (HG.Hypergraph (List Int × List Int × (Nat →₀ ℚ))) :=
  HG.topoSort (tables u) (o.hash.length - 1) (fun _ => false) fuel

end Cdec.HashUnion
