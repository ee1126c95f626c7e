/-!
# Hypergraph data structure and its construction operations

Models `decoder/hg.h`.  `nodes_` and `edges_` are `std::vector`s, modelled by lists; positions are
`Nat`.  An access `nodes_[i]` outside the vector is undefined behaviour in C++; here it yields a
default record, and every theorem carries a well-formedness hypothesis (`WF`) that excludes it.
-/
namespace Cdec.HG

/-- `HG::Node`, decoder/hg.h:157-192.  `node_hash` is not modelled. -/
structure Node where
  /-- `id_`, hg.h:160 -/
  id : Nat
  /-- `cat_`, hg.h:161 -/
  cat : Int
  /-- `in_edges_`, hg.h:163 -/
  inEdges : List Nat
  /-- `out_edges_`, hg.h:164 -/
  outEdges : List Nat
deriving DecidableEq, Repr

/-- `Node::Node()`, hg.h:158: everything zero / empty. -/
instance : Inhabited Node := ⟨⟨0, 0, [], []⟩⟩

/-- `HG::Edge`, decoder/hg.h:48-72.  The payload (`rule_`, `feature_values_`, `edge_prob_`, spans) is
the type parameter `α`. `head = none` models a head that is not set yet (hg.h:49 leaves it uninitialised). -/
structure Edge (α : Type) where
  id : Nat
  head : Option Nat
  tails : List Nat
  val : α
deriving DecidableEq, Repr

/-- `Hypergraph`, decoder/hg.h:201; the flag `is_linear_chain_` is not modelled. -/
structure Hypergraph (α : Type) where
  nodes : List Node
  edges : List (Edge α)
deriving Repr

variable {α : Type}

/-- `Hypergraph::Hypergraph()`, hg.h:203. -/
def empty : Hypergraph α := ⟨[], []⟩

/-- `nodes_[i]` -/
def Hypergraph.node (g : Hypergraph α) (i : Nat) : Node := g.nodes.getD i default

/-- `edges_[i].tail_nodes_` -/
def Hypergraph.tails (g : Hypergraph α) (e : Nat) : List Nat :=
  match g.edges[e]? with
  | some ed => ed.tails
  | none => []

/-- `edges_[i].head_node_` -/
def Hypergraph.head (g : Hypergraph α) (e : Nat) : Option Nat :=
  match g.edges[e]? with
  | some ed => ed.head
  | none => none

/-- `nodes_[i].in_edges_` -/
def Hypergraph.inE (g : Hypergraph α) (v : Nat) : List Nat := (g.node v).inEdges

/-- `Hypergraph::GoalNode`, hg.h:274 (`nodes_.size() - 1`). -/
def Hypergraph.goal (g : Hypergraph α) : Nat := g.nodes.length - 1

/-- `Hypergraph::AddNode`, hg.h:354-359. -/
def addNode (g : Hypergraph α) (cat : Int) : Hypergraph α :=
  { g with nodes := g.nodes ++ [{ id := g.nodes.length, cat := cat, inEdges := [], outEdges := [] }] }

/-- `nodes_[t].out_edges_.push_back(eid)` -/
def pushOut (eid : Nat) (ns : List Node) (t : Nat) : List Node :=
  ns.modify t fun n => { n with outEdges := n.outEdges ++ [eid] }

/-- `Hypergraph::index_tails`, hg.h:314-317 (the same loop is inlined at hg.h:349-350). -/
def indexTails (eid : Nat) (tails : List Nat) (ns : List Node) : List Node :=
  tails.foldl (pushOut eid) ns

/-- `Hypergraph::AddEdge`, hg.h:322-352.  All three overloads set the id to the current size, the
tails to the given ones, leave the head unset and index the tails. -/
def addEdge (g : Hypergraph α) (val : α) (tails : List Nat) : Hypergraph α :=
  { nodes := indexTails g.edges.length tails g.nodes
    edges := g.edges ++ [{ id := g.edges.length, head := none, tails := tails, val := val }] }

/-- `Hypergraph::ConnectEdgeToHeadNode`, hg.h:362-375. -/
def connect (g : Hypergraph α) (eid head : Nat) : Hypergraph α :=
  { nodes := g.nodes.modify head fun n => { n with inEdges := n.inEdges ++ [eid] }
    edges := g.edges.modify eid fun e => { e with head := some head } }

/-- The construction calls of the public API. -/
inductive Op (α : Type) where
  | addNode (cat : Int)
  | addEdge (val : α) (tails : List Nat)
  | connect (eid head : Nat)

/-- Run one call. -/
def Op.run (g : Hypergraph α) : Op α → Hypergraph α
  | .addNode c => Cdec.HG.addNode g c
  | .addEdge v ts => Cdec.HG.addEdge g v ts
  | .connect e h => Cdec.HG.connect g e h

/-- The caller's side of the contract: tails and head must be existing nodes, the edge must exist and
must not have been connected before. -/
def Op.ok (g : Hypergraph α) : Op α → Prop
  | .addNode _ => True
  | .addEdge _ ts => ∀ t ∈ ts, t < g.nodes.length
  | .connect e h => e < g.edges.length ∧ h < g.nodes.length ∧ g.head e = none

/-- A history of calls from the empty hypergraph, each of them legal when made. -/
inductive Built : Hypergraph α → Prop where
  | init : Built empty
  | step {g : Hypergraph α} (op : Op α) : Built g → op.ok g → Built (op.run g)

end Cdec.HG
