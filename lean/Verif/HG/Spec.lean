import Verif.HG.Model
import Mathlib.Algebra.BigOperators.Group.List.Basic
import Mathlib.Algebra.Ring.Defs
/-!
# Specification vocabulary for hypergraphs: derivations and their weights

Nothing here refers to the algorithms.
-/
namespace Cdec.HG

variable {α : Type}

/-- A derivation tree: an edge id and one subtree per tail. -/
inductive Tree where
  | node (e : Nat) (ch : List Tree)

/-- The edge at the root. -/
def Tree.root : Tree → Nat
  | .node e _ => e

/-- The immediate subtrees. -/
def Tree.children : Tree → List Tree
  | .node _ ch => ch

/-- `IsDeriv g v t`: `t` is a derivation of node `v`: its root edge is one of the edges listed at `v`
and its subtrees derive, in order, the tails of that edge. -/
inductive IsDeriv (g : Hypergraph α) : Nat → Tree → Prop where
  | mk {v e : Nat} {ch : List Tree} (he : e ∈ g.inE v)
      (hlen : ch.length = (g.tails e).length)
      (hch : ∀ i (h : i < ch.length), IsDeriv g ((g.tails e)[i]'(hlen ▸ h)) ch[i]) :
      IsDeriv g v (.node e ch)

/-- Product of the edge weights of a tree (root first, then subtrees left to right). -/
def Tree.weight {K : Type*} [Mul K] [One K] (w : Nat → K) : Tree → K
  | .node e ch => w e * (ch.map fun t => t.weight w).prod

/-- Sum of the edge values of a tree. -/
def Tree.total {K : Type*} [Add K] [Zero K] (x : Nat → K) : Tree → K
  | .node e ch => x e + (ch.map fun t => t.total x).sum

/-- All edges of a tree, with multiplicity. -/
def Tree.edges : Tree → List Nat
  | .node e ch => e :: (ch.flatMap fun t => t.edges)

/-- Well-formed, topologically sorted hypergraph: node and edge indices are in range, the in-edge
list of every node has no repetition, and every tail of an edge entering `v` precedes `v`.  This is
what `decoder/hg.h:199-200` ("representing an acyclic hypergraph") and `GoalNode` (hg.h:274, "sorting of nodes in topo
order (bottom up)") require. -/
structure WF (g : Hypergraph α) : Prop where
  edge_lt : ∀ v < g.nodes.length, ∀ e ∈ g.inE v, e < g.edges.length
  nodup : ∀ v < g.nodes.length, (g.inE v).Nodup
  topo : ∀ v < g.nodes.length, ∀ e ∈ g.inE v, ∀ t ∈ g.tails e, t < v

/-- `ds` lists every derivation of `v` exactly once. -/
def ListsDerivs (g : Hypergraph α) (v : Nat) (ds : List Tree) : Prop :=
  ds.Nodup ∧ ∀ t, t ∈ ds ↔ IsDeriv g v t

/-- The index tables are consistent: ids are positions, references are in range, the out-edge list of a
node has every edge once per occurrence of the node among the edge's tails, and its in-edge list has
exactly the edges whose head it is, once each. -/
structure Consistent (g : Hypergraph α) : Prop where
  nid : ∀ i (h : i < g.nodes.length), (g.nodes[i]).id = i
  eid : ∀ i (h : i < g.edges.length), (g.edges[i]).id = i
  tails_lt : ∀ i (h : i < g.edges.length), ∀ t ∈ (g.edges[i]).tails, t < g.nodes.length
  head_lt : ∀ i (h : i < g.edges.length), ∀ v, (g.edges[i]).head = some v → v < g.nodes.length
  outc : ∀ v (h : v < g.nodes.length) e, (g.nodes[v]).outEdges.count e = (g.tails e).count v
  inc : ∀ v (h : v < g.nodes.length) e,
    (g.nodes[v]).inEdges.count e = if g.head e = some v then 1 else 0

/-- Rename the edges of a tree. -/
def Tree.map (f : Nat → Nat) : Tree → Tree
  | .node e ch => .node (f e) (ch.map fun t => t.map f)

/-- Node and edge indices are in range and in-edge lists have no repetition; no order is required. -/
structure InRange (g : Hypergraph α) : Prop where
  edge_lt : ∀ v < g.nodes.length, ∀ e ∈ g.inE v, e < g.edges.length
  nodup : ∀ v < g.nodes.length, (g.inE v).Nodup
  tail_lt : ∀ v < g.nodes.length, ∀ e ∈ g.inE v, ∀ t ∈ g.tails e, t < g.nodes.length

/-- Nodes that are reachable from `goal` going down through edges that are not pruned. -/
inductive Reach (g : Hypergraph α) (prune : Nat → Bool) (goal : Nat) : Nat → Prop where
  | goal : Reach g prune goal goal
  | tail {v e t : Nat} : Reach g prune goal v → e ∈ g.inE v → prune e = false → t ∈ g.tails e →
      Reach g prune goal t

/-- `rank` decreases from head to tails along edges that are not pruned. -/
def Ranked (g : Hypergraph α) (prune : Nat → Bool) (rank : Nat → Nat) : Prop :=
  ∀ v e, e ∈ g.inE v → prune e = false → ∀ t ∈ g.tails e, rank t < rank v

/-- The part of `g` that can be reached from `goal` has no cycle: heads can be ranked above their tails
along edges that are not pruned. -/
def AcyclicFrom (g : Hypergraph α) (prune : Nat → Bool) (goal : Nat) : Prop :=
  ∃ rank : Nat → Nat, ∀ v, Reach g prune goal v → ∀ e ∈ g.inE v, prune e = false →
    ∀ t ∈ g.tails e, rank t < rank v

/-- Acyclic: heads can be ranked above their tails along the edges that are not pruned. -/
def Acyclic (g : Hypergraph α) (prune : Nat → Bool) : Prop := ∃ rank, Ranked g prune rank

/-- Renaming edges by `f` is a one-to-one correspondence between the derivations of `v` in `g` that
satisfy `P` and the derivations of `k` in `h`, and every edge `e` of such a derivation has the payload
(rule, features, weight) `val` of what it was at `f e`. -/
structure DerivBij {β : Type} (g : Hypergraph α) (v : Nat) (P : Tree → Prop) (h : Hypergraph β) (k : Nat)
    (f : Nat → Nat) (val : α → β) : Prop where
  fwd : ∀ t, IsDeriv g v t → P t → IsDeriv h k (t.map f)
  bwd : ∀ t', IsDeriv h k t' → ∃ t, IsDeriv g v t ∧ P t ∧ t.map f = t'
  inj : ∀ t u, IsDeriv g v t → P t → IsDeriv g v u → P u → t.map f = u.map f → t = u
  payload : ∀ t, IsDeriv g v t → P t → ∀ e ∈ t.edges,
    e < g.edges.length ∧ f e < h.edges.length ∧
      (h.edges[f e]?).map Edge.val = (g.edges[e]?).map fun x => val x.val

/-- The derivation uses no edge marked in `prune`. -/
def Avoids (prune : Nat → Bool) (t : Tree) : Prop := ∀ e ∈ t.edges, prune e = false

end Cdec.HG
