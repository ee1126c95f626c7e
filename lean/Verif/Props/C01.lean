import Verif.HG.BuildLemmas
/-! # C01: hypergraph construction keeps its indices consistent -/
namespace Cdec.HG
variable {α : Type}

/-- C01.  After any legal history of `AddNode`, `AddEdge`, `ConnectEdgeToHeadNode` calls:
ids equal positions; tails and heads are existing nodes; an edge is listed among a node's out-edges
exactly as often as the node occurs among the edge's tails; an edge is listed among a node's
in-edges exactly once if it has been connected to that node and not at all otherwise. -/
theorem C01_construction_indices (g : Hypergraph α) (h : Built g) :
    (∀ i (hi : i < g.nodes.length), g.nodes[i].id = i) ∧
    (∀ i (hi : i < g.edges.length), g.edges[i].id = i ∧
      (∀ t ∈ g.edges[i].tails, t < g.nodes.length) ∧
      (∀ v, g.edges[i].head = some v → v < g.nodes.length)) ∧
    (∀ v (hv : v < g.nodes.length) e (he : e < g.edges.length),
      g.nodes[v].outEdges.count e = g.edges[e].tails.count v ∧
      g.nodes[v].inEdges.count e = if g.edges[e].head = some v then 1 else 0) ∧
    (∀ v (hv : v < g.nodes.length), ∀ e ∈ g.nodes[v].outEdges ++ g.nodes[v].inEdges,
      e < g.edges.length) := by
  have hi := h.inv
  refine ⟨hi.nid, fun i h => ⟨hi.eid i h, hi.tails_lt i h, hi.head_lt i h⟩, ?_, ?_⟩
  · intro v hv e he
    rw [← tails_lt' g e he, ← head_lt' g e he]
    exact ⟨hi.outc v hv e, hi.inc v hv e⟩
  · intro v hv e he
    apply Classical.byContradiction
    intro hlt
    rcases List.mem_append.1 he with h | h
    · have := List.count_pos_iff.2 h
      rw [hi.outc v hv e, tails_oob g e (by omega)] at this
      simp at this
    · have := List.count_pos_iff.2 h
      rw [hi.inc v hv e, head_oob g e (by omega)] at this
      simp at this

/-- What a single call does to the tables: `AddNode` appends a fresh node, `AddEdge` a fresh
unconnected edge with the given tails and value, `Connect` sets one head; nothing else changes. -/
theorem C01_calls_effect (g : Hypergraph α) (c : Int) (x : α) (ts : List Nat) :
    (addNode g c).nodes.length = g.nodes.length + 1 ∧ (addNode g c).edges = g.edges ∧
    (addEdge g x ts).nodes.length = g.nodes.length ∧
    (addEdge g x ts).edges.length = g.edges.length + 1 ∧
    (addEdge g x ts).tails g.edges.length = ts ∧
    (addEdge g x ts).head g.edges.length = none ∧
    (∀ e, e ≠ g.edges.length → (addEdge g x ts).tails e = g.tails e) ∧
    (∀ eid v e, eid < g.edges.length →
      (connect g eid v).head e = if e = eid then some v else g.head e) := by
  refine ⟨by simp [addNode], rfl, by simp [addEdge, indexTails_length], by simp [addEdge], ?_, ?_, ?_, ?_⟩
  · rw [tails_addEdge]; simp
  · rw [head_addEdge, head_oob g _ (Nat.le_refl _)]
  · intro e he; rw [tails_addEdge]; simp [he]
  · intro eid v e h; exact head_connect g eid v e h

/-- Non-vacuity: a history that builds two nodes, a leaf edge and an edge with a repeated tail. -/
example : Built (connect (addEdge (connect (addEdge (addNode (addNode (empty : Hypergraph Nat) (-1)) (-2))
    7 []) 0 0) 8 [0, 0]) 1 1) := by
  refine .step (.connect 1 1) (.step (.addEdge 8 [0, 0]) (.step (.connect 0 0) (.step (.addEdge 7 [])
    (.step (.addNode (-2)) (.step (.addNode (-1)) .init ?_) ?_) ?_) ?_) ?_) ?_
  all_goals simp [Op.ok, Op.run, addNode, addEdge, connect, empty, Hypergraph.head, indexTails, pushOut]

end Cdec.HG
