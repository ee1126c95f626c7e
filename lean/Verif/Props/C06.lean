import Verif.HG.SoundLemmas
/-! # C06: topological sorting preserves derivations and establishes the order -/
namespace Cdec.HG
variable {α : Type}

theorem tree_map_inj (P : Nat → Prop) (f : Nat → Nat) (hf : ∀ a b, P a → P b → f a = f b → a = b)
    (t : Tree) : ∀ u, (∀ e ∈ t.edges, P e) → (∀ e ∈ u.edges, P e) → t.map f = u.map f → t = u := by
  induction t using Tree.rec (motive_2 := fun ch => ∀ ch' : List Tree,
    (∀ e ∈ ch.flatMap fun t => t.edges, P e) → (∀ e ∈ ch'.flatMap fun t => t.edges, P e) →
    (ch.map fun t => t.map f) = (ch'.map fun t => t.map f) → ch = ch') with
  | node e ch ih =>
    rintro ⟨e', ch'⟩ h1 h2 h
    rw [Tree.edges] at h1 h2
    rw [tree_map_node, tree_map_node] at h
    simp only [Tree.node.injEq] at h
    rw [hf e e' (h1 e (by simp)) (h2 e' (by simp)) h.1,
      ih ch' (fun x hx => h1 x (List.mem_cons_of_mem _ hx)) (fun x hx => h2 x (List.mem_cons_of_mem _ hx)) h.2]
  | nil =>
    rename_i ch' _ _ h
    cases ch' with
    | nil => rfl
    | cons => simp at h
  | cons t ch ih1 ih2 =>
    rename_i ch' h1 h2 h
    cases ch' with
    | nil => simp at h
    | cons u us =>
      simp only [List.map_cons, List.cons.injEq] at h
      simp only [List.flatMap_cons, List.mem_append] at h1 h2
      rw [ih1 u (fun x hx => h1 x (.inl hx)) (fun x hx => h2 x (.inl hx)) h.1,
        ih2 us (fun x hx => h1 x (.inr hx)) (fun x hx => h2 x (.inr hx)) h.2]

/-- Every edge of a derivation of a reachable node that avoids pruned edges is listed at a reachable
node. -/
theorem deriv_edges_reach {g : Hypergraph α} {prune : Nat → Bool} {goal : Nat} (t : Tree) :
    ∀ v, Reach g prune goal v → IsDeriv g v t → (∀ e ∈ t.edges, prune e = false) →
    ∀ e ∈ t.edges, ∃ u, Reach g prune goal u ∧ e ∈ g.inE u := by
  induction t using Tree.rec (motive_2 := fun ch => ∀ ts : List Nat, (∀ t ∈ ts, Reach g prune goal t) →
    List.Forall₂ (IsDeriv g) ts ch → (∀ e ∈ ch.flatMap fun t => t.edges, prune e = false) →
    ∀ e ∈ ch.flatMap fun t => t.edges, ∃ u, Reach g prune goal u ∧ e ∈ g.inE u) with
  | node e ch ih =>
    intro v hv hd hp x hx
    obtain ⟨he, hch⟩ := isDeriv_iff.1 hd
    rw [Tree.edges] at hp hx
    rcases List.mem_cons.1 hx with rfl | hx
    · exact ⟨v, hv, he⟩
    · exact ih (g.tails e) (fun t ht => .tail hv he (hp e (by simp)) ht) hch
        (fun y hy => hp y (List.mem_cons_of_mem _ hy)) x hx
  | nil => rename_i h; simp at h
  | cons t ch ih1 ih2 =>
    rename_i ts hts hf hp e he
    cases hf with
    | cons h1 h2 =>
      rename_i u us
      simp only [List.flatMap_cons, List.mem_append] at hp he
      rcases he with he | he
      · exact ih1 u (hts u (by simp)) h1 (fun x hx => hp x (.inl hx)) e he
      · exact ih2 us (fun t ht => hts t (by simp [ht])) h2 (fun x hx => hp x (.inr hx)) e he

/-- C06.  `g` is any hypergraph with indices in range (no order on its nodes), `goal` one of its nodes,
`prune` a mask of edges to drop (nothing for plain sorting), and the edges that are not dropped form no
cycle that can be reached from the goal.  Then `TopologicallySortNodesAndEdges(goal, prune)` terminates without aborting and returns a
hypergraph `h` in which

* every tail precedes its head, in-edge lists have no repetition, ids equal positions, and the goal is
  the last node;
* exactly the nodes reachable from the goal are kept (`pos` says where);
* at every kept node, in particular at the goal, renaming edges by `f` is a bijection between the
  derivations that use no dropped edge and the derivations in `h`, and it keeps payloads. -/
theorem C06_topological_sort (g : Hypergraph α) (hir : InRange g) (prune : Nat → Bool) (goal : Nat)
    (hg : goal < g.nodes.length) (hac : AcyclicFrom g prune goal) :
    ∃ (h : Hypergraph α) (f : Nat → Nat) (pos : Nat → Option Nat),
      (∃ k, ∀ fuel, k ≤ fuel → topoSort g goal prune fuel = some h) ∧
      WF h ∧ 0 < h.nodes.length ∧
      (∀ i (hi : i < h.nodes.length), h.nodes[i].id = i) ∧
      (∀ i (hi : i < h.edges.length), h.edges[i].id = i) ∧
      (∀ v, (pos v).isSome ↔ Reach g prune goal v) ∧
      (∀ k, k < h.nodes.length ↔ ∃ v, pos v = some k) ∧
      (∀ v k, pos v = some k → DerivBij g v (Avoids prune) h k f id) ∧
      pos goal = some h.goal := by
  obtain ⟨rank, hr⟩ := hac
  obtain ⟨k, rn, count, hrun, hnum⟩ := dfs_correct (g := g) (prune := prune) goal hr
  have hnodes := reloc_nodes hnum hir hg (edgeReloc g prune rn)
  have hgoal : (relocate g rn (edgeReloc g prune rn)).goal = count - 1 := by
    rw [Hypergraph.goal, hnodes.1]
  have kept : ∀ v, (rn v).isSome → ∀ t, IsDeriv g v t → Avoids prune t → ∀ e ∈ t.edges,
      ∃ v, v < g.nodes.length ∧ (rn v).isSome ∧ e ∈ g.inE v := by
    intro v hv t ht hp e he
    obtain ⟨u, hu, heu⟩ := deriv_edges_reach t v ((hnum.reach_iff v).1 hv) ht hp e he
    exact ⟨u, hu.lt hir hg, (hnum.reach_iff u).2 hu, heu⟩
  refine ⟨relocate g rn (edgeReloc g prune rn), newEdge g prune rn, rn, ⟨k, fun f hf => ?_⟩,
    reloc_wf hnum hir hg, ?_, ?_, ?_, hnum.reach_iff, ?_, fun v k hvk => ⟨?_, ?_, ?_, ?_⟩, ?_⟩
  · simp [topoSort, hrun f hf]
  · rw [hnodes.1]; exact hnum.pos
  · intro i hi
    obtain ⟨v, hv⟩ := hnum.surj i (by rw [← hnodes.1]; exact hi)
    have := hnodes.2 v i hv
    rw [Hypergraph.node, List.getD_eq_getElem?_getD, List.getElem?_eq_getElem hi] at this
    simp only [Option.getD_some] at this
    rw [this]
  · intro i hi
    obtain ⟨e, _, _, hx⟩ := ((reloc_edges (g := g) (prune := prune) (rn := rn)).2 i
      (relocate g rn (edgeReloc g prune rn)).edges[i]).1 (List.getElem?_eq_getElem hi)
    rw [hx]
  · intro j
    rw [hnodes.1]
    exact ⟨fun hj => hnum.surj j hj, fun ⟨v, hv⟩ => hnum.lt v j hv⟩
  · intro t ht hp
    exact deriv_forward hnum hir hg t v _ hvk ht hp
  · intro t' ht'
    exact deriv_backward hnum hir hg t' v _ hvk ht'
  · intro t u ht hpt hu hpu heq
    have hs : (rn v).isSome := by simp [hvk]
    refine tree_map_inj (fun e => edgeReloc g prune rn e = some (newEdge g prune rn e))
      _ (fun a b ha hb hab => newEdge_inj ha hb hab) t u ?_ ?_ heq
    · intro e he
      obtain ⟨v, hv, hs, hm⟩ := kept v hs t ht hpt e he
      exact edgeReloc_kept hv hs hm (hpt e he)
    · intro e he
      obtain ⟨v, hv, hs, hm⟩ := kept v hs u hu hpu e he
      exact edgeReloc_kept hv hs hm (hpu e he)
  · intro t ht hp e he
    obtain ⟨v, hv, hs, hm⟩ := kept v (by simp [hvk]) t ht hp e he
    have hval := reloc_val hir hv hs hm (hp e he)
    have hlt := hir.edge_lt v hv e hm
    refine ⟨hlt, ?_, by simpa using hval⟩
    rw [List.getElem?_eq_getElem hlt] at hval
    by_contra hc
    rw [List.getElem?_eq_none (by omega)] at hval
    simp at hval
  · rw [hgoal]; exact hnum.goal

/-- C06, cycles.  Sorting returns a result only if no cycle can be reached from the goal; for a graph with
a reachable cycle no number of steps gives a result (the code reports the cycle and aborts). -/
theorem C06_cycles_are_rejected (g : Hypergraph α) (prune : Nat → Bool) (goal : Nat) :
    (∃ fuel h, topoSort g goal prune fuel = some h) ↔ AcyclicFrom g prune goal := by
  constructor
  · rintro ⟨fuel, h, hrun⟩
    unfold topoSort at hrun
    cases hd : dfsRun g prune fuel (dfsInit goal) with
    | none => rw [hd] at hrun; simp at hrun
    | some r => exact (dfs_sound (rn := r.1) (count := r.2) hd).acyclic
  · rintro ⟨rank, hr⟩
    obtain ⟨k, rn, count, hrun, _⟩ := dfs_correct (g := g) (prune := prune) goal hr
    exact ⟨k, _, by simp [topoSort, hrun k (Nat.le_refl _)]; rfl⟩

/-- C06, index tables: if heads, tails and edge lists of the input agree (`Consistent`, which is what
construction guarantees, C01) they agree in the result. -/
theorem C06_tables_stay_consistent (g : Hypergraph α) (hir : InRange g) (hc : Consistent g)
    (prune : Nat → Bool) (goal : Nat) (hg : goal < g.nodes.length) (fuel : Nat) (h : Hypergraph α)
    (hrun : topoSort g goal prune fuel = some h) : Consistent h := by
  unfold topoSort at hrun
  cases hd : dfsRun g prune fuel (dfsInit goal) with
  | none => rw [hd] at hrun; simp at hrun
  | some r =>
    rw [hd] at hrun
    simp only [Option.some.injEq] at hrun
    subst hrun
    exact reloc_consistent (dfs_sound (rn := r.1) (count := r.2) hd) hir hg hc

/-- An unsorted hypergraph: goal 0 uses nodes 2 and 1, node 1 uses node 2, node 3 is unreachable. -/
def exUnsorted : Hypergraph Nat :=
  { nodes := [⟨0, -1, [0], []⟩, ⟨1, -1, [1], [0]⟩, ⟨2, -1, [2], [0, 1]⟩, ⟨3, -1, [3], []⟩]
    edges := [⟨0, some 0, [2, 1], 10⟩, ⟨1, some 1, [2], 11⟩, ⟨2, some 2, [], 12⟩, ⟨3, some 3, [0], 13⟩] }

/-- Non-vacuity: the hypotheses hold for `exUnsorted`, and the result is as expected. -/
example : InRange exUnsorted ∧ Acyclic exUnsorted (fun _ => false) ∧
    (topoSort exUnsorted 0 (fun _ => false) 50).map (fun h => (h.nodes.map Node.inEdges, h.edges.map Edge.tails)) =
      some ([[2], [1], [0]], [[0, 1], [0], []]) := by
  refine ⟨by constructor <;> decide, ⟨fun v => [2, 1, 0, 3].getD v 0, ?_⟩, by decide +kernel⟩
  intro v e he _ t ht
  have hv : v < 4 ∨ 4 ≤ v := Nat.lt_or_ge v 4
  rcases hv with hv | hv
  · revert t ht
    match v, hv with
    | 0, _ | 1, _ | 2, _ | 3, _ =>
      simp [exUnsorted, Hypergraph.inE, Hypergraph.node] at he
      subst he
      decide
  · simp [exUnsorted, Hypergraph.inE, Hypergraph.node, List.getD_eq_getElem?_getD,
      List.getElem?_eq_none (l := [(⟨0, -1, [0], []⟩ : Node), ⟨1, -1, [1], [0]⟩, ⟨2, -1, [2], [0, 1]⟩,
        ⟨3, -1, [3], []⟩]) (i := v) (by simpa using hv)] at he
    exact absurd he (by simp [default, instInhabitedNode])

/-- `exUnsorted` with node 2 using the goal: a cycle. -/
def exCyclic : Hypergraph Nat :=
  { nodes := [⟨0, -1, [0], [2, 3]⟩, ⟨1, -1, [1], [0]⟩, ⟨2, -1, [2], [0, 1]⟩, ⟨3, -1, [3], []⟩]
    edges := [⟨0, some 0, [2, 1], 10⟩, ⟨1, some 1, [2], 11⟩, ⟨2, some 2, [0], 12⟩, ⟨3, some 3, [0], 13⟩] }

/-- Non-vacuity: a graph with a reachable cycle, and the same graph without the edge that closes it. -/
example : ¬ AcyclicFrom exCyclic (fun _ => false) 0 ∧ AcyclicFrom exCyclic (fun e => e == 2) 0 := by
  constructor
  · rintro ⟨rank, h⟩
    have h1 := h 0 .goal 0 (by decide) rfl 2 (by decide)
    have h2 := h 2 (.tail .goal (e := 0) (by decide) rfl (by decide)) 2 (by decide) rfl 0 (by decide)
    omega
  · have h : (topoSort exCyclic 0 (fun e => e == 2) 50).isSome := by decide +kernel
    obtain ⟨x, hx⟩ := Option.isSome_iff_exists.1 h
    exact (C06_cycles_are_rejected _ _ _).1 ⟨50, x, hx⟩

end Cdec.HG
