import Verif.HG.UnionCons
import Verif.Props.C02
/-! # C09: union of forests -/
namespace Cdec.HG
variable {α : Type}

/-- C09.  For non-empty sorted hypergraphs, `g.Union(o)` terminates with a sorted hypergraph `h` whose
goal derivations are the disjoint union of those of `g` (renamed by `f₁`, payloads unchanged) and those
of `o` (renamed by `f₂`, keeping rule and features only: `strip`). -/
theorem C09_union (strip : α → α) (g o : Hypergraph α) (wg : WF g) (wo : WF o)
    (hg : 0 < g.nodes.length) (ho : 0 < o.nodes.length) (hh : HeadsAgree o) :
    ∃ (h : Hypergraph α) (f₁ f₂ : Nat → Nat),
      (∃ k, ∀ fuel, k ≤ fuel → union strip g o fuel = some h) ∧ WF h ∧
      (∀ t, IsDeriv g g.goal t → IsDeriv h h.goal (t.map f₁)) ∧
      (∀ u, IsDeriv o o.goal u → IsDeriv h h.goal (u.map f₂)) ∧
      (∀ t', IsDeriv h h.goal t' →
        (∃ t, IsDeriv g g.goal t ∧ t.map f₁ = t') ∨ (∃ u, IsDeriv o o.goal u ∧ u.map f₂ = t')) ∧
      (∀ t u, IsDeriv g g.goal t → IsDeriv o o.goal u → t.map f₁ ≠ u.map f₂) ∧
      (∀ t t', IsDeriv g g.goal t → IsDeriv g g.goal t' → t.map f₁ = t'.map f₁ → t = t') ∧
      (∀ u u', IsDeriv o o.goal u → IsDeriv o o.goal u' → u.map f₂ = u'.map f₂ → u = u') ∧
      (∀ t, IsDeriv g g.goal t → ∀ e ∈ t.edges,
        (h.edges[f₁ e]?).map Edge.val = (g.edges[e]?).map Edge.val) ∧
      (∀ u, IsDeriv o o.goal u → ∀ e ∈ u.edges,
        (h.edges[f₂ e]?).map Edge.val = (o.edges[e]?).map fun x => strip x.val) := by
  obtain ⟨hir, hac⟩ := union_inRange (strip := strip) wg wo hg ho hh
  obtain ⟨h, f, pos, ⟨k, hrun⟩, hwf, _, _, _, _, _, hb, hgl⟩ :=
    C06_topological_sort (unionTables strip g o) hir (fun _ => false) (g.nodes.length - 1)
      (by rw [union_nodes_length strip g o hg ho]; omega) (hac.from _)
  have hbij := hb _ _ hgl
  have hP : ∀ t, Avoids (fun _ => false) t := fun t e _ => rfl
  have toU : ∀ t, IsDeriv g g.goal t → IsDeriv (unionTables strip g o) (g.nodes.length - 1) t :=
    fun t ht => (union_deriv_iff wg wo hg ho hh t).2 (.inl ht)
  have toU' : ∀ u, IsDeriv o o.goal u →
      IsDeriv (unionTables strip g o) (g.nodes.length - 1) (u.map (· + g.edges.length)) :=
    fun u hu => (union_deriv_iff wg wo hg ho hh _).2 (.inr ⟨u, hu, rfl⟩)
  have hlt : ∀ t, IsDeriv g g.goal t → ∀ e ∈ t.edges, e < g.edges.length := by
    intro t ht e he
    have hgg : g.goal < g.nodes.length := by unfold Hypergraph.goal; omega
    obtain ⟨v, hv, hve⟩ := deriv_edges_reach (prune := fun _ => false) (goal := g.goal) t g.goal .goal ht
      (fun _ _ => rfl) e he
    exact wg.edge_lt v (hv.lt wg.inRange hgg) e hve
  refine ⟨h, f, fun e => f (e + g.edges.length), ⟨k, fun fuel hf => ?_⟩, hwf, ?_, ?_, ?_, ?_, ?_, ?_, ?_, ?_⟩
  · have : g.nodes.isEmpty = false := by cases hgn : g.nodes <;> simp_all
    rw [union, this]; exact hrun fuel hf
  · exact fun t ht => hbij.fwd t (toU t ht) (hP t)
  · intro u hu
    have := hbij.fwd _ (toU' u hu) (hP _)
    rw [tree_map_comp] at this; exact this
  · intro t' ht'
    obtain ⟨t, h1, _, h2⟩ := hbij.bwd t' ht'
    rcases (union_deriv_iff wg wo hg ho hh t).1 h1 with h3 | ⟨u, h3, h4⟩
    · exact .inl ⟨t, h3, h2⟩
    · refine .inr ⟨u, h3, ?_⟩
      rw [← h2, ← h4, tree_map_comp]; rfl
  · intro t u ht hu heq
    have h1 : (u.map (· + g.edges.length)).map f = u.map fun e => f (e + g.edges.length) := tree_map_comp _ _ _
    rw [← h1] at heq
    have := hbij.inj _ _ (toU t ht) (hP _) (toU' u hu) (hP _) heq
    subst this
    obtain ⟨e, ch⟩ := u
    have := hlt _ ht (e + g.edges.length) (by rw [tree_map_node, Tree.edges]; simp)
    omega
  · exact fun t t' ht ht' heq => hbij.inj _ _ (toU t ht) (hP _) (toU t' ht') (hP _) heq
  · intro u u' hu hu' heq
    have h1 : ∀ u : Tree, (u.map (· + g.edges.length)).map f = u.map fun e => f (e + g.edges.length) :=
      fun u => tree_map_comp _ _ _
    rw [← h1, ← h1] at heq
    have := hbij.inj _ _ (toU' u hu) (hP _) (toU' u' hu') (hP _) heq
    exact tree_map_inj (fun _ => True) _ (fun a b _ _ h => by simpa using h) u u' (fun _ _ => trivial)
      (fun _ _ => trivial) this
  · intro t ht e he
    have := (hbij.payload t (toU t ht) (hP _) e he).2.2
    rw [this, union_val_left strip g o e (hlt t ht e he)]
    simp [id]
  · intro u hu e he
    have := (hbij.payload _ (toU' u hu) (hP _) (e + g.edges.length) (by
      rw [tree_map_edges]; exact List.mem_map.2 ⟨e, he, rfl⟩)).2.2
    rw [this]
    have h2 := union_val_right strip g o e
    simpa [id] using h2

/-- C09, index tables: if heads, tails and edge lists agree in both arguments, and every edge of `o` has
been connected to a head, they agree in the union. -/
theorem C09_tables_stay_consistent (strip : α → α) (g o : Hypergraph α) (wg : WF g) (wo : WF o)
    (hg : 0 < g.nodes.length) (ho : 0 < o.nodes.length) (cg : Consistent g) (co : Consistent o)
    (hconn : ∀ e < o.edges.length, (o.head e).isSome) (fuel : Nat) (h : Hypergraph α)
    (hrun : union strip g o fuel = some h) : Consistent h := by
  have hgoal : ∀ e, o.nodes.length - 1 ∉ o.tails e := by
    intro e ht
    by_cases he : e < o.edges.length
    · obtain ⟨v, hv⟩ := Option.isSome_iff_exists.1 (hconn e he)
      have hvl : v < o.nodes.length := co.head_lt e he v (by simpa [Hypergraph.head, he] using hv)
      have := wo.topo v hvl e ((co.headsAgree v hvl e).2 hv) _ ht
      omega
    · rw [tails_oob o e (by omega)] at ht; simp at ht
  obtain ⟨hir, _⟩ := union_inRange (strip := strip) wg wo hg ho co.headsAgree
  have : g.nodes.isEmpty = false := by cases hgn : g.nodes <;> simp_all
  rw [union, this] at hrun
  exact C06_tables_stay_consistent _ hir (union_consistent cg co hg ho hgoal) _ _
    (by rw [union_nodes_length strip g o hg ho]; omega) fuel h hrun

/-- C09, the empty receiver: the result is the argument. -/
theorem C09_union_with_empty_receiver (strip : α → α) (g o : Hypergraph α) (h : g.nodes = []) (fuel : Nat) :
    union strip g o fuel = some o := by simp [union, h]

/-- Non-vacuity of the consistency theorems: `exG` is consistent and every edge has a head. -/
theorem exG_consistent : Consistent exG ∧ ∀ e < exG.edges.length, (exG.head e).isSome := by
  have hd : ∀ v, ∀ h : v < exG.nodes.length, ∀ e < 5,
      exG.nodes[v].outEdges.count e = (exG.tails e).count v ∧
      exG.nodes[v].inEdges.count e = if exG.head e = some v then 1 else 0 := by decide
  have hl : ∀ v, ∀ h : v < exG.nodes.length, ∀ e ∈ exG.nodes[v].outEdges ++ exG.nodes[v].inEdges, e < 5 := by
    decide
  refine ⟨⟨by decide, by decide, by decide, by decide, fun v h e => ?_, fun v h e => ?_⟩, by decide⟩
  · by_cases he : e < 5
    · exact (hd v h e he).1
    · rw [tails_oob exG e (by simp [exG]; omega), List.count_nil, List.count_eq_zero]
      exact fun hc => he (hl v h e (List.mem_append_left _ hc))
  · by_cases he : e < 5
    · exact (hd v h e he).2
    · rw [head_oob exG e (by simp [exG]; omega), if_neg (by simp), List.count_eq_zero]
      exact fun hc => he (hl v h e (List.mem_append_right _ hc))

/-- Non-vacuity: `exG` united with itself. -/
example : WF exG ∧ 0 < exG.nodes.length ∧ HeadsAgree exG ∧
    (union id exG exG 100).map (fun h => (h.nodes.length, h.edges.length)) = some (5, 10) := by
  refine ⟨exG_wf, by decide, ?_, by decide +kernel⟩
  intro v hv e
  by_cases he : e < 5
  · have : ∀ v < exG.nodes.length, ∀ e < 5, (e ∈ exG.inE v ↔ exG.head e = some v) := by decide
    exact this v hv e he
  · rw [head_oob exG e (by simp [exG]; omega)]
    simp only [reduceCtorEq, iff_false]
    intro hc
    exact he (exG_wf.edge_lt v hv e hc)

end Cdec.HG
