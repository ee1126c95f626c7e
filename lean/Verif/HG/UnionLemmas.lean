import Verif.HG.PruneLemmas
import Verif.HG.SimLemmas
import Verif.HG.BuildLemmas
/-! Lemmas about `unionTables`. -/
namespace Cdec.HG
variable {α : Type}

/-- In-edge lists agree with the heads stored in the edges (established by construction, C01). -/
def HeadsAgree (g : Hypergraph α) : Prop :=
  ∀ v < g.nodes.length, ∀ e, e ∈ g.inE v ↔ g.head e = some v

variable (strip : α → α) (g o : Hypergraph α)

theorem union_nodes_length (hg : 0 < g.nodes.length) (ho : 0 < o.nodes.length) :
    (unionTables strip g o).nodes.length = g.nodes.length + (o.nodes.length - 1) := by
  simp [unionTables]

theorem union_edges_length :
    (unionTables strip g o).edges.length = g.edges.length + o.edges.length := by
  simp [unionTables]

theorem union_tails_left (e : Nat) (he : e < g.edges.length) :
    (unionTables strip g o).tails e = g.tails e := by
  simp only [Hypergraph.tails, unionTables]
  rw [List.getElem?_append_left he]

theorem union_tails_right (e : Nat) :
    (unionTables strip g o).tails (e + g.edges.length) = (o.tails e).map (· + g.nodes.length) := by
  simp only [Hypergraph.tails, unionTables]
  rw [List.getElem?_append_right (by omega), Nat.add_sub_cancel, List.getElem?_mapIdx]
  cases o.edges[e]? <;> simp

theorem union_val_left (e : Nat) (he : e < g.edges.length) :
    (unionTables strip g o).edges[e]? = g.edges[e]? := by
  simp only [unionTables]
  rw [List.getElem?_append_left he]

theorem union_val_right (e : Nat) :
    ((unionTables strip g o).edges[e + g.edges.length]?).map Edge.val =
      (o.edges[e]?).map fun x => strip x.val := by
  simp only [unionTables]
  rw [List.getElem?_append_right (by omega), Nat.add_sub_cancel, List.getElem?_mapIdx]
  cases o.edges[e]? <;> simp

theorem union_inE_left (v : Nat) (hv : v < g.nodes.length - 1) :
    (unionTables strip g o).inE v = g.inE v := by
  simp only [Hypergraph.inE, Hypergraph.node, unionTables, List.getD_eq_getElem?_getD]
  rw [List.getElem?_append_left (by simp; omega), List.getElem?_modify]
  simp [show g.nodes.length - 1 ≠ v by omega]

theorem union_inE_goal (hg : 0 < g.nodes.length) :
    (unionTables strip g o).inE (g.nodes.length - 1) = g.inE (g.nodes.length - 1) ++
      ((List.range o.edges.length).filter fun i => decide (o.head i = some (o.nodes.length - 1))).map
        (· + g.edges.length) := by
  simp only [Hypergraph.inE, Hypergraph.node, unionTables, List.getD_eq_getElem?_getD]
  rw [List.getElem?_append_left (by simp; omega), List.getElem?_modify,
    List.getElem?_eq_getElem (by omega)]
  simp

theorem union_inE_right (v : Nat) (hv : v < o.nodes.length - 1) :
    (unionTables strip g o).inE (v + g.nodes.length) = (o.inE v).map (· + g.edges.length) := by
  simp only [Hypergraph.inE, Hypergraph.node, unionTables, List.getD_eq_getElem?_getD]
  rw [List.getElem?_append_right (by simp), List.length_modify, Nat.add_sub_cancel,
    List.getElem?_mapIdx, List.getElem?_take, if_pos hv, List.getElem?_eq_getElem (by omega)]
  simp

variable {strip g o}

/-- The in-edges of the merged goal that come from `o`. -/
theorem mem_newGoal (ho : 0 < o.nodes.length) (hh : HeadsAgree o) (i : Nat) :
    i ∈ ((List.range o.edges.length).filter fun i => decide (o.head i = some (o.nodes.length - 1))) ↔
      i ∈ o.inE (o.nodes.length - 1) := by
  rw [hh _ (by omega), List.mem_filter, List.mem_range]
  simp only [decide_eq_true_eq, and_iff_right_iff_imp]
  intro h
  by_contra hc
  rw [head_oob o i (by omega)] at h; cases h

theorem union_inRange (wg : WF g) (wo : WF o) (hg : 0 < g.nodes.length) (ho : 0 < o.nodes.length)
    (hh : HeadsAgree o) : InRange (unionTables strip g o) ∧
      Acyclic (unionTables strip g o) (fun _ => false) := by
  have cases_v : ∀ v, v < (unionTables strip g o).nodes.length → v < g.nodes.length - 1 ∨
      v = g.nodes.length - 1 ∨ ∃ u, u < o.nodes.length - 1 ∧ v = u + g.nodes.length := by
    intro v hv
    rw [union_nodes_length strip g o hg ho] at hv
    by_cases h1 : v < g.nodes.length - 1
    · exact .inl h1
    · by_cases h2 : v = g.nodes.length - 1
      · exact .inr (.inl h2)
      · exact .inr (.inr ⟨v - g.nodes.length, by omega, by omega⟩)
  have key : ∀ v, v < (unionTables strip g o).nodes.length → ∀ e ∈ (unionTables strip g o).inE v,
      e < (unionTables strip g o).edges.length ∧ ∀ t ∈ (unionTables strip g o).tails e,
        t < (unionTables strip g o).nodes.length ∧
        (if t = g.nodes.length - 1 then g.nodes.length + o.nodes.length else t) <
        (if v = g.nodes.length - 1 then g.nodes.length + o.nodes.length else v) := by
    intro v hv e he
    rw [union_edges_length, union_nodes_length strip g o hg ho]
    rcases cases_v v hv with h | h | ⟨u, hu, rfl⟩
    · rw [union_inE_left strip g o v h] at he
      have hlt := wg.edge_lt v (by omega) e he
      refine ⟨by omega, fun t ht => ?_⟩
      rw [union_tails_left strip g o e hlt] at ht
      have := wg.topo v (by omega) e he t ht
      refine ⟨by omega, ?_⟩
      rw [if_neg (by omega), if_neg (by omega)]; exact this
    · subst h
      rw [union_inE_goal strip g o hg, List.mem_append] at he
      rcases he with he | he
      · have hlt := wg.edge_lt _ (by omega) e he
        refine ⟨by omega, fun t ht => ?_⟩
        rw [union_tails_left strip g o e hlt] at ht
        have := wg.topo _ (by omega) e he t ht
        refine ⟨by omega, ?_⟩
        rw [if_neg (by omega), if_pos rfl]; omega
      · obtain ⟨i, hi, rfl⟩ := List.mem_map.1 he
        rw [mem_newGoal ho hh] at hi
        have hlt := wo.edge_lt _ (by omega) i hi
        refine ⟨by omega, fun t ht => ?_⟩
        rw [union_tails_right] at ht
        obtain ⟨t, ht', rfl⟩ := List.mem_map.1 ht
        have := wo.topo _ (by omega) i hi t ht'
        refine ⟨by omega, ?_⟩
        rw [if_neg (by omega), if_pos rfl]; omega
    · rw [union_inE_right strip g o u hu] at he
      obtain ⟨i, hi, rfl⟩ := List.mem_map.1 he
      have hlt := wo.edge_lt _ (by omega) i hi
      refine ⟨by omega, fun t ht => ?_⟩
      rw [union_tails_right] at ht
      obtain ⟨t, ht', rfl⟩ := List.mem_map.1 ht
      have := wo.topo _ (by omega) i hi t ht'
      refine ⟨by omega, ?_⟩
      rw [if_neg (by omega), if_neg (by omega)]; omega
  refine ⟨⟨fun v hv e he => (key v hv e he).1, fun v hv => ?_, fun v hv e he t ht => ((key v hv e he).2 t ht).1⟩,
    fun v => if v = g.nodes.length - 1 then g.nodes.length + o.nodes.length else v, fun v e he _ t ht => ?_⟩
  · have hadd : Function.Injective (· + g.edges.length) := fun a b h => by simpa using h
    rcases cases_v v hv with h | h | ⟨u, hu, rfl⟩
    · rw [union_inE_left strip g o v h]; exact wg.nodup v (by omega)
    · subst h
      rw [union_inE_goal strip g o hg]
      refine List.nodup_append.2 ⟨wg.nodup _ (by omega), ?_, ?_⟩
      · exact (List.nodup_range.filter _).map hadd
      · intro a ha b hb
        have := wg.edge_lt _ (by omega) a ha
        obtain ⟨i, _, rfl⟩ := List.mem_map.1 hb
        omega
    · rw [union_inE_right strip g o u hu]
      exact (wo.nodup u (by omega)).map hadd
  · by_cases hv : v < (unionTables strip g o).nodes.length
    · exact ((key v hv e he).2 t ht).2
    · rw [inE_of_ge (by omega)] at he; simp at he

/-- Derivations of the merged goal. -/
theorem union_deriv_iff (wg : WF g) (wo : WF o) (hg : 0 < g.nodes.length) (ho : 0 < o.nodes.length)
    (hh : HeadsAgree o) (t : Tree) :
    IsDeriv (unionTables strip g o) (g.nodes.length - 1) t ↔
      IsDeriv g g.goal t ∨ ∃ u, IsDeriv o o.goal u ∧ u.map (· + g.edges.length) = t := by
  -- below the goals
  have below_g : ∀ t v, v < g.nodes.length - 1 → (IsDeriv (unionTables strip g o) v t ↔ IsDeriv g v t) := by
    intro t v hv
    constructor
    · intro hd
      obtain ⟨u, hu, rfl⟩ := deriv_unmap (g := g) (h := unionTables strip g o) (· < g.nodes.length - 1) id id
        (fun v hv e he => by
          rw [id, union_inE_left strip g o v hv] at he
          have hlt := wg.edge_lt v (by omega) e he
          refine ⟨e, he, rfl, by rw [union_tails_left strip g o e hlt]; simp, fun t ht => ?_⟩
          have := wg.topo v (by omega) e he t ht; omega) t v hv hd
      rw [tree_map_id]; exact hu
    · intro hd
      have := deriv_map (g := g) (h := unionTables strip g o) (· < g.nodes.length - 1) id id
        (fun v hv e he => by
          have hlt := wg.edge_lt v (by omega) e he
          refine ⟨by rw [id, id, union_inE_left strip g o v hv]; exact he,
            by rw [id, union_tails_left strip g o e hlt]; simp, fun t ht => ?_⟩
          have := wg.topo v (by omega) e he t ht; omega) t v hv hd
      rw [tree_map_id] at this; exact this
  have below_o1 : ∀ t v, v < o.nodes.length - 1 → IsDeriv o v t →
      IsDeriv (unionTables strip g o) (v + g.nodes.length) (t.map (· + g.edges.length)) := by
    intro t v hv hd
    refine deriv_map (g := o) (h := unionTables strip g o) (· < o.nodes.length - 1) (· + g.nodes.length)
      (· + g.edges.length) (fun v hv e he => ?_) t v hv hd
    refine ⟨by rw [union_inE_right strip g o v hv]; exact List.mem_map.2 ⟨e, he, rfl⟩,
      union_tails_right strip g o e, fun t ht => ?_⟩
    have := wo.topo v (by omega) e he t ht; omega
  have below_o2 : ∀ t v, v < o.nodes.length - 1 → IsDeriv (unionTables strip g o) (v + g.nodes.length) t →
      ∃ u, IsDeriv o v u ∧ u.map (· + g.edges.length) = t := by
    intro t v hv hd
    refine deriv_unmap (g := o) (h := unionTables strip g o) (· < o.nodes.length - 1) (· + g.nodes.length)
      (· + g.edges.length) (fun v hv e' he' => ?_) t v hv hd
    rw [union_inE_right strip g o v hv] at he'
    obtain ⟨e, he, rfl⟩ := List.mem_map.1 he'
    refine ⟨e, he, rfl, union_tails_right strip g o e, fun t ht => ?_⟩
    have := wo.topo v (by omega) e he t ht; omega
  obtain ⟨e, ch⟩ := t
  rw [isDeriv_iff, union_inE_goal strip g o hg, List.mem_append]
  constructor
  · rintro ⟨he | he, hch⟩
    · left
      have hlt := wg.edge_lt _ (by omega) e he
      rw [union_tails_left strip g o e hlt] at hch
      refine isDeriv_iff.2 ⟨he, ?_⟩
      have htl := fun t ht => wg.topo _ (by omega) e he t ht
      revert hch htl
      generalize g.tails e = ts
      intro hch htl
      induction hch with
      | nil => exact .nil
      | cons h1 _ ih =>
        exact .cons ((below_g _ _ (htl _ (by simp))).1 h1) (ih fun t ht => htl t (by simp [ht]))
    · right
      obtain ⟨i, hi, rfl⟩ := List.mem_map.1 he
      rw [mem_newGoal ho hh] at hi
      rw [union_tails_right] at hch
      have htl := fun t ht => wo.topo _ (by omega) i hi t ht
      have : ∃ us, List.Forall₂ (IsDeriv o) (o.tails i) us ∧ (us.map fun t => t.map (· + g.edges.length)) = ch := by
        revert hch htl
        generalize o.tails i = ts
        intro hch htl
        clear he
        induction ts generalizing ch with
        | nil => cases hch; exact ⟨[], .nil, rfl⟩
        | cons a ts ih =>
          cases hch with
          | cons h1 h2 =>
            obtain ⟨us, h3, h4⟩ := ih _ h2 fun t ht => htl t (by simp [ht])
            obtain ⟨u, h5, h6⟩ := below_o2 _ _ (htl a (by simp)) h1
            exact ⟨u :: us, .cons h5 h3, by rw [List.map_cons, h4, h6]⟩
      obtain ⟨us, h1, h2⟩ := this
      exact ⟨.node i us, isDeriv_iff.2 ⟨hi, h1⟩, by rw [tree_map_node, h2]⟩
  · rintro (hd | ⟨u, hd, hu⟩)
    · obtain ⟨he, hch⟩ := isDeriv_iff.1 hd
      have hlt := wg.edge_lt _ (by unfold Hypergraph.goal; omega) e he
      refine ⟨.inl he, ?_⟩
      rw [union_tails_left strip g o e hlt]
      have htl := fun t ht => wg.topo _ (by unfold Hypergraph.goal; omega) e he t ht
      revert hch htl
      generalize g.tails e = ts
      intro hch htl
      clear hd
      induction hch with
      | nil => exact .nil
      | cons h1 _ ih =>
        exact .cons ((below_g _ _ (htl _ (by simp))).2 h1) (ih fun t ht => htl t (by simp [ht]))
    · obtain ⟨i, us⟩ := u
      obtain ⟨he, hch⟩ := isDeriv_iff.1 hd
      rw [tree_map_node] at hu
      injection hu with h1 h2
      subst h1; subst h2
      refine ⟨.inr (List.mem_map.2 ⟨i, (mem_newGoal ho hh i).2 he, rfl⟩), ?_⟩
      rw [union_tails_right]
      have htl := fun t ht => wo.topo _ (by unfold Hypergraph.goal; omega) i he t ht
      revert hch htl
      generalize o.tails i = ts
      intro hch htl
      clear hd
      induction hch with
      | nil => exact .nil
      | cons h1 _ ih =>
        exact .cons (below_o1 _ _ (htl _ (by simp)) h1) (ih fun t ht => htl t (by simp [ht]))

end Cdec.HG
