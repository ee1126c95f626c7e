import Verif.HG.UnionLemmas
import Verif.HG.SoundLemmas
/-! Lemmas for C09: the tables built by `Union` are consistent. -/
namespace Cdec.HG
variable {α : Type}

theorem Consistent.headsAgree {g : Hypergraph α} (h : Consistent g) : HeadsAgree g := by
  intro v hv e
  have := h.inc v hv e
  have hn : g.inE v = g.nodes[v].inEdges := by
    simp [Hypergraph.inE, Hypergraph.node, List.getD_eq_getElem?_getD, hv]
  rw [hn]
  by_cases hh : g.head e = some v
  · rw [if_pos hh] at this
    simp only [hh, iff_true]
    exact List.count_pos_iff.1 (by omega)
  · rw [if_neg hh] at this
    simp only [hh, iff_false]
    exact List.count_eq_zero.1 this

theorem count_map_add (l : List Nat) (k e : Nat) : (l.map (· + k)).count (e + k) = l.count e := by
  induction l with
  | nil => simp
  | cons a l ih => rw [List.map_cons, List.count_cons, List.count_cons, ih]; simp

theorem count_map_add_lt (l : List Nat) (k e : Nat) (h : e < k) : (l.map (· + k)).count e = 0 := by
  rw [List.count_eq_zero]
  intro hm
  obtain ⟨a, _, ha⟩ := List.mem_map.1 hm
  omega

theorem union_consistent {strip : α → α} {g o : Hypergraph α} (cg : Consistent g) (co : Consistent o)
    (hg : 0 < g.nodes.length) (ho : 0 < o.nodes.length)
    (hgoal : ∀ e, o.nodes.length - 1 ∉ o.tails e) : Consistent (unionTables strip g o) := by
  have hU : ∀ e, e < g.edges.length → (unionTables strip g o).head e = g.head e := by
    intro e he
    simp only [Hypergraph.head, unionTables]
    rw [List.getElem?_append_left he]
  have hUr : ∀ e, (unionTables strip g o).head (e + g.edges.length) =
      (o.head e).map fun h => if h = o.nodes.length - 1 then g.nodes.length - 1 else h + g.nodes.length := by
    intro e
    simp only [Hypergraph.head, unionTables]
    rw [List.getElem?_append_right (by omega), Nat.add_sub_cancel, List.getElem?_mapIdx]
    cases o.edges[e]? <;> simp
  have htl : ∀ e, ∀ t ∈ o.tails e, t < o.nodes.length := by
    intro e t ht
    by_cases he : e < o.edges.length
    · exact co.tails_lt e he t (by simpa [Hypergraph.tails, he] using ht)
    · rw [tails_oob o e (by omega)] at ht; simp at ht
  have htlg : ∀ e, ∀ t ∈ g.tails e, t < g.nodes.length := by
    intro e t ht
    by_cases he : e < g.edges.length
    · exact cg.tails_lt e he t (by simpa [Hypergraph.tails, he] using ht)
    · rw [tails_oob g e (by omega)] at ht; simp at ht
  have hhl : ∀ e v, o.head e = some v → v < o.nodes.length := by
    intro e v hv
    by_cases he : e < o.edges.length
    · exact co.head_lt e he v (by simpa [Hypergraph.head, he] using hv)
    · rw [head_oob o e (by omega)] at hv; simp at hv
  have hhlg : ∀ e v, g.head e = some v → v < g.nodes.length := by
    intro e v hv
    by_cases he : e < g.edges.length
    · exact cg.head_lt e he v (by simpa [Hypergraph.head, he] using hv)
    · rw [head_oob g e (by omega)] at hv; simp at hv
  have toT : ∀ e (he : e < (unionTables strip g o).edges.length),
      (unionTables strip g o).edges[e].tails = (unionTables strip g o).tails e := by
    intro e he; simp [Hypergraph.tails, he]
  have toH : ∀ e (he : e < (unionTables strip g o).edges.length),
      (unionTables strip g o).edges[e].head = (unionTables strip g o).head e := by
    intro e he; simp [Hypergraph.head, he]
  have hlen := union_nodes_length strip g o hg ho
  have hlenE := union_edges_length strip g o
  have esplit : ∀ e, e < g.edges.length ∨ ∃ i, e = i + g.edges.length := fun e => by
    by_cases he : e < g.edges.length
    · exact .inl he
    · exact .inr ⟨e - g.edges.length, by omega⟩
  -- nodes
  have nleft : ∀ v (hv : v < (unionTables strip g o).nodes.length) (h : v < g.nodes.length),
      (unionTables strip g o).nodes[v] = if v = g.nodes.length - 1 then
        { g.nodes[v] with inEdges := g.nodes[v].inEdges ++ ((List.range o.edges.length).filter fun i =>
            decide (o.head i = some (o.nodes.length - 1))).map (· + g.edges.length) } else g.nodes[v] := by
    intro v hv h
    simp only [unionTables]
    rw [List.getElem_append_left (by simpa using h), List.getElem_modify]
    by_cases hx : g.nodes.length - 1 = v
    · rw [if_pos hx, if_pos hx.symm]
    · rw [if_neg hx, if_neg (Ne.symm hx)]
  have nright : ∀ v (hv : v + g.nodes.length < (unionTables strip g o).nodes.length) (h : v < o.nodes.length),
      (unionTables strip g o).nodes[v + g.nodes.length] =
        { id := v + g.nodes.length, cat := 0, inEdges := o.nodes[v].inEdges.map (· + g.edges.length),
          outEdges := o.nodes[v].outEdges.map (· + g.edges.length) } := by
    intro v hv h
    simp only [unionTables]
    rw [List.getElem_append_right (by simp)]
    simp
  have vsplit : ∀ v, v < (unionTables strip g o).nodes.length → v < g.nodes.length ∨
      ∃ u, u < o.nodes.length - 1 ∧ v = u + g.nodes.length := by
    intro v hv
    rw [hlen] at hv
    by_cases h : v < g.nodes.length
    · exact .inl h
    · exact .inr ⟨v - g.nodes.length, by omega, by omega⟩
  constructor
  · intro v hv
    rcases vsplit v hv with h | ⟨u, hu, rfl⟩
    · rw [nleft v hv h]
      split
      · simp only; exact cg.nid v h
      · exact cg.nid v h
    · rw [nright u hv (by omega)]
  · intro e he
    rcases esplit e with h | ⟨i, rfl⟩
    · simp only [unionTables]
      rw [List.getElem_append_left h]; exact cg.eid e h
    · simp only [unionTables]
      rw [List.getElem_append_right (by omega)]; simp
  · intro e he t ht
    rw [toT e he] at ht
    rw [hlen]
    rcases esplit e with h | ⟨i, rfl⟩
    · rw [union_tails_left strip g o e h] at ht
      have := htlg e t ht; omega
    · rw [union_tails_right] at ht
      obtain ⟨t', ht', rfl⟩ := List.mem_map.1 ht
      have h1 := htl i t' ht'
      have h2 : t' ≠ o.nodes.length - 1 := fun hh => hgoal i (hh ▸ ht')
      omega
  · intro e he v hv
    rw [toH e he] at hv
    rw [hlen]
    rcases esplit e with h | ⟨i, rfl⟩
    · rw [hU e h] at hv
      have := hhlg e v hv; omega
    · rw [hUr] at hv
      obtain ⟨w, hw, hw2⟩ := Option.map_eq_some_iff.1 hv
      have := hhl i w hw
      split at hw2 <;> omega
  · intro v hv e
    rcases vsplit v hv with h | ⟨u, hu, rfl⟩
    · have : (unionTables strip g o).nodes[v].outEdges = g.nodes[v].outEdges := by
        rw [nleft v hv h]; split <;> rfl
      rw [this, cg.outc v h e]
      rcases esplit e with h' | ⟨i, rfl⟩
      · rw [union_tails_left strip g o e h']
      · rw [union_tails_right, count_map_add_lt _ _ _ h, tails_oob g _ (by omega), List.count_nil]
    · rw [nright u hv (by omega)]
      simp only
      rcases esplit e with h' | ⟨i, rfl⟩
      · rw [count_map_add_lt _ _ _ h', union_tails_left strip g o e h', eq_comm, List.count_eq_zero]
        intro hm; have := htlg e _ hm; omega
      · rw [count_map_add, union_tails_right, count_map_add, co.outc u (by omega) i]
  · intro v hv e
    rcases vsplit v hv with h | ⟨u, hu, rfl⟩
    · rw [nleft v hv h]
      rcases esplit e with h' | ⟨i, rfl⟩
      · rw [hU e h', ← cg.inc v h e]
        split
        · rw [List.count_append, count_map_add_lt _ _ _ h']; rfl
        · rfl
      · have h0 : g.nodes[v].inEdges.count (i + g.edges.length) = 0 := by
          rw [cg.inc v h, head_oob g _ (by omega)]; simp
        rw [hUr]
        by_cases hx : v = g.nodes.length - 1
        · rw [if_pos hx, List.count_append, h0, count_map_add]
          by_cases hh : o.head i = some (o.nodes.length - 1)
          · have hlt : i < o.edges.length := by
              by_contra hc; rw [head_oob o i (by omega)] at hh; simp at hh
            rw [hh]
            simp only [Option.map_some, if_true]
            rw [if_pos (by rw [hx]), Nat.zero_add]
            rw [List.count_filter (by simp [hh])]
            rw [List.count_eq_one_of_mem List.nodup_range (by simpa using hlt)]
          · rw [if_neg, Nat.zero_add, List.count_eq_zero]
            · intro hm
              have := (List.mem_filter.1 hm).2
              simp [hh] at this
            · intro hm
              obtain ⟨w, hw, hw2⟩ := Option.map_eq_some_iff.1 hm
              split at hw2
              · rename_i hw3; rw [hw3] at hw; exact hh hw
              · omega
        · rw [if_neg hx, h0, if_neg]
          intro hm
          obtain ⟨w, hw, hw2⟩ := Option.map_eq_some_iff.1 hm
          split at hw2 <;> omega
    · rw [nright u hv (by omega)]
      simp only
      rcases esplit e with h' | ⟨i, rfl⟩
      · rw [count_map_add_lt _ _ _ h', hU e h', if_neg]
        intro hm; have := hhlg e _ hm; omega
      · rw [count_map_add, co.inc u (by omega) i, hUr]
        congr 1
        simp only [Option.map_eq_some_iff, eq_iff_iff]
        constructor
        · intro hh
          exact ⟨u, hh, by rw [if_neg (by omega)]⟩
        · rintro ⟨w, hw, hw2⟩
          split at hw2
          · omega
          · have : w = u := by omega
            rw [← this]; exact hw

end Cdec.HG
