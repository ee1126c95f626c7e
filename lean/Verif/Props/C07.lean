import Verif.HG.PruneLemmas
import Verif.Props.C02
/-! # C07: edge pruning removes exactly the derivations that use a pruned edge -/
namespace Cdec.HG
variable {α : Type}

/-- C07.  For every non-empty, topologically sorted hypergraph, every mask, and both settings of
`run_inside_algorithm`, `PruneEdges` terminates without aborting with a sorted hypergraph `h` whose goal
derivations are, up to a payload preserving renaming of edges, exactly the goal derivations of `g` that
use no pruned edge. -/
theorem C07_prune_edges (g : Hypergraph α) (wf : WF g) (hn : 0 < g.nodes.length) (prune : Nat → Bool)
    (runInside : Bool) :
    ∃ (h : Hypergraph α) (f : Nat → Nat),
      (∃ k, ∀ fuel, k ≤ fuel → pruneEdges g prune runInside fuel = some h) ∧
      WF h ∧ 0 < h.nodes.length ∧ DerivBij g g.goal (Avoids prune) h h.goal f id := by
  have hg : g.nodes.length - 1 < g.nodes.length := by omega
  cases runInside with
  | false =>
    obtain ⟨h, f, pos, hrun, hwf, h0, _, _, _, _, hb, hgl⟩ :=
      C06_topological_sort g wf.inRange prune _ hg ((wf.acyclic prune).from _)
    exact ⟨h, f, by simpa [pruneEdges] using hrun, hwf, h0, hb _ _ hgl⟩
  | true =>
    by_cases hr : ((reachable g prune).getLastD 0).x = true
    · obtain ⟨h, f, pos, hrun, hwf, h0, _, _, _, _, hb, hgl⟩ :=
        C06_topological_sort g wf.inRange (filtered g prune) _ hg ((wf.acyclic _).from _)
      refine ⟨h, f, by simpa only [pruneEdges, hr, if_true] using hrun, hwf, h0, (hb _ _ hgl).congr fun t ht => ?_⟩
      exact ⟨avoids_of_filtered, avoids_filtered wf prune t _ ht⟩
    · refine ⟨⟨[default], []⟩, id, ⟨0, fun fuel _ => by simp only [pruneEdges, hr, if_true]; rfl⟩, ?_, by simp, ?_⟩
      · constructor <;> · intro v hv; simp at hv; subst hv; simp [Hypergraph.inE, Hypergraph.node, default]
      · have hno : ∀ t, IsDeriv g g.goal t → ¬ Avoids prune t := fun t ht hp =>
          hr ((reachable_last wf prune hn).2 ⟨t, ht, hp⟩)
        refine ⟨fun t ht hp => absurd hp (hno t ht), fun t' ht' => ?_,
          fun t u ht hp => absurd hp (hno t ht), fun t ht hp => absurd hp (hno t ht)⟩
        cases ht' with
        | mk he _ _ => simp [Hypergraph.inE, Hypergraph.node, Hypergraph.goal, default] at he

/-- C07, second part: with the inside check every node of the result is derivable, as long as the goal
still has a derivation (so no dangling edges or nodes remain).  Otherwise the result is one node without
edges. -/
theorem C07_inside_check_leaves_no_dead_nodes (g : Hypergraph α) (wf : WF g) (hn : 0 < g.nodes.length)
    (prune : Nat → Bool) (fuel : Nat) (h : Hypergraph α) (hrun : pruneEdges g prune true fuel = some h) :
    ((∃ t, IsDeriv g g.goal t ∧ Avoids prune t) →
        (∀ k < h.nodes.length, ∃ t, IsDeriv h k t) ∧
        (∀ k < h.nodes.length, ∀ e ∈ h.inE k, ∃ ch, IsDeriv h k (.node e ch))) ∧
    ((¬ ∃ t, IsDeriv g g.goal t ∧ Avoids prune t) → h.nodes.length = 1 ∧ h.edges = []) := by
  have hg : g.nodes.length - 1 < g.nodes.length := by omega
  have hlast := reachable_last wf prune hn
  constructor
  · intro hex
    have hr := hlast.2 hex
    obtain ⟨h', f, pos, ⟨k0, hrun'⟩, hwf, h0, _, _, hreach, hpos, hb, hgl⟩ :=
        C06_topological_sort g wf.inRange (filtered g prune) _ hg ((wf.acyclic _).from _)
    have : h = h' := by
      have h1 := hrun' (max k0 fuel) (Nat.le_max_left _ _)
      simp only [pruneEdges, hr, if_true] at hrun
      have h2 := topoSort_mono g (g.nodes.length - 1) (filtered g prune) hrun (Nat.le_max_right k0 fuel)
      rw [h1] at h2; exact (Option.some.inj h2).symm
    subst this
    have hall : ∀ k < h.nodes.length, ∃ t, IsDeriv h k t := by
      intro k hk
      obtain ⟨v, hv⟩ := (hpos k).1 hk
      have hre := (hreach v).1 (by simp [hv])
      have hder : ∃ t, IsDeriv g v t ∧ Avoids prune t := by
        cases hre with
        | goal => exact hex
        | tail h1 h2 h3 h4 =>
          simp only [filtered, Bool.or_eq_false_iff, List.any_eq_false, Bool.not_eq_true',
            Bool.not_eq_false] at h3
          have hlt := Reach.lt wf.inRange hg (.tail h1 h2 (by
            simp only [filtered, Bool.or_eq_false_iff, List.any_eq_false, Bool.not_eq_true',
            Bool.not_eq_false]; exact h3) h4)
          exact (reachable_iff wf prune v hlt).1 (h3.2 v h4)
      obtain ⟨t, ht, hp⟩ := hder
      exact ⟨_, (hb v k hv).fwd t ht (avoids_filtered wf prune t v ht hp)⟩
    refine ⟨hall, fun k hk e he => ?_⟩
    have : ∀ ts : List Nat, (∀ t ∈ ts, t < h.nodes.length) → ∃ ch, List.Forall₂ (IsDeriv h) ts ch := by
      intro ts
      induction ts with
      | nil => exact fun _ => ⟨[], .nil⟩
      | cons t ts ih =>
        intro hts
        obtain ⟨c, hc⟩ := hall t (hts t (by simp))
        obtain ⟨ch, hch⟩ := ih fun t ht => hts t (by simp [ht])
        exact ⟨c :: ch, .cons hc hch⟩
    obtain ⟨ch, hch⟩ := this (h.tails e) fun t ht => by have := hwf.topo k hk e he t ht; omega
    exact ⟨ch, isDeriv_iff.2 ⟨he, hch⟩⟩
  · intro hex
    have hr : ¬ ((reachable g prune).getLastD 0).x = true := fun hc => hex (hlast.1 hc)
    simp only [pruneEdges, hr, if_true] at hrun
    simp at hrun
    subst hrun
    simp

/-- C07, index tables: heads, tails and edge lists of the result agree if they agreed before. -/
theorem C07_tables_stay_consistent (g : Hypergraph α) (wf : WF g) (hn : 0 < g.nodes.length)
    (hc : Consistent g) (prune : Nat → Bool) (runInside : Bool) (fuel : Nat) (h : Hypergraph α)
    (hrun : pruneEdges g prune runInside fuel = some h)
    (hd : runInside = true → ∃ t, IsDeriv g g.goal t ∧ Avoids prune t) : Consistent h := by
  have hg : g.nodes.length - 1 < g.nodes.length := by omega
  cases runInside with
  | false => exact C06_tables_stay_consistent g wf.inRange hc prune _ hg fuel h (by simpa [pruneEdges] using hrun)
  | true =>
    have hr := (reachable_last wf prune hn).2 (hd rfl)
    exact C06_tables_stay_consistent g wf.inRange hc (filtered g prune) _ hg fuel h
      (by simpa only [pruneEdges, hr, if_true] using hrun)

/-- Non-vacuity: pruning edge 1 and edge 3 of `exG`, with and without the inside check. -/
example : WF exG ∧ 0 < exG.nodes.length ∧
    (pruneEdges exG (fun e => e == 1 || e == 3) true 50).map
      (fun h => (h.nodes.map Node.inEdges, h.edges.map Edge.tails)) =
    some ([[0], [1], [2]], [[], [0], [1]]) := by
  refine ⟨exG_wf, by decide, by decide +kernel⟩

/-- Non-vacuity of the second case: pruning edge 2 leaves no derivation. -/
example : (pruneEdges exG (fun e => e == 2) true 50).map
      (fun h => (h.nodes.length, h.edges.length)) = some (1, 0) := by
  decide +kernel

end Cdec.HG
