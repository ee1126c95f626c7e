import Verif.HG.ViterbiLemmas
import Verif.Props.C02
/-! # C04: Viterbi returns a best derivation -/
namespace Cdec.HG
variable {α : Type} {W T : Type} [Monoid W] [LinearOrder W] [MulLeftMono W] [MulRightMono W]

/-- C04.  `W` is any linearly ordered monoid with monotone multiplication (non-negative numbers under
`*`, log-probabilities under `+`).  In a topologically ordered hypergraph in which every node has an
incoming edge, the weight and traversal value `Viterbi` computes for a node are those of one and the
same derivation of that node, and no derivation of the node has a larger weight. -/
theorem C04_viterbi_best_derivation (g : Hypergraph α) (wf : WF g)
    (hne : ∀ v < g.nodes.length, g.inE v ≠ []) (w : Nat → W) (trav : Nat → List T → T) (d0 : W × T)
    (v : Nat) (hv : v < g.nodes.length) :
    ∃ t, IsDeriv g v t ∧
      (viterbi g w trav d0).getD v d0 = (t.weight w, t.traverse trav) ∧
      ∀ t', IsDeriv g v t' → t'.weight w ≤ t.weight w := by
  obtain ⟨⟨t, h1, h2⟩, h3⟩ := viterbi_correct wf hne w trav d0 v hv
  refine ⟨t, h1, h2, fun t' h' => ?_⟩
  have := h3 t' h'
  rwa [h2] at this

/-- Without the hypothesis on incoming edges the claim fails: a node that has no derivation is given
weight `1` (viterbi.h:41-44). -/
theorem C04_no_in_edges_fails :
    let g : Hypergraph Unit := ⟨[⟨0, 0, [], []⟩], []⟩
    WF g ∧ (∀ t, ¬ IsDeriv g 0 t) ∧
      (viterbi g (fun _ => (5 : Nat)) (fun e _ => e) (0, 0)).getD 0 (0, 0) = (1, 0) := by
  refine ⟨by constructor <;> decide, ?_, by decide⟩
  rintro ⟨e, ch⟩ h
  have := (isDeriv_iff.1 h).1
  simp [Hypergraph.inE, Hypergraph.node] at this

omit [Monoid W] [LinearOrder W] [MulLeftMono W] [MulRightMono W] in
/-- `PathLengthTraversal` (viterbi.h:98-106) counts the edges of the derivation. -/
theorem C04_path_length (t : Tree) :
    t.traverse (fun _ ants => ants.foldl (fun r a => r + a) 1) = t.edges.length := by
  induction t using Tree.rec (motive_2 := fun ch =>
    ∀ a, (ch.map fun t => t.traverse fun _ ants => ants.foldl (fun r a => r + a) 1).foldl (fun r a => r + a) a =
      a + (ch.flatMap fun t => t.edges).length) with
  | node e ch ih => rw [traverse_node, Tree.edges, ih]; simp [Nat.add_comm]
  | nil => simp
  | cons t ts ih1 ih2 =>
    simp only [List.map_cons, List.foldl_cons, List.flatMap_cons, List.length_append]
    rw [ih2, ih1]; omega

omit [Monoid W] [LinearOrder W] [MulLeftMono W] [MulRightMono W] in
/-- `ViterbiPathTraversal` (viterbi.h:177-186) lists exactly the edges of the derivation. -/
theorem C04_path_edges (t : Tree) :
    (t.traverse (fun e ants => ants.flatten ++ [e])).Perm t.edges := by
  induction t using Tree.rec (motive_2 := fun ch =>
    ((ch.map fun t => t.traverse fun e ants => ants.flatten ++ [e]).flatten).Perm
      (ch.flatMap fun t => t.edges)) with
  | node e ch ih =>
    rw [traverse_node, Tree.edges]
    exact (List.perm_append_comm).trans (by simpa using ih)
  | nil => simp
  | cons t ts ih1 ih2 => simpa using List.Perm.append ih1 ih2

/-- Non-vacuity: `exG` with weights 2,3,5,7,11 has best goal weight 7·3·5·3 = 315. -/
example : (∀ v < exG.nodes.length, exG.inE v ≠ []) ∧
    (viterbi exG (fun e => [2, 3, 5, 7, 11].getD e 0) (fun e ants => ants.flatten ++ [e]) (0, [])).getD 2 (0, [])
      = (315, [1, 1, 2, 3]) := by decide

end Cdec.HG
