import Verif.HG.SamplerLemmas
import Verif.Props.C02
import Mathlib.Algebra.Order.Ring.Rat
import Mathlib.Algebra.Field.Rat
/-! # C70: sampled derivations -/
namespace Cdec.HG
variable {α : Type} {K : Type} [Field K] [LinearOrder K] [IsStrictOrderedRing K]

theorem treesum_levelOrder {ts : List Tree} {l : List Nat} (h : LevelOrder ts l) {F : Type} [AddCommMonoid F] (x : Nat → F) :
    (l.map x).sum = (ts.map fun t => t.total x).sum := by
  induction h with
  | nil => rfl
  | @cons e ch q l _ ih =>
    rw [List.map_cons, List.sum_cons, ih, List.map_cons, List.sum_cons, Tree.total, List.map_append, List.sum_append, add_assoc,
      add_comm (q.map _).sum]

theorem treeprod_levelOrder {ts : List Tree} {l : List Nat} (h : LevelOrder ts l) (w : Nat → K) :
    (l.map w).prod = (ts.map fun t => t.weight w).prod := by
  induction h with
  | nil => rfl
  | @cons e ch q l _ ih =>
    rw [List.map_cons, List.prod_cons, ih, List.map_cons, List.prod_cons, Tree.weight, List.map_append, List.prod_append, mul_assoc,
      mul_comm (q.map _).prod]

theorem foldl_sum_from {F : Type} [AddCommMonoid F] (x : Nat → F) (es : List Nat) : ∀ s, es.foldl (fun s e => s + x e) s = s + (es.map x).sum := by
  induction es with
  | nil => intro s; simp
  | cons e es ih => intro s; rw [List.foldl_cons, ih, List.map_cons, List.sum_cons, add_assoc]

theorem foldl_prod_from (x : Nat → K) (es : List Nat) : ∀ s, es.foldl (fun s e => s * x e) s = s * (es.map x).prod := by
  induction es with
  | nil => intro s; simp
  | cons e es ih => intro s; rw [List.foldl_cons, ih, List.map_cons, List.prod_cons, mul_assoc]

theorem goal_lt {g : Hypergraph α} (h : g.nodes ≠ []) : g.goal < g.nodes.length := by
  have := List.length_pos_iff.2 h
  unfold Hypergraph.goal; omega

/-- C70, soundness.  Whatever numbers the generator returns, sampling from a non-empty topologically ordered forest in which
every node has an incoming edge ends, and the edges visited are those of one derivation of the goal, level by level. -/
theorem C70_always_a_derivation (g : Hypergraph α) (wf : WF g) (hn : g.nodes ≠ []) (hne : ∀ v < g.nodes.length, g.inE v ≠ [])
    (w : Nat → K) (us : Nat → K) :
    ∃ t l, IsDeriv g g.goal t ∧ LevelOrder [t] l ∧ ∃ n, ∀ fuel, n ≤ fuel → sampleEdges g w us fuel = some l := by
  obtain ⟨ts, l, h1, h2, _, h4⟩ := sampleLoop_total (w := w) wf hne us _ [g.goal] 0 (Nat.le_refl _) (by
    intro v hv
    rw [List.mem_singleton.1 hv]
    exact goal_lt hn)
  cases h1 with
  | cons ht h1 =>
  cases h1
  exact ⟨_, l, ht, h2, _, fun fuel hf => h4 fuel hf⟩

/-- C70, different derivations give different lists of edges, so the list says which derivation was sampled. -/
theorem C70_edges_identify (g : Hypergraph α) (t t' : Tree) (l : List Nat) (v : Nat) (h : LevelOrder [t] l) (h' : LevelOrder [t'] l)
    (ht : IsDeriv g v t) (ht' : IsDeriv g v t') : t = t' := by
  have := LevelOrder.inj g h h' [v] (.cons ht .nil) (.cons ht' .nil)
  simpa using this

/-- C70, probability.  With positive edge weights, for every derivation `t` of the goal there is a list of subintervals
`(a, b]` of `(0, 1]` such that the sampler returns `t` exactly when each successive draw lies in its interval, and the product
of the intervals' lengths - the probability of that event for independent uniform draws - is the weight of `t` divided by the
total weight of all derivations of the goal. -/
theorem C70_probability (g : Hypergraph α) (wf : WF g) (hn : g.nodes ≠ []) (hne : ∀ v < g.nodes.length, g.inE v ≠ [])
    (w : Nat → K) (hw : ∀ e, 0 < w e) (t : Tree) (ht : IsDeriv g g.goal t) (l : List Nat) (hl : LevelOrder [t] l)
    (ds : List Tree) (hds : ListsDerivs g g.goal ds) :
    ∃ I : List (K × K), (∀ i ∈ I, 0 ≤ i.1 ∧ i.1 < i.2 ∧ i.2 ≤ 1) ∧
      (∀ us : Nat → K, (∀ j, 0 < us j ∧ us j ≤ 1) → ∀ fuel, l.length ≤ fuel →
        (sampleEdges g w us fuel = some l ↔ ∀ j (h : j < I.length), I[j].1 < us j ∧ us j ≤ I[j].2)) ∧
      (I.map fun i => i.2 - i.1).prod = t.weight w / (ds.map fun d => d.weight w).sum := by
  obtain ⟨I, h1, h2, h3⟩ := sampleLoop_box wf hne hw hl [g.goal] 0 (by
    intro v hv
    rw [List.mem_singleton.1 hv]
    exact goal_lt hn) (.cons ht .nil)
  refine ⟨I, h2, ?_, ?_⟩
  · intro us hus fuel hf
    have := h1 us hus fuel hf
    simpa [sampleEdges] using this
  · rw [h3, ← C02_inside_is_sum_over_derivations g wf w g.goal (goal_lt hn) ds hds]
    simp [insProd]

/-- C70, report.  The reported score and feature values are the product of the weights and the sum of the features of the
sampled derivation's edges.  If the derivation never uses two different edges for the same node, the reported string is the
derivation's own yield (`trav` computes the yield of an edge from those of its tails). -/
theorem C70_report (g : Hypergraph α) (wf : WF g) (hn : g.nodes ≠ []) (w : Nat → K) (t : Tree) (ht : IsDeriv g g.goal t)
    (l : List Nat) (hl : LevelOrder [t] l) {F : Type} [AddCommMonoid F] (feat : Nat → F) {T : Type} (trav : Nat → List T → T) (d0 : T) :
    sampledScore w l = t.weight w ∧ sampledFeatures feat l = t.total feat ∧
    ((∀ v < g.nodes.length, ∀ e ∈ t.edges, ∀ e' ∈ t.edges, e ∈ g.inE v → e' ∈ g.inE v → e = e') →
      sampledResult g trav d0 l = t.traverse trav) := by
  refine ⟨?_, ?_, ?_⟩
  · rw [sampledScore, foldl_prod_from, one_mul, treeprod_levelOrder hl]; simp
  · rw [sampledFeatures, foldl_sum_from, zero_add, treesum_levelOrder hl]; simp
  · intro hu
    have hp := hl.perm
    simp only [List.flatMap_cons, List.flatMap_nil, List.append_nil] at hp
    have hlt := goal_lt hn
    have := sampled_viterbi wf trav d0 l (fun v hv e he e' he' => hu v hv e (hp.mem_iff.1 he) e' (hp.mem_iff.1 he')) g.goal hlt t ht
      (fun e he => hp.mem_iff.2 he)
    have hlen := viterbi_length g (fun e => if e ∈ l then (1 : Nat) else 0) trav (0, d0)
    unfold sampledResult
    rw [List.getLastD_eq_getLast?, List.getLast?_eq_getElem?, hlen]
    rw [List.getD_eq_getElem?_getD] at this
    rw [show g.nodes.length - 1 = g.goal from rfl, this]

/-- Non-vacuity: `exG` meets the hypotheses; with all weights 1 the draws 1/2 and 1/2 give the edges 3, 0, 2, 0. -/
example : exG.nodes ≠ [] ∧ (∀ v < exG.nodes.length, exG.inE v ≠ []) ∧
    sampleEdges exG (fun _ => (1 : Rat)) (fun _ => 1 / 2) 10 = some [3, 0, 2, 0] ∧
    LevelOrder [.node 3 [.node 0 [], .node 2 [.node 0 []]]] [3, 0, 2, 0] := by
  refine ⟨by decide, by decide, by decide +kernel, ?_⟩
  exact .cons (.cons (.cons (.cons .nil)))

/-- Goal edge 2 uses node 0 twice; node 0 has the edges 0 and 1. -/
def exTwice : Hypergraph Unit :=
  { nodes := [⟨0, -1, [0, 1], [2]⟩, ⟨1, -1, [2], []⟩]
    edges := [⟨0, some 0, [], ()⟩, ⟨1, some 0, [], ()⟩, ⟨2, some 1, [0, 0], ()⟩] }

/-- C70, without that condition the reported string can differ from the sampled derivation: the sample below uses edge 0 and
then edge 1 for the two occurrences of node 0, yet the string is read off as if edge 0 had been used twice. -/
theorem C70_shared_node_string_fails :
    ∃ (us : Nat → Rat) (t : Tree), IsDeriv exTwice exTwice.goal t ∧ WF exTwice ∧ (∀ j, 0 < us j ∧ us j ≤ 1) ∧
      LevelOrder [t] [2, 0, 1] ∧ sampleEdges exTwice (fun _ => 1) us 10 = some [2, 0, 1] ∧
      let trav : Nat → List (List Nat) → List Nat := fun e ch => e :: ch.flatten
      sampledResult exTwice trav [] [2, 0, 1] = [2, 0, 0] ∧ t.traverse trav = [2, 0, 1] := by
  refine ⟨fun j => if j = 0 then 1 / 2 else 1, .node 2 [.node 0 [], .node 1 []], ?_, ?_, ?_, ?_, ?_, ?_, ?_⟩
  · refine isDeriv_iff.2 ⟨by decide, ?_⟩
    exact .cons (isDeriv_iff.2 ⟨by decide, .nil⟩) (.cons (isDeriv_iff.2 ⟨by decide, .nil⟩) .nil)
  · constructor <;> decide
  · intro j; dsimp only; split <;> constructor <;> norm_num
  · exact .cons (.cons (.cons .nil))
  · decide +kernel
  · decide +kernel
  · simp [Tree.traverse]

end Cdec.HG
