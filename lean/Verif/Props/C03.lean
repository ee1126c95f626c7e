import Verif.HG.OutsideLemmas
import Verif.Props.C02
/-! # C03: outside scores and posterior expectations -/
namespace Cdec.HG
variable {α : Type} {K : Type} [CommSemiring K]

/-- No edge lists the same tail node twice. -/
def DistinctTails (g : Hypergraph α) : Prop :=
  ∀ v < g.nodes.length, ∀ e ∈ g.inE v, (g.tails e).Nodup

/-- An edge enters only one node (established by construction, see C01). -/
def UniqueHead (g : Hypergraph α) : Prop :=
  ∀ u < g.nodes.length, ∀ v < g.nodes.length, ∀ e, e ∈ g.inE u → e ∈ g.inE v → u = v

/-- C03, expectations.  `InsideOutside` (inside_outside.h:173-186) with x-weights `x e * w e` returns
the sum over goal derivations of (sum of `x` over their edges) × (derivation weight). -/
theorem C03_expectation (g : Hypergraph α) (wf : WF g) (hnd : DistinctTails g)
    (hn : 0 < g.nodes.length) (w x : Nat → K) (scale : K) (ds : List Tree)
    (hds : ListsDerivs g g.goal ds) :
    expect g (fun e => x e * w e) (insideScores g w) (outsideScores g w (insideScores g w) scale) =
      scale * (ds.map fun d => d.total x * d.weight w).sum := by
  rw [expect_eq, pair_outsideScores wf hnd w x scale hn, dsum]
  congr 1
  exact List.Perm.sum_eq ((listsDerivs_perm (derivs_lists wf _ (by unfold Hypergraph.goal; omega)) hds).map _)

/-- C03, edge posteriors.  `compute_edge_marginals` stores at `e` the total weight of the goal
derivations, each counted as often as it uses `e`. -/
theorem C03_edge_posterior (g : Hypergraph α) (wf : WF g) (hnd : DistinctTails g)
    (huh : UniqueHead g) (hn : 0 < g.nodes.length) (w : Nat → K) (scale : K) (ds : List Tree)
    (hds : ListsDerivs g g.goal ds) (v e : Nat) (hv : v < g.nodes.length) (he : e ∈ g.inE v) :
    (edgeMarginals g w (insideScores g w) (outsideScores g w (insideScores g w) scale)).getD e 0 =
      scale * (ds.map fun d => (d.edges.count e : K) * d.weight w).sum := by
  have h := pair_outsideScores wf hnd w (fun e' => if e' = e then (1 : K) else 0) scale hn
  have hsum : dsum g w (fun e' => if e' = e then (1 : K) else 0) g.goal =
      (ds.map fun d => (d.edges.count e : K) * d.weight w).sum := by
    rw [dsum, List.Perm.sum_eq ((listsDerivs_perm (derivs_lists wf _ (by unfold Hypergraph.goal; omega)) hds).map _)]
    congr 1
    apply List.map_congr_left
    intro d _
    rw [total_indicator (fun e' => e' = e)]
    congr 3
  rw [← hsum, ← h, edgeMarginals_getD g w _ _ v e hv (wf.edge_lt v hv e he) he
    fun u hu h => huh u hu v hv e h he]
  have hloc : ∀ u < g.nodes.length, local_ g w (fun e' => if e' = e then (1 : K) else 0) (insideScores g w) u =
      if u = v then w e * ((g.tails e).map fun t => (insideScores g w).getD t 0).prod else 0 := by
    intro u hu
    unfold local_
    by_cases huv : u = v
    · subst huv
      rw [if_pos rfl]
      have hnd' := wf.nodup u hu
      revert hnd' he
      generalize g.inE u = es
      intro he hnd'
      induction es with
      | nil => simp at he
      | cons a es ih =>
        obtain ⟨h1, h2⟩ := List.nodup_cons.1 hnd'
        by_cases hae : a = e
        · subst hae
          have : ∀ b ∈ es, (if b = a then (1 : K) else 0) * (w b * ((g.tails b).map fun t =>
              (insideScores g w).getD t 0).prod) = 0 := by
            intro b hb
            have : b ≠ a := fun h => h1 (h ▸ hb)
            simp [this]
          rw [List.map_cons, List.sum_cons, List.map_congr_left this]
          simp
        · have he' : e ∈ es := by
            rcases List.mem_cons.1 he with h | h
            · exact absurd h.symm hae
            · exact h
          rw [List.map_cons, List.sum_cons, ih he' h2]
          simp [hae]
    · rw [if_neg huv]
      apply List.sum_eq_zero
      intro z hz
      obtain ⟨b, hb, rfl⟩ := List.mem_map.1 hz
      have : b ≠ e := fun h => huv (huh u hu v hv e (h ▸ hb) he)
      simp [this]
  unfold pair
  rw [Finset.sum_congr rfl fun u hu => by rw [hloc u (Finset.mem_range.1 hu)]]
  simp only [mul_ite, mul_zero]
  rw [Finset.sum_ite_eq' (Finset.range g.nodes.length) v, if_pos (Finset.mem_range.2 hv)]
  ring

/-- C03, node posteriors.  `inside[v] * outside[v]` is the total weight of the goal derivations, each
counted as often as it visits `v`. -/
theorem C03_node_posterior (g : Hypergraph α) (wf : WF g) (hnd : DistinctTails g)
    (huh : UniqueHead g) (hn : 0 < g.nodes.length) (w : Nat → K) (scale : K) (ds : List Tree)
    (hds : ListsDerivs g g.goal ds) (v : Nat) (hv : v < g.nodes.length) :
    (insideScores g w).getD v 0 * (outsideScores g w (insideScores g w) scale).getD v 0 =
      scale * (ds.map fun d => (d.edges.countP (fun e => decide (e ∈ g.inE v)) : K) * d.weight w).sum := by
  have h := pair_outsideScores wf hnd w (fun e => if e ∈ g.inE v then (1 : K) else 0) scale hn
  have hsum : dsum g w (fun e => if e ∈ g.inE v then (1 : K) else 0) g.goal =
      (ds.map fun d => (d.edges.countP (fun e => decide (e ∈ g.inE v)) : K) * d.weight w).sum := by
    rw [dsum, List.Perm.sum_eq ((listsDerivs_perm (derivs_lists wf _ (by unfold Hypergraph.goal; omega)) hds).map _)]
    congr 1
    apply List.map_congr_left
    intro d _
    rw [total_indicator (fun e => e ∈ g.inE v)]
  have hloc : ∀ u < g.nodes.length, local_ g w (fun e => if e ∈ g.inE v then (1 : K) else 0) (insideScores g w) u =
      if u = v then (insideScores g w).getD v 0 else 0 := by
    intro u hu
    unfold local_
    by_cases huv : u = v
    · subst huv
      rw [if_pos rfl, insideScores_rec wf w u hu]
      congr 1
      apply List.map_congr_left
      intro e he
      simp only [he, if_true, one_mul]
    · rw [if_neg huv]
      apply List.sum_eq_zero
      intro z hz
      obtain ⟨b, hb, rfl⟩ := List.mem_map.1 hz
      have : b ∉ g.inE v := fun h => huv (huh u hu v hv b hb h)
      simp [this]
  rw [← hsum, ← h]
  unfold pair
  rw [Finset.sum_congr rfl fun u hu => by rw [hloc u (Finset.mem_range.1 hu)]]
  simp only [mul_ite, mul_zero]
  rw [Finset.sum_ite_eq' (Finset.range g.nodes.length) v, if_pos (Finset.mem_range.2 hv)]
  ring

/-- Hypotheses are met by `exG`, whose goal has two derivations sharing edges. -/
example : DistinctTails exG ∧ UniqueHead exG ∧ 0 < exG.nodes.length := by
  refine ⟨by unfold DistinctTails; decide, ?_, by decide⟩
  intro u hu v hv e h1 h2
  have hu' : u < 3 := hu
  have hv' : v < 3 := hv
  match u, v with
  | 0, 0 | 1, 1 | 2, 2 => rfl
  | 0, 1 | 0, 2 | 1, 0 | 1, 2 | 2, 0 | 2, 1 =>
    simp [exG, Hypergraph.inE, Hypergraph.node] at h1 h2; omega
  | n + 3, _ => omega
  | _, m + 3 => omega

/-- A goal whose single edge uses the same tail node twice. -/
def exRep : Hypergraph Unit :=
  { nodes := [⟨0, -1, [0], [1, 1]⟩, ⟨1, -1, [1], []⟩]
    edges := [⟨0, some 0, [], ()⟩, ⟨1, some 1, [0, 0], ()⟩] }

/-- The restriction to distinct tails is necessary: on `exRep` with weights 2 and 1 the only
derivation of the goal has weight 4 and uses edge 0 twice, so the posterior of edge 0 is 8, but the
code computes 4 (it drops *both* occurrences of the tail, inside_outside.h:87). -/
theorem C03_repeated_tail_fails :
    WF exRep ∧ UniqueHead exRep ∧
    ListsDerivs exRep exRep.goal [.node 1 [.node 0 [], .node 0 []]] ∧
    (edgeMarginals exRep (fun e => [2, 1].getD e 0) (insideScores exRep (fun e => [2, 1].getD e 0))
      (outsideScores exRep (fun e => [2, 1].getD e 0)
        (insideScores exRep (fun e => [2, 1].getD e 0)) 1)).getD 0 0 ≠
    ((Tree.node 1 [.node 0 [], .node 0 []]).edges.count 0 *
      (Tree.node 1 [.node 0 [], .node 0 []]).weight (fun e => [2, 1].getD e 0) : Nat) := by
  have hwf : WF exRep := by constructor <;> decide
  refine ⟨hwf, ?_, ?_, ?_⟩
  · intro u hu v hv e h1 h2
    have hu' : u < 2 := hu
    have hv' : v < 2 := hv
    match u, v with
    | 0, 0 | 1, 1 => rfl
    | 0, 1 | 1, 0 => simp [exRep, Hypergraph.inE, Hypergraph.node] at h1 h2; omega
    | n + 2, _ => omega
    | _, m + 2 => omega
  · exact derivs_lists hwf 1 (by decide)
  · simp [Tree.weight, Tree.edges]; decide

end Cdec.HG
