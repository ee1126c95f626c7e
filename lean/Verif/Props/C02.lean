import Verif.HG.InsideLemmas
/-! # C02: the inside score is the sum over derivations -/
namespace Cdec.HG
variable {α : Type} {K : Type} [Semiring K]

/-- C02.  In any semiring, for any topologically ordered hypergraph and any edge weights, the score
`Inside` leaves at node `v` is the sum, over all derivations of `v`, of the product of their edge
weights.  (Hence it is `0` at a node without incoming edges.) -/
theorem C02_inside_is_sum_over_derivations (g : Hypergraph α) (wf : WF g) (w : Nat → K)
    (v : Nat) (hv : v < g.nodes.length) (ds : List Tree) (hds : ListsDerivs g v ds) :
    (insideScores g w).getD v 0 = (ds.map fun t => t.weight w).sum := by
  rw [insideScores_eq_derivs wf w v hv]
  exact List.Perm.sum_eq ((listsDerivs_perm (derivs_lists wf v hv) hds).map _)

/-- Every node has finitely many derivations, so the sum in `C02_inside_is_sum_over_derivations` is
over a list that exists. -/
theorem C02_derivations_listed (g : Hypergraph α) (wf : WF g) (v : Nat) (hv : v < g.nodes.length) :
    ∃ ds, ListsDerivs g v ds := ⟨_, derivs_lists wf v hv⟩

/-- The value returned by `Inside` is the score of the last node, and zero for an empty hypergraph. -/
theorem C02_inside_return (g : Hypergraph α) (wf : WF g) (w : Nat → K) :
    (g.nodes = [] → inside g w = 0) ∧
    (∀ ds, g.nodes ≠ [] → ListsDerivs g g.goal ds → inside g w = (ds.map fun t => t.weight w).sum) := by
  have hlen := insideScores_length g w
  constructor
  · intro h
    rw [h] at hlen
    have : insideScores g w = [] := List.length_eq_zero_iff.1 hlen
    simp [inside, this]
  · intro ds hne hds
    have hpos : 0 < g.nodes.length := List.length_pos_iff.2 hne
    rw [← C02_inside_is_sum_over_derivations g wf w g.goal (by unfold Hypergraph.goal; omega) ds hds]
    have hne' : insideScores g w ≠ [] := by
      intro h; rw [h] at hlen; simp at hlen; omega
    unfold inside Hypergraph.goal
    rw [← hlen, List.getLastD_eq_getLast?, List.getLast?_eq_getElem?, List.getD_eq_getElem?_getD]

/-- A diamond with two edges into the goal that share a tail. -/
def exG : Hypergraph Unit :=
  { nodes := [⟨0, -1, [0, 1], [2, 3]⟩, ⟨1, -1, [2], [3, 4]⟩, ⟨2, -1, [3, 4], []⟩]
    edges := [⟨0, some 0, [], ()⟩, ⟨1, some 0, [], ()⟩, ⟨2, some 1, [0], ()⟩,
      ⟨3, some 2, [0, 1], ()⟩, ⟨4, some 2, [1], ()⟩] }

/-- Non-vacuity: `exG` is well formed, and its inside scores for weights 2,3,5,7,11 are
5, 25, 7·5·25 + 11·25. -/
theorem exG_wf : WF exG := by constructor <;> decide
example : insideScores exG (fun e => [2, 3, 5, 7, 11].getD e 0) = [5, 25, 1150] := by decide

end Cdec.HG
