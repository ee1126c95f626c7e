import Verif.Decoder.RescoreApply
/-!
# C13: exhaustive rescoring neither loses, duplicates nor mis-scores a derivation
-/
namespace Cdec.Dec
open Cdec.HG Spec
variable {S φ α : Type} [DecidableEq S]

/-- C13.  For every forest and every set of feature functions, exhaustive rescoring ends without failing an assertion or reading outside of a table, and gives a
forest whose tables are in order.  Dropping the states (`src`: from an edge of the result to the edge of the input it copies) is a one-to-one correspondence between
the derivations of the goal of the result and those of the goal of the input, and in every derivation of the result the features of the edges are
those of the models run bottom up along the derivation it stands for. -/
theorem C13_exact (M : Models S φ) (cat : Nat → Int) (g : Hypergraph α) (hg : Ready g) :
    ∃ r, rescore M (id : S → S) cat g = some r ∧ WF r.out ∧ Consistent r.out ∧
      (∀ t', IsDeriv r.out r.out.goal t' → IsDeriv g g.goal (t'.map (src r.out)) ∧ t'.edges.map (feat r.out) = (goalFeats M (t'.map (src r.out))).map some) ∧
      (∀ t, IsDeriv g g.goal t → ∃ t', IsDeriv r.out r.out.goal t' ∧ t'.map (src r.out) = t) ∧
      (∀ t' t'', IsDeriv r.out r.out.goal t' → IsDeriv r.out r.out.goal t'' → t'.map (src r.out) = t''.map (src r.out) → t' = t'') := by
  obtain ⟨r, X, h1, ha, hc⟩ := rescoreNodes_spec (M := M) (key := (id : S → S)) (cat := cat) hg g.nodes.length 0 ⟨empty, [], List.replicate g.nodes.length []⟩ []
    (by omega) AInv.start (by intro u hu; omega)
  have hgoal : g.goal < g.nodes.length := by
    have := hg.pos
    unfold Hypergraph.goal
    omega
  have hnm := ha.inv.goal_node (ha.ne _ hgoal) hg.pos
  have hmem : r.out.goal ∈ r.nm g.goal := by
    change _ ∈ r.nm (g.nodes.length - 1)
    rw [hnm]
    simp
  refine ⟨r, ?_, ha.inv.wf hg.wf, ?_, ?_, ?_, ?_⟩
  · rw [rescore, List.range_eq_range', h1]
  · have := ha.inv.built.inv
    exact ⟨this.nid, this.eid, this.tails_lt, this.head_lt, this.outc, this.inc⟩
  · intro t' ht'
    exact ⟨ha.inv.sound t' _ _ hmem ht', ha.inv.exact_goal hg.wf (fun _ _ h => h) t' hmem ht'⟩
  · intro t ht
    obtain ⟨v', hv', t', h2, h3⟩ := ha.inv.complete hg.wf (fun u e ts hu he hts => hc u hu e ts he hts) t g.goal hgoal ht
    have : v' = r.out.goal := by
      change v' ∈ r.nm (g.nodes.length - 1) at hv'
      rw [hnm] at hv'
      simpa using hv'
    exact ⟨t', this ▸ h2, h3⟩
  · intro t' t'' h2 h3 h4
    exact (ha.inv.unique ha.nodup t' _ _ _ t'' hmem hmem h2 h3 h4).2

/-! A forest that meets the hypotheses: node 0 has two edges, which get different states, node 1 combines it with itself, node 2 is the goal. -/

def exForest : Hypergraph Unit :=
  ⟨[⟨0, 1, [0, 1], [2, 2]⟩, ⟨1, 1, [2], [3]⟩, ⟨2, 1, [3], []⟩], [⟨0, some 0, [], ()⟩, ⟨1, some 0, [], ()⟩, ⟨2, some 1, [0, 0], ()⟩, ⟨3, some 2, [1], ()⟩]⟩

/-- The state is the number of times edge 1 is used, at most 1; the features are the edge and the state. -/
def exModels : Models Nat (Nat × Nat) :=
  ⟨fun e sts => let s := min 1 (sts.sum + if e = 1 then 1 else 0); (s, e, s), fun e s => (e, s), 0⟩

example : Ready exForest where
  wf := ⟨by decide, by decide, by decide⟩
  head := by decide
  ne := by decide
  goal := by decide
  pos := by decide

example : (rescore exModels id (fun _ => 1) exForest).map (fun r => (r.out.nodes.map (·.inEdges), r.out.edges.map fun e => (e.tails, e.val))) =
    some ([[0], [1], [2], [3, 4, 5], [6, 7]],
      [([], 0, 0, 0), ([], 1, 1, 1), ([0, 0], 2, 2, 0), ([1, 0], 2, 2, 1), ([0, 1], 2, 2, 1), ([1, 1], 2, 2, 1), ([2], 3, 3, 0), ([3], 3, 3, 1)]) := by decide

end Cdec.Dec
