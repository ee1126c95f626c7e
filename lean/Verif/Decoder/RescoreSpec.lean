import Verif.HG.Spec
import Verif.Decoder.Rescore
/-!
# What rescoring should compute

The feature functions are applied bottom up along one derivation of the input forest; nothing here refers to the algorithms.
-/
namespace Cdec.Dec.Spec
open Cdec.HG Cdec.Dec
variable {S φ α : Type}

/-- The state at the root of a derivation that is not a derivation of the goal. -/
def state (M : Models S φ) : Tree → S
  | .node e ch => (M.edge e (ch.map fun t => state M t)).1

/-- The features the models assign to the edges of such a derivation, root first, then the subtrees from left to right (the order of `Tree.edges`). -/
def feats (M : Models S φ) : Tree → List φ
  | .node e ch => (M.edge e (ch.map fun t => state M t)).2 :: ch.flatMap fun t => feats M t

/-- The same for a derivation of the goal: its root edge gets the final features, from the state of its only antecedent. -/
def goalFeats (M : Models S φ) : Tree → List φ
  | .node e ch => M.final e ((ch.map fun t => state M t).headD M.noState) :: ch.flatMap fun t => feats M t

/-- The edge of the input that an edge of the rescored forest was made from. -/
def src (h : Hypergraph (Nat × φ)) (k : Nat) : Nat :=
  match h.edges[k]? with
  | some ed => ed.val.1
  | none => 0

/-- The features of an edge of the rescored forest. -/
def feat (h : Hypergraph (Nat × φ)) (k : Nat) : Option φ := (h.edges[k]?).map fun ed => ed.val.2

/-- What rescoring needs of its input: every edge listed at a node has it as head, every node has an edge, edges into the goal have one tail. -/
structure Ready (g : Hypergraph α) : Prop where
  wf : WF g
  head : ∀ v < g.nodes.length, ∀ e ∈ g.inE v, g.head e = some v
  ne : ∀ v < g.nodes.length, g.inE v ≠ []
  goal : ∀ e ∈ g.inE g.goal, (g.tails e).length = 1
  pos : 0 < g.nodes.length

end Cdec.Dec.Spec
