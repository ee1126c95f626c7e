import Verif.HG.Model
/-!
# Viterbi

Models `Viterbi`, `decoder/viterbi.h:24-68`.  The two vectors `vit_weight` and `vit_result` are kept
as one list of pairs.  `W` is `WeightType` (only `*`, `1`, `<` are used), `T` is `Traversal::Result`,
`trav e ants` is `traverse(edge, ants, result)`; `d0` is the default-constructed pair.
-/
namespace Cdec.HG
variable {α : Type} {W T : Type} [One W] [Mul W] [LT W] [DecidableRel (fun a b : W => a < b)]

/-- viterbi.h:48-50: score of one edge. -/
def vitScore (g : Hypergraph α) (w : Nat → W) (d0 : W × T) (acc : List (W × T)) (e : Nat) : W :=
  (g.tails e).foldl (fun s t => s * (acc.getD t d0).1) (w e)

/-- viterbi.h:46-55: loop over the in-edges keeping the first edge of largest score
(`!edge_best || *cur_node_best_weight < score`). -/
def vitBest (g : Hypergraph α) (w : Nat → W) (d0 : W × T) (acc : List (W × T)) (es : List Nat) :
    Option (Nat × W) :=
  es.foldl (fun b e =>
    let score := vitScore g w d0 acc e
    match b with
    | none => some (e, score)
    | some (_, cur) => if cur < score then some (e, score) else b) none

/-- viterbi.h:36-62: body of the node loop.  A node without in-edges gets weight `1` and keeps the
default result. -/
def vitNode (g : Hypergraph α) (w : Nat → W) (trav : Nat → List T → T) (d0 : W × T) (i : Nat)
    (acc : List (W × T)) : List (W × T) :=
  match vitBest g w d0 acc (g.inE i) with
  | none => acc.set i (1, d0.2)
  | some (e, s) => acc.set i (s, trav e ((g.tails e).map fun t => (acc.getD t d0).2))

/-- viterbi.h:31-62: both vectors at the end. -/
def viterbi (g : Hypergraph α) (w : Nat → W) (trav : Nat → List T → T) (d0 : W × T) : List (W × T) :=
  (List.range g.nodes.length).foldl (fun acc i => vitNode g w trav d0 i acc)
    (List.replicate g.nodes.length d0)

end Cdec.HG
