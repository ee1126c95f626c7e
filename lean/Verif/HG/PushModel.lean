import Verif.HG.InsideModel
/-!
# Weight pushing

Models `ComputeEdgePosteriors`, `PushWeightsToSource` and `PushWeightsToGoal`
(decoder/hg.cc:157-171, 187-199, 233-246).  `ws e` is the scaled weight `edge_prob_.pow(scale)`
(`ScaledEdgeProb`, `ScaledTransitionEventWeightFunction`, hg.cc:100-109).
-/
namespace Cdec.HG
variable {α : Type} {K : Type} [Zero K] [One K] [Add K] [Mul K] [Div K]

/-- hg.cc:157-171: entry `i` of `posts`.  `InsideOutside` accumulates a sparse vector in which edge `e`
contributes `ws e` at component `e`; this is its component `i`.  (Edge ids are taken to be positions.) -/
def edgePost (g : Hypergraph α) (ws : Nat → K) (i : Nat) : K :=
  expect g (fun e => if e = i then ws e else 0) (insideScores g ws)
    (outsideScores g ws (insideScores g ws) 1)

/-- hg.cc:192-197 and 238-243: normalise the posteriors of a list of edges and store them as the new
edge weights. -/
def pushNode (post : Nat → K) (es : List Nat) (p : List K) : List K :=
  let z := es.foldl (fun z e => z + post e) 0
  es.foldl (fun p e => p.set e (post e / z)) p

/-- `Hypergraph::PushWeightsToGoal`, hg.cc:233-246: the new weights; `p` are the old ones. -/
def pushToGoal (g : Hypergraph α) (ws : Nat → K) (p : List K) : List K :=
  (List.range g.nodes.length).foldl (fun p i => pushNode (edgePost g ws) (g.inE i) p) p

/-- `Hypergraph::PushWeightsToSource`, hg.cc:187-199. -/
def pushToSource (g : Hypergraph α) (ws : Nat → K) (p : List K) : List K :=
  (List.range g.nodes.length).foldl (fun p i => pushNode (edgePost g ws) (g.node i).outEdges p) p

end Cdec.HG
