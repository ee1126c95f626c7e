import Verif.HG.Model
/-!
# Inside / Outside: the code's loops

Models `decoder/inside_outside.h`.  `K` is `WeightType`; only its operations `0`, `1`, `+`, `*` are
used, so no law is assumed here.  Score vectors are lists of length `nodes_.size()`, updated in place
(`List.set`) exactly where the code assigns.
-/
namespace Cdec.HG
variable {α : Type} {K : Type} [Zero K] [One K] [Add K] [Mul K]

/-- inside_outside.h:48-52: `score = weight(edge); for k: score *= inside_score[tail_k]`. -/
def insideEdge (g : Hypergraph α) (w : Nat → K) (acc : List K) (e : Nat) : K :=
  (g.tails e).foldl (fun s t => s * acc.getD t 0) (w e)

/-- inside_outside.h:43-54: body of the node loop; `*cur_node_inside_score += score`. -/
def insideNode (g : Hypergraph α) (w : Nat → K) (i : Nat) (acc : List K) : List K :=
  (g.inE i).foldl (fun acc e => acc.set i (acc.getD i 0 + insideEdge g w acc e)) acc

/-- inside_outside.h:34-55: the vector `inside_score` at the end of `Inside`. -/
def insideScores (g : Hypergraph α) (w : Nat → K) : List K :=
  (List.range g.nodes.length).foldl (fun acc i => insideNode g w i acc)
    (List.replicate g.nodes.length 0)

/-- inside_outside.h:30-57: the return value of `Inside`. -/
def inside (g : Hypergraph α) (w : Nat → K) : K := (insideScores g w).getLastD 0

/-- inside_outside.h:84-88: `inside_contribution`, the product of the inside scores of those tails
whose *node id differs* from the one being updated. -/
def outsideContribution (ins : List K) (tails : List Nat) (upd : Nat) : K :=
  tails.foldl (fun c t => if upd ≠ t then c * ins.getD t 0 else c) 1

/-- inside_outside.h:81-91: inner loop over the tails of an edge. -/
def outsideEdge (ins : List K) (hw : K) (tails : List Nat) (out : List K) : List K :=
  tails.foldl (fun out t => out.set t (out.getD t 0 + outsideContribution ins tails t * hw)) out

/-- inside_outside.h:74-93: body of the node loop.  `head_node_outside_score` is a reference into
the vector, so it is re-read for every edge, as in the code. -/
def outsideNode (g : Hypergraph α) (w : Nat → K) (ins : List K) (i : Nat) (out : List K) : List K :=
  (g.inE i).foldl (fun out e => outsideEdge ins (w e * out.getD i 0) (g.tails e) out) out

/-- inside_outside.h:60-95: `Outside`; nodes are visited from the last to the first.  On an empty
hypergraph `outside_score.back()` is undefined behaviour. -/
def outsideScores (g : Hypergraph α) (w : Nat → K) (ins : List K) (scale : K) : List K :=
  (List.range g.nodes.length).reverse.foldl (fun out i => outsideNode g w ins i out)
    ((List.replicate g.nodes.length 0).set (g.nodes.length - 1) scale)

/-- inside_outside.h:135-151: `InsideOutsides::expect`, Σ over nodes and in-edges of
`xwf(edge) * (outside[i] * Π inside[tail])`.  (The code's `XType * KType` is taken inside `K`.) -/
def expect (g : Hypergraph α) (x : Nat → K) (ins out : List K) : K :=
  (List.range g.nodes.length).foldl (fun s i =>
    (g.inE i).foldl (fun s e =>
      s + x e * (g.tails e).foldl (fun b t => b * ins.getD t 0) (out.getD i 0)) s) 0

/-- inside_outside.h:152-168: `compute_edge_marginals`,
`vs[e] = weight(e)*outside[head] * Π inside[tail]`. -/
def edgeMarginals (g : Hypergraph α) (w : Nat → K) (ins out : List K) : List K :=
  (List.range g.nodes.length).foldl (fun vs i =>
    (g.inE i).foldl (fun vs e =>
      vs.set e ((g.tails e).foldl (fun b t => b * ins.getD t 0) (w e * out.getD i 0))) vs)
    (List.replicate g.edges.length 0)

end Cdec.HG
