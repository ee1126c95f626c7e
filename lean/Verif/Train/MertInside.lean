import Verif.Train.ConvexHull
import Verif.Decoder.Subst
import Verif.HG.Model
/-!
# Upper envelopes of forests and their translations

Models `Inside<ConvexHull, ConvexHullWeightFunction>` (decoder/inside_outside.h:31-56 with
training/dpmert/mert_geometry.cc:20-25, as called in dpmert/mr_dpmert_map and ces.cc) and
`MERTPoint::ConstructTranslation`, `CollectEdgesUsed` (mert_geometry.cc:155-178).  The dot products of an edge's features with
`direction` and `origin` are the functions `dm` and `db`.
-/
namespace Cdec.Mert
open Cdec.HG
variable {K : Type} [Field K] [LinearOrder K] {α : Type}

/-- `ConvexHull()`, mert_geometry.h:48. -/
def Hull.zero : Hull K := ⟨[], true⟩

/-- inside_outside.h:48-52 for one edge. -/
def hullEdge (srt : List (Pt K) → List (Pt K)) (g : Hypergraph α) (dm db : Nat → K) (acc : List (Hull K)) (e : Nat) : Hull K :=
  (g.tails e).foldl (fun s t => s.mul srt (acc.getD t .zero)) (Hull.ofEdge (dm e) (db e) e)

/-- inside_outside.h:43-54: `*cur_node_inside_score += score` for every in-edge.  That `Sort` is called on operands through
`mutable` members changes only when it is called, not what is computed. -/
def hullNode (srt : List (Pt K) → List (Pt K)) (g : Hypergraph α) (dm db : Nat → K) (i : Nat) (acc : List (Hull K)) : List (Hull K) :=
  (g.inE i).foldl (fun acc e => acc.set i ((acc.getD i .zero).add srt (hullEdge srt g dm db acc e))) acc

/-- `Inside`, inside_outside.h:31-56: the hulls of all nodes. -/
def insideHulls (srt : List (Pt K) → List (Pt K)) (g : Hypergraph α) (dm db : Nat → K) : List (Hull K) :=
  (List.range g.nodes.length).foldl (fun acc i => hullNode srt g dm db i acc) (List.replicate g.nodes.length .zero)

/-- mert_geometry.cc:163-168: what is done with the edge at the end of the chain and the collected translations; `none` is the
failing assertion. -/
def finish (g : Hypergraph α) (target : Nat → List Int) (s : Option (Nat × List (List Int))) : Option (List Int) :=
  match s with
  | none => none
  | some (e, ants) => if ants.length = (g.tails e).length then Dec.eSubst (target e) ants.reverse else none

/-- The loop at mert_geometry.cc:158-162: the edge at the end of the chain of `p1` and the translations of the `p2` on the way,
in the order in which they are collected; `none` is a null pointer. -/
def spine (g : Hypergraph α) (target : Nat → List Int) : Prov → Option (Nat × List (List Int))
  | .none => none
  | .edge e => some (e, [])
  | .pair p q =>
    match finish g target (spine g target q), spine g target p with
    | some t, some (e, ants) => some (e, t :: ants)
    | _, _ => none

/-- `ConstructTranslation`, mert_geometry.cc:155-169. -/
def constructTranslation (g : Hypergraph α) (target : Nat → List Int) (p : Prov) : Option (List Int) := finish g target (spine g target p)

/-- `CollectEdgesUsed`, mert_geometry.cc:171-178: the edges whose flag is set. -/
def edgesUsed : Prov → List Nat
  | .none => []
  | .edge e => [e]
  | .pair p q => edgesUsed p ++ edgesUsed q

end Cdec.Mert
