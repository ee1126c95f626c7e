import Verif.Decoder.Scfg
import Verif.Decoder.Rescore
import Verif.Decoder.Subst
import Verif.HG.ViterbiModel
/-!
# Decoding a sentence

Models `DecoderImpl::Decode` (decoder/decoder.cc:726-985) from the translator to the printed translation, for the options that print the best translation: no coarse-to-fine
parsing, no summary feature, no pruning between passes, no k-best list, sampling, oracle or forest output, and rescoring passes that intersect exhaustively
(`intersection_strategy=full`, or models without state).  The input is a parsed lattice; the features of an edge are any type `φ` and a weight
vector is a function from features to probabilities (`edge_prob_.logeq(feature_values_.dot(weights))`).
-/
namespace Cdec.Dec.Decode
open Cdec.HG Cdec.Dec Cdec.Dec.Parser Cdec.Dec.Scfg
variable {S φ W : Type}

/-- `RescoringPass`, decoder/decoder.cc:141-150.  `edge` and `final` are `ModelSet::AddFeaturesToEdge` and `AddFinalFeatures`, decoder/ffset.cc:30-76: from an edge (rule, span
and features so far) and the states of its antecedents, the state of the head and the features of the new edge.  `models` says whether there are feature functions. -/
structure Pass (S φ W : Type) where
  models : Bool
  edge : Val Nat φ → List S → S × φ
  final : Val Nat φ → S → φ
  noState : S
  weigh : φ → W

/-- A copy of an edge with other features: `AddEdge(in_edge, tail)`, hg.h:332-339, and ffset.cc. -/
def withFeats (v : Val Nat φ) (x : φ) : Val Nat φ := ⟨v.rule, v.i, v.j, x, v.shape⟩

/-- The models of a pass on the edges of a forest. -/
def Pass.on (P : Pass S φ W) (g : Hypergraph (Val Nat φ)) : Models S (Option (Val Nat φ)) where
  edge e sts := match g.edges[e]? with
    | some x => ((P.edge x.val sts).1, some (withFeats x.val (P.edge x.val sts).2))
    | none => (P.noState, none)
  final e s := (g.edges[e]?).map fun x => withFeats x.val (P.final x.val s)
  noState := P.noState

/-- The same forest with other payloads. -/
def mapVal {α β : Type} (f : α → β) (g : Hypergraph α) : Hypergraph β := ⟨g.nodes, g.edges.map fun x => ⟨x.id, x.head, x.tails, f x.val⟩⟩

/-- The payload of edge number 0 for a forest whose edges have none: not used. -/
def blank [Zero φ] : Val Nat φ := ⟨0, 0, 0, 0, []⟩

/-- One rescoring pass, decoder/decoder.cc:831-857, and `ApplyModelSet`, decoder/apply_models.cc:617-655, for exhaustive intersection. -/
def Pass.apply [DecidableEq S] [Zero φ] (P : Pass S φ W) (g : Hypergraph (Val Nat φ)) : Option (Hypergraph (Val Nat φ)) :=
  if P.models then
    (rescore (P.on g) (id : S → S) (fun e => (g.node ((g.head e).getD 0)).cat) g).map fun r => mapVal (fun x => x.2.getD blank) r.out
  else some g

/-- The loop over the passes, decoder/decoder.cc:831-934. -/
def rescoreAll [DecidableEq S] [Zero φ] : List (Pass S φ W) → Hypergraph (Val Nat φ) → Option (Hypergraph (Val Nat φ))
  | [], g => some g
  | P :: ps, g => match P.apply g with
    | some g' => rescoreAll ps g'
    | none => none

/-- `last_weights`, decoder/decoder.cc:936: the weights the forest was last reweighted with. -/
def lastWeigh (weigh : φ → W) (ps : List (Pass S φ W)) : φ → W := (ps.map Pass.weigh).getLastD weigh

/-- `Hypergraph::Reweight`, decoder/hg.h:388-393. -/
def edgeProb [One W] (weigh : φ → W) (g : Hypergraph (Val Nat φ)) (e : Nat) : W :=
  match g.edges[e]? with
  | some x => weigh x.val.feats
  | none => 1

/-- `ESentenceTraversal`, decoder/viterbi.h:110-117; `none` where `ESubstitute` fails its assertion or reads outside of a vector. -/
def eTrav (val : Nat → Rule) (g : Hypergraph (Val Nat φ)) (e : Nat) (ants : List (Option (List Int))) : Option (List Int) :=
  match g.edges[e]? with
  | some x => (ants.mapM id).bind (eSubst (val x.val.rule).e)
  | none => none

/-- `ViterbiESentence`, decoder/viterbi.cc:64-66. -/
def viterbiESentence [Monoid W] [LinearOrder W] (val : Nat → Rule) (weigh : φ → W) (g : Hypergraph (Val Nat φ)) : W × Option (List Int) :=
  (viterbi g (edgeProb weigh g) (eTrav val g) (1, some [])).getD g.goal (1, some [])

/-- `ArePreGoalEdgesArity1`, decoder/hg.cc:31-36. -/
def preGoalArity1 {α : Type} (g : Hypergraph α) : Bool := (g.inE g.goal).all fun e => (g.tails e).length == 1

/-- `DecoderImpl::Decode`, decoder/decoder.cc:766-985.  `none`: the program aborts or does not end; `some none`: no parse, an empty line is printed; `some (some out)`:
`out` is printed. -/
def decode [DecidableEq S] [Add φ] [Zero φ] [Monoid W] [LinearOrder W] (val : Nat → Rule) (rfeats : Nat → φ) (eps goalCat kGoal : Int) (goalRule : Nat)
    (passThrough : Option (Int → Nat)) (grammars : List Gr) (weigh : φ → W) (passes : List (Pass S φ W)) (lat : List (List (Arc φ))) (fuel : Nat) :
    Option (Option (List Int)) :=
  match translate val rfeats eps goalCat kGoal goalRule passThrough grammars lat fuel with
  | none => none
  | some (false, _) => some none
  | some (true, forest) =>
    if preGoalArity1 forest then
      match rescoreAll passes forest with
      | none => none
      | some h => (viterbiESentence val (lastWeigh weigh passes) h).2.map some
    else none

end Cdec.Dec.Decode
