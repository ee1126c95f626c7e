import Verif.HG.InsideModel
import Verif.HG.ViterbiModel
/-!
# Sampling derivations from a forest

Models `decoder/hg_sampler.cc:19-75` (`sample_hypotheses`, one sample; `sample_trees`, 77-128, is the same loop) and
`RandomNumberGenerator::SelectSample` at temperature 1, `utils/sampler.h:127-167`.  `us k` is the `k`-th number the
generator returns; numbers are elements of an ordered field instead of log-domain doubles.  `none` is a failed assertion
(or a run cut off by `fuel`).
-/
namespace Cdec.HG
variable {α : Type} {K : Type} [Zero K] [One K] [Add K] [Mul K] [LT K] [DecidableRel (fun a b : K => a < b)]

/-- sampler.h:157-159: `for (; position < size && sum < random; ++position) sum += scores[position]`; the remaining scores
are the first argument. -/
def selectLoop : List K → K → K → Nat → Nat
  | [], _, _, position => position
  | p :: ps, sum, random, position =>
    if sum < random then selectLoop ps (sum + p) random (position + 1) else position

/-- `SelectSample`, sampler.h:127-167. -/
def selectSample (scores : List K) (u : K) : Nat :=
  match scores with
  | [] => 0
  | [_] => 0
  | p :: ps => selectLoop ps p (u * scores.foldl (· + ·) 0) 1 - 1

/-- hg_sampler.cc:42-69: the loop over the queue, with the number of draws so far; the result lists the edges in the order
in which they are sampled. -/
def sampleLoop (g : Hypergraph α) (w : Nat → K) (ins : List K) (us : Nat → K) : Nat → List Nat → Nat → Option (List Nat)
  | _, [], _ => some []
  | 0, _ :: _, _ => none
  | fuel + 1, v :: q, k =>
    match g.inE v with
    | [] => none
    | [e] => (sampleLoop g w ins us fuel (q ++ g.tails e) k).map (e :: ·)
    | e1 :: e2 :: es =>
      let e := (e1 :: e2 :: es).getD (selectSample ((e1 :: e2 :: es).map (insideEdge g w ins)) (us k)) 0
      (sampleLoop g w ins us fuel (q ++ g.tails e) (k + 1)).map (e :: ·)

/-- One iteration of the loop of `sample_hypotheses`, hg_sampler.cc:33-69. -/
def sampleEdges (g : Hypergraph α) (w : Nat → K) (us : Nat → K) (fuel : Nat) : Option (List Nat) :=
  sampleLoop g w (insideScores g w) us fuel [g.goal] 0

/-- `model_score`, hg_sampler.cc:40-41 and 66. -/
def sampledScore (w : Nat → K) (es : List Nat) : K := es.foldl (fun s e => s * w e) 1

/-- `fmap`, hg_sampler.cc:38 and 65; `feat e` are the feature values of the edge. -/
def sampledFeatures {F : Type} [Zero F] [Add F] (feat : Nat → F) (es : List Nat) : F := es.foldl (fun s e => s + feat e) 0

/-- `Viterbi(hg, &hyp.words, ESentenceTraversal(), SampledDerivationWeightFunction(sampled_edges))`, hg_sampler.cc:72 and
10-17; the weights 0 and 1 are natural numbers. -/
def sampledResult {T : Type} (g : Hypergraph α) (trav : Nat → List T → T) (d0 : T) (es : List Nat) : T :=
  ((viterbi g (fun e => if e ∈ es then (1 : Nat) else 0) trav (0, d0)).getLastD (0, d0)).2

end Cdec.HG
