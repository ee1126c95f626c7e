import Verif.HG.Model
import Verif.Sparse.Model
import Mathlib.Analysis.SpecialFunctions.Exp
/-! # Reweighting -/
namespace Cdec.HG
open Cdec.Sparse

/-- `Hypergraph::Reweight`, decoder/hg.h:388-393: `edge_prob_.logeq(feature_values_.dot(weights))` for
every edge.  `feats e` is `edges_[e].feature_values_`; the result is `edges_[e].edge_prob_`. -/
noncomputable def reweight (feats : Nat → FSV ℝ) (weights : List ℝ) (e : Nat) : ℝ :=
  Real.exp ((feats e).dotDense weights)

/-- `FeatureVectorTraversal`, decoder/viterbi.h:191-200, on a default-constructed result. -/
noncomputable def featureTraversal (L : Nat) (feats : Nat → FSV ℝ) (e : Nat) (ants : List (FSV ℝ)) : FSV ℝ :=
  (ants.foldl (fun (r a : FSV ℝ) => r.plus L a) (FSV.empty : FSV ℝ)).plus L (feats e)

end Cdec.HG
