import Verif.Train.ObjectiveSpec
import Verif.HG.InsideModel
import Verif.HG.Spec
/-!
# The objective of conditional-likelihood training

Models `TrainingObserver` and the Gaussian prior of training/crf/mpi_batch_optimize.cc, with one process.  `double` is
modelled by the real numbers and `prob_t` by the number itself (C33); the sparse vector of expectations is computed one
coordinate at a time.  The test set, which does not influence training, and the count of words are not modelled.
-/
namespace Cdec.Train
open HG

/-- A forest with the features of its edges. -/
structure Forest where
  g : Hypergraph Unit
  feats : Nat → Feats

/-- `edge_prob_` after `Reweight` (C10), read by `EdgeProb`, hg.h. -/
noncomputable def Forest.edgeProb (f : Forest) (n : Nat) (x : Vec) (e : Nat) : ℝ := Real.exp ((f.feats e).dot n x)

/-- The return value of `InsideOutside`, inside_outside.h:173-186. -/
noncomputable def Forest.z (f : Forest) (n : Nat) (x : Vec) : ℝ := inside f.g (f.edgeProb n x)

/-- Coordinate `k` of the expectations that `InsideOutside` computes with `EdgeFeaturesAndProbWeightFunction`
(inside_outside.h:173-186, hg.h), divided by `z` (mpi_batch_optimize.cc:110-115, 122-127). -/
noncomputable def Forest.exp (f : Forest) (n : Nat) (x : Vec) (k : Nat) : ℝ :=
  expect f.g (fun e => (f.feats e).vec k * f.edgeProb n x e) (insideScores f.g (f.edgeProb n x))
    (outsideScores f.g (f.edgeProb n x) (insideScores f.g (f.edgeProb n x)) 1) / f.z n x

/-- A sentence: its translation forest, and its alignment forest unless the reference is unreachable. -/
structure Sent where
  model : Forest
  ref : Option Forest

open Classical in
/-- `NotifyTranslationForest` and `NotifyAlignmentForest`, mpi_batch_optimize.cc:107-150, on `acc_obj` and `acc_grad`;
`none` is the exit at lines 140-144. -/
noncomputable def observe (n : Nat) (x : Vec) (s : ℝ × Vec) (sent : Sent) : Option (ℝ × Vec) :=
  match sent.ref with
  | none => some s
  | some r =>
    if Real.log (sent.model.z n x) - Real.log (r.z n x) < -1e-6 then none
    else some (s.1 + (Real.log (sent.model.z n x) - Real.log (r.z n x)),
      fun k => s.2 k - (r.exp n x k - sent.model.exp n x k))

/-- The decoding loop, mpi_batch_optimize.cc:281-285: objective and gradient. -/
noncomputable def corpusObjective (n : Nat) (x : Vec) (corpus : List Sent) : Option (ℝ × Vec) :=
  corpus.foldlM (observe n x) (0, fun _ => 0)

open Classical in
/-- The Gaussian prior, mpi_batch_optimize.cc:320-334; feature 0 is not used. -/
noncomputable def gaussianPrior (sigsq : ℝ) (means : Vec) (n : Nat) (x : Vec) (o : ℝ × Vec) : ℝ × Vec :=
  let s := (List.range' 1 (n - 1)).foldl (fun (s : ℝ × Vec) k =>
    if x k ≠ 0 then
      (s.1 + (x k - means k) * (x k - means k), fun j => if j = k then s.2 j + (x k - means k) / sigsq else s.2 j)
    else s) (0, o.2)
  (o.1 + s.1 / (2 * sigsq), s.2)

end Cdec.Train

namespace Cdec.Train.Spec
open HG

/-- Score of a derivation. -/
noncomputable def score (f : Forest) (x : Vec) (t : Tree) : ℝ := (t.edges.map fun e => inner (f.feats e) x).sum

/-- Total weight of derivations. -/
noncomputable def mass (f : Forest) (ds : List Tree) (x : Vec) : ℝ := (ds.map fun t => Real.exp (score f x t)).sum

/-- Minus the conditional log-likelihood of the references that are reachable; `D` lists the derivations of forests. -/
noncomputable def negLogLik (D : Forest → List Tree) (corpus : List Sent) (x : Vec) : ℝ :=
  -(corpus.map fun s => match s.ref with
    | none => 0
    | some r => Real.log (mass r (D r) x / mass s.model (D s.model) x)).sum

/-- Squared distance from the means, features 1 to `n - 1`. -/
noncomputable def prior (sigsq : ℝ) (means : Vec) (n : Nat) (x : Vec) : ℝ :=
  ((List.range' 1 (n - 1)).map fun k => (x k - means k) ^ 2).sum / (2 * sigsq)

end Cdec.Train.Spec
