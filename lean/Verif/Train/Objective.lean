import Mathlib.Analysis.SpecialFunctions.Log.Basic
/-!
# Objectives of the minimum-risk and pairwise-ranking optimisers

Models training/utils/risk.cc, training/utils/entropy.cc, `RiskObjective` of training/minrisk/minrisk_optimize.cc, and
`TrainingInference`, `ApplyRegularizationTerms` and `ProLoss` of training/pro/mr_pro_reduce.cc.  `double` is modelled by
the real numbers, and `prob_t` (numbers held as logarithms) by the number itself (C33).  A sparse vector is read through
its list of entries and accumulated as a map (C24).  `n` is the size of the weight vector.
-/
namespace Cdec.Train

/-- The entries of a sparse vector. -/
abbrev Feats := List (Nat × ℝ)
abbrev Vec := Nat → ℝ

/-- `FastSparseVector::dot(vector)`, fast_sparse_vector.h:382-391. -/
noncomputable def Feats.dot (f : Feats) (n : Nat) (x : Vec) : ℝ :=
  f.foldl (fun r e => if e.1 < n then r + e.2 * x e.1 else r) 0

/-- `g += f * c` for sparse vectors; also `GradAdd`, mr_pro_reduce.cc:93-98. -/
noncomputable def Vec.addScaled (g : Vec) (f : Feats) (c : ℝ) : Vec :=
  f.foldl (fun g e k => if k = e.1 then g k + e.2 * c else g k) g

/-- The map of a sparse vector. -/
noncomputable def Feats.vec (f : Feats) : Vec := Vec.addScaled (fun _ => 0) f 1

/-- `Candidate`, candidate_set.h; `score` is `metric_.ComputeScore(eval_feats)`. -/
structure Cand where
  fmap : Feats
  score : ℝ

/-- `log_z`, risk.cc:14-20 and entropy.cc:17-23. -/
noncomputable def logZ (n : Nat) (x : Vec) (cs : List Cand) : ℝ :=
  Real.log (cs.foldl (fun z c => z + Real.exp (c.fmap.dot n x)) 0)

/-- `exp_feats`, risk.cc:22-29. -/
noncomputable def expFeats (n : Nat) (x : Vec) (cs : List Cand) : Vec :=
  cs.foldl (fun v c => Vec.addScaled v c.fmap (Real.exp (c.fmap.dot n x - logZ n x cs))) fun _ => 0

/-- `cost`, risk.cc:35-36. -/
noncomputable def Cand.cost (isError : Bool) (c : Cand) : ℝ := if isError then c.score else 1 - c.score

/-- `CandidateSetRisk::operator()`, risk.cc:12-42: the risk and the gradient. -/
noncomputable def candRisk (isError : Bool) (n : Nat) (x : Vec) (cs : List Cand) : ℝ × Vec :=
  cs.foldl (fun s c =>
    let r := Real.exp (c.fmap.dot n x - logZ n x cs) * c.cost isError
    (s.1 + r, fun k => s.2 k + (c.fmap.vec k - expFeats n x cs k) * r)) (0, fun _ => 0)

/-- The loop of `CandidateSetEntropy::operator()`, entropy.cc:25-36: entropy, `*g` and `exp_feats`. -/
noncomputable def entropyLoop (n : Nat) (x : Vec) (cs : List Cand) : ℝ × Vec × Vec :=
  cs.foldl (fun s c =>
    let logProb := c.fmap.dot n x - logZ n x cs
    let prob := Real.exp logProb
    let e := prob * logProb
    (s.1 - e, Vec.addScaled s.2.1 c.fmap e, Vec.addScaled s.2.2 c.fmap prob)) (0, fun _ => 0, fun _ => 0)

/-- `CandidateSetEntropy::operator()`, entropy.cc:15-39. -/
noncomputable def candEntropy (n : Nat) (x : Vec) (cs : List Cand) : ℝ × Vec :=
  let s := entropyLoop n x cs
  (s.1, fun k => s.2.1 k + s.2.2 k * s.1)

/-- `RiskObjective::operator()`, minrisk_optimize.cc:60-83: the objective and the gradient. -/
noncomputable def riskObjective (isError : Bool) (T : ℝ) (training : List (List Cand)) (n : Nat) (x : Vec) : ℝ × Vec :=
  let s := training.foldl (fun (s : ℝ × ℝ × Vec) cs =>
    let r := candRisk isError n x cs
    let h := candEntropy n x cs
    (s.1 + r.1, s.2.1 + h.1, fun k => if T ≠ 0 then s.2.2 k + r.2 k + T * h.2 k else s.2.2 k + r.2 k)) (0, 0, fun _ => 0)
  (s.1 - T * s.2.1, s.2.2)

/-! ## Pairwise ranking -/

/-- A training instance: label and difference vector, mr_pro_reduce.cc:70-91. -/
abbrev Inst := Bool × Feats

/-- `log1p`. -/
noncomputable def log1p (a : ℝ) : ℝ := Real.log (1 + a)

open Classical in
/-- `lp_true` and `lp_false`, mr_pro_reduce.cc:125-135. -/
noncomputable def logProbs (d : ℝ) : ℝ × ℝ :=
  if 0 < -d then (-(-d + log1p (Real.exp d)), -log1p (Real.exp d))
  else (-log1p (Real.exp (-d)), -(d + log1p (Real.exp (-d))))

/-- `TrainingInference`, mr_pro_reduce.cc:119-153; `x[0]` is the bias. -/
noncomputable def trainingInference (n : Nat) (x : Vec) (corpus : List Inst) (g : Vec) : ℝ × Vec :=
  corpus.foldl (fun s c =>
    let lp := logProbs (c.2.dot n x + if 0 < n then x 0 else 0)
    if c.1 then
      (s.1 - lp.1, fun k => Vec.addScaled s.2 c.2 (-Real.exp lp.2) k - if k = 0 then Real.exp lp.2 else 0)
    else
      (s.1 - lp.2, fun k => Vec.addScaled s.2 c.2 (Real.exp lp.1) k + if k = 0 then Real.exp lp.1 else 0)) (0, g)

/-- `ApplyRegularizationTerms`, mr_pro_reduce.cc:100-117 (also mpi_flex_optimize.cc); `prev` is 0 beyond its size. -/
noncomputable def applyRegularization (C T : ℝ) (n : Nat) (x prev g : Vec) : ℝ × Vec :=
  (List.range n).foldl (fun s i =>
    (s.1 + C * x i * x i + T * (x i - prev i) * (x i - prev i),
      fun k => if k = i then s.2 k + 2 * C * x i + 2 * T * (x i - prev i) else s.2 k)) (0, g)

/-- `ProLoss::operator()`, mr_pro_reduce.cc:161-172: the loss and the gradient.  The gradient of the held-out set is
added to `g`, as the code does. -/
noncomputable def proLoss (C T : ℝ) (prev : Vec) (training testing : List Inst) (n : Nat) (x : Vec) : ℝ × Vec :=
  let s := trainingInference n x training fun _ => 0
  let g := if testing.length ≠ 0 then (trainingInference n x testing s.2).2 else s.2
  let r := applyRegularization C T n x prev g
  (s.1 + r.1, r.2)

end Cdec.Train
