import Verif.Train.Objective
import Mathlib.Analysis.Calculus.Deriv.Basic
/-!
# Specification: risk, entropy, logistic loss and gradients
-/
namespace Cdec.Train.Spec

/-- Inner product of a feature vector with the weights. -/
noncomputable def inner (f : Feats) (x : Vec) : ℝ := (f.map fun e => e.2 * x e.1).sum

/-- Probability of a candidate in the log-linear model with weights `x`. -/
noncomputable def prob (cs : List Cand) (x : Vec) (c : Cand) : ℝ :=
  Real.exp (inner c.fmap x) / (cs.map fun c' => Real.exp (inner c'.fmap x)).sum

/-- Expected cost. -/
noncomputable def risk (isError : Bool) (cs : List Cand) (x : Vec) : ℝ :=
  (cs.map fun c => prob cs x c * if isError then c.score else 1 - c.score).sum

/-- Entropy of the distribution over the candidates. -/
noncomputable def entropy (cs : List Cand) (x : Vec) : ℝ := -(cs.map fun c => prob cs x c * Real.log (prob cs x c)).sum

/-- The objective: total risk minus `T` times the total entropy. -/
noncomputable def objective (isError : Bool) (T : ℝ) (training : List (List Cand)) (x : Vec) : ℝ :=
  (training.map fun cs => risk isError cs x).sum - T * (training.map fun cs => entropy cs x).sum

/-- `g` is the gradient of `F` at `x` in the first `n` coordinates: the derivative of `F` in every direction is the inner
product of the direction with `g`. -/
def IsGradient (n : Nat) (F : Vec → ℝ) (x g : Vec) : Prop :=
  ∀ d : Vec, (∀ k, n ≤ k → d k = 0) →
    HasDerivAt (fun t : ℝ => F fun k => x k + t * d k) ((List.range n).map fun k => g k * d k).sum 0

/-- Negative log-likelihood of the labels in the logistic model with bias `x 0`. -/
noncomputable def logLoss (corpus : List Inst) (x : Vec) : ℝ :=
  -(corpus.map fun c => Real.log (if c.1 then 1 / (1 + Real.exp (-(inner c.2 x + x 0))) else
    1 - 1 / (1 + Real.exp (-(inner c.2 x + x 0))))).sum

/-- Squared distances from zero and from the previous weights. -/
noncomputable def penalty (C T : ℝ) (prev : Vec) (n : Nat) (x : Vec) : ℝ :=
  C * ((List.range n).map fun k => x k ^ 2).sum + T * ((List.range n).map fun k => (x k - prev k) ^ 2).sum

end Cdec.Train.Spec
