import Verif.Train.RProp
import Mathlib.Data.Real.Sign
/-!
# What RProp should do

The algorithm in terms of the derivatives of one variable, as they are at the evaluations number 0, 1, ...
-/
namespace Cdec.Train.RProp

/-- The derivative has changed its sign since the evaluation before, which has not been a turn itself. -/
def Turned (g : Nat → ℝ) : Nat → Prop
  | 0 => False
  | t + 1 => ¬ Turned g t ∧ g (t + 1) * g t < 0

/-- The derivative has the sign that it had at the evaluation before, which has not been a turn. -/
def Kept (g : Nat → ℝ) : Nat → Prop
  | 0 => False
  | t + 1 => ¬ Turned g t ∧ 0 < g (t + 1) * g t

/-- The rule of RProp for the values `x` of a variable and its step sizes `d`: after a turn the step gets smaller and the
variable stays; if the derivative keeps its sign then the step gets larger; and but for turns the variable moves by the
step against the derivative. -/
def Rule (p : Params) (g x d : Nat → ℝ) : Prop :=
  d 0 = p.delta0 ∧ ∀ t,
    (Turned g t → d (t + 1) = max (d t * p.etaMinus) p.deltaMin ∧ x (t + 1) = x t) ∧
    (Kept g t → d (t + 1) = min (d t * p.etaPlus) p.deltaMax) ∧
    (¬ Turned g t → ¬ Kept g t → d (t + 1) = d t) ∧
    (¬ Turned g t → g t ≠ 0 → x (t + 1) = x t - d (t + 1) * Real.sign (g t))

/-- The weights are `x i t`, for variable `i`, after evaluations number 0 to `t - 1` with the gradients `G`, if
the optimiser is new and the weights are `x0` at first. -/
def Runs {n : Nat} (p : Params) (G : Nat → Fin n → Num) (x0 : Fin n → ℝ) (x : Fin n → Nat → ℝ) : Prop :=
  ∀ t, ∃ s, run p (new p n) (List.ofFn x0) ((List.range t).map fun k => List.ofFn (G k)) = some (s, List.ofFn fun i => x i t) ∧
    s.eval = t + 1

/-- The Euclidean norm. -/
noncomputable def norm2 (l : List ℝ) : ℝ := Real.sqrt (l.map (· ^ 2)).sum

end Cdec.Train.RProp
