import Verif.Train.Mira
import Mathlib.Algebra.BigOperators.Intervals
/-!
# What the passive-aggressive algorithm should do
-/
namespace Cdec.Train.Mira
open Finset

/-- The inner product, over any finite set of features that contains those of the first vector. -/
noncomputable def inner (f w : Vec) : ℚ := ∑ k ∈ f.support, f k * w k

/-- How far the weights are from giving the good hypothesis a lead over the bad one that is as large as the (scaled)
difference of their metrics. -/
noncomputable def violation (scale : ℚ) (good bad : Hyp) (w : Vec) : ℚ :=
  max 0 (scale * (good.metric - bad.metric) - (inner good.features w - inner bad.features w))

/-- The problem that a passive-aggressive step solves: stay close to the weights `u`, and violate the margin little. -/
noncomputable def objective (C scale : ℚ) (u : Vec) (good bad : Hyp) (w : Vec) : ℚ :=
  inner (w - u) (w - u) / 2 + C * violation scale good bad w

/-- The mean of the vectors number 0 to `t`. -/
noncomputable def meanOf (w : Nat → Vec) (t : Nat) : Vec := (1 / ((t : ℚ) + 1)) • ∑ i ∈ range (t + 1), w i

/-- The weights that the program decodes sentence number `t` with, if `w t` are those after `t` updates: at the
beginning of a pass other than the first these are the mean of all weights so far, else the current weights. -/
noncomputable def decodingWeights (n : Nat) (w : Nat → Vec) (t : Nat) : Vec :=
  if t % n = 0 ∧ t ≠ 0 then meanOf w t else w t

/-- The sentence that is number `t`. -/
def sentenceAt (c : Config) (t : Nat) : Nat := c.order (t / c.n) (t % c.n)

/-- The hypotheses for the sentence number `t` that have been seen up to it. -/
def Seen (c : Config) (w : Nat → Vec) (t : Nat) (h : Hyp) : Prop :=
  ∃ t', t' ≤ t ∧ sentenceAt c t' = sentenceAt c t ∧ h ∈ c.decode (decodingWeights c.n w t') (sentenceAt c t')

/-- A metric is as good as another if they are the same or if their difference is below a millionth of the second. -/
def AsGood (a b : ℚ) : Prop := a = b ∨ 1000000 * |a - b| < |b|

/-- The update for sentence number `t`: between a best hypothesis seen so far and a worst one of the present list; no
change if the first of the list is as good as the good one, else a step from the weights of decoding to the solution. -/
def Updates (c : Config) (w : Nat → Vec) (t : Nat) : Prop :=
  ∃ first rest good bad, c.decode (decodingWeights c.n w t) (sentenceAt c t) = first :: rest ∧
    (Seen c w t good ∧ ∀ h, Seen c w t h → h.metric ≤ good.metric) ∧
    (bad ∈ first :: rest ∧ ∀ h ∈ first :: rest, bad.metric ≤ h.metric) ∧
    (AsGood first.metric good.metric → w (t + 1) = w t) ∧
    (¬ AsGood first.metric good.metric →
      ∀ v, objective c.C c.scale (decodingWeights c.n w t) good bad (decodingWeights c.n w t + (w (t + 1) - w t)) ≤
        objective c.C c.scale (decodingWeights c.n w t) good bad v)

end Cdec.Train.Mira
