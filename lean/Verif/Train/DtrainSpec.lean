import Verif.Train.Dtrain
import Verif.Train.MiraSpec
/-!
# What ranking training should do
-/
namespace Cdec.Train.Dtrain
open Cdec.Train.Mira (Vec)
variable {H : Type}

/-- What `std::sort` does: the same elements in an order in which `lt` never holds between a later and an earlier one. -/
def Sorts {A : Type} (key : A → ℚ) (srt : List A → List A) : Prop :=
  ∀ l, (srt l).Perm l ∧ (srt l).Pairwise fun a b => key b ≤ key a

/-- A pair to learn from: the first is better than the second, by the threshold if there is one; if only errors are
wanted, the model does not prefer the better one. -/
def Wanted (V : View H) (threshold : ℚ) (mis : Bool) (a b : H) : Prop :=
  V.score b < V.score a ∧ (0 < threshold → threshold ≤ V.score a - V.score b) ∧ (mis = true → V.model a ≤ V.model b)

/-- One of the best: fewer than `sep` of the samples are better. -/
def Hi (V : View H) (sep : Nat) (samples : List H) (a : H) : Prop := samples.countP (fun x => decide (V.score a < V.score x)) < sep

/-- One of the worst: fewer than `sep` of the samples are worse. -/
def Lo (V : View H) (sep : Nat) (samples : List H) (a : H) : Prop := samples.countP (fun x => decide (V.score x < V.score a)) < sep

/-- The difference that PRO ranks pairs by. -/
def gap (V : View H) (p : H × H) : ℚ := |V.score p.1 - V.score p.2|

/-- The pairwise hinge loss with a margin. -/
noncomputable def hinge (margin : ℚ) (pairs : List (Hyp × Hyp)) (w : Vec) : ℚ :=
  (pairs.map fun p => max 0 (margin - (Mira.inner p.1.f w - Mira.inner p.2.f w))).sum

/-- `g` is a subgradient of `L` at `w`. -/
def Subgradient (L : Vec → ℚ) (w g : Vec) : Prop := ∀ v, L w + Mira.inner g (v - w) ≤ L v

/-- The decoder gives at least one hypothesis, and the model score of a hypothesis is that of its features. -/
def Decodes (decode : Vec → Nat → List Hyp) : Prop :=
  ∀ w i, decode w i ≠ [] ∧ ∀ h ∈ decode w i, h.model = Mira.inner h.f w

/-- Sampling takes pairs from the list, and if it is told to, only those that the model ranks wrongly. -/
def Samples (pairs : Bool → List Hyp → Option (List (Hyp × Hyp))) : Prop :=
  ∀ mis l, l ≠ [] → ∃ ps, pairs mis l = some ps ∧ ∀ p ∈ ps, p.1 ∈ l ∧ p.2 ∈ l ∧ (mis = true → p.1.model ≤ p.2.model)

/-- A step of length `eta` against a subgradient of the loss on the pairs of sentence `i`. -/
def SentenceStep (c : Config) (i : Nat) (u u' : Vec) : Prop :=
  ∃ ps g, c.pairs c.faster (c.decode u i) = some ps ∧ Subgradient (hinge c.lossMargin ps) u g ∧ u' = u - c.eta • g

/-- The score of the best hypothesis. -/
def topScore (c : Config) (u : Vec) (i : Nat) : ℚ := ((c.decode u i).head?.map Hyp.score).getD 0

/-- One pass over the sentences, from weights `w` to `w'`; `avg` is the average score. -/
def Pass (c : Config) (w w' : Vec) (avg : ℚ) : Prop :=
  if c.batch then
    ∃ (pss : List (List (Hyp × Hyp))) (g : Vec), (∀ i < c.n, ∃ ps, pss[i]? = some ps ∧ c.pairs c.faster (c.decode w i) = some ps) ∧ pss.length = c.n ∧
      Subgradient (hinge c.lossMargin pss.flatten) w g ∧ w' = w - c.eta • g ∧
      avg = (∑ i ∈ Finset.range c.n, topScore c w i) / c.n
  else
    ∃ u : Nat → Vec, u 0 = w ∧ u c.n = w' ∧ (∀ i < c.n, SentenceStep c i (u i) (u (i + 1))) ∧
      avg = (∑ i ∈ Finset.range c.n, topScore c (u i) i) / c.n

end Cdec.Train.Dtrain
