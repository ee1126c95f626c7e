import Mathlib.Data.List.Basic
import Mathlib.Data.Finset.Dedup
import Mathlib.Algebra.BigOperators.Group.Finset.Basic
/-! # What BLEU's statistics should be -/
namespace Cdec.Bleu.Spec

variable {W : Type _} [DecidableEq W]

/-- The n-grams of a sentence, one for each position at which one starts. -/
def ngrams (n : Nat) (s : List W) : List (List W) :=
  (List.range (s.length + 1 - n)).map fun j => (s.drop j).take n

/-- The largest number of times the n-gram occurs in a reference. -/
def maxRefCount (refs : List (List W)) (g : List W) : Nat :=
  (refs.map fun r => (ngrams g.length r).count g).foldr max 0

/-- The clipped number of matches of order `n`. -/
def clippedMatches (n : Nat) (refs : List (List W)) (hyp : List W) : Nat :=
  ∑ g ∈ (ngrams n hyp).toFinset, min ((ngrams n hyp).count g) (maxRefCount refs g)

end Cdec.Bleu.Spec
