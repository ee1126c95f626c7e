import Verif.Klm.Quantize
import Mathlib.Algebra.Order.Group.Abs
/-!
# What quantisation should do

Nothing here mentions indices or the loops of the program.
-/
namespace Cdec.Klm.Quantize

/-- The arithmetic mean. -/
def average (l : List Rat) : Rat := l.sum / (l.length : Rat)

/-- `bs` divides the values, in increasing order, into `k` consecutive bins of equal size (up to one). -/
structure Binning (values : List Rat) (k : Nat) (bs : List (List Rat)) : Prop where
  count : bs.length = k
  perm : bs.flatten.Perm values
  sorted : bs.flatten.Pairwise (· ≤ ·)
  equal : ∀ b ∈ bs, b.length = values.length / k ∨ b.length = values.length / k + 1

/-- `x` is the average of a bin, and no average of a bin is closer to `v`. -/
def Nearest (bs : List (List Rat)) (v x : Rat) : Prop :=
  (∃ b ∈ bs, b ≠ [] ∧ x = average b) ∧ ∀ b ∈ bs, b ≠ [] → |v - x| ≤ |v - average b|

end Cdec.Klm.Quantize
