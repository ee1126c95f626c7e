import Mathlib.Algebra.BigOperators.Group.List.Basic
import Mathlib.Algebra.Ring.Defs
import Mathlib.Data.List.Sublists
/-!
# What the string subsequence kernel is

The places of a subsequence are a sublist of the list of all places.  Nothing here refers to tables.
-/
namespace Cdec.Mteval.Ssk.Spec
variable {K α : Type} [CommSemiring K] [DecidableEq α]

/-- The choices of places in a string of `n` symbols. -/
def places (n : Nat) : List (List Nat) := (List.range n).sublists

/-- From the first place to the last one. -/
def span (I : List Nat) : Nat := I.getLastD 0 + 1 - I.headD 0

/-- The symbols at places. -/
def at' (s : List α) (I : List Nat) : List (Option α) := I.map fun i => s[i]?

/-- The kernel: over all choices of `1` to `N` places in `s` and `t` with the same symbols, the powers of `lam` by the lengths of the spans. -/
def kernel (N : Nat) (lam : K) (s t : List α) : K :=
  ((places s.length).map fun I => ((places t.length).map fun J =>
    if 1 ≤ I.length ∧ I.length ≤ N ∧ at' s I = at' t J then lam ^ span I * lam ^ span J else 0).sum).sum

end Cdec.Mteval.Ssk.Spec
