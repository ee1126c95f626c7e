import Verif.HG.Spec
import Mathlib.Algebra.Order.Monoid.Unbundled.Basic
import Mathlib.Algebra.Order.Monoid.Defs
/-!
# What a k-best list is

Nothing here refers to the algorithm.
-/
namespace Cdec.Dec.KBest.Spec
open Cdec.HG
variable {W T α : Type}

/-- The yield of a derivation: the traversal function applied bottom up. -/
def yieldOf (traverse : Nat → List T → T) : Tree → T
  | .node e ch => traverse e (ch.map fun t => yieldOf traverse t)

variable [Mul W] [One W] [LinearOrder W]

/-- `L` is an initial part of a list of the derivations of `v` from best to worst: its elements are derivations of `v`, no one occurs twice, weights do not increase,
and no derivation that is missing is better than one that is listed. -/
structure Ranking (g : Hypergraph α) (w : Nat → W) (v : Nat) (L : List Tree) : Prop where
  deriv : ∀ t ∈ L, IsDeriv g v t
  nodup : L.Nodup
  sorted : L.Pairwise fun a b => b.weight w ≤ a.weight w
  best : ∀ t, IsDeriv g v t → t ∉ L → ∀ t' ∈ L, t.weight w ≤ t'.weight w

/-- `L` is an initial part of a list of the yields of `v` from best to worst, with a best derivation for each: no two elements have the same yield,
weights do not increase, no derivation is better than the listed one with the same yield, and no derivation with a yield that is not listed is better than one
that is listed. -/
structure UniqueRanking (g : Hypergraph α) (w : Nat → W) (traverse : Nat → List T → T) (v : Nat) (L : List Tree) : Prop where
  deriv : ∀ t ∈ L, IsDeriv g v t
  nodup : (L.map (yieldOf traverse)).Nodup
  sorted : L.Pairwise fun a b => b.weight w ≤ a.weight w
  best_same : ∀ t, IsDeriv g v t → ∀ t' ∈ L, yieldOf traverse t = yieldOf traverse t' → t.weight w ≤ t'.weight w
  best : ∀ t, IsDeriv g v t → yieldOf traverse t ∉ L.map (yieldOf traverse) → ∀ t' ∈ L, t.weight w ≤ t'.weight w

end Cdec.Dec.KBest.Spec
