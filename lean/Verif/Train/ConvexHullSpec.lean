import Verif.Train.ConvexHull
/-!
# Specification of upper envelopes

Independent of the algorithms: the value of a set of lines at a point is the largest of the values of the lines, and a
list of segments is an upper envelope when the segments are in order from minus infinity on and the line of every
segment is a highest line all over the segment.
-/
namespace Cdec.Mert.Spec
variable {K : Type} [Field K] [LinearOrder K]

/-- The value of the line of a point at `x`. -/
def lineAt (p : Pt K) (x : K) : K := p.m * x + p.b

/-- The largest value at `x` of the lines of `pts`; `⊥` if there are none. -/
def value (pts : List (Pt K)) (x : K) : WithBot K := (pts.map fun p => ((lineAt p x : K) : WithBot K)).foldr max ⊥

/-- The points are segments, in order, each with a line that is maximal from its start to the start of the next. -/
structure Segmented (pts : List (Pt K)) : Prop where
  first : ∀ p, pts.head? = some p → p.x = ⊥
  increasing : pts.Pairwise (fun p q => p.x < q.x)
  maximal : ∀ (k : Nat) (p : Pt K), pts[k]? = some p → ∀ x : K, p.x ≤ (x : WithBot K) →
    (∀ q, pts[k + 1]? = some q → (x : WithBot K) ≤ q.x) → ∀ q ∈ pts, lineAt q x ≤ lineAt p x

/-- What holds of every hull the program builds: a hull marked sorted consists of segments (the multiplicative
identity, whose mark is not initialised, is excepted). -/
def Valid (h : Hull K) : Prop := h.isOne = true ∨ (h.isSorted = true → Segmented h.points)

end Cdec.Mert.Spec
