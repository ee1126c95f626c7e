import Mathlib.Algebra.Order.Field.Basic
import Mathlib.Order.WithBot
import Mathlib.Algebra.Order.Monoid.WithTop
/-!
# The MERT semiring of upper envelopes

Models training/dpmert/mert_geometry.{h,cc}.  Numbers are elements of an ordered field (the code uses `double`); `x` is
`⊥` for minus infinity.  The pointers `p1`, `p2` and `edge` of a point are kept as the tree `Prov` of what they lead to
(the code never changes the object that a parent pointer leads to: a hull is sorted before it is multiplied, and afterwards
it is not added to).  Points are shared pointers in the code: `sortHeap` models
`Sort` on a heap, the other definitions work on the values pointed to.
-/
namespace Cdec.Mert
variable {K : Type} [Field K] [LinearOrder K]

/-- Where a point comes from, mert_geometry.h:27-35: nothing, an edge (by its number), or two parent points. -/
inductive Prov
  | none
  | edge (e : Nat)
  | pair (p1 p2 : Prov)
deriving DecidableEq

/-- `MERTPoint`, mert_geometry.h:14-42. -/
structure Pt (K : Type) where
  x : WithBot K
  m : K
  b : K
  prov : Prov
deriving DecidableEq

/-- `edge != NULL`. -/
def Pt.edge {K : Type} (p : Pt K) : Bool :=
  match p.prov with
  | .edge _ => true
  | _ => false

/-- `p1 || p2`. -/
def Pt.hasParents {K : Type} (p : Pt K) : Bool :=
  match p.prov with
  | .pair _ _ => true
  | _ => false

/-- A convex hull: its points and whether they are sorted, mert_geometry.h:48-77. -/
structure Hull (K : Type) where
  points : List (Pt K)
  isSorted : Bool

/-- The semiring one, mert_geometry.cc:11-12.  The constructor leaves `is_sorted` uninitialised; the model takes
the value as an argument. -/
def Hull.one (garbage : Bool) : Hull K := ⟨[⟨(0 : K), 0, 0, .none⟩], garbage⟩

/-- The hull of an edge, mert_geometry.cc:20-25 with mert_geometry.h:19,54. -/
def Hull.ofEdge (m b : K) (e : Nat) : Hull K := ⟨[⟨⊥, m, b, .edge e⟩], true⟩

/-- The `while` loop at mert_geometry.cc:72-76 on the stack `points[j-1], ..., points[0]` (top first): removes points
until the breakpoint with the top is to the right of the top's; the result is the remaining stack and `l.x`. -/
def popWhile (l : Pt K) : List (Pt K) → WithBot K → List (Pt K) × WithBot K
  | [], _ => ([], ⊥)
  | t :: st, _ =>
    let lx : WithBot K := (((l.b - t.b) / (t.m - l.m) : K) : WithBot K)
    if t.x < lx then (t :: st, lx) else popWhile l st lx

/-- The body of the loop at mert_geometry.cc:64-80: the stack of kept points after considering `l`. -/
def sortStep (st : List (Pt K)) (l : Pt K) : List (Pt K) :=
  match st with
  | [] => [{ l with x := ⊥ }]
  | t :: st' =>
    if t.m = l.m then
      if l.b ≤ t.b then t :: st'
      else
        let r := popWhile l st' ⊥
        { l with x := r.2 } :: r.1
    else
      let r := popWhile l (t :: st') ⊥
      { l with x := r.2 } :: r.1

/-- mert_geometry.cc:62-82 on values, for points already in slope order. -/
def envelope (sorted : List (Pt K)) : List (Pt K) := (sorted.foldl sortStep []).reverse

/-- A function that permutes its argument into slope order, as `std::sort` with `SlopeCompare` does
(mert_geometry.cc:38-42,60). -/
structure IsSlopeSort (srt : List (Pt K) → List (Pt K)) : Prop where
  perm : ∀ l, (srt l).Perm l
  ordered : ∀ l, (srt l).Pairwise (fun a b => a.m ≤ b.m)

/-- `ConvexHull::Sort`, mert_geometry.cc:59-84. -/
def Hull.sort (srt : List (Pt K) → List (Pt K)) (h : Hull K) : Hull K := ⟨envelope (srt h.points), true⟩

/-- `if (!is_sorted) Sort()`. -/
def Hull.ensure (srt : List (Pt K) → List (Pt K)) (h : Hull K) : Hull K := if h.isSorted then h else h.sort srt

/-- `operator+=`, mert_geometry.cc:44-57 (with an empty left operand, `is_sorted` keeps its value). -/
def Hull.add (srt : List (Pt K) → List (Pt K)) (a b : Hull K) : Hull K :=
  let b := b.ensure srt
  if a.points = [] then ⟨b.points, a.isSorted⟩ else ⟨a.points ++ b.points, false⟩

/-- `IsMultiplicativeIdentity`, mert_geometry.h:58-59. -/
def Hull.isOne (h : Hull K) : Bool :=
  match h.points with
  | [p] => decide (p.b = 0) && decide (p.m = 0) && !p.edge && !p.hasParents
  | _ => false

/-- `IsEdgeEnvelope`, mert_geometry.h:67-68. -/
def Hull.edgePoint (h : Hull K) : Option (Pt K) :=
  match h.points with
  | [p] => if p.edge then some p else none
  | _ => none

/-- The x value of the point after the current one, or plus infinity: mert_geometry.cc:117-118,132-142. -/
def nextVal (l : List (Pt K)) : WithTop (WithBot K) :=
  match l with
  | _ :: p :: _ => (p.x : WithTop (WithBot K))
  | _ => ⊤

/-- The merge at mert_geometry.cc:119-144; the lists are the points from the current ones on, `x` is `cur_x`. -/
def merge : List (Pt K) → List (Pt K) → WithBot K → List (Pt K)
  | p :: ps, q :: qs, x =>
    ⟨x, p.m + q.m, p.b + q.b, .pair p.prov q.prov⟩ ::
      (if nextVal (p :: ps) < nextVal (q :: qs) then merge ps (q :: qs) ((nextVal (p :: ps)).untopD ⊥)
       else if nextVal (p :: ps) > nextVal (q :: qs) then merge (p :: ps) qs ((nextVal (q :: qs)).untopD ⊥)
       else merge ps qs ((nextVal (p :: ps)).untopD ⊥))
  | _, _, _ => []
termination_by a b => a.length + b.length

/-- `operator*=`, mert_geometry.cc:86-150. -/
def Hull.mul (srt : List (Pt K) → List (Pt K)) (a b : Hull K) : Hull K :=
  if b.isOne then a
  else if a.isOne then b
  else
    let a := a.ensure srt
    let b := b.ensure srt
    match a.edgePoint with
    | some e => ⟨b.points.map fun p => ⟨p.x, p.m + e.m, p.b + e.b, .pair e.prov p.prov⟩, a.isSorted⟩
    | none => ⟨merge a.points b.points ⊥, a.isSorted⟩

/-! ## Sort on a heap -/

/-- The `while` loop at mert_geometry.cc:72-76 on the heap: the new `j` and `l.x`. -/
def heapPop (H : Nat → Pt K) (points : List Nat) (l : Pt K) : Nat → WithBot K → Nat × WithBot K
  | 0, _ => (0, ⊥)
  | j + 1, _ =>
    let t := H (points.getD j 0)
    let lx : WithBot K := (((l.b - t.b) / (t.m - l.m) : K) : WithBot K)
    if t.x < lx then (j + 1, lx) else heapPop H points l j lx

/-- `*p = v`. -/
def heapSet (H : Nat → Pt K) (p : Nat) (v : Pt K) : Nat → Pt K := fun q => if q = p then v else H q

/-- The body of the loop at mert_geometry.cc:64-81 on the heap; the state is the heap and `j`. -/
def heapStep (points : List Nat) (s : (Nat → Pt K) × Nat) (i : Nat) : (Nat → Pt K) × Nat :=
  let l := { s.1 (points.getD i 0) with x := ⊥ }
  if s.2 = 0 then (heapSet s.1 (points.getD 0 0) l, 1)
  else
    let t := s.1 (points.getD (s.2 - 1) 0)
    if t.m = l.m ∧ l.b ≤ t.b then s
    else
      let j := if t.m = l.m then s.2 - 1 else s.2
      let r := heapPop s.1 points l j ⊥
      (heapSet s.1 (points.getD r.1 0) { l with x := r.2 }, r.1 + 1)

/-- `Sort`, mert_geometry.cc:61-83, after the call of `std::sort`: `points` are the addresses in slope order.  The
result is the heap and the remaining addresses. -/
def sortHeap (H : Nat → Pt K) (points : List Nat) : (Nat → Pt K) × List Nat :=
  let s := (List.range points.length).foldl (heapStep points) (H, 0)
  (s.1, points.take s.2)

end Cdec.Mert
