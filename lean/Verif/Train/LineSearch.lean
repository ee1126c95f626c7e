import Verif.Train.ConvexHull
import Mathlib.Algebra.BigOperators.Group.List.Basic
/-!
# Error surfaces and line search

Models training/dpmert/line_optimizer.cc, training/dpmert/ces.cc and the statistics of mteval/ns.h.  Numbers are
elements of an ordered field; a breakpoint at minus infinity is `⊥`, and `none` stands for a position that is not a
number.
-/
namespace Cdec.Mert

/-! ## Sufficient statistics -/

section Stats
variable {K : Type} [Field K] [DecidableEq K]

/-- `SufficientStats::operator+=` on the fields, mteval/ns.h:22-29. -/
def statsAdd : List K → List K → List K
  | [], b => b
  | a, [] => a
  | x :: a, y :: b => (x + y) :: statsAdd a b

/-- `SufficientStats::operator-=` on the fields, mteval/ns.h:30-37. -/
def statsSub : List K → List K → List K
  | [], b => b.map fun y => -y
  | a, [] => a
  | x :: a, y :: b => (x - y) :: statsSub a b

/-- `IsAdditiveIdentity`, mteval/ns.h:51-55. -/
def statsIsZero (a : List K) : Bool := a.all fun x => decide (x = 0)

/-- `SufficientStats`, mteval/ns.h:13-75 (the metric name `id_` is not modelled). -/
structure Stats (K : Type) where
  fields : List K
deriving DecidableEq

instance : Add (Stats K) := ⟨fun a b => ⟨statsAdd a.fields b.fields⟩⟩

instance : Sub (Stats K) := ⟨fun a b => ⟨statsSub a.fields b.fields⟩⟩

/-- The default constructor, mteval/ns.h:15. -/
instance : Zero (Stats K) := ⟨⟨[]⟩⟩

/-- `operator[]`, mteval/ns.h:57-60. -/
def Stats.get (a : Stats K) (i : Nat) : K := a.fields.getD i 0

theorem statsAdd_nil (a : List K) : statsAdd a [] = a := by cases a <;> rfl

theorem statsAdd_comm (a b : List K) : statsAdd a b = statsAdd b a := by
  induction a generalizing b with
  | nil => rw [statsAdd_nil]; rfl
  | cons x a ih =>
    cases b with
    | nil => rfl
    | cons y b =>
      show (x + y) :: statsAdd a b = (y + x) :: statsAdd b a
      rw [ih b, add_comm]

theorem statsAdd_assoc (a b c : List K) : statsAdd (statsAdd a b) c = statsAdd a (statsAdd b c) := by
  induction a generalizing b c with
  | nil => rfl
  | cons x a ih =>
    cases b with
    | nil => rfl
    | cons y b =>
      cases c with
      | nil => rfl
      | cons z c =>
        show (x + y + z) :: statsAdd (statsAdd a b) c = (x + (y + z)) :: statsAdd a (statsAdd b c)
        rw [ih, add_assoc]

instance : AddCommMonoid (Stats K) where
  add_assoc a b c := congrArg Stats.mk (statsAdd_assoc a.fields b.fields c.fields)
  add_comm a b := congrArg Stats.mk (statsAdd_comm a.fields b.fields)
  zero_add a := rfl
  add_zero a := congrArg Stats.mk (statsAdd_nil a.fields)
  nsmul := nsmulRec

end Stats

/-- `ErrorSegment`, training/dpmert/error_surface.h:11-15. -/
structure Seg (K S : Type) where
  x : WithBot K
  delta : S
deriving DecidableEq

/-! ## ComputeErrorSurface -/

section CES
variable {K : Type} [Field K] [DecidableEq K]

/-- The state of the loop of `ComputeErrorSurface`: `prev_trans`, `prev_score`, and the segments written. -/
structure CState (K : Type) where
  prevTrans : List Nat
  prevScore : Stats K
  out : List (Seg K (Stats K))

/-- The body of the loop, training/dpmert/ces.cc:28-82, with `minimize_segments` true.  The argument is the start of the
segment and its translation. -/
def cesStep (eval : List Nat → Stats K) (s : CState K) (seg : WithBot K × List Nat) : CState K :=
  if seg.2 = s.prevTrans then s
  else
    let score := eval seg.2
    let delta := score - s.prevScore
    ⟨seg.2, score, if statsIsZero delta.fields then s.out else s.out ++ [⟨seg.1, delta⟩]⟩

/-- `ComputeErrorSurface`, training/dpmert/ces.cc:18-87 (the assertion that a segment is left is not modelled). -/
def computeErrorSurface (eval : List Nat → Stats K) (segs : List (WithBot K × List Nat)) : List (Seg K (Stats K)) :=
  (segs.foldl (cesStep eval) ⟨[], 0, []⟩).out

end CES

/-! ## LineOptimize -/

section Line
variable {K : Type} [Field K] [LinearOrder K] {S R : Type} [AddCommMonoid S] [LinearOrder R]

/-- `ScoreType`, training/dpmert/line_optimizer.h:17. -/
inductive ScoreType
  | maximize
  | minimize
deriving DecidableEq

/-- A strictly better score, line_optimizer.cc:46-47. -/
def better : ScoreType → R → R → Bool
  | .maximize, sco, best => decide (best < sco)
  | .minimize, sco, best => decide (sco < best)

/-- `seg.x - last_boundary > epsilon`, line_optimizer.cc:44; the difference of two infinities is not a number. -/
def exceeds (eps : K) : WithBot K → WithBot K → Bool
  | some a, some b => decide (eps < a - b)
  | some _, none => true
  | none, _ => false

/-- `seg.x - 0.1`, line_optimizer.cc:50. -/
def leftPos : WithBot K → Option K
  | some a => some (a - 1 / 10)
  | none => none

/-- `last_boundary + (seg.x - last_boundary) / 2`, line_optimizer.cc:53. -/
def midPos : WithBot K → WithBot K → Option K
  | some b, some a => some (b + (a - b) / 2)
  | _, _ => none

/-- `last_boundary + 1000.0`, line_optimizer.cc:76. -/
def endPos : WithBot K → Option K
  | some b => some (b + 1000)
  | none => none

/-- The variables of the loop. -/
structure LState (K S R : Type) where
  acc : S
  last : WithBot K
  best : R
  leftEdge : Bool
  pos : Option K

/-- The `if` at line_optimizer.cc:44-63. -/
def lineCheck (metric : S → R) (type : ScoreType) (eps : K) (s : LState K S R) (x : WithBot K) : LState K S R :=
  if exceeds eps x s.last then
    if better type (metric s.acc) s.best then
      ⟨s.acc, x, metric s.acc, false, if s.leftEdge then leftPos x else midPos s.last x⟩
    else { s with last := x }
  else s

/-- The body of the loop, line_optimizer.cc:43-68. -/
def lineStep (metric : S → R) (type : ScoreType) (eps : K) (s : LState K S R) (seg : Seg K S) : LState K S R :=
  let s := lineCheck metric type eps s seg.x
  { s with acc := s.acc + seg.delta }

/-- After the loop, line_optimizer.cc:69-79. -/
def lineEnd (metric : S → R) (type : ScoreType) (s : LState K S R) : R × Option K :=
  if better type (metric s.acc) s.best then
    (metric s.acc, if s.leftEdge then some 0 else endPos s.last)
  else (s.best, s.pos)

/-- `std::sort` with `IntervalComp`: any permutation into the order of the breakpoints, line_optimizer.cc:14-18,34. -/
structure IsXSort (srt : List (Seg K S) → List (Seg K S)) : Prop where
  perm : ∀ l, (srt l).Perm l
  ordered : ∀ l, (srt l).Pairwise (fun a b => a.x ≤ b.x)

/-- `LineOptimize`, line_optimizer.cc:20-80: the best score and its position.  `worst` is the initial value of the best
score.  `none` when there is no segment: `all_ints.front()` is then undefined. -/
def lineOptimize (srt : List (Seg K S) → List (Seg K S)) (metric : S → R) (type : ScoreType) (worst : R) (eps : K)
    (surfaces : List (List (Seg K S))) : Option (R × Option K) :=
  match srt surfaces.flatten with
  | [] => none
  | s :: l => some (lineEnd metric type ((s :: l).foldl (lineStep metric type eps) ⟨0, s.x, worst, true, none⟩))

end Line

end Cdec.Mert
