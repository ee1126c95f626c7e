import Mathlib.Analysis.SpecialFunctions.Sqrt
/-!
# RProp, the batch optimiser

training/utils/optimize.{h,cc} and the convergence test of training/utils/lbfgs.h.  Numbers are real: rounding is left
out, but the sign bit of a zero is not.  `LBFGSOptimizer` is not modelled.
-/
namespace Cdec.Train.RProp

/-- A component of the gradient: its value and what `signbit` says about it. -/
structure Num where
  val : ℝ
  neg : Bool

/-- The sign bit of a number other than zero is its sign; a zero may have either. -/
def Num.Ok (g : Num) : Prop := (g.val < 0 → g.neg = true) ∧ (0 < g.val → g.neg = false)

/-- The parameters of the constructor, optimize.h:53-58. -/
structure Params where
  etaPlus : ℝ
  etaMinus : ℝ
  delta0 : ℝ
  deltaMax : ℝ
  deltaMin : ℝ

/-- The assertions of the constructor, optimize.h:65-68. -/
def Params.Ok (p : Params) : Prop :=
  1 < p.etaPlus ∧ (0 < p.etaMinus ∧ p.etaMinus < 1) ∧ 0 < p.deltaMax ∧ 0 < p.deltaMin

/-- The default arguments, optimize.h:54-58. -/
noncomputable def defaults : Params :=
  { etaPlus := 12 / 10, etaMinus := 1 / 2, delta0 := 1 / 10, deltaMax := 50, deltaMin := 1 / 1000000 }

/-- `prev_g_[i]` and `delta_ij_[i]`, optimize.h:76-77. -/
structure Cell where
  prev : ℝ
  delta : ℝ

/-- `sign_i`, optimize.cc:48. -/
noncomputable def sign (g : Num) : ℝ := if g.neg then -1 else 1

/-- The body of the loop for one variable, optimize.cc:47-61. -/
noncomputable def one (p : Params) (g : Num) (c : Cell) (x : ℝ) : Cell × ℝ :=
  if 0 < g.val * c.prev then
    ({ prev := g.val, delta := min (c.delta * p.etaPlus) p.deltaMax }, x - min (c.delta * p.etaPlus) p.deltaMax * sign g)
  else if g.val * c.prev < 0 then
    ({ prev := 0, delta := max (c.delta * p.etaMinus) p.deltaMin }, x)
  else ({ prev := g.val, delta := c.delta }, x - c.delta * sign g)

/-- `RPropOptimizer::OptimizeImpl`, optimize.cc:43-63; `none` if there are fewer variables than gradients. -/
noncomputable def optimizeImpl (p : Params) : List Num → List Cell → List ℝ → Option (List Cell × List ℝ)
  | [], cs, xs => some (cs, xs)
  | g :: gs, c :: cs, x :: xs =>
    match optimizeImpl p gs cs xs with
    | some (cs', xs') => some ((one p g c x).1 :: cs', (one p g c x).2 :: xs')
    | none => none
  | _ :: _, _, _ => none

/-- The members, optimize.h:44-46, 76-77. -/
structure State where
  eval : Nat
  converged : Bool
  cells : List Cell

/-- The constructor, optimize.h:15, 53-64. -/
noncomputable def new (p : Params) (n : Nat) : State :=
  { eval := 1, converged := false, cells := List.replicate n { prev := 0, delta := p.delta0 } }

/-- `detail::ddot` of a vector with itself, lbfgs.h. -/
noncomputable def ddot : List ℝ → ℝ
  | [] => 0
  | v :: l => v * v + ddot l

open Classical in
/-- `traditional_convergence_test::operator()`, lbfgs.h:1438-1445, with `eps_` of the default argument. -/
noncomputable def convergedAt (x g : List ℝ) : Bool :=
  decide (Real.sqrt (ddot g) ≤ 1 / 100000 * max 1 (Real.sqrt (ddot x)))

/-- `BatchOptimizer::Optimize`, optimize.h:22-31; `none` if the assertion fails, an index is out of bounds or
the constructor of the convergence test throws (no variables). -/
noncomputable def optimize (p : Params) (s : State) (g : List Num) (x : List ℝ) : Option (State × List ℝ) :=
  if g.length ≠ x.length then none
  else
    match optimizeImpl p g s.cells x with
    | none => none
    | some (cs, x') =>
      if g.length = 0 then none
      else some ({ eval := s.eval + 1, converged := convergedAt x' (g.map Num.val), cells := cs }, x')

/-- Evaluations, one after the other, as in the loop of crf/mpi_batch_optimize.cc:278-371. -/
noncomputable def run (p : Params) : State → List ℝ → List (List Num) → Option (State × List ℝ)
  | s, x, [] => some (s, x)
  | s, x, g :: gs =>
    match optimize p s g x with
    | none => none
    | some (s', x') => run p s' x' gs

/-! ## Files -/

/-- The bytes of a number of `k` bytes, the least significant first. -/
def le : Nat → Nat → List Nat
  | 0, _ => []
  | k + 1, n => n % 256 :: le k (n / 256)

/-- The number that bytes stand for. -/
def unle : List Nat → Nat
  | [] => 0
  | b :: l => b + 256 * unle l

/-- How doubles are stored. -/
structure Doubles where
  enc : ℝ → Nat
  dec : Nat → ℝ

/-- The number is a double. -/
def Doubles.Rep (d : Doubles) (v : ℝ) : Prop := d.enc v < 256 ^ 8 ∧ d.dec (d.enc v) = v

/-- The bytes of the elements of a vector. -/
def vecBytes (d : Doubles) : List ℝ → List Nat
  | [] => []
  | v :: l => le 8 (d.enc v) ++ vecBytes d l

/-- `n` elements from bytes. -/
def vecOf (d : Doubles) : Nat → List Nat → List ℝ
  | 0, _ => []
  | n + 1, bs => d.dec (unle (bs.take 8)) :: vecOf d n (bs.drop 8)

/-- `RPropOptimizer::SaveImpl`, optimize.cc:65-70. -/
def saveImpl (d : Doubles) (s : State) : List Nat :=
  le 8 s.cells.length ++ vecBytes d (s.cells.map Cell.prev) ++ vecBytes d (s.cells.map Cell.delta)

/-- `magic`. -/
def magic : Nat := 0xABCDDCBA

/-- `BatchOptimizer::Save`, optimize.cc:12-18. -/
def save (d : Doubles) (s : State) : List Nat :=
  le 4 s.eval ++ le 1 (if s.converged then 1 else 0) ++ saveImpl d s ++ le 4 magic

/-- An input stream: the bytes that are left, and whether no read has failed. -/
structure In where
  bytes : List Nat
  good : Bool

/-- `in->read(p, n)` where the memory at `p` holds `old`: the bytes there are overwritten as far as there are bytes in
the stream; nothing happens after a failure. -/
def read (old : List Nat) (i : In) : List Nat × In :=
  if i.good = false then (old, i)
  else if old.length ≤ i.bytes.length then (i.bytes.take old.length, { i with bytes := i.bytes.drop old.length })
  else (i.bytes ++ old.drop i.bytes.length, { bytes := [], good := false })

/-- The elements of two vectors in pairs. -/
def cellsOf : List ℝ → List ℝ → List Cell
  | a :: l, b :: m => { prev := a, delta := b } :: cellsOf l m
  | _, _ => []

/-- `RPropOptimizer::LoadImpl`, optimize.cc:72-79; `junk` is what is in the memory of the variable `n`. -/
def loadImpl (d : Doubles) (junk : List Nat) (cells : List Cell) (i : In) : Option (List Cell × In) :=
  let n := read junk i
  if unle n.1 ≠ cells.length then none
  else
    let a := read (vecBytes d (cells.map Cell.prev)) n.2
    let b := read (vecBytes d (cells.map Cell.delta)) a.2
    some (cellsOf (vecOf d cells.length a.1) (vecOf d cells.length b.1), b.2)

/-- `BatchOptimizer::Load`, optimize.cc:20-28; `none` if an assertion fails. -/
def load (d : Doubles) (junk : List Nat) (s : State) (f : List Nat) : Option State :=
  let e := read (le 4 s.eval) { bytes := f, good := true }
  let c := read (le 1 (if s.converged then 1 else 0)) e.2
  match loadImpl d junk s.cells c.2 with
  | none => none
  | some (cells, i) =>
    let m := read (le 4 0) i
    if unle m.1 ≠ magic then none else some { eval := unle e.1, converged := decide (unle c.1 ≠ 0), cells := cells }

end Cdec.Train.RProp
