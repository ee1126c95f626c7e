import Mathlib.Data.List.Basic
/-!
# ModelSet: layout of feature-function states

Models decoder/ffset.cc:9-23 (constructor) and 76-86 (`NeedsStateErasure`, `EraseIgnoredBytes`).
A feature function is represented by its `StateSize()` and `IgnoredStateSize()` (decoder/ff.h); a state is a list of
bytes.  The bytes written by a feature function itself are arbitrary.
-/
namespace Cdec.HG

/-- `StateSize()` and `IgnoredStateSize()` of one model. -/
structure FFSize where
  size : Nat
  ignored : Nat

/-- Members of `ModelSet` filled by the constructor: `state_size_`, `model_state_pos_`, `ranges_to_erase_`. -/
structure Layout where
  stateSize : Nat := 0
  pos : List Nat := []
  erase : List (Int × Int) := []

/-- ffset.cc:14-22: one iteration of the constructor's loop. -/
def Layout.add (l : Layout) (m : FFSize) : Layout :=
  let s := l.stateSize + m.size
  { stateSize := s
    pos := l.pos ++ [l.stateSize]
    erase := if 0 < m.ignored then l.erase ++ [((s : Int) - m.ignored, (s : Int))] else l.erase }

/-- `ModelSet::ModelSet`, ffset.cc:9-23. -/
def layout (ms : List FFSize) : Layout := ms.foldl Layout.add {}

/-- The integers `a, a+1, …, b-1` of a C `for` loop. -/
def intRange (a b : Int) : List Int := (List.range (b - a).toNat).map fun k : Nat => a + (k : Int)

/-- `(*state)[i] = 0` for an `int` index; `none` outside the buffer. -/
def zeroAt (s : List UInt8) (i : Int) : Option (List UInt8) :=
  if 0 ≤ i ∧ i < s.length then some (s.set i.toNat 0) else none

/-- `EraseIgnoredBytes`, ffset.cc:78-86. -/
def eraseIgnored (l : Layout) (s : List UInt8) : Option (List UInt8) :=
  l.erase.foldlM (fun s r => (intRange r.1 r.2).foldlM zeroAt s) s

end Cdec.HG
