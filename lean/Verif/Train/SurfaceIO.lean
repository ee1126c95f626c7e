/-!
# Serialised error surfaces

Models training/dpmert/error_surface.cc.  A byte is a number below 256.  A segment is the eight bytes of its `double` and
the text its statistics are encoded as; reading and writing the text of statistics (mteval/ns.cc:312-329) and the
assertions are not modelled.
-/
namespace Cdec.Mert.IO

/-- A segment: the bytes of `x` and the encoded statistics. -/
structure Segment where
  x : List UInt8
  delta : List UInt8
deriving DecidableEq

/-- The bytes of an `int` on a little-endian machine. -/
def intBytes (n : Nat) : List UInt8 :=
  [UInt8.ofNat (n % 256), UInt8.ofNat (n / 256 % 256), UInt8.ofNat (n / 65536 % 256), UInt8.ofNat (n / 16777216 % 256)]

/-- The body of the loop of `ErrorSurface::Serialize`, error_surface.cc:15-24: the length goes into an `unsigned char`
and as many bytes as that are written. -/
def writeSegment (s : Segment) : List UInt8 :=
  let len := UInt8.ofNat s.delta.length
  s.x ++ [len] ++ s.delta.take len.toNat

/-- `ErrorSurface::Serialize`, error_surface.cc:10-26. -/
def serialize (segs : List Segment) : List UInt8 := intBytes segs.length ++ segs.flatMap writeSegment

/-- Reading `n` bytes; `none` at the end of the input. -/
def readN (n : Nat) (s : List UInt8) : Option (List UInt8 × List UInt8) :=
  if n ≤ s.length then some (s.take n, s.drop n) else none

/-- Reading an `int`. -/
def readInt (s : List UInt8) : Option (Nat × List UInt8) :=
  match s with
  | a :: b :: c :: d :: r => some (a.toNat + 256 * b.toNat + 65536 * c.toNat + 16777216 * d.toNat, r)
  | _ => none

/-- The body of the loop of `ErrorSurface::Deserialize`, error_surface.cc:34-41. -/
def readSegment (s : List UInt8) : Option (Segment × List UInt8) :=
  match readN 8 s with
  | none => none
  | some (x, s) =>
    match s with
    | [] => none
    | len :: s =>
      match readN len.toNat s with
      | none => none
      | some (delta, s) => some (⟨x, delta⟩, s)

/-- The loop of `ErrorSurface::Deserialize`. -/
def readSegments : Nat → List UInt8 → Option (List Segment)
  | 0, _ => some []
  | n + 1, s =>
    match readSegment s with
    | none => none
    | some (g, s) => (readSegments n s).map fun l => g :: l

/-- `ErrorSurface::Deserialize`, error_surface.cc:28-43 (`none` where the code would use what it failed to read). -/
def deserialize (s : List UInt8) : Option (List Segment) :=
  match readInt s with
  | none => none
  | some (n, s) => readSegments n s

end Cdec.Mert.IO
