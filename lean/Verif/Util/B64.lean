/-!
# Base64

Models utils/b64tools.cc.  Bytes are natural numbers below 256; bit operations are Lean's on `Nat`, with
the truncation of the casts to `unsigned char` written `% 256`.
-/
namespace Cdec

/-- `cb64`, b64tools.cc:8: ASCII codes of `A-Za-z0-9+/`. -/
def cb64 : List Nat :=
  [65, 66, 67, 68, 69, 70, 71, 72, 73, 74, 75, 76, 77, 78, 79, 80, 81, 82, 83, 84, 85, 86, 87, 88, 89,
   90, 97, 98, 99, 100, 101, 102, 103, 104, 105, 106, 107, 108, 109, 110, 111, 112, 113, 114, 115,
   116, 117, 118, 119, 120, 121, 122, 48, 49, 50, 51, 52, 53, 54, 55, 56, 57, 43, 47]

/-- `cd64`, b64tools.cc:9. -/
def cd64 : List Nat :=
  [124, 36, 36, 36, 125, 114, 115, 116, 117, 118, 119, 120, 121, 122, 123, 36, 36, 36, 36, 36, 36, 36,
   62, 63, 64, 65, 66, 67, 68, 69, 70, 71, 72, 73, 74, 75, 76, 77, 78, 79, 80, 81, 82, 83, 84, 85, 86,
   87, 36, 36, 36, 36, 36, 36, 88, 89, 90, 91, 92, 93, 94, 95, 96, 97, 98, 99, 100, 101, 102, 103,
   104, 105, 106, 107, 108, 109, 110, 111, 112, 113]

/-- `cb64[i]`. -/
def b64char (i : Nat) : Nat := cb64.getD i 0

/-- `b64encode` with `encodeblock` inlined, b64tools.cc:11-29: blocks of three bytes; the last block may
have `len` 2 or 1. -/
def b64encode : List Nat → List Nat
  | a :: b :: c :: rest =>
    b64char (a >>> 2) :: b64char (((a &&& 3) <<< 4) ||| ((b &&& 0xf0) >>> 4)) ::
      b64char (((b &&& 0x0f) <<< 2) ||| ((c &&& 0xc0) >>> 6)) :: b64char (c &&& 0x3f) :: b64encode rest
  | [a, b] => [b64char (a >>> 2), b64char (((a &&& 3) <<< 4) ||| ((b &&& 0xf0) >>> 4)), 61, 61]
  | [a] => [b64char (a >>> 2), b64char (((a &&& 3) <<< 4) ||| 0), 61, 61]
  | [] => []

/-- b64tools.cc:44-51: value of one input character; `none` is the decode error. -/
def b64val (ch : Nat) : Option Nat :=
  let v := if ch < 43 ∨ 122 < ch then 0 else cd64.getD (ch - 43) 0
  if v = 0 then none
  else
    let v := if v = 36 then 0 else v - 61
    some (if v = 0 then 0 else v - 1)

/-- `b64decode`, b64tools.cc:38-56, with `decodeblock` (b64tools.cc:31-35).  An input whose length is not
a multiple of 4 is read beyond its end; that is `none` here too. -/
def b64decode : List Nat → Option (List Nat)
  | [] => some []
  | w :: x :: y :: z :: rest => do
    let i0 ← b64val w
    let i1 ← b64val x
    let i2 ← b64val y
    let i3 ← b64val z
    let r ← b64decode rest
    return ((i0 <<< 2 ||| i1 >>> 4) % 256) :: ((i1 <<< 4 ||| i2 >>> 2) % 256) ::
      (((i2 <<< 6) &&& 0xc0 ||| i3) % 256) :: r
  | _ => none

end Cdec
