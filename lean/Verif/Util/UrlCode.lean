/-!
# Feature-name escaping

Models utils/fdict.cc:29-125.  C strings are lists of bytes without the terminating NUL.
-/
namespace Cdec

/-- One iteration of `HexPairValue`'s loop, fdict.cc:33-44: value of a hex digit. -/
def hexDigit (d : UInt8) : Option Nat :=
  if 48 ≤ d ∧ d ≤ 57 then some (d.toNat - 48)
  else if 65 ≤ d ∧ d ≤ 70 then some (d.toNat - 65 + 10)
  else if 97 ≤ d ∧ d ≤ 102 then some (d.toNat - 97 + 10)
  else none

/-- `HexPairValue`, fdict.cc:29-49; `none` is -1. -/
def hexPairValue (a b : UInt8) : Option Nat :=
  match hexDigit a, hexDigit b with
  | some x, some y => some (x * 16 + y)
  | _, _ => none

/-- `UrlDecode`, fdict.cc:51-84.  `source[1] && source[2]` tests for two more characters. -/
def urlDecode : List UInt8 → List UInt8
  | [] => []
  | c :: s =>
    if c = 43 then 32 :: urlDecode s
    else if c = 37 then
      match s with
      | a :: b :: s' =>
        match hexPairValue a b with
        | some v => UInt8.ofNat v :: urlDecode s'
        | none => 63 :: urlDecode (a :: b :: s')
      | s' => 63 :: urlDecode s'
    else c :: urlDecode s
termination_by s => s.length

/-- `digits[i]`, fdict.cc:87. -/
def hexChar (n : UInt8) : UInt8 := if n < 10 then 48 + n else 65 + (n - 10)

/-- The argument of `strchr`, fdict.cc:98: `=:;,_| %`. -/
def urlSpecial : List UInt8 := [61, 58, 59, 44, 95, 124, 32, 37]

/-- `UrlEncode`, fdict.cc:86-110.  `len` is never incremented, so with the `max` passed by
`UrlEncodeString` (fdict.cc:129: three times the length plus 3) the test `len < max - 4` is always true. -/
def urlEncode : List UInt8 → List UInt8
  | [] => []
  | ch :: s =>
    if ch = 32 then 43 :: urlEncode s
    else if ch ∈ urlSpecial then 37 :: hexChar ((ch >>> 4) &&& 15) :: hexChar (ch &&& 15) :: urlEncode s
    else ch :: urlEncode s

end Cdec
