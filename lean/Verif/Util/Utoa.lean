import Mathlib.Data.Nat.Log
import Mathlib.Data.Int.Basic
/-!
# Numbers as strings

utils/utoa.h.  A buffer that is filled from its end is the list of characters written so far; integer types are given by
their number of bits.
-/
namespace Cdec.Utoa

/-- `digit_to_char`, utoa.h:66-73. -/
def digitToChar (d : Nat) : Char := ['0', '1', '2', '3', '4', '5', '6', '7', '8', '9'].getD d ' '

/-- `while (n)` in `utoa`, utoa.h:86-89, with `NDIV10MOD`, utoa.h:19. -/
def loop (n : Nat) (buf : List Char) : List Char :=
  if h : n = 0 then buf
  else
    have : n / 10 < n := Nat.div_lt_self (Nat.pos_of_ne_zero h) (by decide)
    loop (n / 10) (digitToChar (n - 10 * (n / 10)) :: buf)

/-- `utoa` on an unsigned number, utoa.h:78-92. -/
def utoa (n : Nat) (buf : List Char) : List Char := if n = 0 then '0' :: buf else loop n buf

/-- The conversion to an unsigned type of `bits` bits. -/
def toUnsigned (bits : Nat) (i : Int) : Nat := (i % (2 ^ bits : Int)).toNat

/-- `itoa`, utoa.h:146-156. -/
def itoa (bits : Nat) (i : Int) (plus : Bool) (buf : List Char) : List Char :=
  let n := toUnsigned bits i
  let n := if i < 0 then toUnsigned bits (-(n : Int)) else n
  let r := utoa n buf
  if i < 0 then '-' :: r else if plus then '+' :: r else r

/-- `utos`, utoa.h:173-178. -/
def utos (bits : Nat) (i : Int) : List Char := utoa (toUnsigned bits i) []

/-- `itos`, utoa.h:181-186. -/
def itos (bits : Nat) (i : Int) : List Char := itoa bits i false []

/-- `append_itoa`, utoa.h:205-214: the characters appended.  It calls `utoa`. -/
def appendItoa (bits : Nat) (i : Int) : List Char := utoa (toUnsigned bits i) []

/-- `append_utoa`, utoa.h:192-201.  It calls `itoa` on an unsigned number. -/
def appendUtoa (bits : Nat) (n : Nat) : List Char := itoa bits (n : Int) false []

/-- `toa_bufsize`, utoa.h:36; `digits` is the number of bits without the sign, and `digits10` the largest exponent of 10 within them. -/
def bufsize (digits : Nat) : Nat := 3 + Nat.log 10 (2 ^ digits)

/-- `left_pad`, utoa.h:95-99, on a buffer with `room` places left. -/
def leftPad (pad : Char) : Nat → List Char → List Char
  | 0, buf => buf
  | room + 1, buf => leftPad pad room (pad :: buf)

/-- `utoa_left_pad`, utoa.h:102-107, on a buffer of `width` places; `none`: the assertion fails. -/
def utoaLeftPad (width n : Nat) (pad : Char) : Option (List Char) :=
  let r := utoa n []
  if r.length ≤ width then some (leftPad pad (width - r.length) r) else none

/-- `itoa_left_pad`, utoa.h:159-170; `old` is the first character of the buffer before the call. -/
def itoaLeftPad (bits width : Nat) (i : Int) (plus : Bool) (pad old : Char) : Option (List Char) :=
  let n := toUnsigned bits i
  let n := if i < 0 then toUnsigned bits (-(n : Int)) else n
  let first := if i < 0 then '-' else if plus then '+' else old
  let r := utoa n []
  if r.length < width then some (first :: leftPad pad (width - 1 - r.length) r) else none

/-- The outer loop of `utoa_drop_trailing_0`, utoa.h:120-133. -/
def dropLoop (n skipped : Nat) : Option (List Char × Nat) :=
  if h : n = 0 then none
  else
    have : n / 10 < n := Nat.div_lt_self (Nat.pos_of_ne_zero h) (by decide)
    let rem := n - 10 * (n / 10)
    if rem ≠ 0 then some (loop (n / 10) [digitToChar rem], skipped) else dropLoop (n / 10) (skipped + 1)

/-- `utoa_drop_trailing_0`, utoa.h:112-137: the digits and `n_skipped`; `none`: `assert(0)`. -/
def dropTrailing (n : Nat) : Option (List Char × Nat) := if n = 0 then some (['0'], 0) else dropLoop n 0

end Cdec.Utoa
