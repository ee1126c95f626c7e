import Mathlib.Order.Defs.LinearOrder
/-!
# Searching sorted ranges

Models klm/util/sorted_uniform.hh.  Iterators are indices into a list; reading through an iterator outside the
list is the result `none`.  Otherwise the result is `some r` where `r` is `some p` when the search returns true
with `out = p` and `none` when it returns false.
-/
namespace Cdec.Klm

/-- `BinaryFind`, sorted_uniform.hh:40-58. -/
def binaryFind {K : Type*} [LinearOrder K] (a : List K) (key : K) (b e : Nat) : Option (Option Nat) :=
  if _h : b < e then
    let pivot := b + (e - b) / 2
    match a[pivot]? with
    | none => none
    | some mid =>
      if mid < key then binaryFind a key (pivot + 1) e
      else if key < mid then binaryFind a key b pivot
      else some (some pivot)
  else some none
termination_by e - b

/-- `BoundedSortedUniformFind`, sorted_uniform.hh:65-85, for unsigned keys and any pivot rule `piv`
(`Pivot::Calc(off, range, width)`).  A pivot outside the open interval of the two iterators (only possible when
`piv` is not below `width`) is outside of the contract: `none`. -/
def boundedFind (piv : Nat → Nat → Nat → Nat) (a : List Nat) (key : Nat)
    (bi bv ai av : Nat) : Option (Option Nat) :=
  if _h : ai - bi > 1 then
    let pivot := bi + (1 + piv (key - bv) (av - bv) (ai - bi - 1))
    if _hp : pivot < ai then
      match a[pivot]? with
      | none => none
      | some mid =>
        if mid < key then boundedFind piv a key pivot mid ai av
        else if key < mid then boundedFind piv a key bi bv pivot mid
        else some (some pivot)
    else none
  else some none
termination_by ai - bi

/-- `SortedUniformFind`, sorted_uniform.hh:87-102. -/
def sortedUniformFind (piv : Nat → Nat → Nat → Nat) (a : List Nat) (key : Nat) (b e : Nat) :
    Option (Option Nat) :=
  if b = e then some none
  else match a[b]? with
    | none => none
    | some below =>
      if key ≤ below then (if key = below then some (some b) else some none)
      else match a[e - 1]? with
        | none => none
        | some above =>
          if key ≥ above then (if key = above then some (some (e - 1)) else some none)
          else boundedFind piv a key b below (e - 1) above

/-- `Pivot32::Calc`, sorted_uniform.hh:27-31, in 64-bit arithmetic. -/
def pivot32 (off range width : Nat) : Nat := (off * width % 2 ^ 64) / ((range + 1) % 2 ^ 64)

/-- `Pivot64::Calc`, sorted_uniform.hh:18-24: the floating-point quotient is an arbitrary function `q`. -/
def pivot64 (q : Nat → Nat → Nat → Nat) (off range width : Nat) : Nat :=
  let ret := q off range width
  if ret < width then ret else width - 1

end Cdec.Klm
