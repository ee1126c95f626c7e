import Mathlib.Data.List.Basic
/-!
# Decimal numbers
-/
namespace Cdec.Utoa

/-- The value of a string of digits. -/
def value (cs : List Char) : Nat := cs.foldl (fun a c => 10 * a + (c.toNat - '0'.toNat)) 0

/-- The usual way to write the number: digits only, at least one, none of them a leading zero, with the right value. -/
def IsDecimal (cs : List Char) (n : Nat) : Prop :=
  cs ≠ [] ∧ (∀ c ∈ cs, c.isDigit = true) ∧ (cs.head? = some '0' → cs = ['0']) ∧ value cs = n

end Cdec.Utoa
