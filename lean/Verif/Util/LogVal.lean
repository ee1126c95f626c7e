import Mathlib.Analysis.SpecialFunctions.Pow.Real
/-!
# LogVal

Models utils/logval.h with real numbers for `T`: the field `v_` is a real number or `-∞`
(`none`, `LOGVAL_LOG0`).  Floating-point rounding, `+∞` and NaN are not modelled: an operation that
would produce `+∞` or NaN from such values is `none`.
-/
namespace Cdec
open Classical

/-- logval.h:153-154: `s_` (true = negative) and `v_`. -/
structure LogVal where
  s : Bool
  v : Option ℝ

/-- `std::exp` of a log value. -/
noncomputable def vexp : Option ℝ → ℝ
  | none => 0
  | some x => Real.exp x

/-- `a.v_ < v_` on log values. -/
def vlt : Option ℝ → Option ℝ → Prop
  | none, none => False
  | none, some _ => True
  | some _, none => False
  | some x, some y => x < y

/-- `log1p`, -∞ at -1. -/
noncomputable def vlog1p (x : ℝ) : Option ℝ := if x = -1 then none else some (Real.log (1 + x))

/-- `+` on log values. -/
noncomputable def vadd (a b : Option ℝ) : Option ℝ := a.bind fun x => b.map fun y => x + y

/-- `std::exp(a - b)` for `b` finite. -/
noncomputable def vexpSub (a b : Option ℝ) : ℝ :=
  match a, b with
  | some x, some y => Real.exp (x - y)
  | _, _ => 0

namespace LogVal

/-- `as_float`, logval.h:149-151; it is also the number that a value stands for. -/
noncomputable def asFloat (x : LogVal) : ℝ := if x.s then -vexp x.v else vexp x.v

/-- `LogVal()`, `Zero()`, logval.h:28, 44. -/
def zero : LogVal := ⟨false, none⟩

/-- `LogVal(double x)`, logval.h:29. -/
noncomputable def ofReal (x : ℝ) : LogVal :=
  if x < 0 then ⟨true, some (Real.log (-x))⟩
  else if x = 0 then ⟨false, none⟩ else ⟨false, some (Real.log x)⟩

/-- `is_0`, logval.h:41. -/
def is0 (x : LogVal) : Prop := x.v = none

/-- `is_1`, logval.h:40. -/
def is1 (x : LogVal) : Prop := x.v = some 0 ∧ x.s = false

/-- `operator+=`, logval.h:65-83. -/
noncomputable def add (x a : LogVal) : LogVal :=
  if a.is0 then x
  else if a.s = x.s then
    if vlt a.v x.v then { x with v := vadd x.v (vlog1p (vexpSub a.v x.v)) }
    else { x with v := vadd a.v (vlog1p (vexpSub x.v a.v)) }
  else
    if vlt a.v x.v then { x with v := vadd x.v (vlog1p (-vexpSub a.v x.v)) }
    else ⟨!x.s, vadd a.v (vlog1p (-vexpSub x.v a.v))⟩

/-- `operator*=`, logval.h:85-89. -/
noncomputable def mul (x a : LogVal) : LogVal := ⟨x.s != a.s, vadd x.v a.v⟩

/-- `operator/=`, logval.h:91-95; division by zero gives +∞ or NaN. -/
noncomputable def div (x a : LogVal) : Option LogVal :=
  a.v.map fun y => ⟨x.s != a.s, x.v.map fun z => z - y⟩

/-- `negate`, logval.h:137. -/
def neg (x : LogVal) : LogVal := { x with s := !x.s }

/-- `operator-=`, logval.h:97-101. -/
noncomputable def sub (x a : LogVal) : LogVal := x.add a.neg

/-- `abs`, logval.h:202-208. -/
def abs (x : LogVal) : LogVal := if x.s then { x with s := false } else x

/-- `inverse`, logval.h:139. -/
noncomputable def inverse (x : LogVal) : Option LogVal := x.v.map fun y => ⟨x.s, some (-y)⟩

/-- `pow`, logval.h:109-120, 141-145: `-∞ * p` is -∞ for positive `p` only. -/
noncomputable def pow (x : LogVal) (p : ℝ) : Option LogVal :=
  match x.v with
  | some y => some { x with v := some (y * p) }
  | none => if 0 < p then some x else none

/-- `log(o)`, logval.h:194-199: NaN for negative values (`LOGVAL_CHECK_NEG` is defined, if false);
the outer option is NaN, the inner one -∞. -/
def log (x : LogVal) : Option (Option ℝ) := if x.s then none else some x.v

/-- `operator==`, logval.h:215-218. -/
def eq (x y : LogVal) : Prop := x.v = y.v ∧ x.s = y.s

/-- `operator<`, logval.h:225-232. -/
def lt (x y : LogVal) : Prop := if x.s = y.s then vlt x.v y.v else x.s = true ∧ y.s = false

/-- `operator<=`, logval.h:234-237. -/
def le (x y : LogVal) : Prop := lt x y ∨ eq x y

/-- `operator>`, logval.h:239-242. -/
def gt (x y : LogVal) : Prop := ¬ le x y

/-- `operator>=`, logval.h:244-247. -/
def ge (x y : LogVal) : Prop := ¬ lt x y

/-- `star`, logval.h:252-261; `none` is +∞. -/
noncomputable def star (x : LogVal) : Option LogVal :=
  match x.v with
  | none => some x
  | some y => if 0 ≤ y then none
    else some { x with v := (vlog1p (-x.asFloat)).map fun z => -z }

end LogVal
end Cdec
