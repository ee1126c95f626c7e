import Verif.Util.Weights
/-!
# Weight files as a user writes them
-/
namespace Cdec.Weights
open Cdec
variable {V : Type}

/-- Printing and reading a number that is not NaN gives the number back, and a printed number has no space, newline, tab
or `=`. -/
def Num.Ok (N : Num V) : Prop :=
  ∀ v, N.isNan v = false → N.strtod (N.render v) = v ∧ ∀ c ∈ N.render v, c ≠ 32 ∧ c ≠ 10 ∧ c ≠ 9 ∧ c ≠ 61

/-- The lines of a file. -/
inductive Line (V : Type) where
  | blank
  | comment (text : Str)
  | entry (name : Str) (sep : UInt8) (v : V)

/-- The text of a line. -/
def Line.text (N : Num V) : Line V → Str
  | .blank => []
  | .comment t => 35 :: t
  | .entry name sep v => name ++ [sep] ++ N.render v

/-- The text of a file whose lines all end in a newline. -/
def fileText (N : Num V) : List (Line V) → Str
  | [] => []
  | l :: ls => l.text N ++ [10] ++ fileText N ls

/-- Well-formed lines: a name is not empty, does not begin with `#`, and has no space or newline; it is followed by a
space, a `=` or a tab, in the first case it must not have these characters itself. -/
def Line.Ok (N : Num V) : Line V → Prop
  | .blank => True
  | .comment t => 10 ∉ t
  | .entry name sep v => name ≠ [] ∧ name.head? ≠ some 35 ∧ 32 ∉ name ∧ 10 ∉ name ∧ N.isNan v = false ∧
      (sep = 61 ∨ sep = 9 ∨ (sep = 32 ∧ 61 ∉ name ∧ 9 ∉ name))

/-- The value that a file gives to a name: that of the last line for it. -/
def lastValue (ls : List (Line V)) (name : Str) : Option V :=
  match ls with
  | [] => none
  | .entry n _ v :: l => match lastValue l name with
    | some x => some x
    | none => if n = name then some v else none
  | _ :: l => lastValue l name

/-- Names that `WriteToFile` can write so that they can be read again. -/
def Plain (name : Str) : Prop := name ≠ [] ∧ name.head? ≠ some 35 ∧ 32 ∉ name ∧ 10 ∉ name ∧ 61 ∉ name ∧ 9 ∉ name

end Cdec.Weights
