import Verif.Klm.ChartScore
import Verif.Klm.NGramSpec
import Mathlib.Data.List.Perm.Basic
/-!
# What a derivation produces

Used to state the property of the language-model feature; independent of how it is
computed.
-/

namespace Cdec.Klm.LM.Feat

/-- The target symbols a rule's right-hand side produces, given what its antecedents
produce. -/
def expand (ys : List (List Sym)) : List Sym → List Sym
  | [] => []
  | .sos :: t => .sos :: expand ys t
  | .word w :: t => .word w :: expand ys t
  | .nt i :: t => (ys[i]?).getD [] ++ expand ys t

mutual
/-- The string a derivation produces, in reading order. -/
def Deriv.yield : Deriv → List Sym
  | .node e kids => expand (Deriv.yields kids) e
/-- The same for a list of derivations. -/
def Deriv.yields : List Deriv → List (List Sym)
  | [] => []
  | d :: t => d.yield :: Deriv.yields t
end

/-- The non-terminal indices in a right-hand side. -/
def idxs : List Sym → List Nat
  | [] => []
  | .nt i :: t => i :: idxs t
  | _ :: t => idxs t

mutual
/-- Every rule uses each of its antecedents exactly once. -/
def Deriv.Proper : Deriv → Prop
  | .node e kids => (idxs e).Perm (List.range kids.length) ∧ Deriv.Propers kids
/-- The same for a list of derivations. -/
def Deriv.Propers : List Deriv → Prop
  | [] => True
  | d :: t => d.Proper ∧ Deriv.Propers t
end

mutual
/-- No rule has an empty target side. -/
def Deriv.NonEmpty : Deriv → Prop
  | .node e kids => e ≠ [] ∧ Deriv.NonEmptys kids
/-- The same for a list of derivations. -/
def Deriv.NonEmptys : List Deriv → Prop
  | [] => True
  | d :: t => d.NonEmpty ∧ Deriv.NonEmptys t
end

end Cdec.Klm.LM.Feat
