/-! # Translation rules (decoder/trule.h) -/
namespace Cdec.Dec

/-- `TRule`, decoder/trule.h:36-221: the left-hand side, the source side (a category is negative), the target side
(0 is the first variable, -1 the second, ...) and the stored arity.  Scores, alignment points and the other attributes
are not modelled. -/
structure Rule where
  lhs : Int
  f : List Int
  e : List Int
  arity : Int
deriving DecidableEq

/-- `IsUnary`, decoder/trule.h:139. -/
def Rule.isUnary (r : Rule) : Bool := decide (r.arity = 1) && decide (r.f.length = 1)

end Cdec.Dec
