import Verif.Decoder.Rule
/-! # Substitution into rules (decoder/trule.h:79-112) -/
namespace Cdec.Dec

/-- The loop of `ESubstitute`, decoder/trule.h:81-92: the state is `vc` and the result; `none` where the code would read
past the end of `var_values`. -/
def eStep (vals : List (List Int)) (s : Option (Nat × List Int)) (c : Int) : Option (Nat × List Int) :=
  match s with
  | none => none
  | some (vc, out) =>
    if c < 1 then
      match vals[(-c).toNat]? with
      | none => none
      | some v => some (vc + 1, out ++ v)
    else some (vc, out ++ [c])

/-- `ESubstitute`, decoder/trule.h:79-94, with its assertion. -/
def eSubst (e : List Int) (vals : List (List Int)) : Option (List Int) :=
  match e.foldl (eStep vals) (some (0, [])) with
  | none => none
  | some (vc, out) => if vc = vals.length then some out else none

/-- The loop of `FSubstitute`, decoder/trule.h:99-110. -/
def fStep (vals : List (List Int)) (s : Option (Nat × List Int)) (c : Int) : Option (Nat × List Int) :=
  match s with
  | none => none
  | some (vc, out) =>
    if c < 1 then
      match vals[vc]? with
      | none => none
      | some v => some (vc + 1, out ++ v)
    else some (vc, out ++ [c])

/-- `FSubstitute`, decoder/trule.h:97-112, with its assertion. -/
def fSubst (f : List Int) (vals : List (List Int)) : Option (List Int) :=
  match f.foldl (fStep vals) (some (0, [])) with
  | none => none
  | some (vc, out) => if vc = vals.length then some out else none

end Cdec.Dec
