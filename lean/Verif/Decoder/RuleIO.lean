import Verif.Decoder.Rule
import Verif.Util.Dict
/-! # Saving and loading rules (decoder/trule.h:168-227)

The archive is the sequence of the values written with `ar &`.  Scores follow the arity in the archive; they are
modelled in `Verif/Sparse/Serial.lean`. -/
namespace Cdec.Dec
variable {W : Type} [DecidableEq W]

/-- One value in the archive: a string, an `unsigned`, a `size_t` or a signed number (`WordID`, `char`). -/
inductive Item (W : Type)
  | str (w : W)
  | size (n : Nat)
  | mask (m : BitVec 64)
  | num (i : Int)
deriving DecidableEq

/-- `TD::Convert(WordID)`, utils/tdict.h:26 and dict.h:77-81; a negative id reads before the table: `none`. -/
def wordOf (bad0 : W) (d : Dict W) (i : Int) : Option W := if i < 0 then none else d.toWord bad0 i.toNat

/-- The loops computing `f_nt_mask` and `e_nt_mask`, trule.h:175-178, 186-189: from the last symbol to the first. -/
def ntMask (l : List Int) : BitVec 64 := l.foldr (fun c m => (m <<< 1) ||| (if c ≤ 0 then 1#64 else 0#64)) 0#64

/-- trule.h:180-181: the source symbols. -/
def saveF (bad0 : W) (d : Dict W) : List Int → Option (List (Item W))
  | [] => some []
  | c :: f =>
    match wordOf bad0 d (if c < 0 then -c else c), saveF bad0 d f with
    | some w, some l => some (.str w :: l)
    | _, _ => none

/-- trule.h:191-192: the target symbols. -/
def saveE (bad0 : W) (d : Dict W) : List Int → Option (List (Item W))
  | [] => some []
  | c :: e =>
    if c ≤ 0 then
      match saveE bad0 d e with
      | some l => some (.num c :: l)
      | none => none
    else
      match wordOf bad0 d c, saveE bad0 d e with
      | some w, some l => some (.str w :: l)
      | _, _ => none

/-- `TRule::save`, trule.h:168-195, without the scores; `none` is a failing assertion or a symbol without a word. -/
def saveRule (bad0 : W) (d : Dict W) (r : Rule) : Option (List (Item W)) :=
  if r.f.length ≤ 64 ∧ r.e.length ≤ 64 then
    match wordOf bad0 d (-r.lhs), saveF bad0 d r.f, saveE bad0 d r.e with
    | some w, some lf, some le =>
      some ([.str w, .size r.f.length, .mask (ntMask r.f)] ++ lf ++ [.size r.e.length, .mask (ntMask r.e)] ++ le ++ [.num r.arity])
    | _, _, _ => none
  else none

/-- trule.h:203-208: the source symbols; the state is the mask, the dictionary and what is left of the archive. -/
def loadF : Nat → BitVec 64 → Dict W → List (Item W) → Option (List Int × Dict W × List (Item W))
  | 0, _, d, ar => some ([], d, ar)
  | n + 1, m, d, ar =>
    match ar with
    | .str w :: ar =>
      let c := d.convert w false
      match loadF n (m >>> 1) c.1 ar with
      | some (f, d, ar) => some ((c.2 : Int) * (if m &&& 1#64 ≠ 0#64 then -1 else 1) :: f, d, ar)
      | none => none
    | _ => none

/-- trule.h:212-221: the target symbols. -/
def loadE : Nat → BitVec 64 → Dict W → List (Item W) → Option (List Int × Dict W × List (Item W))
  | 0, _, d, ar => some ([], d, ar)
  | n + 1, m, d, ar =>
    if m &&& 1#64 ≠ 0#64 then
      match ar with
      | .num i :: ar =>
        match loadE n (m >>> 1) d ar with
        | some (e, d, ar) => some (i :: e, d, ar)
        | none => none
      | _ => none
    else
      match ar with
      | .str w :: ar =>
        let c := d.convert w false
        match loadE n (m >>> 1) c.1 ar with
        | some (e, d, ar) => some ((c.2 : Int) :: e, d, ar)
        | none => none
      | _ => none

/-- `TRule::load`, trule.h:196-224, without the scores: the rule, the dictionary and the rest of the archive; `none` is an
archive of another shape. -/
def loadRule (d : Dict W) (ar : List (Item W)) : Option (Rule × Dict W × List (Item W)) :=
  match ar with
  | .str w :: .size nf :: .mask mf :: ar =>
    let c := d.convert w false
    match loadF nf mf c.1 ar with
    | some (f, d, .size ne :: .mask me :: ar) =>
      match loadE ne me d ar with
      | some (e, d, .num a :: ar) => some (⟨-(c.2 : Int), f, e, a⟩, d, ar)
      | _ => none
    | _ => none
  | _ => none

end Cdec.Dec
