import Verif.Mteval.Edit
import Mathlib.Data.List.Basic
/-!
# Translation edit rate: the search for shifts

Models `TERScorerImpl`, mteval/ter.cc:39-417 (mteval/ns_ter_impl.cc and .h are the same code).  A read outside a
vector, and a failed assertion, is `none`.  Costs are integers (the floats are small whole numbers).
-/
namespace Cdec.Ter

open Cdec.Edit

variable {α : Type _} [DecidableEq α]

/-! ## `struct Shift`, ter.cc:39-72, a 32-bit word -/

/-- The constructor, ter.cc:42-46 with the setters of lines 58-71, for non-negative arguments. -/
def pack (b e m : Nat) : Nat :=
  let d := 0
  let d := (d &&& 0xfffffc00) ||| (b &&& 0x3ff)
  let d := (d &&& 0xfff003ff) ||| ((e &&& 0x3ff) <<< 10)
  (d &&& 0xfffff) ||| ((m &&& 0x7ff) <<< 20)

/-- ter.cc:47-49 -/
def shiftBegin (d : Nat) : Nat := d &&& 0x3ff

/-- ter.cc:50-52 -/
def shiftEnd (d : Nat) : Nat := (d >>> 10) &&& 0x3ff

/-- ter.cc:53-57 -/
def shiftMoveto (d : Nat) : Int :=
  let m : Int := (((d >>> 20) &&& 0x7ff : Nat) : Int)
  if m > 1024 then (m - 1024) * -1 else m

/-! ## `BuildWordMatches` -/

/-- `NgramToIntsMap`: the starts at which an n-gram occurs, in increasing order; `[]` if it is not a key.  (A start
is inserted at most once for one n-gram, after all smaller ones.) -/
abbrev Matches (α : Type _) := List α → List Nat

/-- The loop over `len`, ter.cc:175-179, on the words of the reference from `start + len` on. -/
def matchLens (both : α → Bool) (start : Nat) (nmap : Matches α) (cp : List α) : List α → Matches α
  | [] => nmap
  | w :: rest =>
    if cp ≠ [] ∧ both w = false then nmap
    else
      let cp := cp ++ [w]
      matchLens both start (fun g => if g = cp then nmap g ++ [start] else nmap g) cp rest

/-- The loop over `start`, ter.cc:171-180. -/
def matchStarts (both : α → Bool) (start : Nat) (nmap : Matches α) : List α → Matches α
  | [] => nmap
  | w :: rest =>
    matchStarts both (start + 1)
      (if both w = false then nmap else matchLens both start nmap [] ((w :: rest).take 10)) rest

/-- `BuildWordMatches`, ter.cc:165-181. -/
def buildWordMatches (ref hyp : List α) : Matches α :=
  matchStarts (fun w => decide (w ∈ hyp ∧ w ∈ ref)) 0 (fun _ => []) ref

/-! ## `PerformShift` -/

/-- `for (int i = lo; i < hi; ++i) out->push_back(in[i]);` -/
def slice (l : List α) (lo hi : Nat) : Option (List α) :=
  if hi ≤ lo then some [] else if hi ≤ l.length then some ((l.drop lo).take (hi - lo)) else none

/-- `PerformShift`, ter.cc:183-229. -/
def performShift (l : List α) (start stop : Nat) (moveto : Int) : Option (List α) := do
  let out ←
    if moveto = -1 then do
      let a ← slice l start (stop + 1)
      let b ← slice l 0 start
      let c ← slice l (stop + 1) l.length
      some (a ++ b ++ c)
    else if moveto < -1 then none
    else
      let m := moveto.toNat
      if m < start then do
        let a ← slice l 0 (m + 1)
        let b ← slice l start (stop + 1)
        let c ← slice l (m + 1) start
        let d ← slice l (stop + 1) l.length
        some (a ++ b ++ c ++ d)
      else if stop < m then do
        let a ← slice l 0 start
        let b ← slice l (stop + 1) (m + 1)
        let c ← slice l start (stop + 1)
        let d ← slice l (m + 1) l.length
        some (a ++ b ++ c ++ d)
      else do
        let a ← slice l 0 start
        let b ← slice l (stop + 1) (min l.length (stop + (m - start) + 1))
        let c ← slice l start (stop + 1)
        let d ← slice l (stop + (m - start) + 1) l.length
        some (a ++ b ++ c ++ d)
  if out.length = l.length then some out else none

/-! ## `GetAllPossibleShifts` -/

/-- `shifts`: for each size, the packed shifts in the order in which they were pushed. -/
abbrev Shifts := Nat → List Nat

def pushShift (sh : Shifts) (k d : Nat) : Shifts := fun i => if i = k then sh i ++ [d] else sh i

/-- `for (int i = lo; i < lo + n && !any; ++i) any = v[i];`, ter.cc:260-261 and 277-278. -/
def anyFrom (v : List Bool) (lo : Nat) : Nat → Option Bool
  | 0 => some false
  | n + 1 => match v[lo]? with
    | none => none
    | some true => some true
    | some false => anyFrom v (lo + 1) n

/-- ter.cc:243-250: is there a place to move the word to? -/
def okLoop (ralign : List Int) (start : Nat) : List Nat → Option Bool
  | [] => some false
  | m :: ms => match ralign[m]? with
    | none => none
    | some rm =>
      if (start : Int) ≠ rm ∧ rm - start < 50 ∧ start - rm - 1 < 50 then some true else okLoop ralign start ms

/-- ter.cc:280-284. -/
def roffStep (ralign : List Int) (start stop moveto : Nat) (rm : Int) (sh : Shifts) (roff : Nat) : Option Shifts :=
  match ralign[moveto + roff]? with
  | none => none
  | some rmr =>
    if (start : Int) ≠ rmr ∧ (roff = 0 ∨ rmr ≠ rm) then
      some (pushShift sh (stop - start) (pack start stop (moveto + roff)))
    else some sh

/-- ter.cc:269-284: one place of the reference; the state is `ok` and the shifts. -/
def movetoStep (ralign : List Int) (rerr : List Bool) (start stop : Nat) (s : Bool × Shifts) (moveto : Nat) :
    Option (Bool × Shifts) :=
  match ralign[moveto]? with
  | none => none
  | some rm =>
    if rm ≠ start ∧ (rm < start ∨ rm > stop) ∧ rm - start ≤ 50 ∧ start - rm - 1 ≤ 50 then
      match anyFrom rerr moveto (stop - start + 1) with
      | none => none
      | some false => some (true, s.2)
      | some true =>
        match (List.range (stop - start + 1)).foldlM (roffStep ralign start stop moveto rm) s.2 with
        | none => none
        | some sh => some (true, sh)
    else some s

/-- ter.cc:253-286, over the values of `end`. -/
def endLoop (nmap : Matches α) (hyp : List α) (ralign : List Int) (herr rerr : List Bool) (start : Nat) :
    List Nat → List α → Shifts → Option Shifts
  | [], _, sh => some sh
  | e :: es, cp, sh =>
    match hyp[e]? with
    | none => none
    | some w =>
      let cp := cp ++ [w]
      if nmap cp = [] then some sh
      else match anyFrom herr start (e - start + 1) with
        | none => none
        | some false => endLoop nmap hyp ralign herr rerr start es cp sh
        | some true =>
          match (nmap cp).foldlM (movetoStep ralign rerr start e) (false, sh) with
          | none => none
          | some (true, sh) => endLoop nmap hyp ralign herr rerr start es cp sh
          | some (false, sh) => some sh

/-- ter.cc:237-287, one value of `start` (`min_size` is 1). -/
def startStep (nmap : Matches α) (hyp : List α) (ralign : List Int) (herr rerr : List Bool) (sh : Shifts)
    (start : Nat) : Option Shifts :=
  match hyp[start]? with
  | none => none
  | some w =>
    match okLoop ralign start (nmap [w]) with
    | none => none
    | some false => some sh
    | some true =>
      endLoop nmap hyp ralign herr rerr start (List.range' start (min (hyp.length - start) 10)) [] sh

/-- `GetAllPossibleShifts`, ter.cc:231-288. -/
def getAllPossibleShifts (nmap : Matches α) (hyp : List α) (ralign : List Int) (herr rerr : List Bool) :
    Option Shifts :=
  (List.range hyp.length).foldlM (startStep nmap hyp ralign herr rerr) (fun _ => [])

/-! ## `CalculateBestShift` -/

/-- The vectors read off the path, ter.cc:297-325; `hpos` is the position of the last hypothesis word. -/
def alignVecs (hpos : Int) : List Trans → List Bool × List Bool × List Int
  | [] => ([], [], [])
  | .MATCH :: p =>
    let (herr, rerr, ralign) := alignVecs (hpos + 1) p
    (false :: herr, false :: rerr, (hpos + 1) :: ralign)
  | .SUBSTITUTION :: p =>
    let (herr, rerr, ralign) := alignVecs (hpos + 1) p
    (true :: herr, true :: rerr, (hpos + 1) :: ralign)
  | .INSERTION :: p =>
    let (herr, rerr, ralign) := alignVecs (hpos + 1) p
    (true :: herr, rerr, ralign)
  | .DELETION :: p =>
    let (herr, rerr, ralign) := alignVecs hpos p
    (herr, true :: rerr, hpos :: ralign)

/-- `*newerr`, `cur_best_shift_cost`, and `*new_hyp`, `*new_path` once `res` is true. -/
structure Best (α : Type _) where
  newerr : Int
  shiftCost : Int
  found : Option (List α × List Trans)

/-- ter.cc:347 and 352: no shift of this size can be better. -/
def hopeless (curerr : Int) (i : Nat) (st : Best α) : Bool :=
  let curfix := curerr - (st.shiftCost + st.newerr)
  let maxfix : Int := 2 * (1 + i) - 1
  decide (curfix > maxfix) || (decide (st.shiftCost = 0) && decide (curfix = maxfix))

/-- `ralign[s.moveto()]` -/
def readAt (v : List Int) (k : Int) : Option Int := if k < 0 then none else v[k.toNat]?

/-- ter.cc:349-369, one shift. -/
def tryShift (cur ref : List α) (ralign : List Int) (curerr : Int) (i : Nat) (st : Best α) (d : Nat) :
    Option (Best α) :=
  if hopeless curerr i st then some st
  else match readAt ralign (shiftMoveto d) with
    | none => none
    | some mv => match performShift cur (shiftBegin d) (shiftEnd d) mv with
      | none => none
      | some shifted =>
        let r := minimumEditDistance shifted ref
        let tryCost : Int := (r.1 : Int)
        let gain := (st.newerr + st.shiftCost) - (tryCost + 1)
        if gain > 0 ∨ (st.shiftCost = 0 ∧ gain = 0) then some ⟨tryCost, 1, some (shifted, r.2)⟩
        else some st

/-- ter.cc:346-371, over the sizes, largest first. -/
def sizesLoop (cur ref : List α) (ralign : List Int) (curerr : Int) (sh : Shifts) :
    List Nat → Best α → Option (Best α)
  | [], st => some st
  | i :: is, st =>
    if hopeless curerr i st then some st
    else match (sh i).foldlM (tryShift cur ref ralign curerr i) st with
      | none => none
      | some st => sizesLoop cur ref ralign curerr sh is st

/-- `CalculateBestShift`, ter.cc:290-373. -/
def calculateBestShift (nmap : Matches α) (ref cur : List α) (curerr : Int) (path : List Trans) : Option (Best α) :=
  let v := alignVecs (-1) path
  match getAllPossibleShifts nmap cur v.2.2 v.1 v.2.1 with
  | none => none
  | some sh => sizesLoop cur ref v.2.2 curerr sh [10, 9, 8, 7, 6, 5, 4, 3, 2, 1, 0] ⟨curerr, 0, none⟩

/-! ## `CalculateAllShifts` -/

/-- What the caller gets: the score and the four counts. -/
structure Result where
  score : Int
  subs : Nat
  ins : Nat
  dels : Nat
  shifts : Nat
  deriving DecidableEq, Repr

/-- One entry of the path, ter.cc:378-387. -/
def statStep (s : Nat × Nat × Nat) (t : Trans) : Nat × Nat × Nat :=
  match t with
  | .SUBSTITUTION => (s.1 + 1, s.2.1, s.2.2)
  | .MATCH => s
  | .INSERTION => (s.1, s.2.1 + 1, s.2.2)
  | .DELETION => (s.1, s.2.1, s.2.2 + 1)

/-- `GetPathStats`, ter.cc:375-389. -/
def pathStats (path : List Trans) : Nat × Nat × Nat := path.foldl statStep (0, 0, 0)

/-- What a run of the loop ends with. -/
inductive Run where
  /-- still running after the given number of rounds -/
  | running
  /-- a read outside a vector or a failed assertion -/
  | fault
  | done (r : Result)
  deriving DecidableEq

/-- The `while` loop, ter.cc:401-412, and what follows it, cut off after a number of rounds. -/
def shiftLoop (nmap : Matches α) (ref : List α) : Nat → List α → Int → List Trans → Nat → Run
  | 0, _, _, _, _ => .running
  | fuel + 1, cur, med, path, shifts =>
    match calculateBestShift nmap ref cur med path with
    | none => .fault
    | some ⟨newMed, _, some (newHyp, newPath)⟩ => shiftLoop nmap ref fuel newHyp newMed newPath (shifts + 1)
    | some ⟨_, _, none⟩ =>
      let st := pathStats path
      .done ⟨med + shifts, st.1, st.2.1, st.2.2, shifts⟩

/-- `CalculateAllShifts`, ter.cc:391-416 (`ter_short_circuit_long_sentences` is −1, so the loop always runs). -/
def calculate (ref hyp : List α) (rounds : Nat) : Run :=
  let r := minimumEditDistance hyp ref
  shiftLoop (buildWordMatches ref hyp) ref rounds hyp (r.1 : Int) r.2 0

end Cdec.Ter
