import Mathlib.Data.List.Basic
/-!
# Iterating over the tokens of a string

Models klm/util/tokenize_piece.hh.  A `StringPiece` is `none` when its data pointer is null and the list of its
characters otherwise.  `Find` returns the offset of the delimiter in its argument (the length of the argument
when there is none) and the length of the returned piece.
-/
namespace Cdec.Klm

variable {α : Type _} [DecidableEq α]

/-- `SingleCharacter::Find`, tokenize_piece.hh:27-29. -/
def findSingle (d : α) (s : List α) : Nat × Nat := (s.findIdx (fun c => c == d), 1)

/-- `std::search` for a delimiter. -/
def search (d : List α) : List α → Nat
  | [] => 0
  | c :: s => if d.isPrefixOf (c :: s) then 0 else search d s + 1

/-- `MultiCharacter::Find`, tokenize_piece.hh:41-43. -/
def findMulti (d : List α) (s : List α) : Nat × Nat := (search d s, d.length)

/-- `AnyCharacter::Find`, tokenize_piece.hh:54-56. -/
def findAny (chars : List α) (s : List α) : Nat × Nat := (s.findIdx (fun c => chars.contains c), 1)

/-- `BoolCharacter::Build`, tokenize_piece.hh:75-80; the array argument is a string literal, so its last element
is the terminating NUL. -/
def buildTable (nul : α) (literal : List α) (c : α) : Bool := (literal ++ [nul]).contains c

/-- `BoolCharacter::Find`, tokenize_piece.hh:68-73. -/
def findBool (table : α → Bool) (s : List α) : Nat × Nat :=
  if s.findIdx table = s.length then (s.length, 0) else (s.findIdx table, 1)

/-- `AnyCharacterLast::Find`, tokenize_piece.hh:92-94 (`std::find_end`: the last occurrence of the whole sequence
`chars`). -/
def findLast (chars : List α) (s : List α) : Nat × Nat :=
  ((((List.range s.length).reverse.find? fun i => chars.isPrefixOf (s.drop i)).getD s.length), 1)

/-- One round of the loop in `TokenIter::increment`, tokenize_piece.hh:124-130: the new `current_` and `after_`. -/
def tokStep (find : List α → Nat × Nat) : Option (List α) → Option (List α) × Option (List α)
  | none => (none, none)
  | some after =>
    let found := find after
    (some (after.take found.1),
     if found.1 = after.length then none else some (after.drop (found.1 + found.2)))

/-- `TokenIter::increment`, tokenize_piece.hh:122-132; `none` when it takes more than `n` rounds. -/
def tokIncr (find : List α → Nat × Nat) (skipEmpty : Bool) :
    Nat → Option (List α) → Option (Option (List α) × Option (List α))
  | 0, _ => none
  | n + 1, after =>
    let r := tokStep find after
    if skipEmpty ∧ r.1 = some [] then tokIncr find skipEmpty n r.2 else some r

/-- `for (TokenIter<Find, SkipEmpty> i(after, …); i; ++i)`: the tokens `*i` in order; `none` when the loop takes
more than `n` rounds. -/
def tokens (find : List α → Nat × Nat) (skipEmpty : Bool) : Nat → Option (List α) → Option (List (List α))
  | 0, _ => none
  | n + 1, after =>
    match tokIncr find skipEmpty (n + 1) after with
    | none => none
    | some (none, _) => some []
    | some (some t, after') => (tokens find skipEmpty n after').map (t :: ·)

end Cdec.Klm
