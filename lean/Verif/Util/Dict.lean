/-!
# Word dictionary

Models `Dict` (utils/dict.h).  The hash map `d_` is an association list in which the first entry for a
key counts; words are any type `W` with decidable equality (`std::string`).  Id overflow is not modelled.
-/
namespace Cdec
variable {W : Type} [DecidableEq W]

/-- Fields `words_` and `d_`, dict.h:81-83. -/
structure Dict (W : Type) where
  words : List W
  d : List (W × Nat)

/-- `Dict::Dict()`, dict.h:19-22, and `clear`, dict.h:78. -/
def Dict.empty : Dict W := ⟨[], []⟩

/-- `d_.find(word)`. -/
def Dict.find (s : Dict W) (w : W) : Option Nat := s.d.lookup w

/-- `Dict::Convert(const string&, bool)`, dict.h:50-61: new state and returned id. -/
def Dict.convert (s : Dict W) (w : W) (frozen : Bool) : Dict W × Nat :=
  match s.find w with
  | none =>
    if frozen then (s, 0)
    else
      let words := s.words ++ [w]
      (⟨words, (w, words.length) :: s.d⟩, words.length)
  | some i => (s, i)

/-- `Dict::Convert(const WordID&)`, dict.h:77-81; `bad0` is the string returned for id 0, `none` the
failing assertion. -/
def Dict.toWord (bad0 : W) (s : Dict W) (id : Nat) : Option W :=
  if id = 0 then some bad0 else s.words[id - 1]?

/-- A history of calls `Convert(word, frozen)`. -/
def Dict.run (s : Dict W) : List (W × Bool) → Dict W
  | [] => s
  | c :: cs => ((s.convert c.1 c.2).1).run cs

end Cdec
