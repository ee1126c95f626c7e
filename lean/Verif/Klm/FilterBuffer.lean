import Verif.Klm.Filter
import Mathlib.Data.List.Basic
/-!
# The output buffer of a batch in mode `multiple`

Models `MultipleOutputBuffer`, klm/lm/filter/format.hh:198-246.  A `StringPiece` is the address of the
text and the text; the address is that of the slot in the input buffer of the batch, whose strings
are reused by the next lines that are read into the batch (format.hh:135-138).  That a slot keeps its
address (the new line fits into the string) is an assumption about `std::string::assign`; a line that
does not fit gets another address.
-/
namespace Cdec.Klm.FilterBuffer
open Cdec.Klm.Filter (Call Txt)

/-- `StringPiece` -/
structure Piece where
  addr : Nat
  text : Txt
deriving DecidableEq, Repr

/-- `MultipleOutputBuffer`: `annotated_` and `last_` (address and length; `none` is the null pointer). -/
structure Buf where
  annotated : List (List Nat × Piece)
  last : Option (Nat × Nat)
deriving DecidableEq, Repr

/-- format.hh:200 -/
def Buf.new : Buf := ⟨[], none⟩

/-- `AddNGram`, format.hh:206-209 -/
def Buf.addAll (b : Buf) (l : Piece) : Buf := ⟨b.annotated ++ [([], l)], b.last⟩

/-- `SingleAddNGram`, format.hh:211-220; `none`: `back()` of an empty vector. -/
def Buf.addSingle (b : Buf) (offset : Nat) (l : Piece) : Option Buf :=
  if some (l.addr, l.text.length) = b.last then
    match b.annotated.getLast? with
    | none => none
    | some (ss, x) => some ⟨b.annotated.dropLast ++ [(ss ++ [offset], x)], b.last⟩
  else some ⟨b.annotated ++ [([offset], l)], some (l.addr, l.text.length)⟩

/-- `Flush`, format.hh:222-233: the calls on the output, and the buffer afterwards. -/
def Buf.flush (b : Buf) : List Call × Buf :=
  (b.annotated.flatMap fun a => if a.1.isEmpty then [.all a.2.text] else a.1.map fun j => .one j a.2.text, ⟨[], b.last⟩)

/-- What a filter of mode `multiple` does with a line: sends it to all files, or to some of them
(none when it is dropped); `Multiple::AddNGram`, vocab.hh:101-116. -/
inductive To where
  | all
  | some (files : List Nat)
deriving DecidableEq, Repr

/-- The calls of the filter on the buffer for one line. -/
def Buf.add (b : Buf) (l : Piece) : To → Option Buf
  | .all => some (b.addAll l)
  | .some files => files.foldlM (fun b j => b.addSingle j l) b

/-- The calls for the lines of a batch. -/
def Buf.adds (b : Buf) : List (Piece × To) → Option Buf
  | [] => some b
  | (l, t) :: rest => (b.add l t).bind (·.adds rest)

/-- What these calls would be on the output itself. -/
def direct (ls : List (Piece × To)) : List Call :=
  ls.flatMap fun p => match p.2 with
    | .all => [.all p.1.text]
    | .some files => files.map fun j => .one j p.1.text

end Cdec.Klm.FilterBuffer
