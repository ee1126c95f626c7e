import Verif.Klm.FilterThreadSpec
import Verif.Klm.Filter
/-!
# What the threaded filter is told for an ARPA file and for a file of counts
-/
namespace Cdec.Klm.FilterThread
open Cdec.Klm.Filter

/-- What `DispatchARPAInput` calls on the output itself, format.hh:94-109. -/
inductive ArpaEv where
  | reserve (number : List Nat)
  | beginLength (n : Nat)
  | endLength (n : Nat)
  | finish
deriving DecidableEq

/-- `ReadARPA`, arpa_io.hh:101-110, with `ReadNGrams`, arpa_io.hh:87-99, through `DispatchARPAInput`: before
`EndLength` comes `Flush`.  `i` is the number of sections before. -/
def sectionCmds (i : Nat) : List (List Txt) → List (Cmd Txt ArpaEv)
  | [] => [.emit .finish]
  | sec :: rest =>
    .emit (.beginLength (i + 1)) :: (sec.map .add ++ .flush :: .emit (.endLength (i + 1)) :: sectionCmds (i + 1) rest)

def arpaCmds (sections : List (List Txt)) : List (Cmd Txt ArpaEv) :=
  .emit (.reserve (sections.map List.length)) :: sectionCmds 0 sections

/-- `ReadCount`, count_io.hh:73-85, through `DispatchInput`, format.hh:77-92: nothing calls `Flush`. -/
def rawCmds {α ε : Type} (lines : List α) : List (Cmd α ε) := lines.map .add

/-- A call on the output files; `finish` leaves the contents of the file. -/
def doEv (files : List ArpaOut) : Ev Call ArpaEv → Option (List ArpaOut)
  | .call c => doCall files c
  | .main (.reserve number) => some (files.map (·.reserve number))
  | .main (.beginLength n) => some (files.map (·.beginLength n))
  | .main (.endLength n) => some (files.map (·.endLength n))
  | .main .finish => some (files.map fun o => ⟨o.finish, o.counter, o.counts⟩)

def doEvs (files : List ArpaOut) : List (Ev Call ArpaEv) → Option (List ArpaOut)
  | [] => some files
  | e :: es => (doEv files e).bind (doEvs · es)

end Cdec.Klm.FilterThread
