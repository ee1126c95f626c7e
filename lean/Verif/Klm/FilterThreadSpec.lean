import Verif.Klm.FilterThread
/-!
# What the threaded filter should do
-/
namespace Cdec.Klm.FilterThread

variable {α β ε : Type}

/-- What one thread would send to the output, in order. -/
def events (f : α → List β) : List (Cmd α ε) → List (Ev β ε)
  | [] => []
  | .add l :: cs => (f l).map .call ++ events f cs
  | .flush :: cs => events f cs
  | .emit e :: cs => .main e :: events f cs

/-- Whether lines have been added since the last `Flush`, in the end. -/
def fin : Bool → List (Cmd α ε) → Bool
  | d, [] => d
  | _, .add _ :: cs => fin true cs
  | _, .flush :: cs => fin false cs
  | d, .emit _ :: cs => fin d cs

/-- No line is added any more. -/
def NoAdd (cs : List (Cmd α ε)) : Prop := ∀ l, Cmd.add l ∉ cs

/-- Commands that the controller copes with.  `k` lines are in the current batch, and `dirty` tells
whether lines have been added since the last `Flush`.  The output is used only after `Flush`; and when
`Flush` finds the current batch empty then no line follows. -/
def Good (B : Nat) : Bool → Nat → List (Cmd α ε) → Prop
  | _, _, [] => True
  | _, k, .add _ :: cs => Good B true ((k + 1) % B) cs
  | _, k, .flush :: cs => (k ≠ 0 ∨ NoAdd cs) ∧ Good B false 0 cs
  | dirty, k, .emit _ :: cs => dirty = false ∧ Good B dirty k cs

end Cdec.Klm.FilterThread
