/-! # Edit distance, as the least number of single-word edits -/
namespace Cdec.Edit

variable {α : Type _}

/-- One insertion, deletion or substitution, anywhere. -/
inductive OneEdit : List α → List α → Prop
  | ins (u : List α) (x : α) (v : List α) : OneEdit (u ++ v) (u ++ x :: v)
  | del (u : List α) (x : α) (v : List α) : OneEdit (u ++ x :: v) (u ++ v)
  | sub (u : List α) (x y : α) (v : List α) : OneEdit (u ++ x :: v) (u ++ y :: v)

/-- `n` edits in sequence. -/
inductive Edits : Nat → List α → List α → Prop
  | refl (a : List α) : Edits 0 a a
  | step {n : Nat} {a b c : List α} : OneEdit a b → Edits n b c → Edits (n + 1) a c

/-- `d` is the least number of edits that turn `a` into `b`. -/
def IsEditDistance (a b : List α) (d : Nat) : Prop := Edits d a b ∧ ∀ n, Edits n a b → d ≤ n

/-- `TransType`, mteval/ter.cc:77. -/
inductive Trans where
  | MATCH | SUBSTITUTION | INSERTION | DELETION
  deriving DecidableEq, Repr

/-- The path explains how `hyp` and `ref` differ: it passes over equal words, replaces a word by a different one,
skips a word of `hyp`, or skips a word of `ref`. -/
inductive Explains : List Trans → List α → List α → Prop
  | nil : Explains [] [] []
  | keep (x : α) {p h r} : Explains p h r → Explains (.MATCH :: p) (x :: h) (x :: r)
  | subst (x y : α) {p h r} : x ≠ y → Explains p h r → Explains (.SUBSTITUTION :: p) (x :: h) (y :: r)
  | inserted (x : α) {p h r} : Explains p h r → Explains (.INSERTION :: p) (x :: h) r
  | deleted (y : α) {p h r} : Explains p h r → Explains (.DELETION :: p) h (y :: r)

/-- The number of errors of a path. -/
def errors (p : List Trans) : Nat := (p.filter (· ≠ .MATCH)).length

end Cdec.Edit
