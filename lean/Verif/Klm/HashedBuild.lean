import Verif.Klm.NGram
/-!
# Building the hash tables of a language model from an ARPA file

Models `klm/lm/search_hashed.cc` (`ReadNGrams` and its helpers, `ApplyBuild` with
`NoRestBuild`), after the text of the file has been read into words and numbers
(`Spec.Arpa`).

Simplifications, besides those of `NGram.lean`: tables are unbounded maps (running out of
slots throws `ProbingSizeException`); inserting an n-gram twice is not modelled, the
theorems assume that a section lists an n-gram once; log probabilities are not positive
(the sign bit holds a flag), so `-fabs` of a stored probability is the probability.
The replacement of the unigram `<unk>` when the file has none (model.cc:117-122) is not
modelled.
-/

namespace Cdec.Klm.LM

variable {K : Type} [AddCommGroup K] [DecidableEq K]

/-- Change the entry of an n-gram in place, through a pointer or an iterator. -/
def Search.upd (s : Search K) (g : List Word) (f : Entry K → Entry K) : Search K :=
  match g with
  | [] => s
  | [w] => { s with uni := fun x => if x = w then f (s.uni x) else s.uni x }
  | _ :: _ :: t =>
    { s with mid := fun i x => if i = t.length ∧ x = g then (s.mid i x).map f else s.mid i x }

/-- Insert an entry in the table of its order (`FindOrInsert`, `Insert`). -/
def Search.ins (s : Search K) (g : List Word) (e : Entry K) : Search K :=
  { s with mid := fun i x => if i = g.length - 2 ∧ x = g then some e else s.mid i x }

/-- search_hashed.cc:24-54, `SetExtension` (blank.hh:28-30) on the entry of a context. -/
def Search.setExt (s : Search K) (g : List Word) : Search K :=
  s.upd g (fun e => { e with ext := true })

/-- search_hashed.cc:56-78 `FindLower`: from order `k` downwards, look for the n-gram's
words `ng.take k`, inserting blanks.  Returns the tables and the order found. -/
def findLower (s : Search K) (ng : List Word) : Nat → Search K × Nat
  | 0 => (s, 0)
  | 1 => (s, 1)
  | k + 2 =>
    match s.mid k (ng.take (k + 2)) with
    | some _ => (s, k + 2)
    | none => findLower (s.ins (ng.take (k + 2)) ⟨0, 0, 0, false, true⟩) ng (k + 1)

/-- The entry of a context of order `b` (`unigrams[..]` or `middle[b - 2]`). -/
def ctxEntry (s : Search K) (c : List Word) : Option (Entry K) :=
  match c with
  | [] => none
  | [w] => some (s.uni w)
  | _ :: _ :: t => s.mid t.length c

/-- search_hashed.cc:101-122, the loop of `AdjustLower` (with the unigram case, 101-110):
the blanks of order `b + 1`, …, `b + m` get their probabilities, and the contexts backed off
from are marked. -/
def fillBlanks (s : Search K) (ng : List Word) (prob : K) (b : Nat) : Nat → Search K
  | 0 => s
  | m + 1 =>
    let c := ng.tail.take b
    let r : Search K × K :=
      match ctxEntry s c with
      | some e => (s.setExt c, prob + e.bo)
      | none => (s, prob)
    fillBlanks (r.1.upd (ng.take (b + 1)) (fun e => { e with prob := r.2, rest := r.2 })) ng r.2
      (b + 1) m

/-- `MarkExtends` (value_build.hh:24-27) on the orders `b`, …, `b + m - 1`
(search_hashed.cc:91-94 and 124-131). -/
def markExtends (s : Search K) (ng : List Word) (b : Nat) : Nat → Search K
  | 0 => s
  | m + 1 => (markExtends s ng b m).upd (ng.take (b + m)) (fun e => { e with indep := false })

/-- search_hashed.cc:81-132 `AdjustLower`; `b` is `basis`. -/
def adjustLower (s : Search K) (ng : List Word) (b : Nat) : Option (Search K) :=
  match ctxEntry s (ng.take b) with
  | none => none
  | some e =>
    some (markExtends (fillBlanks s ng e.prob b (ng.length - 1 - b)) ng b (ng.length - b))

/-- search_hashed.cc:24-54, `ActivateUnigram` and `ActivateLowerMiddle`: `none` is the
exception. -/
def activate (s : Search K) (ng : List Word) : Option (Search K) :=
  match ng.tail with
  | [] => none
  | [w] => some (s.setExt [w])
  | _ :: _ :: t =>
    match s.mid t.length ng.tail with
    | none => none
    | some _ => some (s.setExt ng.tail)

/-- read_arpa.cc:111-143 `ReadBackoff`: a zero back-off is stored as `-0.0`, "no
extension". -/
def readEntry (p b : K) : Entry K := ⟨p, p, b, decide (b ≠ 0), true⟩

/-- search_hashed.cc:176-197, one n-gram of `ReadNGrams`; a back-off listed for an n-gram of
the highest order is rejected (read_arpa.cc:95-109). -/
def readNGram (s : Search K) (ng : List Word) (p b : K) : Option (Search K) :=
  if ng.length = s.order ∧ b ≠ 0 then none else
  let s1 : Search K :=
    if ng.length = s.order then { s with long := fun x => if x = ng then some p else s.long x }
    else s.ins ng (readEntry p b)
  let r := findLower s1 ng (ng.length - 1)
  match adjustLower r.1 ng r.2 with
  | none => none
  | some s2 => activate s2 ng

/-- search_hashed.cc:158-202 `ReadNGrams`, one section. -/
def readSection (s : Search K) : List (List Word × K × K) → Option (Search K)
  | [] => some s
  | (ng, p, b) :: t =>
    match readNGram s ng p b with
    | none => none
    | some s' => readSection s' t

/-- search_hashed.cc:268-282: the sections of order `n`, …, `n + m - 1`. -/
def readSections (a : Spec.Arpa K) (s : Search K) (n : Nat) : Nat → Option (Search K)
  | 0 => some s
  | m + 1 =>
    match readSection s (a.sect n) with
    | none => none
    | some s' => readSections a s' (n + 1) m

/-- read_arpa.hh:40-56 `Read1Gram`; `sign w` is the sign bit of the probability as read (it
is set for a negative number, and for zero it depends on the text). -/
def readUnigrams (a : Spec.Arpa K) (sign : Word → Bool) : Search K :=
  { order := a.order
    uni := fun w => { readEntry (a.uni w).1 (a.uni w).2 with indep := sign w }
    mid := fun _ _ => none
    long := fun _ => none }

/-- search_hashed.cc:228-283 (`InitializeFromARPA`, `ApplyBuild`): `none` is an exception. -/
def buildHashed (a : Spec.Arpa K) (sign : Word → Bool) : Option (Search K) :=
  readSections a (readUnigrams a sign) 2 (a.order - 1)

end Cdec.Klm.LM
