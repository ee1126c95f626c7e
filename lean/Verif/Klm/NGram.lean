import Verif.Klm.NGramSpec
/-!
# Querying a back-off language model

Models `klm/lm/model.cc` (`GenericModel`), over the interface of
`klm/lm/search_hashed.hh` (`HashedSearch`).

Simplifications.  A `Node` is the hash of the words looked up so far; it is modelled as
those words themselves, that is, hash collisions are not modelled.  Log probabilities
are elements of an additive commutative group, not floats.  The two flags the code keeps
in float sign bits are separate Booleans: `indep` is the sign bit of `prob`
(`IndependentLeft`, value.hh:35-38), `ext` says that the back-off is not the bit pattern
`-0.0` (`HasExtension`, blank.hh:28-40).  Array slots past a state's `length` are never
read, so a state holds exactly `length` words and back-offs.
-/

namespace Cdec.Klm.LM

/-- klm/lm/value.hh:15-130, weights.hh: what the tables store for an n-gram below the
highest order. -/
structure Entry (K : Type) where
  prob : K
  rest : K
  bo : K
  ext : Bool
  indep : Bool

/-- klm/lm/search_hashed.hh:60-200 (`HashedSearch`): the unigram array, the tables
`middle_[i]` for orders `i + 2 < N`, and the table of the highest order. -/
structure Search (K : Type) where
  order : Nat
  uni : Word → Entry K
  mid : Nat → List Word → Option (Entry K)
  long : List Word → Option K

/-- klm/lm/return.hh (`FullScoreReturn`). -/
structure Ret (K : Type) where
  prob : K
  rest : K
  ngramLength : Nat
  indep : Bool
  extendLeft : List Word

/-- klm/lm/state.hh:14-48 (`State`). -/
structure State (K : Type) where
  words : List Word
  backoff : List K

namespace State
/-- `length` of state.hh:45. -/
def length {K : Type} (s : State K) : Nat := s.words.length
end State

variable {K : Type} [AddCommGroup K]

/-- model.cc:272-296 `ResumeScore`: look up longer and longer n-grams.  `bo` is what has
been written to the back-off array so far.  A failed `LookupMiddle`
(search_hashed.hh:103-114) sets `independent_left` and leaves the other results. -/
def resume (s : Search K) :
    List Word → Nat → List Word → List K → Nat → Ret K → List K × Nat × Ret K
  | [], _, _, bo, nextUse, ret => (bo, nextUse, ret)
  | w :: hist, om2, node, bo, nextUse, ret =>
    if ret.indep then (bo, nextUse, ret)
    else if om2 = s.order - 2 then
      match s.long (node ++ [w]) with
      | some p => (bo, nextUse,
          { ret with indep := true, prob := p, rest := p, ngramLength := s.order })
      | none => (bo, nextUse, { ret with indep := true })
    else
      match s.mid om2 (node ++ [w]) with
      | none => (bo, nextUse, { ret with indep := true })
      | some e =>
        resume s hist (om2 + 1) (node ++ [w]) (bo ++ [e.bo])
          (if e.ext then om2 + 2 else nextUse)
          { prob := e.prob, rest := e.rest, ngramLength := om2 + 2, indep := e.indep,
            extendLeft := node ++ [w] }

/-- model.cc:245-270 `ScoreExceptBackoff` (with `CopyRemainingHistory`, 233-237). -/
def scoreExceptBackoff (s : Search K) (context : List Word) (w : Word) : Ret K × State K :=
  let u := s.uni w
  let ret : Ret K :=
    { prob := u.prob, rest := u.rest, ngramLength := 1, indep := u.indep, extendLeft := [w] }
  let len := if u.ext then 1 else 0
  match context with
  | [] => (ret, ⟨[w].take len, [u.bo].take len⟩)
  | _ :: _ =>
    let r := resume s context 0 [w] [u.bo] len ret
    (r.2.2, ⟨(w :: context).take r.2.1, r.1.take r.2.1⟩)

/-- model.cc:134-140 `FullScore`. -/
def fullScore (s : Search K) (st : State K) (w : Word) : Ret K × State K :=
  let r := scoreExceptBackoff s st.words w
  ({ r.1 with prob := r.1.prob + (st.backoff.drop (r.1.ngramLength - 1)).sum }, r.2)

/-- model.cc:160-164, the loop of `FullScoreForgotState`: add the back-offs of longer and
longer contexts while they are found. -/
def forgotLoop (s : Search K) : List Word → Nat → List Word → K → K
  | [], _, _, acc => acc
  | w :: t, om2, node, acc =>
    match s.mid om2 (node ++ [w]) with
    | none => acc
    | some e => forgotLoop s t (om2 + 1) (node ++ [w]) (acc + e.bo)

/-- model.cc:142-167 `FullScoreForgotState`. -/
def forgotState (s : Search K) (context : List Word) (w : Word) : Ret K × State K :=
  let c := context.take (s.order - 1)
  let r := scoreExceptBackoff s c w
  let start := r.1.ngramLength
  if c.length < start then r
  else if start ≤ 1 then
    match c with
    | [] => r
    | a :: t => ({ r.1 with prob := forgotLoop s t 0 [a] (r.1.prob + (s.uni a).bo) }, r.2)
  else
    ({ r.1 with
        prob := forgotLoop s (c.drop (start - 1)) (start - 2) (c.take (start - 1)) r.1.prob },
      r.2)

/-- model.cc:181-191, the loop of `GetState`; returns the back-offs written and the
length. -/
def getStateLoop (s : Search K) : List Word → Nat → List Word → List K → Nat → List K × Nat
  | [], _, _, bo, len => (bo, len)
  | w :: t, om2, node, bo, len =>
    match s.mid om2 (node ++ [w]) with
    | none => (bo, len)
    | some e => getStateLoop s t (om2 + 1) (node ++ [w]) (bo ++ [e.bo])
        (if e.ext then om2 + 2 else len)

/-- model.cc:169-193 `GetState`. -/
def getState (s : Search K) (context : List Word) : State K :=
  match context.take (s.order - 1) with
  | [] => ⟨[], []⟩
  | a :: t =>
    let u := s.uni a
    let r := getStateLoop s t 0 [a] [u.bo] (if u.ext then 1 else 0)
    ⟨(a :: t).take r.2, r.1.take r.2⟩

/-- The entry an `extend_left` pointer to an n-gram of the given length refers to
(`LookupUnigram`, search_hashed.hh:91-97; `Unpack`, 99-102).  `none` where `MustFind`
would run off. -/
def unpack (s : Search K) (ptr : List Word) (len : Nat) : Option (Entry K) :=
  if len = 1 then ptr.head?.map s.uni else s.mid (len - 2) ptr

/-- model.cc:195-227 `ExtendLeft`.  Returns the score, the back-offs written, and
`next_use`. -/
def extendLeft (s : Search K) (add : List Word) (backoffIn : List K) (ptr : List Word)
    (extendLength : Nat) : Option (Ret K × List K × Nat) :=
  match unpack s ptr extendLength with
  | none => none
  | some e =>
    let ret : Ret K :=
      { prob := e.prob, rest := e.rest, ngramLength := extendLength,
        indep := if extendLength = 1 then e.indep else false, extendLeft := ptr }
    let r := resume s add (extendLength - 1) ptr [] extendLength ret
    some ({ r.2.2 with
        prob := r.2.2.prob +
          ((backoffIn.take add.length).drop (r.2.2.ngramLength - extendLength)).sum - e.rest,
        rest := r.2.2.rest - e.rest }, r.1, r.2.1 - extendLength)

/-- model.cc:298-316 `InternalUnRest` (`UnRest`, model.hh:83-86, skips the call when the
two values coincide for every entry, in which case the sum is zero). -/
def unRest (s : Search K) : List (List Word) → Nat → Option K
  | [], _ => some 0
  | p :: t, len =>
    match unpack s p len, unRest s t (len + 1) with
    | some e, some r => some ((e.prob - e.rest) + r)
    | _, _ => none

/-- model.cc:80-86 (`begin_sentence`: one word, its back-off, length 1). -/
def beginSentence (s : Search K) (bos : Word) : State K := ⟨[bos], [(s.uni bos).bo]⟩

/-- model.cc:87-88 (`null_context`). -/
def nullContext : State K := ⟨[], []⟩

end Cdec.Klm.LM
