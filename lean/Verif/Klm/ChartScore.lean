import Verif.Klm.NGram
/-!
# Language-model scores of chart fragments

Models `klm/lm/left.hh` (`RuleScore`), `klm/lm/state.hh` (`Left`, `ChartState`) and the
language-model feature of `decoder/ff_klm.cc`.

`none` stands for undefined behaviour (a pointer that does not refer to an entry, or a
missing antecedent).
-/

namespace Cdec.Klm.LM

variable {K : Type} [AddCommGroup K]

/-- state.hh:50-84 (`Left`): `pointers[0 .. length)` and `full`. -/
structure Left where
  pointers : List (List Word)
  full : Bool

/-- state.hh:86-121 (`ChartState`). -/
structure ChartState (K : Type) where
  left : Left
  right : State K

/-- left.hh:52-214 (`RuleScore`): the partial output state and the members `left_done_`
and `prob_`.  `out_->left.full` is only written by `Finish`. -/
structure RS (K : Type) where
  left : List (List Word)
  right : State K
  done : Bool
  prob : K

namespace RS

/-- left.hh:54-57, the constructor. -/
def start : RS K := ⟨[], nullContext, false, 0⟩

/-- left.hh:59-63 `BeginSentence`. -/
def beginSentence (s : Search K) (bos : Word) (r : RS K) : RS K :=
  { r with right := LM.beginSentence s bos, done := true }

/-- left.hh:65-78 `Terminal`. -/
def terminal (s : Search K) (r : RS K) (w : Word) : RS K :=
  let o := fullScore s r.right w
  if r.done then { r with right := o.2, prob := r.prob + o.1.prob }
  else if o.1.indep then { r with right := o.2, prob := r.prob + o.1.prob, done := true }
  else
    { left := r.left ++ [o.1.extendLeft], right := o.2, prob := r.prob + o.1.rest,
      done := if o.2.length ≠ r.right.length + 1 then true else r.done }

/-- left.hh:81-85 `BeginNonTerminal`. -/
def beginNonTerminal (inn : ChartState K) (prob : K) : RS K :=
  ⟨inn.left.pointers, inn.right, inn.left.full, prob⟩

/-- left.hh:190-202 `ProcessRet`. -/
def processRet (r : RS K) (ret : Ret K) : RS K :=
  if r.done then { r with prob := r.prob + ret.prob }
  else if ret.indep then { r with prob := r.prob + ret.prob, done := true }
  else { r with left := r.left ++ [ret.extendLeft], prob := r.prob + ret.rest }

/-- left.hh:114-125 and the member function `ExtendLeft`, 170-188: extend the n-grams at
the left edge of `inn` one after the other.  Returns the score object and, unless the early
exit was taken, `next_use` and the back-offs. -/
def ntLoop (s : Search K) (inn : ChartState K) :
    List (List Word) → Nat → Nat → List K → RS K → Option (RS K × Option (Nat × List K))
  | [], _, nextUse, back, r => some (r, some (nextUse, back))
  | p :: ps, extendLength, nextUse, back, r =>
    match LM.extendLeft s (r.right.words.take nextUse) back p extendLength with
    | none => none
    | some (ret, backOut, nextUse') =>
      let r1 := processRet r ret
      if nextUse' ≠ r.right.length then
        let r2 := { r1 with done := true }
        if nextUse' = 0 then
          match unRest s ps (extendLength + 1) with
          | none => none
          | some u => some ({ r2 with right := inn.right, prob := r2.prob + u }, none)
        else ntLoop s inn ps (extendLength + 1) nextUse' backOut r2
      else ntLoop s inn ps (extendLength + 1) nextUse' backOut r1

/-- left.hh:87-150 `NonTerminal`. -/
def nonTerminal (s : Search K) (r0 : RS K) (inn : ChartState K) (prob : K) : Option (RS K) :=
  let r := { r0 with prob := r0.prob + prob }
  if inn.left.pointers.length = 0 then
    if inn.left.full then
      some { r with prob := r.prob + r.right.backoff.sum, done := true, right := inn.right }
    else some r
  else if r.right.length = 0 then
    if r.done then
      match unRest s inn.left.pointers 1 with
      | none => none
      | some u => some { r with right := inn.right, prob := r.prob + u }
    else if r.left.length ≠ 0 then some { r with right := inn.right, done := true }
    else some { r with right := inn.right, left := inn.left.pointers, done := inn.left.full }
  else
    match ntLoop s inn inn.left.pointers 1 r.right.length r.right.backoff r with
    | none => none
    | some (r1, none) => some r1
    | some (r1, some (nextUse, back)) =>
      if inn.left.full then
        some { r1 with prob := r1.prob + (back.take nextUse).sum, done := true, right := inn.right }
      else if inn.right.length < inn.left.pointers.length then some { r1 with right := inn.right }
      else
        some { r1 with right :=
          ⟨inn.right.words ++ r1.right.words.take nextUse,
           inn.right.backoff ++ back.take nextUse⟩ }

/-- left.hh:152-156 `Finish`. -/
def finish (s : Search K) (r : RS K) : ChartState K × K :=
  (⟨⟨r.left, r.done || r.left.length == s.order - 1⟩, r.right⟩, r.prob)

end RS

/-! ## The decoder's feature -/

/-- A symbol on the target side of a rule (`rule.e()`), after `MapWord`: `<s>` (which only
`LookupWords` treats specially, and only in first position), another word, or the
non-terminal with the given index. -/
inductive Sym where
  | sos
  | word (w : Word)
  | nt (i : Nat)
  deriving DecidableEq, Repr

/-- decoder/ff_klm.cc:90-93 (`BoundaryAnnotatedState`). -/
structure BState (K : Type) where
  state : ChartState K
  bos : Bool
  eos : Bool

/-- decoder/ff_klm.cc:97-151 (`BoundaryRuleScore`). -/
structure BRS (K : Type) where
  back : RS K
  bos : Bool
  eos : Bool
  penalty : K

/-- The constants a feature function uses: the search, the ids of `<s>` and `</s>`, and the
penalty for misplaced sentence markers (`-100`). -/
structure Feat (K : Type) where
  s : Search K
  sosId : Word
  eosId : Word
  pen : K

namespace Feat

/-- ff_klm.cc:99-107. -/
def start (_ : Feat K) : BRS K := ⟨RS.start, false, false, 0⟩

/-- ff_klm.cc:132-136 `Terminal`. -/
def terminal (F : Feat K) (b : BRS K) (w : Word) : BRS K :=
  { b with
    back := RS.terminal F.s b.back w
    penalty := if b.eos then b.penalty + F.pen else b.penalty
    eos := if w = F.eosId then true else b.eos }

/-- ff_klm.cc:120-130 `NonTerminal`. -/
def nonTerminal (F : Feat K) (b : BRS K) (sub : BState K) : Option (BRS K) :=
  match RS.nonTerminal F.s b.back sub.state 0 with
  | none => none
  | some back =>
    let p1 := if sub.bos then b.penalty + F.pen else b.penalty
    some
      { back := back
        bos := if sub.bos then true else b.bos
        penalty := if b.eos then p1 + F.pen else p1
        eos := b.eos || sub.eos }

/-- ff_klm.cc:172-184, one symbol of the loop of `LookupWords`. -/
def item (F : Feat K) (ants : List (BState K)) (b : BRS K) : Sym → Option (BRS K)
  | .sos => some (F.terminal b F.sosId)
  | .word w => some (F.terminal b w)
  | .nt i =>
    match ants[i]? with
    | none => none
    | some a => F.nonTerminal b a

/-- ff_klm.cc:160-171, the first symbol. -/
def first (F : Feat K) (ants : List (BState K)) : Sym → Option (BRS K)
  | .sos => some { F.start with back := RS.beginSentence F.s F.sosId RS.start, bos := true }
  | .word w => some (F.terminal F.start w)
  | .nt i =>
    match ants[i]? with
    | none => none
    | some a => some ⟨RS.beginNonTerminal a.state 0, a.bos, a.eos, 0⟩

/-- ff_klm.cc:155-189 `LookupWords`: the state of the consequent and the score. -/
def lookupWords (F : Feat K) (e : List Sym) (ants : List (BState K)) : Option (BState K × K) :=
  let b : Option (BRS K) :=
    match e with
    | [] => some F.start
    | x :: t =>
      match F.first ants x with
      | none => none
      | some b => t.foldlM (fun b y => F.item ants b y) b
  b.map fun b =>
    let r := RS.finish F.s b.back
    (⟨r.1, b.bos, b.eos⟩, b.penalty + r.2)

/-- ff_klm.cc:193-210 `FinalTraversalCost`; `addSosEos` is `add_sos_eos_`. -/
def finalCost (F : Feat K) (addSosEos : Bool) (st : BState K) : Option K :=
  if addSosEos then
    match RS.nonTerminal F.s (RS.beginSentence F.s F.sosId RS.start) st.state 0 with
    | none => none
    | some r => some (RS.finish F.s (RS.terminal F.s r F.eosId)).2
  else
    some ((if st.bos then 0 else F.pen) + (if st.eos then 0 else F.pen))

/-- A derivation: the target side of the rule at the root and the derivations of its
antecedents, in the order of the non-terminal indices. -/
inductive Deriv where
  | node (e : List Sym) (kids : List Deriv)

mutual
/-- The feature over a derivation: every rule application is scored with `LookupWords` on
the states of its antecedents (decoder/ff_klm.cc:334-346, called once per edge), and the
scores add up. -/
def total (F : Feat K) : Deriv → Option (BState K × K)
  | .node e kids =>
    match totals F kids with
    | none => none
    | some ks =>
      match F.lookupWords e (ks.map (·.1)) with
      | none => none
      | some r => some (r.1, r.2 + (ks.map (·.2)).sum)
/-- The antecedents one by one. -/
def totals (F : Feat K) : List Deriv → Option (List (BState K × K))
  | [] => some []
  | d :: t =>
    match total F d, totals F t with
    | some r, some rs => some (r :: rs)
    | _, _ => none
end

/-- The value of the feature on a complete derivation. -/
def score (F : Feat K) (addSosEos : Bool) (d : Deriv) : Option K :=
  match F.total d with
  | none => none
  | some (st, p) => (F.finalCost addSosEos st).map (p + ·)

end Feat

end Cdec.Klm.LM
