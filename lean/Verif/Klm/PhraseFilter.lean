import Verif.Klm.Filter
/-!
# The phrase filter

Models klm/lm/filter/phrase.hh and phrase.cc.  `H` is the type of 64-bit hashes, `hw` is
`MurmurHashNative(data, size)` of a word, `mix h w` is `MurmurHashNative(&h, sizeof(uint64_t), w)` and
`h0` is 0; nothing is assumed about them here.  Sentence numbers do not overflow.  `none` stands for a
failed assertion, undefined behaviour, or a loop that does not end within its fuel.  Taking the
address `&*begin()` of an empty vector is taken as harmless (`Set`, phrase.cc:155-159).
-/
namespace Cdec.Klm.Phrase
open Filter (Txt isSpace Flt Call wordsOf wrap)

variable {H : Type} [DecidableEq H]

/-- `SentenceRelation`, phrase.hh:36-38. -/
structure Rel where
  substring : List Nat
  left : List Nat
  right : List Nat
  phrase : List Nat
deriving DecidableEq, Repr

/-- `Table`, phrase.hh:45; `Find…` returns false for `none`, phrase.hh:12-18. -/
abbrev Table (H : Type) := H → Option Rel

/-- `AppendSentence`, phrase.hh:80-82. -/
def append (l : List Nat) (id : Nat) : List Nat :=
  if l = [] ∨ l.getLast? ≠ some id then l ++ [id] else l

/-- What is done at one key, phrase.hh:71-72 and, after the last word, 74-75. -/
def bump (id : Nat) (first last : Bool) (r : Rel) : Rel :=
  ⟨append r.substring id, if first then append r.left id else r.left,
    if last then append r.right id else r.right,
    if last && first then append r.phrase id else r.phrase⟩

/-- `table_[hash]` and the updates at that entry. -/
def Table.bump (t : Table H) (id : Nat) (first last : Bool) (k : H) : Table H := fun k' =>
  if k' = k then some (Phrase.bump id first last ((t k).getD ⟨[], [], [], []⟩)) else t k'

/-- The inner loop of `AddPhrase`, phrase.hh:67-75. -/
def addFrom (mix : H → H → H) (id : Nat) (first : Bool) (t : Table H) (h : H) : List H → Table H
  | [] => t
  | w :: ws => addFrom mix id first (t.bump id first ws.isEmpty (mix h w)) (mix h w) ws

/-- The outer loop of `AddPhrase`, phrase.hh:64-76. -/
def addSuffixes (mix : H → H → H) (h0 : H) (id : Nat) (first : Bool) (t : Table H) : List H → Table H
  | [] => t
  | w :: ws => addSuffixes mix h0 id false (addFrom mix id first t h0 (w :: ws)) ws

/-- `AddPhrase`, phrase.hh:62-77. -/
def addPhrase (mix : H → H → H) (h0 : H) (id : Nat) (t : Table H) (p : List H) : Table H :=
  addSuffixes mix h0 id true t p

/-- The variables of `ReadMultiple`, phrase.cc:18-21. -/
structure RSt (H : Type) where
  word : Txt
  phrase : List H
  content : Bool
  id : Nat
  tab : Table H

/-- phrase.cc:29-32: the word is added to the phrase. -/
def endWord (hw : Txt → H) (s : RSt H) : RSt H :=
  if s.word = [] then s else ⟨[], s.phrase ++ [hw s.word], s.content, s.id, s.tab⟩

/-- phrase.cc:35-39: the phrase is added to the table. -/
def endPhrase (mix : H → H → H) (h0 : H) (s : RSt H) : RSt H :=
  if s.phrase = [] then s else ⟨s.word, [], true, s.id, addPhrase mix h0 s.id s.tab s.phrase⟩

/-- phrase.cc:42-45. -/
def endSentence (s : RSt H) : RSt H :=
  if s.content then ⟨s.word, s.phrase, false, s.id + 1, s.tab⟩ else s

/-- phrase.cc:29-45: what happens after the white space `c`. -/
def sep (hw : Txt → H) (mix : H → H → H) (h0 : H) (c : Char) (s : RSt H) : RSt H :=
  let s := endWord hw s
  if c = ' ' then s
  else
    let s := endPhrase mix h0 s
    if c = '\t' || c = '\x0b' then s else endSentence s

/-- The loop of `ReadMultiple`, phrase.cc:22-46; the end of the file counts as a newline. -/
def readLoop (hw : Txt → H) (mix : H → H → H) (h0 : H) : Txt → RSt H → RSt H
  | [], s => sep hw mix h0 '\n' s
  | c :: t, s =>
    if isSpace c then readLoop hw mix h0 t (sep hw mix h0 c s)
    else readLoop hw mix h0 t ⟨s.word ++ [c], s.phrase, s.content, s.id, s.tab⟩

/-- `ReadMultiple`, phrase.cc:17-49: the table and the number of sentences. -/
def readMultiple (hw : Txt → H) (mix : H → H → H) (h0 : H) (vocab : Txt) : Table H × Nat :=
  let s := readLoop hw mix h0 vocab ⟨[], [], false, 0, fun _ => none⟩
  (s.tab, s.id + if s.content then 1 else 0)

/-- `MakeHashes`, phrase.hh:94-104. -/
def makeHashes (hw : Txt → H) (ws : List Txt) : List H :=
  ((match ws with
    | [] => []
    | w :: t => if w[0]? == some '<' && w[w.length - 1]? == some '>' then t else w :: t).takeWhile
      fun w => w != "</s>".toList).map hw

/-- An arc when it is set up, phrase.cc:64-78: `from_` (`none` for `NULL`), the vertex it leads to and
its list of sentences. -/
structure Arc where
  src : Option Nat
  dst : Nat
  sents : List Nat
deriving DecidableEq, Repr

/-- The first loop of `BuildGraph`, phrase.cc:203-213, from the word with index `v` on. -/
def rightArcs (tab : Table H) (mix : H → H → H) (h : H) (v : Nat) : List H → List Arc
  | [] => []
  | w :: ws =>
    match tab (mix h w) with
    | none => []
    | some r =>
      if ws = [] then [⟨none, v, r.substring⟩]
      else ⟨none, v, r.right⟩ :: rightArcs tab mix (mix h w) (v + 1) ws

/-- The inner loop of phrase.cc:221-232. -/
def phraseArcs (tab : Table H) (mix : H → H → H) (src : Nat) (h : H) (v : Nat) : List H → List Arc
  | [] => []
  | w :: ws =>
    match tab (mix h w) with
    | none => []
    | some r =>
      if ws = [] then [⟨some src, v, r.left⟩]
      else ⟨some src, v, r.phrase⟩ :: phraseArcs tab mix src (mix h w) (v + 1) ws

/-- The loop of phrase.cc:218-233. -/
def fromArcs (tab : Table H) (mix : H → H → H) (h0 : H) (src : Nat) : List H → List Arc
  | [] => []
  | w :: ws => phraseArcs tab mix src h0 (src + 1) (w :: ws) ++ fromArcs tab mix h0 (src + 1) ws

/-- `BuildGraph`, phrase.cc:190-234: the arcs in the order in which they are set up. -/
def buildGraph (tab : Table H) (mix : H → H → H) (h0 : H) (hashes : List H) : List Arc :=
  rightArcs tab mix h0 0 hashes ++ fromArcs tab mix h0 0 hashes.tail

/-- What `std::priority_queue` does to its vector, given `Current()` of the arcs; `top` is the front of
the vector. -/
structure PQ where
  push : (Nat → Nat) → Nat → List Nat → List Nat
  pop : (Nat → Nat) → List Nat → List Nat

/-- Arcs and vertices.  Arcs are numbered in the order of `buildGraph`; `rem` is the range from
`current_` to `last_`, `queue` the vector of `incoming_` and `cur` is `current_` of a vertex. -/
structure St where
  rem : Nat → List Nat
  queue : Nat → List Nat
  cur : Nat → Nat

/-- `Current()` of the arcs. -/
def St.key (s : St) (i : Nat) : Nat := (s.rem i).headD 0

def setAt {α : Type} (f : Nat → α) (i : Nat) (x : α) : Nat → α := fun j => if j = i then x else f j

/-- `Set` and `AddIncoming`, phrase.cc:155-159 and 130-132, for the arc with number `i`. -/
def setArc (pq : PQ) (s : St) (i : Nat) (a : Arc) : St :=
  let s := St.mk (setAt s.rem i a.sents) s.queue s.cur
  if a.sents = [] then s
  else ⟨s.rem, setAt s.queue a.dst (pq.push s.key i (s.queue a.dst)), s.cur⟩

def setArcs (pq : PQ) (s : St) (i : Nat) : List Arc → St
  | [] => s
  | a :: as => setArcs pq (setArc pq s i a) (i + 1) as

/-- `MakeGraph`, phrase.cc:248-257. -/
def makeGraph (pq : PQ) (arcs : List Arc) : St := setArcs pq ⟨fun _ => [], fun _ => [], fun _ => 0⟩ 0 arcs

/-- `std::lower_bound` on a sorted range: from the first element that is not less. -/
def lowerBound (l : List Nat) (lo : Nat) : List Nat := l.dropWhile fun x => decide (x < lo)

/-- `Arc::LowerBound`, phrase.cc:138-153, for the arc with number `i`; `vlb` is `Vertex::LowerBound`. -/
def arcLB (arcs : List Arc) (vlb : St → Nat → Nat → Option St) (s : St) (i lo : Nat) : Option St :=
  let s := St.mk (setAt s.rem i (lowerBound (s.rem i) lo)) s.queue s.cur
  match arcs[i]? with
  | none => none
  | some a =>
    match a.src with
    | none => some s
    | some u =>
      match s.rem i with
      | [] => some s
      | x :: _ =>
        if x > lo then some s
        else if x ≠ lo then none
        else
          match vlb s u lo with
          | none => none
          | some s =>
            if s.queue u = [] then some ⟨setAt s.rem i [], s.queue, s.cur⟩
            else if s.cur u < lo then none
            else if s.cur u > lo then
              some ⟨setAt s.rem i (lowerBound (s.rem i).tail (s.cur u)), s.queue, s.cur⟩
            else some s

/-- The loop of `Vertex::LowerBound`, phrase.cc:164-183. -/
def vertexLoop (pq : PQ) (arcs : List Arc) (vlb : St → Nat → Nat → Option St) :
    Nat → St → Nat → Nat → Option St
  | 0, _, _, _ => none
  | n + 1, s, v, lo =>
    match s.queue v with
    | [] => none
    | top :: q =>
      match s.rem top with
      | [] => none
      | x :: _ =>
        if x > lo then some ⟨s.rem, s.queue, setAt s.cur v x⟩
        else
          match arcLB arcs vlb ⟨s.rem, setAt s.queue v (pq.pop s.key (top :: q)), s.cur⟩ top lo with
          | none => none
          | some s =>
            match s.rem top with
            | [] => if s.queue v = [] then some s else vertexLoop pq arcs vlb n s v lo
            | y :: _ =>
              let s := St.mk s.rem (setAt s.queue v (pq.push s.key top (s.queue v))) s.cur
              if y = lo then some ⟨s.rem, s.queue, setAt s.cur v lo⟩
              else vertexLoop pq arcs vlb n s v lo

/-- `Vertex::LowerBound`, phrase.cc:161-184; the first argument bounds the depth of the recursion. -/
def vertexLB (pq : PQ) (arcs : List Arc) : Nat → St → Nat → Nat → Option St
  | 0, _, _, _ => none
  | d + 1, s, v, lo =>
    if s.queue v = [] then some s
    else vertexLoop pq arcs (vertexLB pq arcs d) ((s.queue v).length + 1) s v lo

/-- The loop of `Union::Evaluate`, phrase.cc:264-269. -/
def unionLoop (pq : PQ) (arcs : List Arc) (last : Nat) : Nat → St → Nat → Option Bool
  | 0, _, _ => none
  | n + 1, s, lower =>
    match vertexLB pq arcs (last + 1) s last lower with
    | none => none
    | some s =>
      if s.queue last = [] then some false
      else if s.cur last = lower then some true
      else unionLoop pq arcs last n s (s.cur last)

/-- The loop of `Multiple::Evaluate`, phrase.cc:275-284: the offsets that are added. -/
def multipleLoop (pq : PQ) (arcs : List Arc) (last : Nat) : Nat → St → Nat → Option (List Nat)
  | 0, _, _ => none
  | n + 1, s, lower =>
    match vertexLB pq arcs (last + 1) s last lower with
    | none => none
    | some s =>
      if s.queue last = [] then some []
      else if s.cur last = lower then (multipleLoop pq arcs last n s (lower + 1)).map (lower :: ·)
      else multipleLoop pq arcs last n s (s.cur last)

/-- `Union::PassNGram`, phrase.hh:134-137; `Union::Evaluate`, phrase.cc:261-270. -/
def passUnion (hw : Txt → H) (mix : H → H → H) (h0 : H) (pq : PQ) (fuel : Nat) (tab : Table H)
    (ws : List Txt) : Option Bool :=
  let hashes := makeHashes hw ws
  if hashes = [] then some true
  else
    let arcs := buildGraph tab mix h0 hashes
    unionLoop pq arcs (hashes.length - 1) fuel (makeGraph pq arcs) 0

/-- `BinaryFilter<Union>::AddNGram`, wrapper.hh:19-26. -/
def unionFilter (hw : Txt → H) (mix : H → H → H) (h0 : H) (pq : PQ) (fuel : Nat) (tab : Table H) : Flt :=
  fun ngram line =>
    match wordsOf ngram with
    | none => none
    | some ws => (passUnion hw mix h0 pq fuel tab ws).map fun b => if b then [.all line] else []

/-- `Multiple::AddNGram`, phrase.hh:147-158; `Multiple::Evaluate`, phrase.cc:272-285. -/
def multipleFilter (hw : Txt → H) (mix : H → H → H) (h0 : H) (pq : PQ) (fuel : Nat) (tab : Table H) : Flt :=
  fun ngram line =>
    match wordsOf ngram with
    | none => none
    | some ws =>
      let hashes := makeHashes hw ws
      if hashes = [] then some [.all line]
      else
        let arcs := buildGraph tab mix h0 hashes
        (multipleLoop pq arcs (hashes.length - 1) fuel (makeGraph pq arcs) 0).map
          fun ks => ks.map fun k => .one k line

/-- Mode `phrase union`, filter_main.cc:143-147; the fuel of the loop over sentences is the number of
sentences and one more. -/
def unionMode (hw : Txt → H) (mix : H → H → H) (h0 : H) (pq : PQ) (context : Bool) (vocab : Txt) :
    Option (Flt × Nat) :=
  let r := readMultiple hw mix h0 vocab
  some (wrap context (unionFilter hw mix h0 pq (r.2 + 1) r.1), 1)

/-- Mode `phrase multiple`, filter_main.cc:115-119. -/
def multipleMode (hw : Txt → H) (mix : H → H → H) (h0 : H) (pq : PQ) (context : Bool) (vocab : Txt) :
    Option (Flt × Nat) :=
  let r := readMultiple hw mix h0 vocab
  some (wrap context (multipleFilter hw mix h0 pq (r.2 + 1) r.1), r.2)

end Cdec.Klm.Phrase
