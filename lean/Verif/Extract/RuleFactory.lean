import Verif.Extract.Intersector
/-!
# The rule factory: the source patterns of a sentence

Models extractor/rule_factory.cc (`HieroCachingRuleFactory`), matchings_trie.h and matchings_finder.cc.  Trie nodes
live in a heap and are named by their index, so that sharing and null pointers are as in the code.  Dereferencing a
null pointer or reading outside the sentence yields `none`.  The main loop takes an iteration budget and yields `none`
when it runs out.  `int` and `size_t` are unbounded.  Timing and messages are not modelled; the member `phrase` of trie
nodes and the member `subpatterns_start` of states, which the code never reads, are left out.
-/
namespace Cdec.Extract

/-- `TrieNode`, matchings_trie.h:18-43: a child is absent (`none`), a null pointer (`some none`) or a node.  The
location of a node is copied, matchings_trie.h:19-22; `Intersect` replaces a range by the positions it stands for
(fast_intersector.cc:156-167), which every later reader of that node treats alike: such nodes contain a nonterminal and
are never passed to `Find`. -/
structure TrieNode where
  suffixLink : Option Nat
  loc : PhraseLocation
  children : Int → Option (Option Nat)

/-- The heap of trie nodes. -/
structure Trie where
  size : Nat
  node : Nat → TrieNode

/-- `AddChild`, matchings_trie.h:25-27. -/
def Trie.addChild (t : Trie) (i : Nat) (k : Int) (c : Option Nat) : Trie :=
  ⟨t.size, fun j => if j = i then
    ⟨(t.node i).suffixLink, (t.node i).loc, fun k' => if k' = k then some c else (t.node i).children k'⟩
  else t.node j⟩

/-- `GetChild`, matchings_trie.h:35-37: `children[key]` inserts a null pointer for an absent key. -/
def Trie.getChild (t : Trie) (i : Nat) (k : Int) : Option Nat × Trie :=
  match (t.node i).children k with
  | some c => (c, t)
  | none => (none, t.addChild i k none)

/-- `make_shared<TrieNode>(suffix_link, phrase, matchings)`, matchings_trie.h:19-22. -/
def Trie.alloc (t : Trie) (link : Option Nat) (loc : PhraseLocation) : Nat × Trie :=
  (t.size, ⟨t.size + 1, fun j => if j = t.size then ⟨link, loc, fun _ => none⟩ else t.node j⟩)

/-- `State`, rule_factory.cc:30-42. -/
structure FState where
  start : Nat
  stop : Nat
  phrase : List Int
  node : Option Nat
  startsX : Bool

/-- Members of `HieroCachingRuleFactory`, rule_factory.h; the intersector holds `min_gap_size`, `max_rule_span`, the
suffix array and the vocabulary, which the constructor shares among all parts (rule_factory.cc:57-73). -/
structure Factory where
  I : Intersector
  maxNt : Nat
  maxChunks : Nat
  maxSym : Nat

/-- A call of `ExtractRules`: the symbols of the phrase and the location given to the sampler, rule_factory.cc:200-203. -/
abbrev Call := List Int × PhraseLocation

/-- `CannotHaveMatchings`, rule_factory.cc:232-240. -/
def cannotHaveMatchings (t : Trie) (id : Nat) (w : Int) : Bool × Trie :=
  if (t.node id).children w = some none then (true, t)
  else match (t.node id).suffixLink with
    | none => (false, t)
    | some j => ((t.getChild j w).1.isNone, (t.getChild j w).2)

/-- `MatchingsFinder::Find`, matchings_finder.cc:15-23; the location of the root, `(-1, -1)` in the code until its first
use here, is `(0, GetSize())` from the start. -/
def Factory.find (F : Factory) (l : PhraseLocation) (w : Int) (offset : Nat) : PhraseLocation :=
  let r := lookup F.I.d.data F.I.sa l.saLow l.saHigh (F.I.d.word2id (F.I.terminal w)) offset
  .ofRange r.1 r.2

/-- The location of a phrase not starting with a nonterminal, rule_factory.cc:158-179; `link` is `next_suffix_link`. -/
def Factory.locate (F : Factory) (t : Trie) (id : Nat) (link : Option Nat) (phrase : List Int) (w : Int) :
    Option PhraseLocation :=
  if 0 < (buildPhrase (phrase ++ [w])).arity then do
    let j ← link
    some (F.I.intersect (t.node id).loc (t.node j).loc (buildPhrase (phrase ++ [w])))
  else some (F.find (t.node id).loc w phrase.length)

/-- `AddTrailingNonterminal`, rule_factory.cc:247-267. -/
def Factory.addTrailing (F : Factory) (t : Trie) (symbols : List Int) (c : Nat) (startsX : Bool) : Option Trie :=
  let arity := (buildPhrase symbols).arity
  if F.maxNt ≤ arity then some t
  else do
    let j ← (t.node c).suffixLink
    let r := t.getChild j (-((arity + if startsX then 0 else 1 : Nat) : Int))
    let a := r.2.alloc r.1 (r.2.node c).loc
    some (a.2.addChild c (-((arity + 1 : Nat) : Int)) (some a.1))

/-- The positions of the loop at rule_factory.cc:297-304. -/
def Factory.gapStops (F : Factory) (n : Nat) (st : FState) : List Nat :=
  (List.range' (st.stop + 1 + F.I.gap) (n - (st.stop + 1 + F.I.gap))).takeWhile
    fun i => decide (i - st.start ≤ F.I.span)

/-- `ExtendState`, rule_factory.cc:269-307, for a sentence of `n` words. -/
def Factory.extendState (F : Factory) (n : Nat) (t : Trie) (st : FState) (symbols : List Int) (c : Nat) :
    List FState × Trie :=
  let arity := (buildPhrase symbols).arity
  if F.maxSym ≤ symbols.length ∨ n ≤ st.stop + 1 ∨ F.I.span ≤ st.stop - st.start then ([], t)
  else
    let next : FState := ⟨st.start, st.stop + 1, symbols, some c, st.startsX⟩
    if F.maxSym ≤ symbols.length + 1 ∨ F.maxNt ≤ arity ∨ F.maxChunks ≤ arity + (if st.startsX then 0 else 1) then
      ([next], t)
    else
      let x : Int := -((arity + 1 : Nat) : Int)
      (next :: (F.gapStops n st).map fun i => ⟨st.start, i, symbols ++ [x], (t.getChild c x).1, st.startsX⟩,
        if F.gapStops n st = [] then t else (t.getChild c x).2)

/-- `next_suffix_link`, rule_factory.cc:150-151. -/
def nextLink (t : Trie) (id : Nat) (w : Int) : Option Nat × Trie :=
  match (t.node id).suffixLink with
  | none => (some 0, t)
  | some j => t.getChild j w

/-- rule_factory.cc:149-206, for a child that is absent: the new node, the trie and the call of `ExtractRules`, or
nothing if the phrase has no occurrences. -/
def Factory.newNode (F : Factory) (t : Trie) (st : FState) (id : Nat) (w : Int) :
    Option (Option (Nat × Trie × List Call)) :=
  let (link, t) := nextLink t id w
  let symbols := st.phrase ++ [w]
  if st.startsX then do
    let j ← link
    let a := t.alloc (some j) (t.node j).loc
    let t ← F.addTrailing (a.2.addChild id w (some a.1)) symbols a.1 true
    some (some (a.1, t, []))
  else do
    let l ← F.locate t id link st.phrase w
    if l.getSize = 0 then some none
    else do
      let a := t.alloc link l
      let t ← F.addTrailing (a.2.addChild id w (some a.1)) symbols a.1 false
      some (some (a.1, t, [(symbols, (t.node a.1).loc)]))

/-- One iteration of the loop, rule_factory.cc:135-217: the trie, the new states and the calls of `ExtractRules`. -/
def Factory.step (F : Factory) (words : List Int) (t : Trie) (st : FState) :
    Option (Trie × List FState × List Call) := do
  let id ← st.node
  let w ← words[st.stop]?
  let (cannot, t) := cannotHaveMatchings t id w
  if cannot then
    some (if (t.node id).children w = none then t.addChild id w none else t, [], [])
  else match (t.node id).children w with
    | some child => do
      let c ← child
      let e := F.extendState words.length t st (st.phrase ++ [w]) c
      some (e.2, e.1, [])
    | none => do
      match ← F.newNode t st id w with
      | none => some (t, [], [])
      | some (c, t, calls) =>
        let e := F.extendState words.length t st (st.phrase ++ [w]) c
        some (e.2, e.1, calls)

/-- The loop over the queue, rule_factory.cc:131-218; the first argument is the budget. -/
def Factory.loop (F : Factory) (words : List Int) : Nat → Trie → List FState → Option (List Call)
  | _, _, [] => some []
  | 0, _, _ :: _ => none
  | fuel + 1, t, st :: queue => do
    let (t, new, calls) ← F.step words t st
    let rest ← F.loop words fuel t (queue ++ new)
    some (calls ++ rest)

/-- The trie before the loop, rule_factory.cc:114-119: the root and `x_root`. -/
def Factory.initTrie (F : Factory) : Trie :=
  ⟨2, fun j => if j = 0 then ⟨none, .ofRange 0 F.I.sa.sa.length, fun k => if k = -1 then some (some 1) else none⟩
    else ⟨some 0, .ofRange 0 0, fun _ => none⟩⟩

/-- The queue before the loop, rule_factory.cc:121-128. -/
def Factory.initQueue (F : Factory) (n : Nat) : List FState :=
  (List.range n).map (fun i => ⟨i, i, [], some 0, false⟩) ++
  (List.range' F.I.gap (n - F.I.gap)).map (fun i => ⟨i - F.I.gap, i, [-1], some 1, true⟩)

/-- The calls of `ExtractRules` made by `GetGrammar`, in order, rule_factory.cc:106-230. -/
def Factory.calls (F : Factory) (words : List Int) (fuel : Nat) : Option (List Call) :=
  F.loop words fuel F.initTrie (F.initQueue words.length)

/-- `GetGrammar`, rule_factory.cc:106-230: the rules, given `extract` for sampling a location and extracting the rules
from the sample (rule_factory.cc:200-204). -/
def Factory.getGrammar {R : Type} (F : Factory) (extract : List Int → PhraseLocation → List R) (words : List Int)
    (fuel : Nat) : Option (List R) :=
  (F.calls words fuel).map fun cs => cs.flatMap fun c => extract c.1 c.2

end Cdec.Extract
