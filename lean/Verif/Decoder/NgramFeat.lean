import Mathlib.Data.List.Basic
import Mathlib.Algebra.Group.Pi.Basic
/-!
# The n-gram features

Models decoder/ff_ngrams.cc: `NgramDetectorImpl`, which counts the n-grams of the translation while it
is put together, each rule seeing only the states that its antecedents left behind.

Words are ids.  `tok` is `TD::Convert` from ids to strings and `fd` is `FD::Convert` from names to feature ids;
nothing is assumed about them.  A sparse vector is its function from feature ids to values.  The state of a
node is a record of the fields that the accessors at ff_ngrams.cc:157-205 read and write in the state bytes.
The order is between 1 and 5, as the size of `State<5>` and of the list of prefixes demands.  The
cluster file has been read (`clusters`); reading it and parsing the arguments is not modelled.
-/
namespace Cdec.NgramFeat

/-- The arguments of the feature, ff_ngrams.cc:396-437. -/
structure Cfg where
  order : Nat
  sos : Nat
  eos : Nat
  /-- `kCDEC_UNK` -/
  unk : Nat
  /-- `cluster_map`, empty when no clusters are used -/
  clusters : List Nat
  prefixes : List String
  sep : String
  featname : String
  tok : Nat → String
  fd : String → Nat
  /-- `FD::Convert("Malformed")` is `fd "Malformed"`; `add_sos_eos_` -/
  addMarkers : Bool

abbrev Feats := Nat → Int

/-- `set_value` -/
def Feats.set (p : Feats) (fid : Nat) (v : Int) : Feats := fun f => if f = fid then v else p f

/-- `MapToClusterIfNecessary`, ff_ngrams.cc:207-211. -/
def Cfg.cluster (c : Cfg) (w : Nat) : Nat :=
  if c.clusters.length = 0 then w else if w ≥ c.clusters.length then c.unk else c.clusters.getD w c.unk

/-- `Escape`, ff_ngrams.cc:51-61. -/
def escape (s : String) : String := String.ofList (s.toList.map fun ch => if ch = '=' || ch = ';' then '_' else ch)

/-- The words of an n-gram with the separator between them, ff_ngrams.cc:224-228. -/
def joined (c : Cfg) : List Nat → String
  | [] => ""
  | [w] => escape (c.tok w)
  | w :: ws => escape (c.tok w) ++ c.sep ++ joined c ws

/-- The name of an n-gram given in reading order, ff_ngrams.cc:221-229. -/
def Cfg.name (c : Cfg) (gram : List Nat) : String :=
  c.featname ++ c.prefixes.getD gram.length "" ++ joined c gram

/-- `fidroot_`, ff_ngrams.cc:462-466: the feature id at the end of a path of words, the last word of the
n-gram first; 0 when there is none. -/
abbrev Cache := List Nat → Nat

def Cache.set (k : Cache) (path : List Nat) (fid : Nat) : Cache := fun p => if p = path then fid else k p

/-- The loop of `FireFeatures`, ff_ngrams.cc:213-237.  `path` are the words before `cur` in `buf` and
`rest` the words of the state that are still to come, the latest first. -/
def fireLoop (c : Cfg) (path : List Nat) (cur : Nat) (rest : List Nat) (k : Cache) (p : Feats) : Cache × Feats :=
  if cur = 0 then (k, p)
  else
    let path' := path ++ [cur]
    let fid := if k path' = 0 then c.fd (c.name path'.reverse) else k path'
    let k' := k.set path' fid
    match rest with
    | [] => (k', p.set fid 1)
    | x :: xs => fireLoop c path' x xs k' (p.set fid 1)

/-- `FireFeatures`, ff_ngrams.cc:213-237: into an empty vector. -/
def fire (c : Cfg) (state : List Nat) (cur : Nat) (k : Cache) : Cache × Feats :=
  fireLoop c [] cur state.reverse k 0

/-- `State(other, order, extend)`, ff_ngrams.cc:40-45: the first `order - 1` words of the array. -/
def extend (c : Cfg) (state : List Nat) (w : Nat) : List Nat :=
  if c.order - 1 = 0 then [] else state.tail ++ [w]

/-- `BeginSentenceState`, ff_ngrams.cc:169-173. -/
def beginState (c : Cfg) : List Nat := if c.order - 1 = 0 then [] else c.sos :: List.replicate (c.order - 2) 0

/-- The state of a node: `RemnantLMState`, the unscored words, and the two flags. -/
structure NState where
  lm : List Nat
  unscored : List Nat
  full : Bool
  eos : Bool
deriving DecidableEq, Repr

/-- The variables of `LookupWords`, ff_ngrams.cc:241-247.  `num_estimated` is the length of `unscored`. -/
structure Vars where
  state : List Nat
  numScored : Nat
  unscored : List Nat
  sawEos : Bool
  hist : Bool
  complete : Bool
  feats : Feats
  est : Feats

/-- One word, ff_ngrams.cc:253-284 (`terminal = false`: an unscored word of an antecedent) and 291-320. -/
def feed (c : Cfg) (terminal : Bool) (k : Cache) (v : Vars) (w : Nat) : Cache × Vars :=
  let mal := c.fd "Malformed"
  let (k, p, state, sawEos, numScored, complete) : Cache × Feats × List Nat × Bool × Nat × Bool :=
    if w = c.sos then
      if v.hist then (k, Feats.set 0 mal (if terminal then -100 else 1), beginState c, v.sawEos, v.numScored, true)
      else (k, 0, beginState c, v.sawEos, c.order - 2, v.complete)
    else
      let r := fire c v.state w k
      (r.1, if v.sawEos then r.2.set mal 1 else r.2, extend c v.state w, decide (w = c.eos), v.numScored, v.complete)
  let numScored := numScored + 1
  let complete := if !complete && decide (numScored ≥ c.order) then true else complete
  if complete then (k, ⟨state, numScored, v.unscored, sawEos, true, true, v.feats + p, v.est⟩)
  else (k, ⟨state, numScored, v.unscored ++ [w], sawEos, true, false, v.feats, v.est + p⟩)

def feeds (c : Cfg) (k : Cache) (v : Vars) : List Nat → Cache × Vars
  | [] => (k, v)
  | w :: ws => feeds c (feed c false k v w).1 (feed c false k v w).2 ws

/-- A symbol of the target side: a word, or the number of an antecedent. -/
inductive Sym where
  | word (w : Nat)
  | nt (i : Nat)
deriving DecidableEq, Repr

/-- What follows the unscored words of an antecedent, ff_ngrams.cc:286-290. -/
def absorb (v : Vars) (a : NState) : Vars :=
  if a.full then ⟨a.lm, v.numScored, v.unscored, a.eos, v.hist, true, v.feats, v.est⟩
  else ⟨v.state, v.numScored, v.unscored, a.eos, v.hist, v.complete, v.feats, v.est⟩

/-- The loop of `LookupWords`, ff_ngrams.cc:248-322; `none`: no such antecedent. -/
def lookupLoop (c : Cfg) (ants : List NState) (k : Cache) (v : Vars) : List Sym → Option (Cache × Vars)
  | [] => some (k, v)
  | .word w :: e =>
    let r := feed c true k v (c.cluster w)
    lookupLoop c ants r.1 r.2 e
  | .nt i :: e =>
    match ants[i]? with
    | none => none
    | some a =>
      let r := feeds c k v a.unscored
      lookupLoop c ants r.1 (absorb r.2 a) e

/-- ff_ngrams.cc:241-247 -/
def start (c : Cfg) : Vars := ⟨List.replicate (c.order - 1) 0, 0, [], false, false, false, 0, 0⟩

/-- ff_ngrams.cc:323-328 -/
def finish (c : Cfg) (v : Vars) : NState := ⟨v.state, v.unscored, v.complete || decide (v.numScored ≥ c.order), v.sawEos⟩

/-- `LookupWords` with a state to write: the state of the node and the features of the edge. -/
def lookupWords (c : Cfg) (k : Cache) (e : List Sym) (ants : List NState) : Option (Cache × NState × Feats) :=
  (lookupLoop c ants k (start c) e).map fun r => (r.1, finish c r.2, r.2.feats)

/-- `dummy_state_` as `FinalTraversal` leaves it, ff_ngrams.cc:335-337. -/
def dummyState (c : Cfg) : NState := ⟨beginState c, [], true, false⟩

/-- `FinalTraversal`, ff_ngrams.cc:333-354: the rule `[1] [2] </s>`.  `none`: estimated features are
added to the null pointer. -/
def finalTraversal (c : Cfg) (k : Cache) (s : NState) : Option (Cache × Feats) :=
  if c.addMarkers then
    match lookupLoop c [dummyState c, s] k (start c) [.nt 0, .nt 1, .word c.eos] with
    | none => none
    | some (k, v) => if v.unscored = [] then some (k, v.feats) else none
  else some (k, 0)

/-- A derivation: the target side of its rule and the derivations of its antecedents. -/
inductive Deriv where
  | node (e : List Sym) (kids : List Deriv)

mutual
/-- The features over a derivation: every rule application is scored once, with the states of its
antecedents, and the features add up.  The cache passes from one application to the next. -/
def total (c : Cfg) (k : Cache) : Deriv → Option (Cache × NState × Feats)
  | .node e kids =>
    match totals c k kids with
    | none => none
    | some (k, ks) =>
      match lookupWords c k e (ks.map (·.1)) with
      | none => none
      | some (k, s, f) => some (k, s, f + (ks.map (·.2)).sum)
def totals (c : Cfg) (k : Cache) : List Deriv → Option (Cache × List (NState × Feats))
  | [] => some (k, [])
  | d :: ds =>
    match total c k d with
    | none => none
    | some (k, r) =>
      match totals c k ds with
      | none => none
      | some (k, rs) => some (k, r :: rs)
end

/-- The features of a complete derivation, the final transition included. -/
def features (c : Cfg) (k : Cache) (d : Deriv) : Option Feats :=
  match total c k d with
  | none => none
  | some (k, s, f) =>
    match finalTraversal c k s with
    | none => none
    | some (_, g) => some (f + g)

end Cdec.NgramFeat
