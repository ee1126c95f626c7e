import Verif.Decoder.TreeText
import Verif.HG.PruneModel
import Verif.Decoder.Trellis
/-!
# The tree-to-string translator

Models `decoder/tree2string_translator.cc`.  The transducer state is always 0 (lines 46, 262, 301, 380) and left out.  Features,
weights and the target sides are part of the rules `R`.
-/
namespace Cdec.Dec.T2S
open Cdec.HG
variable {R : Type}

/-! ### Grammars -/

/-- `Tree2StringGrammarNode`, lines 21-24, the tree of nodes below `root.next[0]`.  A node is named by the symbols that lead to
it: `has p` says that there is such a node (`has []`: that there is a `next[0]`), `data p` lists its rules. -/
structure Trie (R : Type) where
  has : List Sym → Bool
  data : List Sym → List R

/-- `new Tree2StringGrammarNode` -/
def Trie.empty : Trie R := ⟨fun _ => false, fun _ => []⟩

/-- Lines 47-55 and 79 (and 266-268, 278): one rule. -/
def Trie.add (t : Trie R) (p : List Sym) (r : R) : Trie R :=
  ⟨fun p' => t.has p' || p'.isPrefixOf p, fun p' => if p' = p then t.data p' ++ [r] else t.data p'⟩

/-- `begin()` to `end()` of a fragment, line 53. -/
def symbols (tf : Table) (fuel : Nat) : Option (List Sym) := collect tf fuel (.begin tf (tf.length - 1))

/-- `ReadTree2StringGrammar`, lines 28-82, from the first field of the lines and the rule made from the others. -/
def load (fuel : Nat) : List (List Char × R) → Trie R → Option (Trie R)
  | [], t => some t
  | (x, r) :: rs, t => (parse true x).bind fun tf => (symbols tf fuel).bind fun p => load fuel rs (t.add p r)

/-! ### Translation -/

/-- What an edge carries: a rule with the span of its node, or the rule of `AddDummyGoalNode`. -/
inductive Val (R : Type) where
  | rule (r : R) (i j : Nat)
  | goal
deriving DecidableEq

/-- `ParserState`, lines 98-117; the pointer into the grammar is the number of the grammar and the path in it. -/
structure PState where
  it : Iter
  future : List Nat
  task : Nat
  g : Nat
  path : List Sym
deriving DecidableEq

/-- `operator==`, lines 110-113 (the symbol of the iterator is not compared). -/
def PState.same (a b : PState) : Bool :=
  decide (a.g = b.g) && decide (a.path = b.path) && decide (a.task = b.task) && decide (a.future = b.future) && decide (a.it.q = b.it.q)

/-- The local variables of `Translate`: `hg`, `x2hg`, `unique` and `q`. -/
structure Vars (R : Type) where
  forest : Hypergraph (Val R)
  x2hg : Nat → Option Nat
  seen : List PState
  q : List PState

/-- The input tree, the grammars and the numbers of categories. -/
structure Env (R : Type) where
  tf : Table
  grams : List (Trie R)
  cat : String → Int
  catGoal : Int

/-- `root[g]` -/
def Env.gram (E : Env R) (g : Nat) : Trie R := E.grams.getD g .empty

/-- `if (unique.insert(s).second) q.push(s);` -/
def push (s : PState) (m : Vars R) : Vars R :=
  if m.seen.any s.same then m else ⟨m.forest, m.x2hg, m.seen ++ [s], m.q ++ [s]⟩

/-- A state at the start of a subtree, lines 101-104. -/
def begins (E : Env R) (n g : Nat) : PState := ⟨.begin E.tf n, [], n, g, []⟩

/-- The grammars that have the transducer state, lines 300-303 and 347-349. -/
def live (E : Env R) : List Nat := (List.range E.grams.length).filter fun g => (E.gram g).has []

/-- Lines 317-323 and 327-333: the node for a task. -/
def nodeFor (E : Env R) (n : Nat) (m : Vars R) : Vars R :=
  match m.x2hg n with
  | some _ => m
  | none => ⟨addNode m.forest (E.cat (E.tf.at n).lhs), fun k => if k = n then some m.forest.nodes.length else m.x2hg k, m.seen, m.q⟩

/-- Lines 316-354: what is done for a state that has finished its subtree, if there are rules. -/
def useRules (E : Env R) (s : PState) (rs : List R) (m : Vars R) : Vars R :=
  let m := nodeFor E s.task m
  let m := s.future.foldl (fun m n => nodeFor E n m) m
  let head := (m.x2hg s.task).getD 0
  let tails := s.future.map fun n => (m.x2hg n).getD 0
  let sp := (E.tf.at s.task).span
  let f := rs.foldl (fun f r => put f (.rule r sp.1 sp.2) tails head) m.forest
  s.future.foldl (fun m n => (live E).foldl (fun m g => push (begins E n g) m) m) ⟨f, m.x2hg, m.seen, m.q⟩

/-- Lines 311-403, one iteration; `s` is the front of the queue.  `none`: "This can never happen!". -/
def stepOne (E : Env R) (s : PState) (m : Vars R) : Option (Vars R) :=
  let T := E.gram s.g
  if s.it.q.isEmpty then
    match T.data s.path with
    | [] => some m
    | r :: rs => some (useRules E s (r :: rs) m)
  else
    match s.it.sym with
    | .rhs c =>
      let var := s.it.truncate
      let m := if T.has (s.path ++ [.site c]) then push ⟨incr E.tf var, s.future ++ [s.it.child], s.task, s.g, s.path ++ [.site c]⟩ m else m
      some (if T.has (s.path ++ [.rhs c]) then push ⟨incr E.tf s.it, s.future, s.task, s.g, s.path ++ [.rhs c]⟩ m else m)
    | .site _ => none
    | y => some (if T.has (s.path ++ [y]) then push ⟨incr E.tf s.it, s.future, s.task, s.g, s.path ++ [y]⟩ m else m)

/-- The loop at lines 310-404; `none` is a run that stops or is cut off by `fuel`. -/
def mainLoop (E : Env R) : Nat → Vars R → Option (Vars R)
  | 0, _ => none
  | fuel + 1, m =>
    match m.q with
    | [] => some m
    | s :: q =>
      match stepOne E s ⟨m.forest, m.x2hg, m.seen, q⟩ with
      | none => none
      | some m => mainLoop E fuel m

/-- Lines 295-307. -/
def start (E : Env R) : Vars R :=
  let q := (live E).map (begins E (E.tf.length - 1))
  ⟨empty, fun _ => none, q, q⟩

/-- `AddDummyGoalNode`, lines 141-152. -/
def addGoal (E : Env R) (g : Hypergraph (Val R)) : Hypergraph (Val R) :=
  put (addNode g E.catGoal) .goal [g.nodes.length - 1] g.nodes.length

/-- `Translate` without pass-through rules, lines 287-423.  If it returns false the forest is not touched. -/
def translate (E : Env R) (fuel : Nat) : Option (Option (Hypergraph (Val R))) :=
  if (start E).q.isEmpty then some none else
  match mainLoop E fuel (start E) with
  | none => none
  | some m =>
    match m.x2hg (E.tf.length - 1) with
    | none => some none
    | some v =>
      match topoSort m.forest v (fun _ => false) fuel with
      | none => none
      | some h =>
        match pruneEdges h (fun _ => false) true fuel with
        | none => none
        | some h => if h.edges.isEmpty then some none else some (some (addGoal E h))

/-- The constructor, lines 159-173, and `Translate`: grammar files and the text of the input tree. -/
def run (cat : String → Int) (catGoal : Int) (fuel : Nat) (files : List (List (List Char × R))) (input : List Char) : Option (Option (Hypergraph (Val R))) :=
  (files.mapM fun ls => load fuel ls .empty).bind fun ts => (parse false input).bind fun tf => translate ⟨tf, ts, cat, catGoal⟩ fuel

/-! ### Pass-through rules -/

/-- Lines 238-253: the text of a symbol. -/
def passSym (tf : Table) : RSym → List Char
  | .term w => w.toList
  | .node n => '[' :: (tf.at n).lhs.toList ++ [']']
  | .site c => c.toList

/-- Lines 237-257: the text of the fragment of a production, with the labels of the nodes below it. -/
def passText (tf : Table) (p : Prd) : List Char :=
  '(' :: p.lhs.toList ++ (p.rhs.flatMap fun x => ' ' :: passSym tf x) ++ [')']

/-- Lines 241-252: a symbol of the key (`-id` for the label of a node). -/
def keySym (tf : Table) : RSym → RSym
  | .node n => .site (tf.at n).lhs
  | x => x

/-- Lines 231-256: the key. -/
def passKey (tf : Table) (p : Prd) : String × List RSym := (p.lhs, p.rhs.map (keySym tf))

/-- A word. -/
def RSym.isTerm : RSym → Bool
  | .term _ => true
  | _ => false

/-- Line 263: `has_nt && !has_t`. -/
def abstractRule (p : Prd) : Bool := (p.rhs.any fun x => !x.isTerm) && !p.rhs.any RSym.isTerm

/-- A site. -/
def Sym.isSite : Sym → Bool
  | .site _ => true
  | _ => false

/-- The target side of a rule: words and the numbers of sites. -/
abbrev Tgt := List (String ⊕ Nat)

/-- `rhse`, lines 232-254, from the number of sites so far. -/
def rhse : Nat → List RSym → Tgt
  | _, [] => []
  | k, .term w :: xs => .inl w :: rhse k xs
  | k, .node _ :: xs => .inr k :: rhse (k + 1) xs
  | k, .site _ :: xs => .inr k :: rhse (k + 1) xs

/-- `DoesAbstractPassThroughRuleExist`, lines 184-208, for the symbols of the fragment; `tgt` gives the target sides. -/
def monoExists (grams : List (Trie R)) (tgt : R → Tgt) (p : List Sym) : Bool :=
  let trg : Tgt := (List.range (p.countP Sym.isSite)).map .inr
  grams.any fun T => T.has p && (T.data p).any fun r => decide (tgt r = trg)

/-- `CreatePassThroughRules`, lines 210-280, from the keys that have been used and the grammar so far; `mk` makes the rule from
its target side and the production. -/
def passLoop (tf : Table) (grams : List (Trie R)) (tgt : R → Tgt) (mk : Tgt → Prd → R) (fuel : Nat) :
    List Prd → List (String × List RSym) → Trie R → Option (Trie R)
  | [], _, t => some t
  | p :: ps, keys, t =>
    if passKey tf p ∈ keys then passLoop tf grams tgt mk fuel ps keys t else
      match parse true (passText tf p) with
      | none => none
      | some src =>
        match symbols src fuel with
        | none => none
        | some path =>
          if abstractRule p && monoExists grams tgt path then passLoop tf grams tgt mk fuel ps (passKey tf p :: keys) t
          else passLoop tf grams tgt mk fuel ps (passKey tf p :: keys) (t.add path (mk (rhse 0 p.rhs) p))

/-- The same with `--add_pass_through_rules`, line 292. -/
def runPass (tgt : R → Tgt) (mk : Tgt → Prd → R) (cat : String → Int) (catGoal : Int) (fuel : Nat) (files : List (List (List Char × R))) (input : List Char) :
    Option (Option (Hypergraph (Val R))) :=
  (files.mapM fun ls => load fuel ls .empty).bind fun ts => (parse false input).bind fun tf =>
    (passLoop tf ts tgt mk fuel tf [] .empty).bind fun t => translate ⟨tf, ts ++ [t], cat, catGoal⟩ fuel

end Cdec.Dec.T2S
