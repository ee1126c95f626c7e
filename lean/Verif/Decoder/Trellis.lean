import Verif.HG.Model
/-!
# The forests of the tagger, the lexical translator and the compound splitter

Models decoder/tagger.cc, decoder/lextrans.cc and decoder/csplit.cc.  Weights and features are left out: an edge carries what it was made from.
Category numbers are parameters.  `none` is a failed assertion or an undefined access.
-/
namespace Cdec.Dec
open Cdec.HG

/-- `AddEdge` and `ConnectEdgeToHeadNode`, as they are called one after the other. -/
def put {α : Type} (g : Hypergraph α) (x : α) (ts : List Nat) (v : Nat) : Hypergraph α := connect (addEdge g x ts) g.edges.length v

/-- Edges without tails into node `v`. -/
def putLeaves {α : Type} (g : Hypergraph α) (xs : List α) (v : Nat) : Hypergraph α := xs.foldl (fun g x => put g x [] v) g

/-- The goal node and its edge, tagger.cc:80-83, lextrans.cc:145-148 and 247-250, csplit.cc:111-114.  With no nodes the tail is -1. -/
def finish {α : Type} (goalCat : Int) (goal : α) (g : Hypergraph α) : Option (Hypergraph α) :=
  if g.nodes.length = 0 then none
  else
    let v := g.nodes.length - 1
    let g := addNode g goalCat
    some (put g goal [v] (g.nodes.length - 1))

/-- One step of a linear chain: a node with the given leaves, joined to what there is so far by a binary edge, tagger.cc:54-79 and lextrans.cc:193-246.
The first component is `prev_node_id`. -/
def chainStep {α : Type} (cat : Int) (bin : α) (leaves : List α) (s : Option Nat × Hypergraph α) : Option Nat × Hypergraph α :=
  let new := s.2.nodes.length
  let g := putLeaves (addNode s.2 cat) leaves new
  match s.1 with
  | none => (some new, g)
  | some prev =>
    let comb := g.nodes.length
    (some comb, put (addNode g cat) bin [prev, new] comb)

/-! ### The tagger -/

inductive TagVal where
  /-- `CreateLexicalRule(src, tag)` over `i`, `i + 1` -/
  | lex (i : Nat) (src tag : Int)
  /-- `kBINARY` over `0`, `j` -/
  | binary (j : Nat)
  | goal
deriving DecidableEq, Repr

/-- `TaggerImpl::BuildTrellis`, tagger.cc:50-84. -/
def tagTrellis (cat goalCat : Int) (tagset : List Int) (seq : List Int) : Option (Hypergraph TagVal) :=
  finish goalCat .goal
    (seq.zipIdx.foldl (fun s x => chainStep cat (.binary (x.2 + 1)) (tagset.map fun t => .lex x.2 x.1 t) s) (none, empty)).2

/-! ### The lexical translator -/

/-- A source position; `none` is the null word at position -1. -/
abbrev SrcPos := Option Nat

inductive LexVal (R : Type) where
  /-- a rule for the source position; `i` is the target position -/
  | lex (j : SrcPos) (i : Nat) (r : R)
  /-- as in the search with swaps, where the target position is not recorded -/
  | word (j : Nat) (r : R)
  | unary
  | binary
  | goal
deriving DecidableEq, Repr

/-- The input of the lexical translator: source words, reference words, options and the rules for a source word (`none`: the grammar has no
continuation for the word; with a grammar per sentence that one is asked next).  `trg` is `e_[0]`. -/
structure LexEnv (R : Type) where
  src : List Int
  ref : List Int
  useNull : Bool
  alignOnly : Bool
  nullWord : Int
  rules : Int → Option (List R)
  trg : R → Int
  cat : Int
  goalCat : Int

variable {R : Type}

/-- The source positions of the loop at lextrans.cc:196, with their words. -/
def LexEnv.sources (E : LexEnv R) : List (SrcPos × Int) :=
  (if E.useNull then [(none, E.nullWord)] else []) ++ E.src.zipIdx.map fun x => (some x.2, x.1)

/-- lextrans.cc:196-236: the edges into the node of target position `i`; `none` is the return of false. -/
def LexEnv.leaves (E : LexEnv R) (i : Nat) : Option (List (LexVal R)) :=
  (E.sources.mapM fun x => (E.rules x.2).map fun rs =>
    (rs.filter fun r => !E.alignOnly || E.ref.contains (E.trg r)).map fun r => LexVal.lex x.1 i r).map List.flatten

/-- lextrans.cc:193-246 and 247-250.  The outer `none` is undefined, the inner one the return of false. -/
def lexTrellis (E : LexEnv R) : Option (Option (Hypergraph (LexVal R))) :=
  match (List.range E.ref.length).mapM E.leaves with
  | none => some none
  | some ls => (finish E.goalCat .goal (ls.foldl (fun s l => chainStep E.cat .binary l s) (none, empty)).2).map some

/-! ### The lexical translator with swaps of neighbouring words -/

/-- lextrans.cc:94-100: one node for each word of the reference. -/
def dynaWords (cat : Int) (ref : List Int) : List Int × Hypergraph (LexVal R) :=
  ref.foldl (fun s w => if s.1.contains w then s else (s.1 ++ [w], addNode s.2 cat)) ([], empty)

/-- lextrans.cc:103-124: the edges of the words. -/
def dynaLex (E : LexEnv R) (words : List Int) (g : Hypergraph (LexVal R)) : Option (Hypergraph (LexVal R)) :=
  E.src.zipIdx.foldl (fun g x => match g, E.rules x.1 with
    | some g, some rs => some (rs.foldl (fun g r => if words.contains (E.trg r) then put g (.word x.2 r) [] (words.idxOf (E.trg r)) else g) g)
    | _, _ => none) (some g)

/-- `CreateEdgeHelper`, lextrans.cc:64-85.  The map `nl2node` gives 0 for an absent key; `src = none` is a negative number. -/
def dynaEdge (cat : Int) (label : Nat) (src : Option Nat) (dest : Nat) (s : Hypergraph (LexVal R) × (Nat → Nat)) : Option (Hypergraph (LexVal R) × (Nat → Nat)) :=
  let m := if s.2 dest = 0 then fun k => if k = dest then s.1.nodes.length else s.2 k else s.2
  let g := if s.2 dest = 0 then addNode s.1 cat else s.1
  match src with
  | none => some (put g .unary [label] (m dest), m)
  | some k => if m k = 0 then none else some (put g .binary [m k, label] (m dest), m)

/-- lextrans.cc:129-149, the body of the loop. -/
def dynaStep (E : LexEnv R) (words : List Int) (i : Nat) (s : Hypergraph (LexVal R) × (Nat → Nat)) : Option (Hypergraph (LexVal R) × (Nat → Nat)) :=
  let label := fun (k : Nat) => words.idxOf (E.ref.getD k 0)
  let back := fun (d : Nat) => if i < d then none else some (i - d)
  if i % 2 = 0 then
    (dynaEdge E.cat (label (i / 2)) (back 2) i s).bind fun s =>
      if i ≤ 1 then some s else dynaEdge E.cat (label ((i - 1) / 2)) (back 1) i s
  else dynaEdge E.cat (label ((i + 1) / 2)) (back 3) i s

/-- The loop at lextrans.cc:128-150, for `i` below a bound. -/
def dynaLoop (E : LexEnv R) (words : List Int) (g : Hypergraph (LexVal R)) : Nat → Option (Hypergraph (LexVal R) × (Nat → Nat))
  | 0 => some (g, fun _ => 0)
  | i + 1 => (dynaLoop E words g i).bind (dynaStep E words i)

/-- `BuildDynaSearchTrellis`, lextrans.cc:87-155. -/
def dynaTrellis (E : LexEnv R) : Option (Option (Hypergraph (LexVal R))) :=
  if E.ref = [] then none
  else
    let w := dynaWords E.cat E.ref
    match dynaLex E w.1 w.2 with
    | none => some none
    | some g =>
      match dynaLoop E w.1 g (E.ref.length * 2 - 1) with
      | none => none
      | some s => (finish E.goalCat .goal s.1).map some

/-! ### The compound splitter -/

/-- `UTF8Len`, utils/stringlib.h:295-303. -/
def utf8Len (x : UInt8) : Nat :=
  let n := x.toNat
  if n < 0x80 then 1 else if n / 32 = 0x06 then 2 else if n / 16 = 0x0e then 3 else if n / 8 = 0x1e then 4 else if n / 4 = 0x3e then 5
  else if n / 2 = 0x7e then 6 else 0

/-- `SplitUTF8String`, csplit.cc:129-141; `none` is a failed assertion.  The number of bytes bounds the number of steps. -/
def splitUtf8 : Nat → List UInt8 → Option (List (List UInt8))
  | _, [] => some []
  | 0, _ :: _ => none
  | fuel + 1, b :: bs =>
    if utf8Len b = 0 then none else (splitUtf8 fuel ((b :: bs).drop (utf8Len b))).map ((b :: bs).take (utf8Len b) :: ·)

/-- The features `FugS` and `FugN`. -/
inductive Fugen where
  | s
  | n
deriving DecidableEq, Repr

/-- What an edge of the splitter carries: the part of the word and what is written for it; `alt` says that it lost a linking element. -/
inductive SplitVal where
  | wordBreak
  | part (i j : Nat) (alt : Option Fugen) (out : List UInt8)
  | goal
deriving DecidableEq, Repr

/-- `min_size_`, csplit.cc:17. -/
def minSize : Nat := 3

/-- `PasteTogetherStrings`, csplit.cc:27-42. -/
def paste (chars : List (List UInt8)) (i j : Nat) : List UInt8 := ((chars.drop i).take (j - i)).flatten

/-- csplit.cc:80-95: the part without its linking element. -/
def unlink (y : List UInt8) : Option (Fugen × List UInt8) :=
  let len := y.length
  if len > minSize + 2 ∧ y.getD (len - 1) 0 = 115 ∧ y.getD (len - 2) 0 = 101 then some (.s, y.take (len - 2))
  else if len > minSize + 1 ∧ y.getD (len - 1) 0 = 115 then some (.s, y.take (len - 1))
  else if len > minSize + 2 ∧ y.getD (len - 2) 0 = 101 ∧ y.getD (len - 1) 0 = 110 then some (.n, y.take (len - 1))
  else none

/-- csplit.cc:66-106: the edges for the part from `i` to `j`, between nodes `a` and `b`. -/
def splitPart (chars : List (List UInt8)) (i j a b : Nat) (g : Hypergraph SplitVal) : Hypergraph SplitVal :=
  let y := paste chars i j
  let g := put g (.part i j none y) [a] b
  if j ≠ chars.length then
    match unlink y with
    | some (f, alt) => if alt.length ≠ 0 then put g (.part i j (some f) alt) [a] b else g
    | none => g
  else g

/-- `max_split_`, csplit.cc:50. -/
def maxSplit (n : Nat) : Nat := max (n + 1 - minSize) 1

/-- csplit.cc:46-56: the nodes of positions, `nodes`, and the forest with them. -/
def splitNodes (cat : Int) (n : Nat) : (Nat → Option Nat) × Hypergraph SplitVal :=
  let g := put (addNode empty cat) .wordBreak [] 0
  let s := (List.range' minSize (maxSplit n - minSize)).foldl (fun (s : (Nat → Option Nat) × Hypergraph SplitVal) i =>
    (fun k => if k = i then some s.2.nodes.length else s.1 k, addNode s.2 cat)) (fun k => if k = 0 then some 0 else none, g)
  (fun k => if k = n then some s.2.nodes.length else s.1 k, addNode s.2 cat)

/-- `CompoundSplitImpl::BuildTrellis`, csplit.cc:44-115.  For the empty word the assertion fails. -/
def splitTrellis (cat goalCat : Int) (chars : List (List UInt8)) : Option (Hypergraph SplitVal) :=
  let n := chars.length
  if n = 0 then none
  else
    let s := splitNodes cat n
    let g := (List.range (maxSplit n)).foldl (fun g i => match s.1 i with
      | none => g
      | some a => (List.range' (min (i + minSize) n) (n + 1 - min (i + minSize) n)).foldl (fun g j => match s.1 j with
        | none => g
        | some b => splitPart chars i j a b g) g) s.2
    finish goalCat .goal g

/-- `edges_[e].j_`. -/
def partEnd (g : Hypergraph SplitVal) (e : Nat) : Option Nat := match g.edges[e]? with
  | some x => match x.val with
    | .part _ j _ _ => some j
    | _ => none
  | none => none

/-- The body of the loop at csplit.cc:165-171; `none` stands for `max_edge = -1`. -/
def fullStep (j : Nat → Option Nat) (s : Option (Nat × Nat)) (e : Nat) : Option (Nat × Nat) := match j e with
  | none => s
  | some j => match s with
    | none => some (e, j)
    | some (_, mj) => if j > mj then some (e, j) else s

/-- `GetFullWordEdgeIndex`, csplit.cc:160-174. -/
def fullWordEdge (g : Hypergraph SplitVal) : Option Nat := ((g.node 0).outEdges.foldl (fullStep (partEnd g)) none).map (·.1)

end Cdec.Dec
