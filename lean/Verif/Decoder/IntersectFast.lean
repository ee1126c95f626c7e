import Verif.Decoder.Rule
import Verif.Decoder.Trellis
import Verif.HG.PruneModel
/-!
# Intersecting a linear chain with a reference

Models `FastLinearIntersect`, decoder/hg_intersect.cc:57-83, which is used for the forests of the tagger and of the lexical translators.  Rules are shared objects: edges hold numbers of objects, `heap` holds
their contents.  The target is a sentence.
-/
namespace Cdec.Dec.Fast
open Cdec.HG
variable {φ : Type}

/-- What an edge carries: the number of the object `rule_`, the features, `i_`, `j_`, `prev_i_`, `prev_j_` (decoder/hg.h:55-72). -/
structure FVal (φ : Type) where
  rule : Nat
  feats : φ
  i : Int
  j : Int
  prevI : Int
  prevJ : Int
deriving DecidableEq

/-- A copy of a rule with the two sides exchanged, hg_intersect.cc:70-71. -/
def invert (r : Rule) : Rule := ⟨r.lhs, r.e, r.f, r.arity⟩

/-- The variables of the loop, with the objects: those with numbers below `next` exist.  `inv` is `inverted_rules`, `cov` the set `cov`, `prune` and `edges` are what has been done of the two vectors. -/
structure State (φ : Type) where
  heap : Nat → Rule
  next : Nat
  inv : Nat → Option Nat
  cov : List Int
  prune : List Bool
  edges : List (Edge (FVal φ))

/-- `inverted_rules[edge.rule_.get()]`, made if it is not there: hg_intersect.cc:68-72.  The object in it, and the objects. -/
def lookup (s : State φ) (r : Nat) : Nat × (Nat → Rule) × Nat :=
  match s.inv r with
  | some o => (o, s.heap, s.next)
  | none => (s.next, fun k => if k = s.next then invert (s.heap r) else s.heap k, s.next + 1)

/-- `swap(edge.prev_i_, edge.i_)`, `swap(edge.prev_j_, edge.j_)` and the new rule, hg_intersect.cc:76-78. -/
def turn (x : Edge (FVal φ)) (o : Nat) : Edge (FVal φ) := ⟨x.id, x.head, x.tails, ⟨o, x.val.feats, x.val.prevI, x.val.prevJ, x.val.i, x.val.j⟩⟩

/-- The body of the loop for edges without tails, hg_intersect.cc:65-79; `none` is a read outside of the target or a failed assertion. -/
def leaf (target : List Int) (s : State φ) (x : Edge (FVal φ)) : Option (State φ) :=
  if x.val.prevI < 0 then none
  else
    match target[x.val.prevI.toNat]? with
    | none => none
    | some trg =>
      if ((s.heap x.val.rule).e.length : Int) - (s.heap x.val.rule).arity ≠ 1 then none
      else
        let o := lookup s x.val.rule
        if (s.heap x.val.rule).e.getD 0 0 ≠ trg then
          some ⟨o.2.1, o.2.2, fun k => if k = x.val.rule then some o.1 else s.inv k, s.cov, s.prune ++ [true], s.edges ++ [x]⟩
        else
          some ⟨o.2.1, o.2.2, fun k => if k = x.val.rule then some x.val.rule else s.inv k, if x.val.prevI ∈ s.cov then s.cov else s.cov ++ [x.val.prevI],
            s.prune ++ [false], s.edges ++ [turn x o.1]⟩

/-- The body of the loop, hg_intersect.cc:62-80. -/
def step (target : List Int) (s : State φ) (x : Edge (FVal φ)) : Option (State φ) :=
  if x.tails = [] then leaf target s x else some ⟨s.heap, s.next, s.inv, s.cov, s.prune ++ [false], s.edges ++ [x]⟩

/-- `FastLinearIntersect`, hg_intersect.cc:57-83: what it returns, the objects, and what it leaves in `hg`. -/
def fastIntersect (heap : Nat → Rule) (next : Nat) (target : List Int) (hg : Hypergraph (FVal φ)) (fuel : Nat) : Option (Bool × (Nat → Rule) × Hypergraph (FVal φ)) :=
  match hg.edges.foldlM (step target) (⟨heap, next, fun _ => none, [], [], []⟩ : State φ) with
  | none => none
  | some s => (pruneEdges ⟨hg.nodes, s.edges⟩ (fun e => s.prune.getD e false) true fuel).map fun g => (decide (s.cov.length = target.length), s.heap, g)

/-! ## What it is given -/

/-- The forest of the tagger, tagger.cc:58-66: each edge has a rule object of its own; the objects of the two rules of the constructor come after those. -/
def tagVal (e : Nat) (n : Nat) : TagVal → FVal TagVal
  | .lex i src tag => ⟨e, .lex i src tag, i, i + 1, i, i + 1⟩
  | .binary j => ⟨n, .binary j, 0, j, -1, -1⟩
  | .goal => ⟨n + 1, .goal, -1, -1, -1, -1⟩

/-- The rule objects of the tagger: `CreateLexicalRule`, `kBINARY` and `kGOAL_RULE`, tagger.cc:41-42 and 58-59. -/
def tagHeap (cat goalCat : Int) (g : Hypergraph TagVal) (o : Nat) : Rule :=
  match g.edges[o]? with
  | some x => match x.val with
    | .lex _ src tag => ⟨cat, [src], [tag], 0⟩
    | _ => ⟨0, [], [], 0⟩
  | none => if o = g.edges.length then ⟨cat, [cat, cat], [0, -1], 2⟩ else ⟨goalCat, [cat], [0], 1⟩

/-- The forest of the tagger with its objects. -/
def tagForest (g : Hypergraph TagVal) : Hypergraph (FVal TagVal) := ⟨g.nodes, g.edges.mapIdx fun e x => ⟨x.id, x.head, x.tails, tagVal e g.edges.length x.val⟩⟩

/-- The edges of the lexical translator, lextrans.cc:207-211 (and lexalign.cc:42-46): rules are objects of the grammar; `bin` and `goal` are those of the constructor. -/
def lexVal (bin goal : Nat) : LexVal Nat → FVal (LexVal Nat)
  | .lex j i r => ⟨r, .lex j i r, match j with | some j => j | none => -1, match j with | some j => j + 1 | none => 0, i, i + 1⟩
  | .word j r => ⟨r, .word j r, j, j + 1, -1, -1⟩
  | .unary => ⟨bin, .unary, -1, -1, -1, -1⟩
  | .binary => ⟨bin, .binary, -1, -1, -1, -1⟩
  | .goal => ⟨goal, .goal, -1, -1, -1, -1⟩

/-- The forest of the lexical translator with its objects. -/
def lexForest (bin goal : Nat) (g : Hypergraph (LexVal Nat)) : Hypergraph (FVal (LexVal Nat)) := ⟨g.nodes, g.edges.map fun x => ⟨x.id, x.head, x.tails, lexVal bin goal x.val⟩⟩

end Cdec.Dec.Fast
