import Verif.Decoder.Decode
import Verif.Decoder.ForestGrammar
import Verif.Decoder.ParserText
import Verif.HG.PruneModel
import Verif.Util.Decimal
/-!
# Intersecting a forest with a reference

Models decoder/hg_intersect.cc.  The dictionary is given by `conv`, `TD::Convert` of a string, and `name`, `TD::Convert` of a number.  Spans of edges are integers,
without the bound of `short int`.
-/
namespace Cdec.Dec.Intersect
open Cdec.HG Cdec.Dec.Parser
variable {φ : Type}

/-- What an edge carries: `rule_`, `rule_->parent_rule_`, `feature_values_`, `i_`, `j_`, `prev_i_`, `prev_j_` (decoder/hg.h:55-72, decoder/trule.h:159-160). -/
structure EVal (φ : Type) where
  rule : Rule
  parent : Option Rule
  feats : φ
  i : Int
  j : Int
  prevI : Int
  prevJ : Int

/-! ## Rules that cannot be used -/

/-- `RuleFilter`: `true_lattice` and the keys of `exists_` (hg_intersect.cc:24-25). -/
structure Filter where
  lattice : Bool
  exist : List (List Int)

/-- The inner loop at hg_intersect.cc:31-35, over the positions that are left; `none` if a position has no arc, whose first arc would be read. -/
def phraseLoop (target : List (List (Arc φ))) : List Nat → List Int → Filter → Option Filter
  | [], _, s => some s
  | j :: js, phrase, s =>
    match target.getD j [] with
    | [] => none
    | [a] => phraseLoop target js (phrase ++ [a.label]) ⟨s.lattice, s.exist ++ [phrase ++ [a.label]]⟩
    | _ :: _ :: _ => some ⟨true, s.exist⟩

/-- The constructor of `RuleFilter`, hg_intersect.cc:26-39; `sos` is `TD::Convert("<s>")`. -/
def mkFilter (target : List (List (Arc φ))) (max : Nat) (sos : Int) : Option Filter :=
  ((List.range target.length).foldlM (fun s i => phraseLoop target (List.range' i (min target.length (i + max) - i)) [] s) ⟨false, []⟩).map
    fun s => ⟨s.lattice, s.exist ++ [[sos]]⟩

/-- The inner loop at hg_intersect.cc:47-51. -/
def runMissing (exist : List (List Int)) : List Int → List Int → Bool
  | [], _ => false
  | c :: cs, phrase => if c ≤ 0 then false else if exist.contains (phrase ++ [c]) then runMissing exist cs (phrase ++ [c]) else true

/-- `RuleFilter::operator()`, hg_intersect.cc:40-54, for the target side of a rule. -/
def Filter.removes (s : Filter) (e : List Int) : Bool :=
  if s.lattice then false else (List.range e.length).any fun i => if e.getD i 0 ≤ 0 then false else runMissing s.exist (e.drop i) []

/-- The same for an edge of a forest, by its number; `rem[i]`, hg_intersect.cc:94-97. -/
def Filter.edge (s : Filter) (g : Hypergraph (EVal φ)) (e : Nat) : Bool :=
  match g.edges[e]? with
  | some x => s.removes x.val.rule.e
  | none => false

/-! ## The forest as a grammar -/

section
variable (conv : List Char → Nat) (name : Nat → List Char)

/-- `cats`, hg_intersect.cc:105-110. -/
def cats (h : Hypergraph (EVal φ)) (v : Nat) : Int :=
  -((conv ((if (h.node v).cat < 0 then name (-(h.node v).cat).toNat else "CAT".toList) ++ '_' :: showNat v) : Nat) : Int)

/-- `kGOAL`, bottom_up_parser.cc:174. -/
def kGoal : Int := -((conv "Goal".toList : Nat) : Int)

/-- `cats.back()`, hg_intersect.cc:158. -/
def goalCat (h : Hypergraph (EVal φ)) : Int := cats conv name h (h.nodes.length - 1)

/-- The rules: rule `r` is made from edge `r` (hg_intersect.cc:113-156), and the rule after the last is the goal rule of the parser (bottom_up_parser.cc:166). -/
def ruleOf (h : Hypergraph (EVal φ)) (r : Nat) : Rule :=
  match h.edges[r]? with
  | some x => intersectRule (cats conv name h) (x.head.getD 0) x.tails x.val.rule
  | none => ⟨kGoal conv, [goalCat conv name h], [0], 1⟩

/-- `scores_` of the rules, hg_intersect.cc:150. -/
def featsOf [Zero φ] (h : Hypergraph (EVal φ)) (r : Nat) : φ :=
  match h.edges[r]? with
  | some x => x.val.feats
  | none => 0

/-- What the parser is given, hg_intersect.cc:101-161. -/
def env [Zero φ] (eps : Int) (h : Hypergraph (EVal φ)) (target : List (List (Arc φ))) : Env Node Nat φ where
  lat := target
  grams := [textGram (ruleOf conv name h) (target.length + 1) ((List.range h.edges.length).map fun r => ⟨r, 0, 0⟩)]
  unaries := (Grammar.run (ruleOf conv name h) ((List.range h.edges.length).map fun r => ⟨r, 0, 0⟩)).unaries
  lhs r := (ruleOf conv name h r).lhs
  rhs r := (ruleOf conv name h r).f.headD 0
  rfeats := featsOf h
  eps := eps
  goalCat := goalCat conv name h
  kGoal := kGoal conv
  goalRule := h.edges.length

/-- What the edges of the parser's forest carry, bottom_up_parser.cc:234-241 and hg_intersect.cc:118-119, 151. -/
def outVal (h : Hypergraph (EVal φ)) (v : Val Nat φ) : EVal φ :=
  match h.edges[v.rule]? with
  | some x => ⟨ruleOf conv name h v.rule, some x.val.rule, v.feats, v.i, v.j, x.val.i, x.val.j⟩
  | none => ⟨ruleOf conv name h v.rule, none, v.feats, v.i, v.j, -1, -1⟩

/-- `HG::Intersect`, hg_intersect.cc:87-168, for forests that are not linear chains: what it returns and what it leaves in `hg`. -/
def intersect [Add φ] [Zero φ] (eps sos : Int) (target : List (List (Arc φ))) (hg : Hypergraph (EVal φ)) (fuel : Nat) : Option (Bool × Hypergraph (EVal φ)) :=
  match mkFilter target 9999 sos with
  | none => none
  | some s =>
    match pruneEdges hg (s.edge hg) true fuel with
    | none => none
    | some h =>
      match parse (env conv name eps h target) fuel with
      | none => none
      | some (ok, g) => if ok then some (true, Decode.mapVal (outVal conv name h) g) else some (false, h)

end
end Cdec.Dec.Intersect
