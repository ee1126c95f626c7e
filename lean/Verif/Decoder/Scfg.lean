import Verif.Decoder.ParserText
import Verif.Decoder.Lattice
/-!
# The SCFG translator

Models decoder/scfg_translator.cc without coarse-to-fine parsing (`Decoder/Refine.lean` models `RefineForest`), and
decoder/translator.cc.  The text of rules is not modelled: `stop`, `glue` and `pass` are the names of the rules that the
translator makes, and what they are is said by `val`.
-/
namespace Cdec.Dec.Scfg
open Cdec.HG Parser

/-- The classes of grammars, by their `HasRuleForSpan`: `TextGrammar` (decoder/grammar.cc:131-133), `GlueGrammar` and
`PassThroughGrammar` (scfg_translator.cc:54-56, 89-91). -/
inductive Kind where
  | text (limit : Nat)
  | glue
  | pass

/-- `HasRuleForSpan`; the last argument is the distance. -/
def Kind.has : Kind → Nat → Nat → Nat → Bool
  | .text limit, _, _, d => decide (d ≤ limit)
  | .glue, i, _, _ => decide (i = 0)
  | .pass, _, _, d => decide (d < 4)

/-- A grammar object: its class, and the rules added to it. -/
structure Gr where
  kind : Kind
  calls : List Call

/-- `Lattice::Distance`, decoder/lattice.h:32-36, after `ConvertTextOrPLF` (lattice.cc:59-65) on a new lattice. -/
def dist {φ : Type} (lat : List (List (Arc φ))) : Matrix := computeDistances [] (lat.map fun alts => alts.map Arc.len)

/-- A grammar as the parser sees it (bottom_up_parser.cc:110, 305, 322). -/
def gramOf {φ : Type} (val : Nat → Rule) (lat : List (List (Arc φ))) (G : Gr) : Gram Node Nat where
  root := (Grammar.run val G.calls).root
  extend := Node.extend
  rules n := n.getRules.getD []
  has i j := G.kind.has i j (if i = j then 0 else dist lat i j)

/-- The constructor of `GlueGrammar`, scfg_translator.cc:45-52. -/
def glueGrammar (stop glue : Nat) : Gr := ⟨.glue, [⟨stop, 0, 0⟩, ⟨glue, 0, 0⟩]⟩

/-- The inner loop of the constructor of `PassThroughGrammar`, scfg_translator.cc:62-85: the state is `ss` and the calls of
`AddRule`. -/
def passStep (pass : Int → Nat) (s : List Int × List Call) (w : Int) : List Int × List Call :=
  if w ∈ s.1 then s else (w :: s.1, s.2 ++ [⟨pass w, 0, 0⟩])

/-- The constructor of `PassThroughGrammar`, scfg_translator.cc:58-87. -/
def passGrammar {φ : Type} (pass : Int → Nat) (lat : List (List (Arc φ))) : Gr :=
  ⟨.pass, (lat.foldl (fun s alts => (alts.map Arc.label).foldl (passStep pass) s) ([], [])).2⟩

/-- The parser on a lattice with grammars (scfg_translator.cc:209-210, bottom_up_parser.cc:156-172). -/
def env {φ : Type} (val : Nat → Rule) (rfeats : Nat → φ) (lat : List (List (Arc φ))) (gs : List Gr) (eps goalCat kGoal : Int) (goalRule : Nat) :
    Env Node Nat φ where
  lat := lat
  grams := gs.map (gramOf val lat)
  unaries := gs.flatMap fun G => (Grammar.run val G.calls).unaries
  lhs r := (val r).lhs
  rhs r := (val r).f.headD 0
  rfeats := rfeats
  eps := eps
  goalCat := goalCat
  kGoal := kGoal
  goalRule := goalRule

/-- `Translate` without coarse-to-fine parsing, scfg_translator.cc:190-217: `grammars` with the pass-through grammar if
`add_pass_through_rules` is set. -/
def translate {φ : Type} [Add φ] [Zero φ] (val : Nat → Rule) (rfeats : Nat → φ) (eps goalCat kGoal : Int) (goalRule : Nat) (passThrough : Option (Int → Nat))
    (grammars : List Gr) (lat : List (List (Arc φ))) (fuel : Nat) : Option (Bool × Hypergraph (Val Nat φ)) :=
  let glist := match passThrough with
    | none => grammars
    | some pass => grammars ++ [passGrammar pass lat]
  parse (env val rfeats lat glist eps goalCat kGoal goalRule) fuel

/-! ## Grammars of a sentence -/

/-- `SCFGTranslatorImpl` and `Translator`: `grammars`, where the pointers are numbers, `sup_grammars_`, `state_`
(0: uninitialised, 1: ready, 2: translated, translator.h). -/
structure State where
  grammars : List (Nat × Gr)
  sup : List Nat
  state : Nat

/-- Erasing the supplemental grammars, scfg_translator.cc:172, 186. -/
def State.erased (s : State) : List (Nat × Gr) := s.grammars.filter fun g => decide (g.1 ∉ s.sup)

/-- `AddSupplementalGrammar`, scfg_translator.cc:180-183. -/
def State.add (s : State) (p : Nat) (g : Gr) : State := ⟨s.grammars ++ [(p, g)], p :: s.sup, s.state⟩

/-- `AddSupplementalGrammarFromString`, scfg_translator.cc:171-178; the new object is `p`. -/
def State.addString (s : State) (p : Nat) (g : Gr) : State := State.add ⟨s.erased, s.sup, s.state⟩ p g

/-- `RemoveSupplementalGrammars`, scfg_translator.cc:185-188, and `SentenceComplete`, translator.cc:38-45. -/
def State.complete (s : State) : State := ⟨s.erased, [], 0⟩

/-- `ProcessMarkupHints`, translator.cc:16-23, scfg_translator.cc:371-395, with the new objects for the files `grammar`, `grammar1`, ...;
`none`: abort. -/
def State.hints (s : State) (gs : List (Nat × Gr)) : Option State :=
  if s.state ≠ 0 then none
  else
    let s' := gs.foldl (fun s g => s.add g.1 g.2) s
    some ⟨s'.grammars, s'.sup, 1⟩

/-- What a user of the decoder does: give a grammar, give the text of a grammar, or decode a sentence whose markup names
grammars. -/
inductive Op where
  | add (p : Nat) (g : Gr)
  | addString (p : Nat) (g : Gr)
  | decode (gs : List (Nat × Gr))

/-- An operation: the state after it and, for a sentence, the grammars it is translated with
(decoder.cc:700-706, 766-770). -/
def State.op (s : State) : Op → Option (State × List (List (Nat × Gr)))
  | .add p g => some (s.add p g, [])
  | .addString p g => some (s.addString p g, [])
  | .decode gs =>
    match s.hints gs with
    | none => none
    | some s1 => some (State.complete ⟨s1.grammars, s1.sup, 2⟩, [s1.grammars])

/-- A history of operations: the state after it and the grammars of each sentence. -/
def State.run : State → List Op → Option (State × List (List (Nat × Gr)))
  | s, [] => some (s, [])
  | s, o :: os =>
    match s.op o with
    | none => none
    | some (s1, out) =>
      match s1.run os with
      | none => none
      | some (s2, out2) => some (s2, out ++ out2)

end Cdec.Dec.Scfg
