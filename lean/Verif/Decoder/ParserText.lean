import Verif.Decoder.ParserSpec
import Verif.Decoder.Grammar
/-!
# Parsing sentences with text grammars: what the language is

Context-free derivability, with the span limits of the grammars.  Nothing here refers to charts or tries.
-/
namespace Cdec.Dec.Parser
namespace Spec

mutual
/-- `Derives val gs c ws`: category `c` derives the words `ws` with the rules of the grammars `gs`, each of which has a limit for the number of words below its
rules; the limit does not concern unary rules. -/
inductive Derives (val : Nat → Rule) (gs : List (Nat × List Nat)) : Int → List Int → Prop
  | rule {limit r : Nat} {rs : List Nat} {ws : List Int} : (limit, rs) ∈ gs → r ∈ rs → Expands val gs (val r).f ws → ((val r).isUnary = false → ws.length ≤ limit) →
      Derives val gs (val r).lhs ws
/-- The symbols `α` of a source side derive the words `ws`: words are positive, categories negative. -/
inductive Expands (val : Nat → Rule) (gs : List (Nat × List Nat)) : List Int → List Int → Prop
  | nil : Expands val gs [] []
  | word {w : Int} {α ws : List Int} : 0 < w → Expands val gs α ws → Expands val gs (w :: α) (w :: ws)
  | cat {c : Int} {α ws ws' : List Int} : c < 0 → Derives val gs c ws → Expands val gs α ws' → Expands val gs (c :: α) (ws ++ ws')
end

/-- The rules that are added to a grammar. -/
def added (calls : List Call) : List Nat := (calls.filter fun c => decide (c.level = 0)).map Call.rule

/-- Sentences and grammars: words are positive and not `*EPS*`; left-hand sides are categories, which are negative; source sides are not empty; the arity of a
rule is the number of its categories; only the goal rule has `[Goal]` on the left. -/
structure TextOk (val : Nat → Rule) (gs : List (Nat × List Call)) (ws : List Int) (eps goalCat kGoal : Int) (goalRule : Nat) : Prop where
  words : ∀ w ∈ ws, 0 < w ∧ w ≠ eps
  lhs : ∀ r, (val r).lhs < 0
  source : ∀ g ∈ gs, ∀ r ∈ added g.2, (val r).f ≠ []
  arity : ∀ g ∈ gs, ∀ r ∈ added g.2, (val r).arity = ((val r).f.filter fun c => decide (c < 0)).length
  goal : (val goalRule).lhs = kGoal
  goal_ne : goalCat ≠ kGoal
  rules_ne : ∀ g ∈ gs, ∀ r ∈ added g.2, (val r).lhs ≠ kGoal

/-- The unary rules rewrite no category to itself in one or more steps. -/
def UnaryAcyclic (val : Nat → Rule) (gs : List (Nat × List Call)) : Prop :=
  ∃ rank : Int → Nat, ∀ g ∈ gs, ∀ r ∈ added g.2, ∀ c, (val r).f = [c] → c < 0 → rank c < rank (val r).lhs

end Spec

/-- A `TextGrammar` after some calls of `AddRule`, as the parser sees it; `HasRuleForSpan`, decoder/grammar.cc:131-133, for a sentence. -/
def textGram (val : Nat → Rule) (limit : Nat) (calls : List Call) : Gram Node Nat where
  root := (Grammar.run val calls).root
  extend := Node.extend
  rules n := n.getRules.getD []
  has i j := decide (j - i ≤ limit)

/-- The lattice of a sentence: one arc per word (`LatticeTools::ConvertTextToLattice`, decoder/lattice.cc:48-56). -/
def sentence {φ : Type} [Zero φ] (ws : List Int) : List (List (Arc φ)) := ws.map fun w => [⟨w, 0, 1⟩]

/-- Parsing a sentence with text grammars (bottom_up_parser.cc:156-172). -/
def textEnv {φ : Type} [Zero φ] (val : Nat → Rule) (rfeats : Nat → φ) (gs : List (Nat × List Call)) (ws : List Int) (eps goalCat kGoal : Int) (goalRule : Nat) : Env Node Nat φ where
  lat := sentence ws
  grams := gs.map fun g => textGram val g.1 g.2
  unaries := gs.flatMap fun g => (Grammar.run val g.2).unaries
  lhs r := (val r).lhs
  rhs r := (val r).f.headD 0
  rfeats := rfeats
  eps := eps
  goalCat := goalCat
  kGoal := kGoal
  goalRule := goalRule

end Cdec.Dec.Parser
