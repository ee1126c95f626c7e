import Verif.Decoder.Rule
/-!
# Text grammars

Models decoder/grammar.{h,cc}.  Rules are shared pointers: a rule is named by a number, and what it is by `val`.
-/
namespace Cdec.Dec

/-- `TextGrammarNode`, decoder/grammar.cc:55-75: the children by symbol (a `std::map`, here a list of pairs) and the rule
bin, `none` for a null pointer. -/
inductive Node where
  | mk (kids : List (Int × Node)) (bin : Option (List Nat))

/-- A new node, grammar.cc:56. -/
def Node.empty : Node := .mk [] none

/-- `tree_.find(symbol)`. -/
def findKid : List (Int × Node) → Int → Option Node
  | [], _ => none
  | (t, n) :: l, s => if t = s then some n else findKid l s

/-- Storing a child under its symbol. -/
def setKid : List (Int × Node) → Int → Node → List (Int × Node)
  | [], s, n => [(s, n)]
  | (t, m) :: l, s, n => if t = s then (t, n) :: l else (t, m) :: setKid l s n

/-- `Extend`, grammar.cc:60-64. -/
def Node.extend : Node → Int → Option Node
  | .mk kids _, s => findKid kids s

/-- `GetRules`, grammar.cc:66-71. -/
def Node.getRules : Node → Option (List Nat)
  | .mk _ bin => bin

/-- grammar.cc:109-114: walking down the source side, making nodes (`operator[]`), and adding the rule to the bin of the
last one. -/
def Node.insert : List Int → Nat → Node → Node
  | [], r, .mk kids bin => .mk kids (some (bin.getD [] ++ [r]))
  | s :: f, r, .mk kids bin => .mk (setKid kids s (Node.insert f r ((findKid kids s).getD .empty))) bin

/-- `TextGrammar`: the root, `rhs2unaries_`, `unaries_`, the fine rules of the coarse rules and `ctf_levels_`
(grammar.h:64-68, trule.h:168). -/
structure Grammar where
  root : Node
  rhs2unaries : List (Int × List Nat)
  unaries : List Nat
  fine : List (Nat × List Nat)
  ctfLevels : Nat

/-- The constructor, grammar.cc:81, grammar.h:36. -/
def Grammar.new : Grammar := ⟨.empty, [], [], [], 0⟩

/-- `m[k].push_back(v)` on a map of vectors. -/
def pushAt {α : Type} [DecidableEq α] : List (α × List Nat) → α → Nat → List (α × List Nat)
  | [], k, v => [(k, [v])]
  | (t, l) :: m, k, v => if t = k then (t, l ++ [v]) :: m else (t, l) :: pushAt m k v

/-- Lookup in a map of vectors; the empty vector when there is no entry (`GetUnaryRulesForRHS`, grammar.h:50-56). -/
def lookup {α : Type} [DecidableEq α] : List (α × List Nat) → α → List Nat
  | [], _ => []
  | (t, l) :: m, k => if t = k then l else lookup m k

/-- `AddRule`, grammar.cc:98-115. -/
def Grammar.addRule (val : Nat → Rule) (g : Grammar) (r : Nat) (level : Nat) (coarse : Nat) : Grammar :=
  if 0 < level then { g with fine := pushAt g.fine coarse r, ctfLevels := max g.ctfLevels level }
  else if (val r).isUnary then
    { g with rhs2unaries := pushAt g.rhs2unaries ((val r).f.headD 0) r, unaries := g.unaries ++ [r] }
  else { g with root := g.root.insert (val r).f r }

/-- Following `Extend` from a node. -/
def Node.walk : Node → List Int → Option Node
  | n, [] => some n
  | n, s :: f =>
    match n.extend s with
    | none => none
    | some m => m.walk f

/-- A call of `AddRule`. -/
structure Call where
  rule : Nat
  level : Nat
  coarse : Nat

/-- A history of calls. -/
def Grammar.run (val : Nat → Rule) (calls : List Call) : Grammar :=
  calls.foldl (fun g c => g.addRule val c.rule c.level c.coarse) Grammar.new

end Cdec.Dec
