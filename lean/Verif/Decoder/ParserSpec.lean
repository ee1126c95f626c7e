import Verif.Decoder.Parser
import Verif.HG.Spec
import Mathlib.Data.List.Forall2
/-!
# What the parses of a lattice are

A parse is a tree of rule applications.  Nothing here refers to charts, nodes or edges.
-/
namespace Cdec.Dec.Parser.Spec
open Cdec.HG
variable {ι R φ : Type}

/-- A tree with labels. -/
inductive LTree (β : Type) where
  | node (b : β) (ch : List (LTree β))

/-- `t` is the derivation `T` with the payloads of its edges in place of their numbers. -/
inductive Shows {β : Type} (g : Hypergraph β) : Tree → LTree β → Prop
  | node {e : Nat} {x : Edge β} {ch : List Tree} {ts : List (LTree β)} : g.edges[e]? = some x → List.Forall₂ (Shows g) ch ts → Shows g (.node e ch) (.node x.val ts)

/-- Following symbols in a grammar. -/
def walk (G : Gram ι R) : ι → List Int → Option ι
  | g, [] => some g
  | g, c :: α => (G.extend g c).bind fun g' => walk G g' α

/-- `Match p G i j sh sp α x`: the positions from `i` to `j` can be covered by symbols `α`: words that are labels of arcs and categories `c` of parts from `k`
to `m`, which are listed in `sp` as `(c, k, m)`.  `sh` lists the arcs and the places of the parts, `x` is the sum of the features of the arcs.  Arcs labelled
`*EPS*` give no symbol.  The grammar limits spans: it must accept the span from `i` to one after the start of each arc and to the end of each part. -/
inductive Match [Add φ] [Zero φ] (p : Env ι R φ) (G : Gram ι R) (i : Nat) : Nat → List (Option (Nat × Nat)) → List (Int × Nat × Nat) → List Int → φ → Prop
  | nil : i ≤ p.n → G.has i i = true → Match p G i i [] [] [] 0
  | eps {k idx : Nat} {a : Arc φ} {sh sp α x} : Match p G i k sh sp α x → (p.lat.getD k [])[idx]? = some a → G.has i (k + 1) = true → a.label = p.eps →
      Match p G i (k + a.len) (sh ++ [some (k, idx)]) sp α (x + a.feats)
  | word {k idx : Nat} {a : Arc φ} {sh sp α x} : Match p G i k sh sp α x → (p.lat.getD k [])[idx]? = some a → G.has i (k + 1) = true → a.label ≠ p.eps →
      Match p G i (k + a.len) (sh ++ [some (k, idx)]) sp (α ++ [a.label]) (x + a.feats)
  | part {k m : Nat} {c : Int} {sh sp α x} : Match p G i k sh sp α x → k < m → m ≤ p.n → G.has i m = true →
      Match p G i m (sh ++ [none]) (sp ++ [(c, k, m)]) (α ++ [c]) x

/-- `Parse p u c i j t`: the tree `t` is a parse of the positions from `i` to `j` as category `c`: by a rule of a grammar, whose source side covers the positions,
with parses of its parts; or by one of the unary rules `u` from a parse of the same positions. -/
inductive Parse [Add φ] [Zero φ] (p : Env ι R φ) (u : List R) : Int → Nat → Nat → LTree (Val R φ) → Prop
  | rule {G : Gram ι R} {i j : Nat} {sh sp α x} {g : ι} {r : R} {ch : List (LTree (Val R φ))} : G ∈ p.grams → i < j → j ≤ p.n → G.has i j = true →
      Match p G i j sh sp α x → walk G G.root α = some g → r ∈ G.rules g → List.Forall₂ (fun s t => Parse p u s.1 s.2.1 s.2.2 t) sp ch →
      Parse p u (p.lhs r) i j (.node ⟨r, i, j, p.rfeats r + x, sh⟩ ch)
  | unary {i j : Nat} {r : R} {t : LTree (Val R φ)} : r ∈ u → Parse p u (p.rhs r) i j t →
      Parse p u (p.lhs r) i j (.node ⟨r, i, j, p.rfeats r + 0, [none]⟩ [t])

/-- A parse of the whole lattice as the goal category, below the goal rule. -/
def goalTree [Add φ] [Zero φ] (p : Env ι R φ) (t : LTree (Val R φ)) : LTree (Val R φ) :=
  .node ⟨p.goalRule, 0, p.n, p.rfeats p.goalRule + 0, [none]⟩ [t]

/-- What the parser may assume: arcs go forward and stay inside the lattice; `goal_rule_` is the only rule for `[Goal]`; single categories are not source sides of
rules in a trie (such rules are unary rules). -/
structure Ok (p : Env ι R φ) : Prop where
  arcs : ∀ k (a : Arc φ), a ∈ p.lat.getD k [] → 0 < a.len ∧ k + a.len ≤ p.n
  goal : p.lhs p.goalRule = p.kGoal
  goal_ne : p.goalCat ≠ p.kGoal
  rules_ne : ∀ G ∈ p.grams, ∀ α g, walk G G.root α = some g → ∀ r ∈ G.rules g, p.lhs r ≠ p.kGoal
  unaries_ne : ∀ r ∈ p.unaries, p.lhs r ≠ p.kGoal
  single : ∀ G ∈ p.grams, ∀ c g, (∃ r, c = p.lhs r) → G.extend G.root c = some g → G.rules g = []

/-- No rule is there twice: neither in a bin, nor in two grammars, nor among the unary rules. -/
structure Distinct (p : Env ι R φ) : Prop where
  bin : ∀ G ∈ p.grams, ∀ α g, walk G G.root α = some g → (G.rules g).Nodup
  grams : ∀ (a b : Nat) (G H : Gram ι R), p.grams[a]? = some G → p.grams[b]? = some H →
    ∀ α β g h r, walk G G.root α = some g → walk H H.root β = some h → r ∈ G.rules g → r ∈ H.rules h → a = b
  unaries : p.unaries.Nodup

end Cdec.Dec.Parser.Spec
