import Verif.Decoder.Decode
import Verif.Decoder.ParserSpec
import Mathlib.Algebra.BigOperators.Group.List.Basic
/-!
# What the best translation is

A derivation is a tree of rule applications with features.  A pass runs its models bottom up along one tree.  Nothing here refers to forests.
-/
namespace Cdec.Dec.Decode.Spec
open Cdec.Dec.Parser Cdec.Dec.Parser.Spec Cdec.Dec.Decode
variable {S φ W : Type}

/-- The models of a pass along a tree that is not at the goal: the state at the root and the tree with the new features. -/
def relabel (P : Pass S φ W) : LTree (Val Nat φ) → S × LTree (Val Nat φ)
  | .node v ch =>
    let sub := ch.map fun t => relabel P t
    let r := P.edge v (sub.map (·.1))
    (r.1, .node ⟨v.rule, v.i, v.j, r.2, v.shape⟩ (sub.map (·.2)))

/-- A pass along a derivation of the goal: the rule at the root gets the final features, computed from the state of its only child. -/
def rescored (P : Pass S φ W) : LTree (Val Nat φ) → LTree (Val Nat φ)
  | .node v ch =>
    if P.models then
      let sub := ch.map fun t => relabel P t
      .node ⟨v.rule, v.i, v.j, P.final v ((sub.map (·.1)).headD P.noState), v.shape⟩ (sub.map (·.2))
    else .node v ch

/-- All passes, one after the other. -/
def afterPasses (ps : List (Pass S φ W)) (t : LTree (Val Nat φ)) : LTree (Val Nat φ) := ps.foldl (fun t P => rescored P t) t

/-- The weights of the last pass; those of the parser if there is none. -/
def finalWeigh (weigh : φ → W) : List (Pass S φ W) → φ → W
  | [] => weigh
  | P :: ps => finalWeigh P.weigh ps

theorem lastWeigh_eq (weigh : φ → W) (ps : List (Pass S φ W)) : lastWeigh weigh ps = finalWeigh weigh ps := by
  induction ps generalizing weigh with
  | nil => rfl
  | cons P ps ih => rw [finalWeigh, ← ih]; unfold lastWeigh; rw [List.map_cons, List.getLastD_cons]

/-- The probability of a tree: the product of the weights of the features of its rule applications. -/
def prob [Mul W] [One W] (weigh : φ → W) : LTree (Val Nat φ) → W
  | .node v ch => weigh v.feats * (ch.map fun t => prob weigh t).prod

/-- The features of a tree: the sum over its rule applications. -/
def total [Add φ] [Zero φ] : LTree (Val Nat φ) → φ
  | .node v ch => v.feats + (ch.map fun t => total t).sum

end Cdec.Dec.Decode.Spec
