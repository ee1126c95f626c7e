import Verif.Decoder.Intersect
import Verif.Props.C22
/-!
# What the intersection of a forest with a reference is

Nothing here refers to grammars or to parsing.
-/
namespace Cdec.Dec.Intersect.Spec
open Cdec.HG Cdec.Dec.Spec
variable {φ : Type}

/-- The target string of a derivation: the target side of its rule, with the variables replaced by the target strings of its parts. -/
inductive Yields (g : Hypergraph (EVal φ)) : Tree → List Int → Prop
  | node {e : Nat} {x : Edge (EVal φ)} {ch : List Tree} {vals : List (List Int)} {out : List Int} :
      g.edges[e]? = some x → List.Forall₂ (Yields g) ch vals → Replaced vals x.val.rule.e out → Yields g (.node e ch) out

/-- `Copy ws g g' T T'`: `T'` is the derivation `T` with source and target exchanged.  Every rule of `T'` is a rule of `T` with its sides exchanged, and names it as its
parent; it has the same features; the span of `T`'s edge has become the previous span; the span is where the words of this part of `T` are in `ws`.  The parts of `T'` are
those of `T` in the order of the target side. -/
inductive Copy (ws : List Int) (g g' : Hypergraph (EVal φ)) : Tree → Tree → Prop
  | node {e e' a : Nat} {x x' : Edge (EVal φ)} {ch sub ch' : List Tree} {out : List Int} : g.edges[e]? = some x → g'.edges[e']? = some x' →
      x'.val.parent = some x.val.rule → Exchanged x.tails.length x.val.rule x'.val.rule → x'.val.feats = x.val.feats →
      x'.val.prevI = x.val.i → x'.val.prevJ = x.val.j →
      Yields g (.node e ch) out → (ws.drop a).take out.length = out → x'.val.i = a → x'.val.j = a + out.length →
      List.Forall₂ (fun k t => ch[k]? = some t) (order x.val.rule.e) sub → List.Forall₂ (Copy ws g g') sub ch' →
      Copy ws g g' (.node e ch) (.node e' ch')

/-- A derivation of the new goal: the goal rule, which has no parent and no features, above the copy. -/
def GoalCopy [Zero φ] (ws : List Int) (g g' : Hypergraph (EVal φ)) (T T' : Tree) : Prop :=
  ∃ e' x' t, T' = .node e' [t] ∧ g'.edges[e']? = some x' ∧ x'.val.parent = none ∧ x'.val.feats = 0 ∧ Copy ws g g' T t

/-- The labels of a path of a lattice from a position to the end. -/
inductive Path (lat : List (List (Parser.Arc φ))) : Nat → List Int → Prop
  | nil : Path lat lat.length []
  | arc {k : Nat} {a : Parser.Arc φ} {ls : List Int} : a ∈ lat.getD k [] → Path lat (k + a.len) ls → Path lat k (a.label :: ls)

/-- What the code may assume of a forest: it is acyclic and its tables agree (which is so after every topological sort, C06); every rule has as many variables on both
sides as its edge has tails, and its target side is neither empty nor longer than the longest phrase that is looked up. -/
structure Fit (g : Hypergraph (EVal φ)) : Prop where
  wf : WF g
  cons : Consistent g
  pos : 0 < g.nodes.length
  rules : ∀ (e : Nat) (x : Edge (EVal φ)), g.edges[e]? = some x → Linear x.val.rule.e x.tails.length ∧ numVars x.val.rule.f = x.tails.length ∧ x.val.rule.e ≠ [] ∧ x.val.rule.e.length ≤ 9999

end Cdec.Dec.Intersect.Spec
