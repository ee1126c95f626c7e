import Verif.HG.HashUnion
import Verif.HG.Spec
/-!
# Derivations of forests with named nodes
-/
namespace Cdec.HashUnion

/-- A derivation: the sides of the rule at the top, its features, and the derivations of its variables. -/
inductive Tree where
  | node (e f : List Int) (feats : Nat →₀ ℚ) (children : List Tree)

mutual
/-- The derivation belongs to the node `v`. -/
inductive Derives (g : Forest) : Nat → Tree → Prop where
  | mk {x : Edge} {ts : List Tree} : x ∈ g.edges → DerivesAll g x.tails ts → Derives g x.head (.node x.e x.f x.feats ts)
/-- The derivations belong to the nodes, one to one. -/
inductive DerivesAll (g : Forest) : List Nat → List Tree → Prop where
  | nil : DerivesAll g [] []
  | cons {v : Nat} {vs : List Nat} {t : Tree} {ts : List Tree} : Derives g v t → DerivesAll g vs ts → DerivesAll g (v :: vs) (t :: ts)
end

mutual
/-- The same rules in the same places, with features that differ by a millionth at most. -/
inductive Close : Tree → Tree → Prop where
  | mk {e f : List Int} {a b : Nat →₀ ℚ} {ts us : List Tree} : (∀ k, |a k - b k| ≤ 1 / 1000000) → CloseAll ts us → Close (.node e f a ts) (.node e f b us)
/-- The same for lists. -/
inductive CloseAll : List Tree → List Tree → Prop where
  | nil : CloseAll [] []
  | cons {t u : Tree} {ts us : List Tree} : Close t u → CloseAll ts us → CloseAll (t :: ts) (u :: us)
end

/-- Heads and tails are nodes. -/
def InRange (g : Forest) : Prop := ∀ x ∈ g.edges, x.head < g.hash.length ∧ ∀ t ∈ x.tails, t < g.hash.length

/-- The edges have the same rule and features and join nodes of the same names. -/
def SameEdge (a : Forest) (x : Edge) (b : Forest) (y : Edge) : Prop :=
  x.e = y.e ∧ x.f = y.f ∧ x.feats = y.feats ∧ a.hashOf x.head = b.hashOf y.head ∧ x.tails.map a.hashOf = y.tails.map b.hashOf

mutual
/-- The derivation `d` of edge numbers has the rules and features of `t`. -/
inductive Reads (g : HG.Hypergraph (List Int × List Int × (Nat →₀ ℚ))) : HG.Tree → Tree → Prop where
  | mk {n : Nat} {e f : List Int} {a : Nat →₀ ℚ} {ds : List HG.Tree} {ts : List Tree} :
      (g.edges[n]?).map HG.Edge.val = some (e, f, a) → ReadsAll g ds ts → Reads g (.node n ds) (.node e f a ts)
/-- The same for lists. -/
inductive ReadsAll (g : HG.Hypergraph (List Int × List Int × (Nat →₀ ℚ))) : List HG.Tree → List Tree → Prop where
  | nil : ReadsAll g [] []
  | cons {d : HG.Tree} {ds : List HG.Tree} {t : Tree} {ts : List Tree} : Reads g d t → ReadsAll g ds ts → ReadsAll g (d :: ds) (t :: ts)
end

end Cdec.HashUnion
