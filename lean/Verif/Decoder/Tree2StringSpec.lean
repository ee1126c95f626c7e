import Verif.Decoder.Tree2String
import Verif.Decoder.ParserSpec
/-!
# What translating a tree means

Trees, fragments with sites, when a fragment matches a tree, and derivations.  Nothing here refers to tables, iterators or
the grammar trie.
-/
namespace Cdec.Dec.T2S.Spec
open Cdec.Dec.Parser.Spec (LTree)
variable {R : Type}

/-- A tree with words at the leaves and, in the source side of a rule, sites: places for a subtree of some category. -/
inductive Frag where
  | leaf (w : String)
  | site (c : String)
  | node (c : String) (cs : List Frag)

/-- The number of leaves. -/
def Frag.width : Frag → Nat
  | .leaf _ => 1
  | .site _ => 1
  | .node _ cs => (cs.map fun t => t.width).sum

/-- The number of leaves of trees in a row. -/
def widths (ts : List Frag) : Nat := (ts.map Frag.width).sum

/-- The words. -/
def Frag.words : Frag → List String
  | .leaf w => [w]
  | .site _ => []
  | .node _ cs => cs.flatMap fun t => t.words

mutual
/-- `Cut i f t ss`: fragment `f` matches the top of tree `t`, whose first leaf is number `i`.  `ss` lists the subtrees of `t` at
the sites of `f`, each with the number of its first leaf. -/
inductive Cut : Nat → Frag → Frag → List (Nat × Frag) → Prop
  | leaf {i : Nat} {w : String} : Cut i (.leaf w) (.leaf w) []
  | site {i : Nat} {c : String} {ts : List Frag} : Cut i (.site c) (.node c ts) [(i, .node c ts)]
  | node {i : Nat} {c : String} {fs ts : List Frag} {ss : List (Nat × Frag)} : CutAll i fs ts ss → Cut i (.node c fs) (.node c ts) ss
/-- The same for fragments and trees in a row. -/
inductive CutAll : Nat → List Frag → List Frag → List (Nat × Frag) → Prop
  | nil {i : Nat} : CutAll i [] [] []
  | cons {i : Nat} {f t : Frag} {fs ts : List Frag} {ss ss' : List (Nat × Frag)} :
      Cut i f t ss → CutAll (i + t.width) fs ts ss' → CutAll i (f :: fs) (t :: ts) (ss ++ ss')
end

/-- A tree that is not just a leaf or a site. -/
def Frag.isNode : Frag → Prop
  | .node _ _ => True
  | _ => False

/-- Derivations of a tree that starts at leaf `i`.  `uses f r` says that rule `r` may be used where fragment `f` matches. -/
inductive Deriv (uses : Frag → R → Prop) : Nat → Frag → LTree (Val R) → Prop
  | mk {i : Nat} {t f : Frag} {r : R} {ss : List (Nat × Frag)} {ch : List (LTree (Val R))} : f.isNode → uses f r → Cut i f t ss →
      List.Forall₂ (fun s d => Deriv uses s.1 s.2 d) ss ch → Deriv uses i t (.node (.rule r i (i + t.width)) ch)

/-- What a derivation translates the tree to, from the target sides of the rules. -/
def yield (tgt : R → Tgt) : LTree (Val R) → List String
  | .node (.rule r _ _) ch => (tgt r).flatMap fun x => match x with
    | .inl w => [w]
    | .inr k => (ch.map fun d => yield tgt d).getD k []
  | .node .goal ch => (ch.map fun d => yield tgt d).flatten

/-- What rules mean: a rule is used where its source side matches. -/
def Means (rules : List (Frag × R)) (f : Frag) (r : R) : Prop := (f, r) ∈ rules

/-- The symbols of a tree in depth-first order: a node shows its label when it is met and again when it is entered, and nothing
when it is left. -/
def Frag.syms : Frag → List Sym
  | .leaf w => [.term w]
  | .site c => [.site c]
  | .node c cs => .rhs c :: .lhs c :: cs.flatMap fun t => t.syms

/-- The symbols of a tree from its top. -/
def Frag.lin (f : Frag) : List Sym := f.syms.tail

/-- What the translator takes rules to mean: a rule is used where a fragment with the same symbols matches. -/
def Takes (rules : List (Frag × R)) (f : Frag) (r : R) : Prop := ∃ f', (f', r) ∈ rules ∧ f'.isNode ∧ f'.lin = f.lin

/-- No node below the top. -/
def Frag.flat : Frag → Prop
  | .node _ cs => ∀ f ∈ cs, ¬ f.isNode
  | _ => True

/-- Every node has as many children as its label says. -/
inductive Frag.Ranked (arity : String → Nat) : Frag → Prop
  | leaf {w : String} : Frag.Ranked arity (.leaf w)
  | site {c : String} : Frag.Ranked arity (.site c)
  | node {c : String} {cs : List Frag} : cs.length = arity c → (∀ f ∈ cs, Frag.Ranked arity f) → Frag.Ranked arity (.node c cs)

/-- Spaces. -/
def spaces (k : Nat) : List Char := List.replicate k ' '

/-- A word or label: not empty, without spaces and brackets. -/
def Token (cs : List Char) : Prop := cs ≠ [] ∧ ∀ c ∈ cs, c ≠ ' ' ∧ c ≠ '(' ∧ c ≠ ')'

/-- A word in square brackets. -/
def Bracketed (cs : List Char) : Prop := ∃ m, m ≠ [] ∧ cs = '[' :: m ++ [']']

mutual
/-- How trees are written: `(S (NP the [N]) (VP sleeps))`, with sites in square brackets and more spaces than needed if wanted.
Words and sites come after at least one space. -/
inductive Text : Frag → List Char → Prop
  | leaf {w : String} : Token w.toList → ¬ Bracketed w.toList → Text (.leaf w) w.toList
  | site {c : String} : Token c.toList → Text (.site c) ('[' :: c.toList ++ [']'])
  | node {c : String} {cs : List Frag} {x : List Char} (a b : Nat) : Token c.toList → TextAll cs x →
      Text (.node c cs) ('(' :: spaces a ++ c.toList ++ x ++ spaces b ++ [')'])
/-- The same for the children of a node. -/
inductive TextAll : List Frag → List Char → Prop
  | nil : TextAll [] []
  | cons {t : Frag} {ts : List Frag} {x y : List Char} (k : Nat) : (k = 0 → t.isNode) → Text t x → TextAll ts y → TextAll (t :: ts) (spaces k ++ x ++ y)
end

/-- A tree without sites. -/
inductive Frag.Plain : Frag → Prop
  | leaf {w : String} : Frag.Plain (.leaf w)
  | node {c : String} {cs : List Frag} : (∀ f ∈ cs, Frag.Plain f) → Frag.Plain (.node c cs)

/-- `Sub s t`: `s` is `t` or a tree below its top. -/
inductive Sub : Frag → Frag → Prop
  | refl {t : Frag} : Sub t t
  | under {s t : Frag} {c : String} {cs : List Frag} : t ∈ cs → Sub s t → Sub s (.node c cs)

/-- The top of a tree with sites for the nodes below it. -/
def Frag.top : Frag → Frag
  | .node c cs => .node c (cs.map fun t => match t with
    | .node c' _ => .site c'
    | t => t)
  | t => t

/-- The children in order: words as they are, then what the sites give, from number `k` on. -/
def inOrder : Nat → List Frag → Tgt
  | _, [] => []
  | k, .leaf w :: cs => .inl w :: inOrder k cs
  | k, .node _ _ :: cs => .inr k :: inOrder (k + 1) cs
  | k, .site _ :: cs => .inr k :: inOrder (k + 1) cs

/-- The children of a node. -/
def Frag.kids : Frag → List Frag
  | .node _ cs => cs
  | _ => []

mutual
/-- `Tab sp tf n i t`: node `n` of the table is the top of `t`; if `sp` is set, the spans are those of a tree whose first leaf is
number `i`.  Nodes come before the nodes above them. -/
inductive Tab (sp : Bool) (tf : Table) : Nat → Nat → Frag → Prop
  | mk {n i : Nat} {p : Prd} {cs : List Frag} : tf[n]? = some p → (sp = true → p.span = (i, i + widths cs)) → Kids sp tf n i p.rhs cs →
      Tab sp tf n i (.node p.lhs cs)
/-- The same for the right-hand side of a production of node `n`. -/
inductive Kids (sp : Bool) (tf : Table) : Nat → Nat → List RSym → List Frag → Prop
  | nil {n i : Nat} : Kids sp tf n i [] []
  | term {n i : Nat} {w : String} {xs : List RSym} {cs : List Frag} : Kids sp tf n (i + 1) xs cs → Kids sp tf n i (.term w :: xs) (.leaf w :: cs)
  | site {n i : Nat} {c : String} {xs : List RSym} {cs : List Frag} : Kids sp tf n (i + 1) xs cs → Kids sp tf n i (.site c :: xs) (.site c :: cs)
  | node {n i m : Nat} {t : Frag} {xs : List RSym} {cs : List Frag} : m < n → Tab sp tf m i t → Kids sp tf n (i + t.width) xs cs →
      Kids sp tf n i (.node m :: xs) (t :: cs)
end

end Cdec.Dec.T2S.Spec
