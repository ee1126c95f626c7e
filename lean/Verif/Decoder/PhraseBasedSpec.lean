import Verif.Decoder.PhraseBased
import Verif.Decoder.ParserSpec
/-!
# What a phrase-based translation is

A sequence of translated phrases.  Nothing here refers to queues, coverages or nodes.
-/
namespace Cdec.Dec.PB.Spec
open Cdec.Dec.Parser.Spec (LTree)
variable {R : Type}

/-- The source words from `i` up to `j`, translated by the rule `r`. -/
structure Phrase (R : Type) where
  i : Nat
  j : Nat
  r : R

/-- Position `p` has been translated by one of the phrases. -/
def Covered (l : List (Phrase R)) (p : Nat) : Prop := ∃ s ∈ l, s.i ≤ p ∧ p < s.j

/-- A translation of positions `0` to `n` under the distortion limit `dist`: each phrase covers at least one position, is
listed as a translation of its span, covers no position a second time, and starts at most `dist` positions after the first
position that was not yet covered; in the end all positions are covered. -/
structure Translation (rules : Nat → Nat → List R) (n dist : Nat) (l : List (Phrase R)) : Prop where
  ne : l ≠ []
  span : ∀ s ∈ l, s.i < s.j ∧ s.j ≤ n ∧ s.r ∈ rules s.i s.j
  once : ∀ k (h : k < l.length) p, l[k].i ≤ p → p < l[k].j → ¬ Covered (l.take k) p
  near : ∀ k (h : k < l.length), ∃ gap, (∀ p < gap, Covered (l.take k) p) ∧ ¬ Covered (l.take k) gap ∧ l[k].i ≤ gap + dist
  all : ∀ p < n, Covered l p

/-- The leaf for a phrase. -/
def leaf (s : Phrase R) : LTree (Val R) := .node (.phrase s.r s.i s.j) []

/-- The tree of a sequence of phrases: phrases are attached one after the other. -/
def tree : List (Phrase R) → LTree (Val R)
  | [] => .node .goal []
  | s :: l => l.foldl (fun t s => .node .concat [t, leaf s]) (leaf s)

/-- The same below the goal rule. -/
def goalTree (l : List (Phrase R)) : LTree (Val R) := .node .goal [tree l]

/-- The words from `i` to `j`. -/
def words (ws : List Int) (i j : Nat) : List Int := (ws.drop i).take (j - i)

/-- A phrase table: the words of a node's predecessors lead to nodes, nodes with rules exist, and the root exists and
has no rules. -/
structure Fst.Ok (t : Fst R) : Prop where
  pre : ∀ p w, t.has (p ++ [w]) = true → t.has p = true
  data : ∀ p, t.data p ≠ [] → t.has p = true
  root : t.has [] = true ∧ t.data [] = []

end Cdec.Dec.PB.Spec
