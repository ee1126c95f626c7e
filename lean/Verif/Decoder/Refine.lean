import Verif.HG.Model
/-!
# Refining a forest: coarse-to-fine parsing

Models `decoder/scfg_translator.cc:266-335`.
-/
namespace Cdec.Dec.Refine
open Cdec.HG
variable {R φ : Type}

/-- The payload of an edge: `rule_`, `i_`, `j_`, and the value of the feature `LatticeCost`.  The other features of a refined edge are those of
its rule, those of a coarse edge are not used. -/
structure RVal (R φ : Type) where
  rule : R
  i : Nat
  j : Nat
  cost : φ

/-- The rules: `lhs_`, `f_`, `fine_rules_` (`none`: null pointer). -/
structure Rules (R : Type) where
  lhs : R → Int
  f : R → List Int
  fine : R → Option (List R)

/-- `refined_forest`, `s2n` and `refined_goal_node`; `splits` is not read. -/
structure State (R φ : Type) where
  forest : Hypergraph (RVal R φ)
  s2n : Nat → Int → Option Nat
  goal : Bool

/-- `nt_positions`, scfg_translator.cc:284-289. -/
def ntPositions (f : List Int) : List Nat := (List.range f.length).filter fun i => decide (f.getD i 0 < 0)

/-- The loop over the non-terminals, scfg_translator.cc:298-306, from `pos_i`; it stops at the first tail without a split. -/
def tailLoop (s2n : Nat → Int → Option Nat) (tails : List Nat) (f : List Int) : List Nat → Nat → List Nat
  | [], _ => []
  | p :: ps, k =>
    match s2n (tails.getD k 0) (f.getD p 0) with
    | none => []
    | some v => v :: tailLoop s2n tails f ps (k + 1)

/-- One fine rule for an edge `e` with payload `x` and tails `tails` of node `v`, scfg_translator.cc:296-327; `last` is the goal node. -/
def fineStep (E : Rules R) (last v : Nat) (tails : List Nat) (x : RVal R φ) (s : State R φ) (fr : R) : State R φ :=
  let pos := ntPositions (E.f x.rule)
  let tail := tailLoop s.s2n tails (E.f fr) pos 0
  if tail.length = pos.length then
    let cat := E.lhs fr
    let e := s.forest.edges.length
    let g := addEdge s.forest ⟨fr, x.i, x.j, x.cost⟩ tail
    match s.s2n v cat with
    | none =>
      let h := g.nodes.length
      ⟨connect (addNode g cat) e h, fun a c => if a = v ∧ c = cat then some h else s.s2n a c, s.goal || decide (v = last)⟩
    | some h => ⟨connect g e h, s.s2n, s.goal⟩
  else s

/-- One edge of node `v`, scfg_translator.cc:281-328; `none`: abort, a rule without fine rules. -/
def edgeStep (E : Rules R) (g : Hypergraph (RVal R φ)) (last v : Nat) (s : State R φ) (e : Nat) : Option (State R φ) :=
  match g.edges[e]? with
  | none => none
  | some ed =>
    match E.fine ed.val.rule with
    | none => none
    | some frs => some (frs.foldl (fineStep E last v ed.tails ed.val) s)

/-- `RefineForest`, scfg_translator.cc:271-335. -/
def refine (E : Rules R) (g : Hypergraph (RVal R φ)) : Option (Bool × Hypergraph (RVal R φ)) :=
  ((List.range g.nodes.length).foldlM (fun s v => (g.inE v).foldlM (edgeStep E g (g.nodes.length - 1) v) s) ⟨empty, fun _ _ => none, false⟩).map
    fun s => (s.goal, s.forest)

end Cdec.Dec.Refine
