import Verif.Decoder.Parser
/-!
# The other bottom-up parser

Models decoder/bottom_up_parser-rs.cc.  `TopoSortUnaries`, the effect of `ApplyRule`, the extensions of items and the search for the goal are the same code as in
decoder/bottom_up_parser.cc and are shared with its model: `sortUnaries` (bottom_up_parser-rs.cc:122-171), `applyRule` (lines 173-206), `extTerm` and `extNode`
(lines 73-81), `goalLoop` (lines 302-310) and `finish` (lines 313-315).  The charts have no active items: items are only arguments.
-/
namespace Cdec.Dec.Parser.Rs
open Cdec.HG
variable {ι R φ : Type} [Add φ]

/-- A rule is applied and, if that makes a node, `more` is called with the new node: bottom_up_parser-rs.cc:221-224 and 235-239.  `ApplyRule` says that it made a node
if the map had none for the category. -/
def applyNew (p : Env ι R φ) (i j : Nat) (more : Nat → Passive R φ → Option (Passive R φ)) (r : R) (ants : List Nat) (feats : φ) (shape : List (Option (Nat × Nat)))
    (q : Passive R φ) : Option (Passive R φ) :=
  match applyRule p i j r ants feats shape q with
  | none => none
  | some q1 =>
    match q.nodemap i j (p.lhs r) with
    | some _ => some q1
    | none =>
      match q1.nodemap i j (p.lhs r) with
      | none => none
      | some v => more v q1

/-- `ApplyUnaryRules`, bottom_up_parser-rs.cc:228-242, with a bound on the depth of the recursion.  `cat` is the category of the node. -/
def applyUnary [Zero φ] (p : Env ι R φ) (u : List R) (i j : Nat) : Nat → Int → Nat → Passive R φ → Option (Passive R φ)
  | 0, _, _, _ => none
  | fuel + 1, cat, v, q =>
    u.foldlM (fun q r => if p.rhs r = cat then applyNew p i j (applyUnary p u i j fuel (p.lhs r)) r [v] 0 [none] q else some q) q

/-- `ApplyRules`, bottom_up_parser-rs.cc:208-226.  The recursion of `ApplyUnaryRules` is never deeper than the number of unary rules plus one. -/
def applyRules [Zero φ] (p : Env ι R φ) (u : List R) (i j : Nat) (rs : List R) (it : Item ι φ) (q : Passive R φ) : Option (Passive R φ) :=
  rs.foldlM (fun q r => applyNew p i j (applyUnary p u i j (u.length + 1) (p.lhs r)) r it.ants it.feats (it.steps.map Step.shape) q) q

/-- `ConsumeTerminal`, bottom_up_parser-rs.cc:257-270; `add` is `AddToChart` at the end of the arc. -/
def consumeTerminal (p : Env ι R φ) (G : Gram ι R) (add : Item ι φ → Passive R φ → Option (Passive R φ)) (j k : Nat) (it : Item ι φ) (q : Passive R φ) :
    Option (Passive R φ) :=
  (p.lat.getD j []).zipIdx.foldlM (fun q a =>
    if a.1.len = k - j then
      match extTerm p G j a.2 a.1 it with
      | none => some q
      | some y => add y q
    else some q) q

omit [Add φ] in
/-- `ConsumeNonTerminal`, bottom_up_parser-rs.cc:272-280; `none` also if the list of nodes that the loop goes over is changed in the loop, which the language does not
define. -/
def consumeNonTerminal (G : Gram ι R) (add : Item ι φ → Passive R φ → Option (Passive R φ)) (j k : Nat) (it : Item ι φ) (q : Passive R φ) : Option (Passive R φ) :=
  (q.chart j k).foldlM (fun q1 v =>
    match extNode q1 G v it with
    | none => some q1
    | some y =>
      match add y q1 with
      | none => none
      | some q2 => if q2.chart j k = q.chart j k then some q2 else none) q

/-- `AddToChart`, bottom_up_parser-rs.cc:244-255, with a bound on the depth of the recursion. -/
def addToChart [Zero φ] (p : Env ι R φ) (u : List R) (G : Gram ι R) (i : Nat) : Nat → Nat → Item ι φ → Passive R φ → Option (Passive R φ)
  | 0, _, _, _ => none
  | fuel + 1, j, it, q =>
    match applyRules p u i j (G.rules it.g) it q with
    | none => none
    | some q1 =>
      (List.range' (j + 1) (p.n - j)).foldlM (fun q k =>
        match consumeTerminal p G (addToChart p u G i fuel k) j k it q with
        | none => none
        | some q2 => consumeNonTerminal G (addToChart p u G i fuel k) j k it q2) q1

/-- The two loops over the grammars at bottom_up_parser-rs.cc:291-298.  Items end one position later in each recursion, so it is never deeper than the length of the
lattice. -/
def parseCell [Zero φ] (p : Env ι R φ) (u : List R) (i j : Nat) (q : Passive R φ) : Option (Passive R φ) :=
  match p.grams.foldlM (fun q G => consumeTerminal p G (addToChart p u G i p.n j) i j ⟨G.root, [], 0, []⟩ q) q with
  | none => none
  | some q1 => p.grams.foldlM (fun q G => consumeNonTerminal G (addToChart p u G i p.n j) i j ⟨G.root, [], 0, []⟩ q) q1

/-- The loop over the ends of cells at bottom_up_parser-rs.cc:290-299. -/
def parseRow [Zero φ] (p : Env ι R φ) (u : List R) (q : Passive R φ) (i : Nat) : Option (Passive R φ) :=
  (List.range' (i + 1) (p.n - i)).foldlM (fun q j => parseCell p u i j q) q

/-- `RSChart::Parse`, bottom_up_parser-rs.cc:282-316. -/
def parse [Zero φ] (p : Env ι R φ) (fuel : Nat) : Option (Bool × Hypergraph (Val R φ)) :=
  match sortUnaries p with
  | none => none
  | some u =>
    match (List.range p.n).reverse.foldlM (parseRow p u) ⟨empty, fun _ _ => [], fun _ _ _ => none, none⟩ with
    | none => none
    | some q =>
      match goalLoop p q with
      | none => none
      | some q1 => finish q1 fuel

end Cdec.Dec.Parser.Rs
