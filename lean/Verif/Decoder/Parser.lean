import Verif.HG.Model
import Verif.HG.TopoModel
/-!
# The bottom-up chart parser

Models decoder/bottom_up_parser.cc.  Rules are of any type `R`, feature vectors of any type `φ` with a sum, positions in the tries of the grammars of any type
`ι`.  `prev_i_`, `prev_j_` and the node hashes are not modelled.
-/
namespace Cdec.Dec.Parser
open Cdec.HG
variable {ι R φ : Type}

/-- `LatticeArc`, decoder/lattice.h:10-17. -/
structure Arc (φ : Type) where
  label : Int
  feats : φ
  len : Nat

/-- `Grammar` and `GrammarIter`, decoder/grammar.h:25-44.  `has i j` is `HasRuleForSpan(i, j, d)`, where `d` is `input_.Distance(i, j)`, and 0 if `i = j`;
`rules` has the rules of the bin, `[]` for a null pointer. -/
structure Gram (ι R : Type) where
  root : ι
  extend : ι → Int → Option ι
  rules : ι → List R
  has : Nat → Nat → Bool

/-- What the parser is given: the lattice, the grammars, all their unary rules (bottom_up_parser.cc:169-171), left-hand sides, first source symbols and features of
rules, `kEPS`, `goal_cat_`, `kGOAL` and `goal_rule_`. -/
structure Env (ι R φ : Type) where
  lat : List (List (Arc φ))
  grams : List (Gram ι R)
  unaries : List R
  lhs : R → Int
  rhs : R → Int
  rfeats : R → φ
  eps : Int
  goalCat : Int
  kGoal : Int
  goalRule : R

/-- `input_.size()`. -/
def Env.n (p : Env ι R φ) : Nat := p.lat.length

/-- A step of an active item: an arc (by position and index) or a node. -/
inductive Step where
  | arc (k idx : Nat)
  | node (v : Nat)
deriving DecidableEq

/-- What a step looks like when nodes are not named. -/
def Step.shape : Step → Option (Nat × Nat)
  | .arc k idx => some (k, idx)
  | .node _ => none

/-- The payload of an edge, bottom_up_parser.cc:234-241.  `shape` is not a field of the code: it says which arcs were used, and where the antecedents are between
them. -/
structure Val (R φ : Type) where
  rule : R
  i : Nat
  j : Nat
  feats : φ
  shape : List (Option (Nat × Nat))

/-- `ActiveItem`, bottom_up_parser.cc:75-105.  `steps` is not a field of the code. -/
structure Item (ι φ : Type) where
  g : ι
  ants : List Nat
  feats : φ
  steps : List Step

/-- `PassiveChart`: the forest, `chart_`, `nodemap_` and `goal_idx_`. -/
structure Passive (R φ : Type) where
  forest : Hypergraph (Val R φ)
  chart : Nat → Nat → List Nat
  nodemap : Nat → Nat → Int → Option Nat
  goalIdx : Option Nat

/-- `act_chart_` of one grammar and one start position: the items by end position. -/
abbrev Row (ι φ : Type) := Nat → List (Item ι φ)

/-- All the state: `act` by grammar, start and end. -/
structure State (ι R φ : Type) where
  psv : Passive R φ
  act : Nat → Nat → Row ι φ

/-! ## Unary rules -/

/-- `g[k].push_back(r)` on a `std::map`, which is a list sorted by key. -/
def insertKey (k : Int) (r : R) : List (Int × List R) → List (Int × List R)
  | [] => [(k, [r])]
  | (k', l) :: m => if k < k' then (k, [r]) :: (k', l) :: m else if k = k' then (k', l ++ [r]) :: m else (k', l) :: insertKey k r m

/-- bottom_up_parser.cc:211-214. -/
def unaryMap (p : Env ι R φ) : List (Int × List R) := p.unaries.foldl (fun m r => insertKey (p.rhs r) r m) []

/-- `g.find(node)`. -/
def findKey (m : List (Int × List R)) (k : Int) : List R :=
  match m.find? fun x => decide (x.1 = k) with
  | some x => x.2
  | none => []

/-- The marks and the list `u`. -/
structure Topo (R : Type) where
  mark : Int → Nat
  u : List R

def Topo.setMark (t : Topo R) (c : Int) (n : Nat) : Topo R := { t with mark := fun c' => if c' = c then n else t.mark c' }

/-- The loop at bottom_up_parser.cc:190-195, with the results `okay` of the visits. -/
def visitAll (lhs : R → Int) (visit : Int → Topo R → Option (Bool × Topo R)) : List R → Topo R → Option (List Bool × Topo R)
  | [], t => some ([], t)
  | r :: rs, t =>
    match visit (lhs r) t with
    | none => none
    | some (ok, t1) =>
      match visitAll lhs visit rs t1 with
      | none => none
      | some (oks, t2) => some (ok :: oks, t2)

/-- The loop at bottom_up_parser.cc:196-199. -/
def okRules : List R → List Bool → List R
  | r :: rs, ok :: oks => if ok then r :: okRules rs oks else okRules rs oks
  | _, _ => []

/-- `TopoSortVisit`, bottom_up_parser.cc:178-203, with a bound on the depth of the recursion. -/
def visit (lhs : R → Int) (m : List (Int × List R)) : Nat → Int → Topo R → Option (Bool × Topo R)
  | 0, _, _ => none
  | fuel + 1, c, t =>
    if t.mark c = 1 then some (false, t)
    else if t.mark c = 2 then some (true, t)
    else
      match visitAll lhs (visit lhs m fuel) (findKey m c) (t.setMark c 1) with
      | none => none
      | some (oks, t1) =>
        some (true, ({ t1 with u := t1.u ++ okRules (findKey m c) oks }).setMark c 2)

/-- The loop at bottom_up_parser.cc:216-223. -/
def sortLoop (lhs : R → Int) (m : List (Int × List R)) (fuel : Nat) : List (Int × List R) → Topo R → Option (Topo R)
  | [], t => some t
  | x :: xs, t =>
    if 0 < t.mark x.1 then sortLoop lhs m fuel xs t
    else
      match visit lhs m fuel x.1 t with
      | none => none
      | some (_, t1) => sortLoop lhs m fuel xs t1

/-- `TopoSortUnaries`, bottom_up_parser.cc:205-227.  The recursion is never deeper than the number of unary rules plus two. -/
def sortUnaries (p : Env ι R φ) : Option (List R) :=
  (sortLoop p.lhs (unaryMap p) (p.unaries.length + 2) (unaryMap p) ⟨fun c => if c = p.goalCat then 2 else 0, []⟩).map fun t => t.u.reverse

/-! ## The charts -/

/-- The category of a node. -/
def Passive.cat (q : Passive R φ) (v : Nat) : Int := (q.forest.node v).cat

/-- `ApplyRule`, bottom_up_parser.cc:229-259; `none` if the assertion at line 250 fails. -/
def applyRule [Add φ] (p : Env ι R φ) (i j : Nat) (r : R) (ants : List Nat) (feats : φ) (shape : List (Option (Nat × Nat))) (q : Passive R φ) :
    Option (Passive R φ) :=
  let e := q.forest.edges.length
  let g := addEdge q.forest ⟨r, i, j, p.rfeats r + feats, shape⟩ ants
  match q.nodemap i j (p.lhs r) with
  | some v => some { q with forest := connect g e v }
  | none =>
    let v := g.nodes.length
    let g1 := addNode g (p.lhs r)
    let nm := fun a b c => if a = i ∧ b = j ∧ c = p.lhs r then some v else q.nodemap a b c
    if p.lhs r = p.kGoal then
      match q.goalIdx with
      | some _ => none
      | none => some { q with forest := connect g1 e v, nodemap := nm, goalIdx := some v }
    else some { q with forest := connect g1 e v, nodemap := nm, chart := fun a b => if a = i ∧ b = j then q.chart a b ++ [v] else q.chart a b }

/-- `ExtendTerminal`, bottom_up_parser.cc:81-89, with the arc `idx` of position `k`. -/
def extTerm [Add φ] (p : Env ι R φ) (G : Gram ι R) (k idx : Nat) (a : Arc φ) (it : Item ι φ) : Option (Item ι φ) :=
  if a.label = p.eps then some ⟨it.g, it.ants, it.feats + a.feats, it.steps ++ [.arc k idx]⟩
  else (G.extend it.g a.label).map fun n => ⟨n, it.ants, it.feats + a.feats, it.steps ++ [.arc k idx]⟩

/-- `ExtendNonTerminal`, bottom_up_parser.cc:90-99. -/
def extNode (q : Passive R φ) (G : Gram ι R) (v : Nat) (it : Item ι φ) : Option (Item ι φ) :=
  (G.extend it.g (q.cat v)).map fun n => ⟨n, it.ants ++ [v], it.feats, it.steps ++ [.node v]⟩

/-- Adding items to a cell. -/
def Row.push (row : Row ι φ) (j : Nat) (l : List (Item ι φ)) : Row ι φ := fun m => if m = j then row m ++ l else row m

/-- `ExtendActiveItems`, bottom_up_parser.cc:114-125. -/
def extendActive (q : Passive R φ) (G : Gram ι R) (row : Row ι φ) (k j : Nat) : Row ι φ :=
  row.push j ((row k).flatMap fun it => (q.chart k j).filterMap fun v => extNode q G v it)

/-- `AdvanceDotsForAllItemsInCell`, bottom_up_parser.cc:127-146. -/
def advance [Add φ] (p : Env ι R φ) (q : Passive R φ) (G : Gram ι R) (i j : Nat) (row : Row ι φ) : Row ι φ :=
  let row1 := (List.range' (i + 1) (j - 1 - i)).foldl (fun row k => extendActive q G row k j) row
  (p.lat.getD (j - 1) []).zipIdx.foldl (fun row a => row.push (j + a.1.len - 1) ((row (j - 1)).filterMap (extTerm p G (j - 1) a.2 a.1))) row1

/-- The loop over the items of a cell, bottom_up_parser.cc:308-314, with `ApplyRules`, bottom_up_parser.cc:261-272. -/
def applyItems [Add φ] (p : Env ι R φ) (G : Gram ι R) (i j : Nat) (q : Passive R φ) (cell : List (Item ι φ)) : Option (Passive R φ) :=
  cell.foldlM (fun q it => (G.rules it.g).foldlM (fun q r => applyRule p i j r it.ants it.feats (it.steps.map Step.shape) q) q) q

/-- Setting a row of the active charts. -/
def State.setRow (s : State ι R φ) (gi i : Nat) (row : Row ι φ) : State ι R φ :=
  { s with act := fun a b => if a = gi ∧ b = i then row else s.act a b }

/-- The loop over the grammars at bottom_up_parser.cc:303-316. -/
def scanGrams [Add φ] (p : Env ι R φ) (i j : Nat) : List (Gram ι R × Nat) → State ι R φ → Option (State ι R φ)
  | [], s => some s
  | (G, gi) :: gs, s =>
    if G.has i j then
      let row := advance p s.psv G i j (s.act gi i)
      match applyItems p G i j s.psv (row j) with
      | none => none
      | some q => scanGrams p i j gs { s.setRow gi i row with psv := q }
    else scanGrams p i j gs s

/-- The inner loop of `ApplyUnaryRules`, bottom_up_parser.cc:278-285. -/
def applyUnaries [Add φ] [Zero φ] (p : Env ι R φ) (u : List R) (i j : Nat) (v : Nat) (q : Passive R φ) : Option (Passive R φ) :=
  u.foldlM (fun q' r => if p.rhs r = q.cat v then applyRule p i j r [v] 0 [none] q' else some q') q

/-- `ApplyUnaryRules`, bottom_up_parser.cc:274-287, from the node at place `di` on, with a bound on the rounds. -/
def unaryLoop [Add φ] [Zero φ] (p : Env ι R φ) (u : List R) (i j : Nat) : Nat → Nat → Passive R φ → Option (Passive R φ)
  | 0, _, _ => none
  | fuel + 1, di, q =>
    match (q.chart i j)[di]? with
    | none => some q
    | some v =>
      match applyUnaries p u i j v q with
      | none => none
      | some q' => unaryLoop p u i j fuel (di + 1) q'

/-- The loop at bottom_up_parser.cc:319-324. -/
def finishGrams (i j : Nat) (gs : List (Gram ι R × Nat)) (s : State ι R φ) : State ι R φ :=
  gs.foldl (fun s x => if x.1.has i j then s.setRow x.2 i (extendActive s.psv x.1 (s.act x.2 i) i j) else s) s

/-- One cell, bottom_up_parser.cc:302-324.  A cell never gets more nodes from unary rules than there are such rules. -/
def parseCell [Add φ] [Zero φ] (p : Env ι R φ) (u : List R) (i j : Nat) (s : State ι R φ) : Option (State ι R φ) :=
  match scanGrams p i j p.grams.zipIdx s with
  | none => none
  | some s1 =>
    match unaryLoop p u i j ((s1.psv.chart i j).length + u.length + 1) 0 s1.psv with
    | none => none
    | some q => some (finishGrams i j p.grams.zipIdx { s1 with psv := q })

/-- The loop at bottom_up_parser.cc:326-333. -/
def goalLoop [Add φ] [Zero φ] (p : Env ι R φ) (q : Passive R φ) : Option (Passive R φ) :=
  (q.chart 0 p.n).foldlM (fun q' v => if q'.cat v = p.goalCat then applyRule p 0 p.n p.goalRule [v] 0 [none] q' else some q') q

/-- All the cells of length `l` and the test for the goal, bottom_up_parser.cc:299-334. -/
def parseLen [Add φ] [Zero φ] (p : Env ι R φ) (u : List R) (s : State ι R φ) (l : Nat) : Option (State ι R φ) :=
  match (List.range (p.n + 1 - l)).foldlM (fun s i => parseCell p u i (i + l) s) s with
  | none => none
  | some s1 => (goalLoop p s1.psv).map fun q => { s1 with psv := q }

/-- The start: empty charts and `SeedActiveChart`, bottom_up_parser.cc:107-112, 295-296. -/
def start [Zero φ] (p : Env ι R φ) : State ι R φ where
  psv := ⟨empty, fun _ _ => [], fun _ _ _ => none, none⟩
  act gi i m := if m = i ∧ i ≤ p.n then
      match p.grams[gi]? with
      | some G => if G.has i i then [⟨G.root, [], 0, []⟩] else []
      | none => []
    else []

/-- The end of `Parse`, bottom_up_parser.cc:336-339, with a bound on the steps of `PruneUnreachable`. -/
def finish (q : Passive R φ) (fuel : Nat) : Option (Bool × Hypergraph (Val R φ)) :=
  match q.goalIdx with
  | none => some (false, q.forest)
  | some _ => (topoSort q.forest (q.forest.nodes.length - 1) (fun _ => false) fuel).map fun g => (true, g)

/-- `PassiveChart::Parse`, bottom_up_parser.cc:289-340. -/
def parse [Add φ] [Zero φ] (p : Env ι R φ) (fuel : Nat) : Option (Bool × Hypergraph (Val R φ)) :=
  match sortUnaries p with
  | none => none
  | some u =>
    match (List.range' 1 p.n).foldlM (parseLen p u) (start p) with
    | none => none
    | some s => finish s.psv fuel

end Cdec.Dec.Parser
