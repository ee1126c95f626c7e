import Verif.HG.TopoModel
/-!
# The phrase-based translator

Models `decoder/phrasebased_translator.cc` and the text phrase table of `decoder/phrasetable_fst.cc`.  Features and weights are
left out (`Reweight` is modelled for C10); a rule carries its own scores.
-/
namespace Cdec.Dec.PB
open Cdec.HG
variable {R : Type}

/-! ### The phrase table -/

/-- `TextFSTNode`, phrasetable_fst.cc:33-50, the tree of all nodes below the root.  A node is named by the words that lead to it
from the root: `has p` says that there is such a node, `data p` lists its rules (no rules: `HasData` is false; a set of rules is
only made to add a rule to it).  `pass` is `passthroughs` of the root. -/
structure Fst (R : Type) where
  has : List Int → Bool
  data : List Int → List R
  pass : List Int

/-- A root without anything, `new TextFSTNode`. -/
def Fst.empty : Fst R := ⟨fun p => p.isEmpty, fun _ => [], []⟩

/-- `AddPhrase`, phrasetable_fst.cc:60-77, for the rule `r` with source side `f`. -/
def Fst.addPhrase (t : Fst R) (f : List Int) (r : R) : Fst R :=
  ⟨fun p => t.has p || p.isPrefixOf f, fun p => if p = f then t.data p ++ [r] else t.data p, t.pass⟩

/-- `LoadTextPhrasetable`, phrasetable_fst.cc:101-123. -/
def Fst.load (ps : List (List Int × R)) : Fst R := ps.foldl (fun t x => t.addPhrase x.1 x.2) .empty

/-- `AddPassThroughTranslation`, phrasetable_fst.cc:79-95; `mk w` is the rule that is made. -/
def Fst.addPass (mk : Int → R) (t : Fst R) (w : Int) : Fst R :=
  let has := fun p => t.has p || decide (p = [w])
  match t.data [w] with
  | [] => ⟨has, fun p => if p = [w] then [mk w] else t.data p, t.pass ++ [w]⟩
  | _ => ⟨has, t.data, t.pass⟩

/-- `ptr.erase(w)` at the root. -/
def Fst.eraseWord (t : Fst R) (w : Int) : Fst R :=
  ⟨fun p => t.has p && decide (p.head? ≠ some w), fun p => if p.head? = some w then [] else t.data p, t.pass⟩

/-- `ClearPassThroughTranslations`, phrasetable_fst.cc:97-101. -/
def Fst.clearPass (t : Fst R) : Fst R :=
  let t' := t.pass.foldl Fst.eraseWord t
  ⟨t'.has, t'.data, []⟩

/-! ### Coverage -/

/-- `Coverage`, phrasebased_translator.cc:27-51.  Maps and sets of coverages compare the bits only. -/
structure Coverage where
  bits : List Bool
  gap : Nat

/-- The loop at phrasebased_translator.cc:37-40: the number of set bits at the start.  (The code tests `*it` before `it != end()`:
at the end it reads a bit that does not exist.) -/
def runLen : List Bool → Nat
  | true :: b => runLen b + 1
  | _ => 0

/-- The loop at phrasebased_translator.cc:30-33. -/
def setBits (b : List Bool) (i j : Nat) : List Bool := (List.range' i (j - i)).foldl (fun b p => b.set p true) b

/-- `Cover`, phrasebased_translator.cc:29-42. -/
def Coverage.cover (c : Coverage) (i j : Nat) : Coverage :=
  let b := setBits c.bits i j
  ⟨b, if c.gap = i then j + runLen (b.drop j) else c.gap⟩

/-- `Collides`, phrasebased_translator.cc:43-49. -/
def Coverage.collides (c : Coverage) (i j : Nat) : Bool := (List.range' i (j - i)).any fun p => c.bits.getD p false

/-! ### Translation -/

/-- What an edge carries: a phrase with its span, `kCONCAT_RULE` or `kGOAL_RULE`. -/
inductive Val (R : Type) where
  | phrase (r : R) (i j : Nat)
  | concat
  | goal
deriving DecidableEq

/-- `State`, phrasebased_translator.cc:86-93; the pointer into the phrase table is the list of words that leads to the node. -/
structure State where
  cov : Coverage
  i : Nat
  j : Nat
  path : List Int

/-- The local variables of `Translate`: the forest, `c` (absent keys are `none`), `ucs` and `q`. -/
structure Vars (R : Type) where
  forest : Hypergraph (Val R)
  c : List Bool → Option Nat
  ucs : List (List Bool)
  q : List State

/-- The input and the options: the lattice (arcs with label and `dist2next`), the phrase table, `max_distortion` and two
category numbers. -/
structure Env (R : Type) where
  lat : List (List (Int × Nat))
  fst : Fst R
  dist : Nat
  catX : Int
  catGoal : Int

/-- `EnqueuePossibleContinuations`, phrasebased_translator.cc:98-105. -/
def enqueue (dist : Nat) (cov : Coverage) (m : Vars R) : Vars R :=
  if cov.bits ∈ m.ucs then m else
    let stop := min cov.bits.length (cov.gap + dist + 1)
    ⟨m.forest, m.c, cov.bits :: m.ucs,
      m.q ++ ((List.range' cov.gap (stop - cov.gap)).filter fun i => !cov.bits.getD i false).map fun i => ⟨cov, i, i, []⟩⟩

/-- Lines 147-153: the edges of the phrases, all with the given head. -/
def addPhrases (rs : List R) (i j head : Nat) (g : Hypergraph (Val R)) : Hypergraph (Val R) :=
  rs.foldl (fun g r => connect (addEdge g (.phrase r i j) []) g.edges.length head) g

/-- `c[k] = v` -/
def setC (c : List Bool → Option Nat) (k : List Bool) (v : Nat) : List Bool → Option Nat := fun k' => if k' = k then some v else c k'

/-- Lines 142-168, what is done for a state with translations. -/
def useData (E : Env R) (s : State) (m0 : Vars R) : Option (Vars R) :=
  let new := s.cov.cover s.i s.j
  let m := enqueue E.dist new m0
  let p := m.forest.nodes.length
  let g := addPhrases (E.fst.data s.path) s.i s.j p (addNode m.forest E.catX)
  match m.c s.cov.bits with
  | none => none
  | some 0 => some ⟨g, setC m.c new.bits (p + 1), m.ucs, m.q⟩
  | some (t + 1) =>
    match m.c new.bits with
    | some (h + 1) => some ⟨connect (addEdge g .concat [t, p]) g.edges.length h, m.c, m.ucs, m.q⟩
    | _ =>
      let h := g.nodes.length
      let g := addNode g E.catX
      some ⟨connect (addEdge g .concat [t, p]) g.edges.length h, setC m.c new.bits (h + 1), m.ucs, m.q⟩

/-- Lines 170-180: the states that extend `s` by an arc. -/
def arcsOf (E : Env R) (s : State) : List State :=
  (E.lat.getD s.j []).filterMap fun a =>
    if E.fst.has (s.path ++ [a.1]) && !s.cov.collides s.i (s.j + a.2) then some ⟨s.cov, s.i, s.j + a.2, s.path ++ [a.1]⟩ else none

/-- Lines 137-181, one iteration; `s` has been taken from the queue. -/
def stepOne (E : Env R) (s : State) (m : Vars R) : Option (Vars R) :=
  match (match E.fst.data s.path with | [] => some m | _ => useData E s m) with
  | none => none
  | some m => if s.j = E.lat.length then some m else some ⟨m.forest, m.c, m.ucs, m.q ++ arcsOf E s⟩

/-- The loop at lines 136-182; `none` is a failed assertion or a run cut off by `fuel`. -/
def mainLoop (E : Env R) : Nat → Vars R → Option (Vars R)
  | 0, _ => none
  | fuel + 1, m =>
    match m.q with
    | [] => some m
    | s :: q =>
      match stepOne E s ⟨m.forest, m.c, m.ucs, q⟩ with
      | none => none
      | some m => mainLoop E fuel m

/-- Lines 128-135. -/
def start (E : Env R) : Vars R :=
  let cov : Coverage := ⟨List.replicate E.lat.length false, 0⟩
  let m := enqueue E.dist cov ⟨empty, fun _ => none, [], []⟩
  ⟨m.forest, setC m.c cov.bits 0, m.ucs, m.q⟩

/-- `Translate` without pass-through rules, lines 107-201. -/
def translate (E : Env R) (fuel : Nat) : Option (Bool × Hypergraph (Val R)) :=
  match mainLoop E fuel (start E) with
  | none => none
  | some m =>
    match m.c (List.replicate E.lat.length true) with
    | some (v + 1) =>
      let goal := m.forest.nodes.length
      let g := addNode m.forest E.catGoal
      let g := connect (addEdge g .goal [v]) g.edges.length goal
      (topoSort g goal (fun _ => false) fuel).map fun g => (true, g)
    | _ => some (false, m.forest)

/-- `ConvertTextOrPLF` for text, lattice.cc: one arc per word. -/
def textLattice (ws : List Int) : List (List (Int × Nat)) := ws.map fun w => [(w, 1)]

/-- Lines 116-126: the phrase table with the pass-through rules for the labels of the lattice. -/
def withPass (mk : Int → R) (lat : List (List (Int × Nat))) (t : Fst R) : Fst R := (lat.flatMap fun as => as.map Prod.fst).foldl (Fst.addPass mk) t

/-- One call of `Translate` with `--add_pass_through_rules`: the answer and the phrase table for the next call. -/
def translatePass (mk : Int → R) (lat : List (List (Int × Nat))) (dist : Nat) (catX catGoal : Int) (fuel : Nat) (t : Fst R) :
    Option (Bool × Hypergraph (Val R)) × Fst R :=
  let t' := withPass mk lat t
  (translate ⟨lat, t', dist, catX, catGoal⟩ fuel, t'.clearPass)

end Cdec.Dec.PB
