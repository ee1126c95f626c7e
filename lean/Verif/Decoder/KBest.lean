import Verif.HG.Spec
import Verif.Decoder.Cube
/-!
# Lazy k-best extraction

Models `KBest::KBestDerivations` (decoder/kbest.h).  Weights `W`, feature vectors `φ` and yields `T` are any types; `uniq` says which of the two
filters is used: `FilterUnique` (`true`) or `NoFilter` (`false`).
-/
namespace Cdec.Dec.KBest
open Cdec.HG
variable {W φ T α : Type}

/-- `Derivation`, kbest.h:56-75.  `tree` is not a field of the code: it is the derivation that following `j` gives (`derivation_tree`, kbest.h:95-101). -/
structure Item (W φ : Type) where
  edge : Nat
  j : List Nat
  score : W
  feats : φ
  tree : Tree

/-- What identifies a derivation, `DerivationUniquenessEquals`, kbest.h:112-116. -/
def Item.key (d : Item W φ) : Nat × List Nat := (d.edge, d.j)

/-- An element of `D`: a derivation whose field `yield` is set. -/
structure Entry (W φ T : Type) where
  item : Item W φ
  yield : T

/-- `NodeDerivationState`, kbest.h:122-128.  The set of the filter is the set of yields in `D`. -/
structure NodeState (W φ T : Type) where
  cand : List (Item W φ)
  D : List (Entry W φ T)
  ds : List (Nat × List Nat)

/-- `nds`. -/
abbrev State (W φ T : Type) := Nat → NodeState W φ T

/-- kbest.h:49: nothing has been computed. -/
def State.init : State W φ T := fun _ => ⟨[], [], []⟩

def State.set (s : State W φ T) (v : Nat) (n : NodeState W φ T) : State W φ T := fun u => if u = v then n else s u

/-- The parameters and the two library calls on the vector `cand`. -/
structure Params (W φ T α : Type) where
  g : Hypergraph α
  /-- `w(e)` -/
  w : Nat → W
  /-- `e.feature_values_` -/
  x : Nat → φ
  /-- `traverse` -/
  traverse : Nat → List T → T
  /-- the filter is `FilterUnique` -/
  uniq : Bool
  kPrime : Nat
  /-- `pop_heap`, `back` and `pop_back`, kbest.h:144-146: a largest element and the others. -/
  pop : List (Item W φ) → Option (Item W φ × List (Item W φ))
  /-- `nth_element` and `resize`, kbest.h:203-205: `n` largest elements. -/
  keep : Nat → List (Item W φ) → List (Item W φ)

variable [Mul W] [Add φ] [DecidableEq T]

/-- A call of `LazyKthBest` for a lower node: `none` for a failed assertion (or if the model's step bound is used up). -/
abbrev Rec (W φ T : Type) := State W φ T → Nat → Nat → Option (State W φ T × Option (Entry W φ T))

/-- The loop of `CreateDerivation`, kbest.h:175-180; the list has the tails with their entry of `j`. -/
def createLoop (rec : Rec W φ T) : State W φ T → List (Nat × Nat) → W × φ × List Tree → Option (State W φ T × Option (W × φ × List Tree))
  | s, [], acc => some (s, some acc)
  | s, (t, i) :: l, acc =>
    match rec s t i with
    | none => none
    | some (s', none) => some (s', none)
    | some (s', some ant) => createLoop rec s' l (acc.1 * ant.item.score, acc.2.1 + ant.item.feats, acc.2.2 ++ [ant.item.tree])

/-- `CreateDerivation`, kbest.h:172-183. -/
def create (p : Params W φ T α) (rec : Rec W φ T) (s : State W φ T) (e : Nat) (j : List Nat) : Option (State W φ T × Option (Item W φ)) :=
  match createLoop rec s ((p.g.tails e).zip j) (p.w e, p.x e, []) with
  | none => none
  | some (s', none) => some (s', none)
  | some (s', some acc) => some (s', some ⟨e, j, acc.1, acc.2.1, .node e acc.2.2⟩)

/-- The loop of `GetCandidates`, kbest.h:190-196. -/
def initLoop (p : Params W φ T α) (rec : Rec W φ T) : State W φ T → List Nat → List (Item W φ) → Option (State W φ T × List (Item W φ))
  | s, [], acc => some (s, acc)
  | s, e :: es, acc =>
    match create p rec s e (List.replicate (p.g.tails e).length 0) with
    | some (s', some d) => initLoop p rec s' es (acc ++ [d])
    | _ => none

/-- `GetCandidates`, kbest.h:185-209. -/
def getCandidates (p : Params W φ T α) (rec : Rec W φ T) (s : State W φ T) (v : Nat) : Option (State W φ T) :=
  if (s v).D.isEmpty && (s v).cand.isEmpty then
    match initLoop p rec s (p.g.inE v) [] with
    | none => none
    | some (s', cs) => some (s'.set v { s' v with cand := p.keep (if p.uniq then cs.length else min p.kPrime cs.length) cs })
  else some s

/-- One round of the loop of `LazyNext`, kbest.h:213-231. -/
def nextStep (p : Params W φ T α) (rec : Rec W φ T) (v : Nat) (d : Item W φ) (s : State W φ T) (i : Nat) : Option (State W φ T) :=
  let j := Cube.bump d.j i
  match rec s ((p.g.tails d.edge).getD i 0) (j.getD i 0) with
  | none => none
  | some (s1, none) => some s1
  | some (s1, some _) =>
    if (s1 v).ds.contains (d.edge, j) then some s1
    else
      match create p rec s1 d.edge j with
      | none => none
      | some (s2, none) => some s2
      | some (s2, some nd) => some (s2.set v { s2 v with cand := (s2 v).cand ++ [nd], ds := (s2 v).ds ++ [nd.key] })

/-- `LazyNext`, kbest.h:211-233, over the positions `i`. -/
def lazyNext (p : Params W φ T α) (rec : Rec W φ T) (v : Nat) (d : Item W φ) : State W φ T → List Nat → Option (State W φ T)
  | s, [] => some s
  | s, i :: is =>
    match nextStep p rec v d s i with
    | none => none
    | some s' => lazyNext p rec v d s' is

/-- The yields of the antecedents, kbest.h:147-149. -/
def antYields (rec : Rec W φ T) : State W φ T → List (Nat × Nat) → Option (State W φ T × List T)
  | s, [] => some (s, [])
  | s, (t, i) :: l =>
    match rec s t i with
    | some (s', some ant) =>
      match antYields rec s' l with
      | some (s'', ys) => some (s'', ant.yield :: ys)
      | none => none
    | _ => none

/-- The loops of `LazyKthBest`, kbest.h:136-163, one round per popped candidate; the outer loop calls `LazyNext` for the last element of `D` before it pops
again. -/
def popLoop (p : Params W φ T α) (rec : Rec W φ T) (v k : Nat) : Nat → State W φ T → Option (State W φ T)
  | 0, _ => none
  | fuel + 1, s =>
    match p.pop (s v).cand with
    | none => some s
    | some (d, rest) =>
      let s0 := s.set v { s v with cand := rest }
      match antYields rec s0 ((p.g.tails d.edge).zip d.j) with
      | none => none
      | some (s1, ys) =>
        let y := p.traverse d.edge ys
        if p.uniq && ((s1 v).D.map Entry.yield).contains y then
          match lazyNext p rec v d s1 (List.range d.j.length) with
          | none => none
          | some s2 => popLoop p rec v k fuel s2
        else
          let s2 := s1.set v { s1 v with D := (s1 v).D ++ [⟨d, y⟩] }
          if k < (s2 v).D.length then some s2
          else
            match lazyNext p rec v d s2 (List.range d.j.length) with
            | none => none
            | some s3 => popLoop p rec v k fuel s3

/-- `LazyNext` for the last derivation found by an earlier call, kbest.h:137-140. -/
def lastNext (p : Params W φ T α) (rec : Rec W φ T) (v : Nat) (s : State W φ T) : Option (State W φ T) :=
  match (s v).D.getLast? with
  | none => some s
  | some d => lazyNext p rec v d.item s (List.range d.item.j.length)

/-- `LazyKthBest`, kbest.h:130-165.  The first number bounds the depth of the recursion, the second the rounds of a loop. -/
def lazyKthBest (p : Params W φ T α) (fuel : Nat) : Nat → Rec W φ T
  | 0 => fun _ _ _ => none
  | depth + 1 => fun s v k =>
    match getCandidates p (lazyKthBest p fuel depth) s v with
    | none => none
    | some s1 =>
      if k < (s1 v).D.length then some (s1, (s1 v).D[k]?)
      else
        match lastNext p (lazyKthBest p fuel depth) v s1 with
        | none => none
        | some s2 =>
          match popLoop p (lazyKthBest p fuel depth) v k fuel s2 with
          | none => none
          | some s3 => some (s3, (s3 v).D[k]?)

/-- A sequence of calls and their results. -/
def calls (p : Params W φ T α) (fuel depth : Nat) : List (Nat × Nat) → State W φ T → Option (List (Option (Entry W φ T)))
  | [], _ => some []
  | (v, k) :: cs, s =>
    match lazyKthBest p fuel depth s v k with
    | none => none
    | some (s', r) => (calls p fuel depth cs s').map (r :: ·)

end Cdec.Dec.KBest
