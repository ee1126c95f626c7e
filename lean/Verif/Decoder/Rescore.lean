import Verif.HG.Model
import Verif.HG.TopoModel
import Verif.Decoder.Cube
/-!
# Rescoring a forest with stateful feature functions

Models `NoPruningRescorer` and `CubePruningRescorer` (decoder/apply_models.cc) over arbitrary feature functions: what
`ModelSet::AddFeaturesToEdge` and `AddFinalFeatures` (decoder/ffset.cc:30-76) compute is a function of the edge of the input forest and of the states of
the nodes it is attached to.  Sentence metadata is fixed; `FFState` is any type `S`; the features and the probability of the new edge are any type
`φ`.  Scores, which decide the order of the pops in cube pruning, are not modelled: schedules stand for them.
-/
namespace Cdec.Dec
open Cdec.HG
variable {S K φ α : Type} [DecidableEq K]

/-- The feature functions. -/
structure Models (S φ : Type) where
  /-- `AddFeaturesToEdge`, ffset.cc:30-60: the state of the head and the features of the new edge. -/
  edge : Nat → List S → S × φ
  /-- `AddFinalFeatures`, ffset.cc:62-76. -/
  final : Nat → S → φ
  /-- `FFState()`. -/
  noState : S

/-- State and features of a new edge: apply_models.cc:549-557 and, for cube pruning, 107-114. -/
def Models.result (M : Models S φ) (isGoal : Bool) (e : Nat) (sts : List S) : S × φ :=
  if isGoal then (M.noState, M.final e (sts.headD M.noState)) else M.edge e sts

/-- The members `out`, `node_states_` and `nodemap` (apply_models.cc:607-613); an edge of `out` carries the edge of `in` it copies and its features. -/
structure RS (S φ : Type) where
  out : Hypergraph (Nat × φ)
  states : List S
  nodemap : List (List Nat)

/-- Attach one new edge: apply_models.cc:548-567 and `IncorporateIntoPlusLMForest`, 233-286.  `s2n` maps states (in cube pruning, states without the
ignored bytes: `key`) to the nodes made for them.  `hd` is the index into `nodemap` (in cube pruning `D[v]` is filled from `s2n` at the end, 319-323).
`upd` says that the candidate is better than the one that made the node and bytes were ignored, so that the state is
replaced (262-265). -/
def expand (M : Models S φ) (key : S → K) (cat : Nat → Int) (hd : Nat) (isGoal : Bool) (s : RS S φ × List (K × Nat)) (e : Nat) (tails : List Nat) (upd : Bool) :
    RS S φ × List (K × Nat) :=
  let r := M.result isGoal e (tails.map fun t => s.1.states.getD t M.noState)
  let out1 := addEdge s.1.out (e, r.2) tails
  match s.2.lookup (key r.1) with
  | some h => (⟨connect out1 s.1.out.edges.length h, if upd then s.1.states.set h r.1 else s.1.states, s.1.nodemap⟩, s.2)
  | none => (⟨connect (addNode out1 (cat e)) s.1.out.edges.length out1.nodes.length, s.1.states ++ [r.1],
      s.1.nodemap.modify hd (· ++ [out1.nodes.length])⟩, (key r.1, out1.nodes.length) :: s.2)

/-- `tail[i] = nodemap[in_edge.tail_nodes_[i]][tail_iter[i]]`, apply_models.cc:546-547, and 101-105. -/
def pick (nodemap : List (List Nat)) (tails js : List Nat) : List Nat := List.zipWith (fun t i => (nodemap.getD t []).getD i 0) tails js

/-- apply_models.cc:569-575: the next vector, or `none` for `done`. -/
def nextIter : List Nat → List Nat → Option (List Nat)
  | [], _ => none
  | _ :: _, [] => none
  | n :: ns, i :: is => if i + 1 < n then some ((i + 1) :: is) else (nextIter ns is).map (0 :: ·)

/-- The loop of `ExpandEdge`, apply_models.cc:544-576. -/
def expandLoop (M : Models S φ) (key : S → K) (cat : Nat → Int) (g : Hypergraph α) (isGoal : Bool) (e : Nat) (ends : List Nat) :
    Nat → List Nat → RS S φ × List (K × Nat) → Option (RS S φ × List (K × Nat))
  | 0, _, _ => none
  | fuel + 1, it, s =>
    let s' := expand M key cat ((g.head e).getD 0) isGoal s e (pick s.1.nodemap (g.tails e) it) false
    match nextIter ends it with
    | none => some s'
    | some it' => expandLoop M key cat g isGoal e ends fuel it' s'

/-- `ExpandEdge`, apply_models.cc:536-577; `none` if an antecedent has no nodes (a read outside of `nodemap[...]`) or if an edge into the goal does not
have one tail (the assertions at 550 and at ffset.cc:63). -/
def expandEdge (M : Models S φ) (key : S → K) (cat : Nat → Int) (g : Hypergraph α) (isGoal : Bool) (s : RS S φ × List (K × Nat)) (e : Nat) :
    Option (RS S φ × List (K × Nat)) :=
  let ends := (g.tails e).map fun t => (s.1.nodemap.getD t []).length
  if ends.all (0 < ·) && (!isGoal || ends.length == 1) then expandLoop M key cat g isGoal e ends ends.prod (List.replicate ends.length 0) s else none

/-- The loop of `ProcessOneNode`, apply_models.cc:582-585. -/
def expandEdges (M : Models S φ) (key : S → K) (cat : Nat → Int) (g : Hypergraph α) (isGoal : Bool) :
    List Nat → RS S φ × List (K × Nat) → Option (RS S φ × List (K × Nat))
  | [], s => some s
  | e :: es, s =>
    match expandEdge M key cat g isGoal s e with
    | some s' => expandEdges M key cat g isGoal es s'
    | none => none

/-- The loop of `Apply`, apply_models.cc:595-601, over the nodes `i`. -/
def rescoreNodes (M : Models S φ) (key : S → K) (cat : Nat → Int) (g : Hypergraph α) : List Nat → RS S φ → Option (RS S φ)
  | [], r => some r
  | i :: is, r =>
    match expandEdges M key cat g (i == g.nodes.length - 1) (g.inE i) (r, []) with
    | some s => rescoreNodes M key cat g is s.1
    | none => none

/-- `NoPruningRescorer::Apply`, apply_models.cc:588-603. -/
def rescore (M : Models S φ) (key : S → K) (cat : Nat → Int) (g : Hypergraph α) : Option (RS S φ) :=
  rescoreNodes M key cat g (List.range g.nodes.length) ⟨empty, [], List.replicate g.nodes.length []⟩

/-- The strategies, apply_models.cc:28-30. -/
inductive Strategy | normal | fast | fast2

/-- The candidates popped at one node, in order. -/
def Strategy.run (st : Strategy) (bounds : Nat → List Nat) (inEdges sched : List Nat) : Cube.St :=
  match st with
  | .normal => Cube.runNormal bounds inEdges sched
  | .fast => Cube.runFast bounds inEdges sched
  | .fast2 => Cube.runFast2 bounds inEdges sched

/-- What depends on scores at one node: the order of the pops (at most `pop_limit_` of them), which candidates replace the state of their node, and the order of `D[v]`. -/
structure Choices where
  sched : List Nat
  upd : Nat → Bool
  arrange : List Nat → List Nat

/-- The sizes of the lists `D` of the tails of an edge. -/
def bounds (g : Hypergraph α) (nodemap : List (List Nat)) (e : Nat) : List Nat := (g.tails e).map fun t => (nodemap.getD t []).length

/-- Incorporate the popped candidates, apply_models.cc:316, 361, 417; `k` counts them. -/
def incorporate (M : Models S φ) (key : S → K) (cat : Nat → Int) (g : Hypergraph α) (v : Nat) (isGoal : Bool) (upd : Nat → Bool) (nodemap : List (List Nat)) :
    Nat → List Cube.Cand → RS S φ × List (K × Nat) → RS S φ × List (K × Nat)
  | _, [], s => s
  | k, c :: cs, s =>
    incorporate M key cat g v isGoal upd nodemap (k + 1) cs (expand M key cat v isGoal s c.1 (pick nodemap (g.tails c.1) c.2) (upd k))

/-- `KBest`, `KBestFast` and `KBestFast2`, apply_models.cc:288-441.  Candidates are scored before they are popped, but only from nodes below `v`,
which do not change any more. -/
def kbest (st : Strategy) (M : Models S φ) (key : S → K) (cat : Nat → Int) (g : Hypergraph α) (v : Nat) (c : Choices) (r : RS S φ) : RS S φ :=
  let s := incorporate M key cat g v (v == g.nodes.length - 1) c.upd r.nodemap 0 (st.run (bounds g r.nodemap) (g.inE v) c.sched).popped (r, [])
  { s.1 with nodemap := s.1.nodemap.modify v c.arrange }

/-- `CubePruningRescorer::Apply`, apply_models.cc:191-221, without the last step. -/
def cube (st : Strategy) (M : Models S φ) (key : S → K) (cat : Nat → Int) (g : Hypergraph α) (choices : Nat → Choices) : RS S φ :=
  (List.range g.nodes.length).foldl (fun r v => kbest st M key cat g v (choices v) r) ⟨empty, [], List.replicate g.nodes.length []⟩

/-- `CubePruningRescorer::Apply`, apply_models.cc:191-221: the assertions at 193 and 196, the loop, and `PruneUnreachable` (hg.cc:457-459) of the first
candidate of the goal.  `none` if an assertion fails or if there is no such candidate. -/
def cubeApply (st : Strategy) (M : Models S φ) (key : S → K) (cat : Nat → Int) (g : Hypergraph α) (choices : Nat → Choices) (fuel : Nat) : Option (Hypergraph (Nat × φ)) :=
  if 2 ≤ g.nodes.length && (g.node (g.nodes.length - 2)).outEdges.length == 1 && (g.inE g.goal).all fun e => (g.tails e).length == 1 then
    let r := cube st M key cat g choices
    match r.nodemap.getD g.goal [] with
    | [] => none
    | h :: _ => topoSort r.out h (fun _ => false) fuel
  else none

end Cdec.Dec
