import Verif.Decoder.CubeLemmas
import Verif.HG.SimLemmas
/-!
# C15: cube pruning keeps a part of the derivations, and scores them as exhaustive rescoring does
-/
namespace Cdec.Dec
open Cdec.HG Spec
variable {S K φ α : Type} [DecidableEq K]

theorem tree_map_congr' {f k : Nat → Nat} (t : Tree) : (∀ e ∈ t.edges, f e = k e) → t.map f = t.map k := by
  induction t using Tree.rec (motive_2 := fun ch => (∀ e ∈ ch.flatMap fun t => t.edges, f e = k e) → (ch.map fun t => t.map f) = ch.map fun t => t.map k) with
  | node e ch ih =>
    intro h
    rw [Tree.edges] at h
    rw [tree_map_node, tree_map_node, h e (by simp), ih fun x hx => h x (by simp [hx])]
  | nil => rfl
  | cons t ts h1 h2 =>
    rename_i h
    rw [List.flatMap_cons] at h
    rw [List.map_cons, List.map_cons, h1 fun e he => h e (by simp [he]), h2 fun e he => h e (List.mem_append.2 (.inr he))]

theorem relocate_vals {g : Hypergraph α} {goal : Nat} {prune : Nat → Bool} {fuel : Nat} {h : Hypergraph α} (hs : topoSort g goal prune fuel = some h) (p : α → Bool) :
    (h.edges.filter fun ed => p ed.val).length ≤ (g.edges.filter fun ed => p ed.val).length := by
  unfold topoSort at hs
  split at hs
  · cases hs
  · rename_i rn _ _
    simp only [Option.some.injEq] at hs
    rw [← hs]
    unfold relocate
    simp only []
    rw [← List.countP_eq_length_filter, ← List.countP_eq_length_filter, (isort_perm _ _).countP_eq]
    generalize hre : edgeReloc g prune rn = re
    clear hre hs
    have : ∀ (l : List (Edge α)) (re : Nat → Option Nat), ((l.mapIdx fun i e => relocEdge rn re i e).filterMap id).countP (fun ed => p ed.val) ≤ l.countP fun ed => p ed.val := by
      intro l
      induction l with
      | nil => intro re; simp
      | cons a l ih =>
        intro re
        rw [List.mapIdx_cons, List.filterMap_cons]
        have ih2 := ih fun i => re (i + 1)
        have e1 : (l.mapIdx fun i e => relocEdge rn re (i + 1) e) = l.mapIdx fun i e => relocEdge rn (fun i => re (i + 1)) i e := rfl
        rw [e1]
        rcases hra : re 0 with _ | k
        · simp only [relocEdge, hra, id]
          rw [List.countP_cons]
          exact Nat.le_trans ih2 (Nat.le_add_right _ _)
        · simp only [relocEdge, hra, id]
          rw [List.countP_cons, List.countP_cons]
          exact Nat.add_le_add_right ih2 _
    exact this _ _

/-- C15.  For every forest, every set of feature functions, every strategy, every pop limit of at least one and every order the scores may give
(`choices`), with states compared after dropping any ignored bytes (`key`), cube pruning ends without failing an assertion or reading outside of a table and returns
a forest `h` with

* tables in order and at least one derivation of the goal;
* dropping states maps every derivation of `h` to a derivation of the input, and no two to the same;
* at most as many edges made for the edges into an input node as candidates may be popped there;
* if no bytes are ignored, the features of every derivation are those of the models run bottom up along it;
* if the pop limit is at least the number of derivations of every node, every derivation of the input. -/
theorem C15_cube (st : Strategy) (M : Models S φ) (key : S → K) (cat : Nat → Int) (g : Hypergraph α) (hg : Ready g) (h2 : 2 ≤ g.nodes.length)
    (hpre : (g.node (g.nodes.length - 2)).outEdges.length = 1)
    (choices : Nat → Choices) (hpop : ∀ v, 0 < (choices v).sched.length) (harr : ∀ v l, ((choices v).arrange l).Perm l) :
    ∃ h, (∃ k, ∀ fuel, k ≤ fuel → cubeApply st M key cat g choices fuel = some h) ∧ WF h ∧ (∃ t', IsDeriv h h.goal t') ∧
      (∀ t', IsDeriv h h.goal t' → IsDeriv g g.goal (t'.map (src h))) ∧
      (∀ t' t'', IsDeriv h h.goal t' → IsDeriv h h.goal t'' → t'.map (src h) = t''.map (src h) → t' = t'') ∧
      (∀ u < g.nodes.length, (h.edges.filter fun ed => decide (ed.val.1 ∈ g.inE u)).length ≤ (choices u).sched.length) ∧
      ((∀ a b, key a = key b → a = b) → ∀ t', IsDeriv h h.goal t' → t'.edges.map (feat h) = (goalFeats M (t'.map (src h))).map some) ∧
      ((∀ u < g.nodes.length, ∀ ds, ListsDerivs g u ds → ds.length ≤ (choices u).sched.length) →
        ∀ t, IsDeriv g g.goal t → ∃ t', IsDeriv h h.goal t' ∧ t'.map (src h) = t) := by
  obtain ⟨X, ha, hcnt, hcomp⟩ := cube_spec (M := M) (key := key) (cat := cat) hg st choices (fun v => List.length_pos_iff.1 (hpop v)) harr g.nodes.length (Nat.le_refl _)
  change AInv M key g g.nodes.length X (cube st M key cat g choices) at ha
  change _ → ∀ u < g.nodes.length, AllAttached g (cube st M key cat g choices) u X at hcomp
  generalize hr : cube st M key cat g choices = r at ha hcomp
  have hgoal : g.goal < g.nodes.length := by
    unfold Hypergraph.goal
    omega
  have hnm : r.nm g.goal = [r.out.goal] := ha.inv.goal_node (ha.ne _ hgoal) hg.pos
  have hmem : r.out.goal ∈ r.nm g.goal := by rw [hnm]; simp
  have hwf := ha.inv.wf hg.wf
  have hlt := (ha.inv.nmlt _ _ hmem).1
  have hir : InRange r.out := ⟨hwf.edge_lt, hwf.nodup, fun v hv e he t ht => Nat.lt_trans (hwf.topo v hv e he t ht) hv⟩
  have hac : AcyclicFrom r.out (fun _ => false) r.out.goal := by
    refine ⟨id, fun v hv e he _ t ht => hwf.topo v (hv.lt hir hlt) e he t ht⟩
  obtain ⟨h, f, pos, ⟨k, hk⟩, hwf', _, _, _, _, _, hbij, hpos⟩ := C06_topological_sort r.out hir (fun _ => false) r.out.goal hlt hac
  have hb := hbij _ _ hpos
  have hav : ∀ t, Avoids (fun _ => false) t := fun t e _ => rfl
  have hval : ∀ t, IsDeriv r.out r.out.goal t → ∀ e ∈ t.edges, src h (f e) = src r.out e ∧ feat h (f e) = feat r.out e := by
    intro t ht e he
    obtain ⟨p1, p2, p3⟩ := hb.payload t ht (hav t) e he
    unfold src feat
    rw [List.getElem?_eq_getElem p1, List.getElem?_eq_getElem p2] at p3 ⊢
    simp only [Option.map_some, Option.some.injEq, id] at p3 ⊢
    rw [p3]
    exact ⟨rfl, rfl⟩
  have hsrc : ∀ t, IsDeriv r.out r.out.goal t → (t.map f).map (src h) = t.map (src r.out) := by
    intro t ht
    rw [tree_map_comp]
    exact tree_map_congr' t fun e he => (hval t ht e he).1
  refine ⟨h, ⟨k, fun fuel hf => ?_⟩, hwf', ?_, ?_, ?_, ?_, ?_, ?_⟩
  · unfold cubeApply
    have hall : ((g.inE g.goal).all fun e => (g.tails e).length == 1) = true := by
      rw [List.all_eq_true]
      intro e he
      simp [hg.goal e he]
    rw [if_pos (by simp [h2, hpre, hall])]
    simp only [hr]
    unfold RS.nm at hnm
    rw [hnm]
    exact hk fuel hf
  · obtain ⟨t, ht⟩ := ha.inv.exists_deriv hg.wf _ hlt
    exact ⟨t.map f, hb.fwd t ht (hav t)⟩
  · intro t' ht'
    obtain ⟨t, ht, _, rfl⟩ := hb.bwd t' ht'
    rw [hsrc t ht]
    exact ha.inv.sound t _ _ hmem ht
  · intro t' t'' ht' ht'' heq
    obtain ⟨t, ht, _, rfl⟩ := hb.bwd t' ht'
    obtain ⟨u, hu, _, rfl⟩ := hb.bwd t'' ht''
    rw [hsrc t ht, hsrc u hu] at heq
    rw [(ha.inv.unique ha.nodup t _ _ _ u hmem hmem ht hu heq).2]
  · intro u hu
    refine Nat.le_trans (relocate_vals (hk k (Nat.le_refl _)) fun x : Nat × φ => decide (x.1 ∈ g.inE u)) (Nat.le_trans ?_ (hcnt u))
    have hv : r.out.edges.map (fun ed => ed.val.1) = X.map fun x => x.2.1 := by
      apply List.ext_getElem?
      intro i
      rw [List.getElem?_map, List.getElem?_map]
      rcases hx : X[i]? with _ | ⟨u2, e, ts⟩
      · have := List.getElem?_eq_none_iff.1 hx
        rw [List.getElem?_eq_none (by rw [ha.inv.elen]; exact this)]
        rfl
      · obtain ⟨_, p2, _⟩ := ha.inv.edge i u2 e ts hx
        obtain ⟨ed, e1, e2⟩ := Option.map_eq_some_iff.1 p2
        rw [e1]
        simp [e2]
    rw [← List.countP_eq_length_filter, ← List.countP_eq_length_filter]
    have e1 : r.out.edges.countP (fun ed => decide (ed.val.1 ∈ g.inE u)) = (r.out.edges.map fun ed => ed.val.1).countP fun e => decide (e ∈ g.inE u) := by
      rw [List.countP_map]; rfl
    rw [e1, hv, List.countP_map]
    refine List.countP_mono_left ?_
    rintro ⟨u2, e, ts⟩ hx hp
    obtain ⟨_, v2, v3, _⟩ := ha.inv.valid u2 e ts hx
    simp only [Function.comp, decide_eq_true_eq] at hp
    have a1 := hg.head u2 v2 e v3
    rw [hg.head u hu e hp] at a1
    simpa using (Option.some.inj a1).symm
  · intro hkey t' ht'
    obtain ⟨t, ht, _, rfl⟩ := hb.bwd t' ht'
    rw [hsrc t ht, ← ha.inv.exact_goal hg.wf hkey t hmem ht, tree_map_edges, List.map_map]
    exact List.map_congr_left fun e he => (hval t ht e he).2
  · intro hds t ht
    obtain ⟨v', hv', t', c1, c2⟩ := ha.inv.complete hg.wf (fun u e ts hu he hts => hcomp hds u hu e ts he hts) t g.goal hgoal ht
    rw [hnm] at hv'
    have : v' = r.out.goal := by simpa using hv'
    subst this
    exact ⟨t'.map f, hb.fwd t' c1 (hav t'), by rw [hsrc t' c1, c2]⟩

/-! A case that meets the hypotheses, with a pop limit of 2: node 0 has three edges, node 1 combines it with itself, node 2 is the goal. -/

def exCube : Hypergraph Unit :=
  ⟨[⟨0, 1, [0, 1, 2], [3, 3]⟩, ⟨1, 1, [3], [4]⟩, ⟨2, 1, [4], []⟩],
    [⟨0, some 0, [], ()⟩, ⟨1, some 0, [], ()⟩, ⟨2, some 0, [], ()⟩, ⟨3, some 1, [0, 0], ()⟩, ⟨4, some 2, [1], ()⟩]⟩

def exCubeModels : Models Nat (Nat × Nat) := ⟨fun e sts => (min 1 (sts.sum + if e = 1 then 1 else 0), e, sts.sum), fun e s => (e, s), 0⟩

def exChoices (_ : Nat) : Choices := ⟨[1, 0], fun _ => false, List.reverse⟩

example : Ready exCube where
  wf := ⟨by decide, by decide, by decide⟩
  head := by decide
  ne := by decide
  goal := by decide
  pos := by decide

example : 2 ≤ exCube.nodes.length ∧ (exCube.node (exCube.nodes.length - 2)).outEdges.length = 1 ∧ (∀ v, 0 < (exChoices v).sched.length) ∧
    (∀ v l, ((exChoices v).arrange l).Perm l) := ⟨by decide, by decide, fun _ => Nat.zero_lt_succ 1, fun _ l => List.reverse_perm l⟩

example : (cubeApply .fast exCubeModels id (fun _ => 1) exCube exChoices 100).map (fun h => (h.nodes.map (·.inEdges), h.edges.map fun e => (e.tails, e.val))) =
    some ([[0], [1], [3], [2], [4, 5]], [([], 1, 1, 0), ([], 0, 0, 0), ([1, 1], 3, 3, 0), ([0, 1], 3, 3, 1), ([2], 4, 4, 1), ([3], 4, 4, 0)]) := by decide

end Cdec.Dec
