import Verif.HG.PushLemmas
/-! # C12: weight pushing -/
namespace Cdec.HG
variable {α : Type} {K : Type} [Field K] [LinearOrder K] [IsStrictOrderedRing K]

/-- Stored out-edge lists agree with the tails of the edges (established by construction, C01, when no
edge repeats a tail). -/
def OutAgree (g : Hypergraph α) : Prop :=
  ∀ t < g.nodes.length, (g.node t).outEdges.Nodup ∧
    ∀ e, e ∈ (g.node t).outEdges ↔ ∃ v < g.nodes.length, e ∈ g.inE v ∧ t ∈ g.tails e

theorem pushed_goal_edge {g : Hypergraph α} (wf : WF g) (huh : UniqueHead g) (w : Nat → K)
    (p0 : List K) (hp : p0.length = g.edges.length) (v e : Nat) (hv : v < g.nodes.length) (he : e ∈ g.inE v) :
    (pushToGoal g w p0).getD e 0 = edgePost g w e /
      ((outsideScores g w (insideScores g w) 1).getD v 0 * (insideScores g w).getD v 0) := by
  unfold pushToGoal pushNode
  rw [foldl_foldl_set g.inE (fun i e => edgePost g w e / (g.inE i).foldl (fun z e => z + edgePost g w e) 0) _ _ e v
    (by rw [hp]; exact wf.edge_lt v hv e he) (by simpa using hv) he
    (fun u hu hx => huh u (by simpa using hu) v hv e hx he), post_sum_in wf huh w v hv]

theorem push_goal_node {g : Hypergraph α} (wf : WF g) (huh : UniqueHead g) (hn : 0 < g.nodes.length)
    (w : Nat → K) (hw : ∀ e, 0 < w e) (p0 : List K) (hp : p0.length = g.edges.length) (t : Tree) :
    ∀ v, 0 < (outsideScores g w (insideScores g w) 1).getD v 0 → IsDeriv g v t →
      t.weight (fun e => (pushToGoal g w p0).getD e 0) = t.weight w / (insideScores g w).getD v 0 := by
  obtain ⟨_, _, hout⟩ := outside_pos wf w hw hn
  induction t using Tree.rec (motive_2 := fun ch => ∀ ts : List Nat,
    (∀ t ∈ ts, 0 < (outsideScores g w (insideScores g w) 1).getD t 0) → List.Forall₂ (IsDeriv g) ts ch →
    (ch.map fun t => t.weight (fun e => (pushToGoal g w p0).getD e 0)).prod =
      (ch.map fun t => t.weight w).prod / (ts.map fun t => (insideScores g w).getD t 0).prod) with
  | node e ch ih =>
    intro v hpos hd
    have hv := isDeriv_lt hd
    obtain ⟨he, hch⟩ := isDeriv_iff.1 hd
    have hins : ∀ t ∈ g.tails e, 0 < (insideScores g w).getD t 0 := by
      intro t ht
      obtain ⟨d, _, hd⟩ := forall₂_exists_left hch t ht
      exact inside_pos wf w hw t d hd
    rw [Tree.weight, Tree.weight, ih _ (hout v hv hpos e he hins) hch,
      pushed_goal_edge wf huh w p0 hp v e hv he, edgePost_eq wf huh w v e hv he]
    have h1 := inside_pos wf w hw v _ hd
    have h2 : 0 < ((g.tails e).map fun t => (insideScores g w).getD t 0).prod := by
      apply prod_pos'
      intro x hx
      obtain ⟨t, ht, rfl⟩ := List.mem_map.1 hx
      exact hins t ht
    have h1' := h1.ne'
    have h2' := h2.ne'
    have h3' := hpos.ne'
    field_simp
  | nil => rename_i hf; cases hf; simp
  | cons t ch ih1 ih2 =>
    rename_i ts hts hf
    cases hf with
    | cons hx hy =>
      rw [List.map_cons, List.prod_cons, ih1 _ (hts _ (by simp)) hx, ih2 _ (fun t ht => hts t (by simp [ht])) hy,
        List.map_cons, List.prod_cons, List.map_cons, List.prod_cons, div_mul_div_comm]

/-- C12 for `PushWeightsToGoal` (with scale 1; `w` positive): every goal derivation's weight is divided by
the same number, the total weight of all goal derivations.  For another scale `w` is the scaled weight. No
restriction on the shape of the hypergraph (an edge may even repeat a tail). -/
theorem C12_push_to_goal (g : Hypergraph α) (wf : WF g) (huh : UniqueHead g) (hn : 0 < g.nodes.length)
    (w : Nat → K) (hw : ∀ e, 0 < w e) (p0 : List K) (hp : p0.length = g.edges.length) (ds : List Tree)
    (hds : ListsDerivs g g.goal ds) (t : Tree) (ht : IsDeriv g g.goal t) :
    t.weight (fun e => (pushToGoal g w p0).getD e 0) =
      t.weight w * (1 / (ds.map fun d => d.weight w).sum) := by
  obtain ⟨h1, _, _⟩ := outside_pos wf w hw hn
  rw [push_goal_node wf huh hn w hw p0 hp t g.goal (by rw [h1]; exact one_pos) ht,
    C02_inside_is_sum_over_derivations g wf w g.goal (isDeriv_lt ht) ds hds, mul_one_div]

/-! ## Pushing to the source -/

/-- In every derivation of `v`, node `t` is visited as often as it occurs as a tail, plus once if `v = t`. -/
theorem visits_eq {g : Hypergraph α} (huh : UniqueHead g) (t0 : Nat) (d : Tree) :
    ∀ v, IsDeriv g v d → (d.edges.map fun e => (g.tails e).count t0).sum + (if v = t0 then 1 else 0) =
      d.edges.countP fun e => decide (e ∈ g.inE t0) := by
  induction d using Tree.rec (motive_2 := fun ch => ∀ ts : List Nat, List.Forall₂ (IsDeriv g) ts ch →
    ((ch.flatMap fun t => t.edges).map fun e => (g.tails e).count t0).sum + ts.count t0 =
      (ch.flatMap fun t => t.edges).countP fun e => decide (e ∈ g.inE t0)) with
  | node e ch ih =>
    intro v hd
    have hv := isDeriv_lt hd
    obtain ⟨he, hch⟩ := isDeriv_iff.1 hd
    have := ih _ hch
    rw [Tree.edges, List.map_cons, List.sum_cons, List.countP_cons, ← this]
    have hif : (if decide (e ∈ g.inE t0) = true then 1 else 0) = if v = t0 then 1 else 0 := by
      by_cases hvt : v = t0
      · subst hvt; simp [he]
      · have : e ∉ g.inE t0 := by
          intro hc
          by_cases ht0 : t0 < g.nodes.length
          · exact hvt (huh v hv t0 ht0 e he hc)
          · rw [inE_of_ge (by omega)] at hc; simp at hc
        simp [hvt, this]
    rw [hif]; omega
  | nil => rename_i hf; cases hf; simp
  | cons t ch ih1 ih2 =>
    rename_i ts hf
    cases hf with
    | cons hx hy =>
      rename_i u us
      have h1 := ih1 _ hx
      have h2 := ih2 _ hy
      simp only [List.flatMap_cons, List.map_append, List.sum_append, List.countP_append, List.count_cons]
      rw [← h1, ← h2]
      simp only [beq_iff_eq]
      omega

theorem total_nat (f : Nat → Nat) (t : Tree) :
    (t.total fun e => ((f e : Nat) : K)) = (((t.edges.map f).sum : Nat) : K) := by
  induction t using Tree.rec (motive_2 := fun ch =>
    (ch.map fun t => t.total fun e => ((f e : Nat) : K)).sum =
      ((((ch.flatMap fun t => t.edges).map f).sum : Nat) : K)) with
  | node e ch ih => rw [total_node, ih, Tree.edges, List.map_cons, List.sum_cons]; push_cast; rfl
  | nil => simp
  | cons t ch ih1 ih2 => simp only [List.map_cons, List.sum_cons, ih1, ih2, List.flatMap_cons, List.map_append, List.sum_append]; push_cast; rfl

/-- The posteriors of the out-edges of a node other than the goal add up to the node's posterior. -/
theorem post_sum_out {g : Hypergraph α} (wf : WF g) (huh : UniqueHead g) (hnd : DistinctTails g)
    (hout : OutAgree g) (hn : 0 < g.nodes.length) (w : Nat → K) (t : Nat) (ht : t < g.nodes.length)
    (htg : t ≠ g.goal) :
    (g.node t).outEdges.foldl (fun z e => z + edgePost g w e) 0 =
      (outsideScores g w (insideScores g w) 1).getD t 0 * (insideScores g w).getD t 0 := by
  have hds := derivs_lists wf g.goal (by unfold Hypergraph.goal; omega)
  have hN := C03_node_posterior g wf hnd huh hn w 1 _ hds t ht
  rw [mul_comm, hN, one_mul, foldl_add_eq, zero_add]
  have hE : ∀ e ∈ (g.node t).outEdges, edgePost g w e =
      ((derivs g g.goal).map fun d => (d.edges.count e : K) * d.weight w).sum := by
    intro e he
    obtain ⟨v, hv, hev, _⟩ := ((hout t ht).2 e).1 he
    have := C03_edge_posterior g wf hnd huh hn w 1 _ hds v e hv hev
    rw [one_mul] at this
    rw [← this, edgePost_eq wf huh w v e hv hev, edgeMarginals_getD g w _ _ v e hv (wf.edge_lt v hv e hev) hev
      fun u hu h => huh u hu v hv e h hev]
    ring
  rw [List.map_congr_left hE]
  have swap : ∀ (es : List Nat) (L : List Tree),
      (es.map fun e => (L.map fun d => (d.edges.count e : K) * d.weight w).sum).sum =
      (L.map fun d => ((es.map fun e => d.edges.count e).sum : K) * d.weight w).sum := by
    intro es L
    induction L with
    | nil => simp
    | cons d L ih =>
      simp only [List.map_cons, List.sum_cons, sum_map_add', ih]
      congr 1
      rw [List.sum_map_mul_right]
  rw [swap]
  congr 1
  apply List.map_congr_left
  intro d hd
  have hdd := (hds.2 d).1 hd
  congr 1
  have hv := visits_eq huh t d g.goal hdd
  rw [if_neg (fun h => htg h.symm), Nat.add_zero] at hv
  rw [← hv]
  have hed : ∀ e ∈ d.edges, ∃ u, u < g.nodes.length ∧ e ∈ g.inE u := by
    have := deriv_edges_reach (prune := fun _ => false) (goal := g.goal) d g.goal .goal hdd (fun _ _ => rfl)
    intro e he
    obtain ⟨u, hu, hm⟩ := this e he
    exact ⟨u, hu.lt wf.inRange (by unfold Hypergraph.goal; omega), hm⟩
  have hcount : ∀ e ∈ d.edges, (g.tails e).count t = (g.node t).outEdges.count e := by
    intro e he
    obtain ⟨u, hu, hm⟩ := hed e he
    by_cases hmem : t ∈ g.tails e
    · rw [List.count_eq_one_of_mem (hnd u hu e hm) hmem, List.count_eq_one_of_mem (hout t ht).1
        (((hout t ht).2 e).2 ⟨u, hu, hm, hmem⟩)]
    · rw [List.count_eq_zero_of_not_mem hmem, List.count_eq_zero_of_not_mem]
      intro hc
      obtain ⟨_, _, _, h⟩ := ((hout t ht).2 e).1 hc
      exact hmem h
  rw [List.map_congr_left hcount]
  have dbl : ∀ (es L : List Nat), (es.map fun e => L.count e).sum = (L.map fun e => es.count e).sum := by
    intro es L
    induction L with
    | nil => simp
    | cons a L ih =>
      have : (es.map fun e => List.count e (a :: L)).sum = (es.map fun e => L.count e).sum + es.count a := by
        simp only [List.count_cons]
        rw [sum_map_add' es (fun e => L.count e)]
        congr 1
        clear ih
        induction es with
        | nil => rfl
        | cons b es ih =>
          simp only [List.map_cons, List.sum_cons, ih, List.count_cons]
          rw [BEq.comm (a := a) (b := b)]; omega
      rw [this, ih, List.map_cons, List.sum_cons]; omega
  rw [← dbl]
  push_cast
  rw [List.map_map]; rfl

/-- C12 for `PushWeightsToSource`, restricted to word lattices: every edge has at most one tail and all
edges without tails enter one node `s`.  Then (scale 1, positive weights) every goal derivation's weight is
multiplied by the same factor.  What is missing is the general hypergraph, for which the claim is false
(`C12_push_to_source_fails`). -/
theorem C12_push_to_source_partial (g : Hypergraph α) (wf : WF g) (huh : UniqueHead g) (hout : OutAgree g)
    (hn : 0 < g.nodes.length) (w : Nat → K) (hw : ∀ e, 0 < w e)
    (hlin : ∀ v < g.nodes.length, ∀ e ∈ g.inE v, (g.tails e).length ≤ 1) (s : Nat)
    (hs : ∀ v < g.nodes.length, ∀ e ∈ g.inE v, g.tails e = [] → v = s) :
    ∃ c : K, 0 < c ∧ ∀ t, IsDeriv g g.goal t →
      t.weight (fun e => (pushToSource g w ((List.range g.edges.length).map w)).getD e 0) = t.weight w * c := by
  have hgl : g.goal < g.nodes.length := by unfold Hypergraph.goal; omega
  have hnd : DistinctTails g := by
    intro v hv e he
    have := hlin v hv e he
    match g.tails e, this with
    | [], _ => simp
    | [a], _ => simp
  obtain ⟨hgoal, _, hpos⟩ := outside_pos wf w hw hn
  generalize hO : outsideScores g w (insideScores g w) 1 = out at *
  have hp0 : ∀ e < g.edges.length, ((List.range g.edges.length).map w).getD e 0 = w e := by
    intro e he
    rw [List.getD_eq_getElem?_getD, List.getElem?_map, List.getElem?_range he]; rfl
  have hleaf : ∀ v < g.nodes.length, ∀ e ∈ g.inE v, g.tails e = [] →
      (pushToSource g w ((List.range g.edges.length).map w)).getD e 0 = w e := by
    intro v hv e he htl
    have hlt := wf.edge_lt v hv e he
    rw [← hp0 e hlt]
    have hno : ∀ t < g.nodes.length, e ∉ (g.node t).outEdges := by
      intro t ht hc
      obtain ⟨_, _, _, h⟩ := ((hout t ht).2 e).1 hc
      rw [htl] at h; simp at h
    have : ∀ (L : List Nat), (∀ i ∈ L, i < g.nodes.length) → ∀ p : List K, e < p.length →
        (L.foldl (fun p i => pushNode (edgePost g w) (g.node i).outEdges p) p).getD e 0 = p.getD e 0 := by
      intro L
      induction L with
      | nil => intro _ p _; rfl
      | cons i L ih =>
        intro hL p hp
        rw [List.foldl_cons, ih (fun i hi => hL i (by simp [hi])) _ (by rw [pushNode, foldl_set_length]; exact hp), pushNode,
          foldl_set_getD _ _ _ _ hp, if_neg (hno i (hL i (by simp)))]
    exact this _ (fun i hi => by simpa using hi) _ (by simpa using hlt)
  have hedge : ∀ v < g.nodes.length, ∀ e ∈ g.inE v, ∀ u, g.tails e = [u] → 0 < out.getD u 0 →
      0 < (insideScores g w).getD u 0 →
      (pushToSource g w ((List.range g.edges.length).map w)).getD e 0 = w e * (out.getD v 0 / out.getD u 0) := by
    intro v hv e he u htl hou hiu
    have hlt := wf.edge_lt v hv e he
    have huv := wf.topo v hv e he u (by rw [htl]; simp)
    have hu : u < g.nodes.length := by omega
    have hug : u ≠ g.goal := by unfold Hypergraph.goal; omega
    have hz := post_sum_out wf huh hnd hout hn w u hu hug
    unfold pushToSource pushNode
    rw [foldl_foldl_set (fun i => (g.node i).outEdges) (fun i e => edgePost g w e /
        (g.node i).outEdges.foldl (fun z e => z + edgePost g w e) 0) _ _ e u
      (by simpa using hlt) (by simpa using hu) (((hout u hu).2 e).2 ⟨v, hv, he, by rw [htl]; simp⟩)
      (fun x hx hxe => by
        obtain ⟨_, _, _, h⟩ := ((hout x (by simpa using hx)).2 e).1 hxe
        rw [htl] at h; simpa using h)]
    rw [hz, edgePost_eq wf huh w v e hv he, htl, hO]
    have h1 := hou.ne'
    have h2 := hiu.ne'
    simp only [List.map_cons, List.map_nil, List.prod_cons, List.prod_nil, mul_one]
    field_simp
  have main : ∀ (t : Tree) (v : Nat), 0 < out.getD v 0 → IsDeriv g v t → 0 < out.getD s 0 ∧
      t.weight (fun e => (pushToSource g w ((List.range g.edges.length).map w)).getD e 0) =
        t.weight w * (out.getD v 0 / out.getD s 0) := by
    intro t
    induction t using Tree.rec (motive_2 := fun ch => ∀ t ∈ ch, ∀ (v : Nat), 0 < out.getD v 0 → IsDeriv g v t →
      0 < out.getD s 0 ∧
      t.weight (fun e => (pushToSource g w ((List.range g.edges.length).map w)).getD e 0) =
        t.weight w * (out.getD v 0 / out.getD s 0)) with
    | node e ch ih =>
      intro v hv0 hd
      have hv := isDeriv_lt hd
      obtain ⟨he, hch⟩ := isDeriv_iff.1 hd
      match htl : g.tails e, hlin v hv e he with
      | [], _ =>
        rw [htl] at hch
        cases hch
        have := hs v hv e he htl
        subst this
        refine ⟨hv0, ?_⟩
        rw [Tree.weight, Tree.weight, hleaf v hv e he htl, div_self hv0.ne']
        simp
      | [u], _ =>
        rw [htl] at hch
        cases hch with
        | cons hx hy =>
          rename_i d ds
          cases hy
          have hiu := inside_pos wf w hw u d hx
          have hou := hpos v hv hv0 e he (by rw [htl]; simpa using hiu) u (by rw [htl]; simp)
          obtain ⟨h1, h2⟩ := ih d (by simp) u hou hx
          refine ⟨h1, ?_⟩
          rw [Tree.weight, Tree.weight, hedge v hv e he u htl hou hiu]
          simp only [List.map_cons, List.map_nil, List.prod_cons, List.prod_nil, mul_one, h2]
          have := hou.ne'
          field_simp
    | nil => rename_i h _ _ _; simp at h
    | cons t ch ih1 ih2 =>
      rename_i d hd v h0 hdd
      rcases List.mem_cons.1 hd with rfl | h
      · exact ih1 v h0 hdd
      · exact ih2 d h v h0 hdd
  by_cases hex : ∃ t, IsDeriv g g.goal t
  · obtain ⟨t0, ht0⟩ := hex
    have hg1 : 0 < out.getD g.goal 0 := by rw [hgoal]; exact one_pos
    obtain ⟨h1, _⟩ := main t0 _ hg1 ht0
    refine ⟨1 / out.getD s 0, one_div_pos.2 h1, fun t ht => ?_⟩
    rw [(main t _ hg1 ht).2, hgoal]
  · exact ⟨1, one_pos, fun t ht => absurd ⟨t, ht⟩ hex⟩

/-- The goal has two edges, with tails 0,1 and 0; all weights are 1. -/
def exPush : Hypergraph Unit :=
  { nodes := [⟨0, -1, [0], [2, 3]⟩, ⟨1, -1, [1], [2]⟩, ⟨2, -1, [2, 3], []⟩]
    edges := [⟨0, some 0, [], ()⟩, ⟨1, some 1, [], ()⟩, ⟨2, some 2, [0, 1], ()⟩, ⟨3, some 2, [0], ()⟩] }

/-- C12 is false of `PushWeightsToSource` on hypergraphs with binary edges: two goal derivations of equal
weight get different weights. -/
theorem C12_push_to_source_fails :
    WF exPush ∧ IsDeriv exPush exPush.goal (.node 2 [.node 0 [], .node 1 []]) ∧
    IsDeriv exPush exPush.goal (.node 3 [.node 0 []]) ∧
    ¬ ∃ c : Rat, ∀ t, IsDeriv exPush exPush.goal t →
      t.weight (fun e => (pushToSource exPush (fun _ => (1 : Rat)) [1, 1, 1, 1]).getD e 0) =
        t.weight (fun _ => (1 : Rat)) * c := by
  have d1 : IsDeriv exPush exPush.goal (.node 2 [.node 0 [], .node 1 []]) := by
    refine isDeriv_iff.2 ⟨by decide, .cons (isDeriv_iff.2 ⟨by decide, .nil⟩) (.cons (isDeriv_iff.2 ⟨by decide, .nil⟩) .nil)⟩
  have d2 : IsDeriv exPush exPush.goal (.node 3 [.node 0 []]) := by
    refine isDeriv_iff.2 ⟨by decide, .cons (isDeriv_iff.2 ⟨by decide, .nil⟩) .nil⟩
  refine ⟨by constructor <;> decide, d1, d2, ?_⟩
  rintro ⟨c, hc⟩
  have h1 := hc _ d1
  have h2 := hc _ d2
  have hp : pushToSource exPush (fun _ => (1 : Rat)) [1, 1, 1, 1] = [1, 1, 1, 1 / 2] := by decide +kernel
  rw [hp] at h1 h2
  simp [Tree.weight] at h1 h2
  rw [← h1] at h2
  norm_num at h2

/-- A lattice with two paths, for the non-vacuity of the partial theorem. -/
def exLat : Hypergraph Unit :=
  { nodes := [⟨0, -1, [0], [1, 2]⟩, ⟨1, -1, [1, 2], []⟩]
    edges := [⟨0, some 0, [], ()⟩, ⟨1, some 1, [0], ()⟩, ⟨2, some 1, [0], ()⟩] }

/-- Non-vacuity. -/
example : WF exLat ∧ UniqueHead exLat ∧ OutAgree exLat ∧
    (∀ v < exLat.nodes.length, ∀ e ∈ exLat.inE v, (exLat.tails e).length ≤ 1) ∧
    (∀ v < exLat.nodes.length, ∀ e ∈ exLat.inE v, exLat.tails e = [] → v = 0) ∧
    pushToSource exLat (fun e => ([2, 1, 3] : List Rat).getD e 0) [2, 1, 3] = [2, 1 / 4, 3 / 4] ∧
    pushToGoal exLat (fun e => ([2, 1, 3] : List Rat).getD e 0) [2, 1, 3] = [1, 1 / 4, 3 / 4] := by
  refine ⟨by constructor <;> decide, ?_, ?_, by decide, by decide, by decide +kernel, by decide +kernel⟩
  · intro u hu v hv e h1 h2
    have hu' : u < 2 := hu
    have hv' : v < 2 := hv
    match u, v with
    | 0, 0 | 1, 1 => rfl
    | 0, 1 | 1, 0 => simp [exLat, Hypergraph.inE, Hypergraph.node] at h1 h2; omega
    | n + 2, _ => omega
    | _, m + 2 => omega
  · intro t ht
    have ht' : t < 2 := ht
    match t, ht' with
    | 0, _ =>
      refine ⟨by decide, fun e => ⟨fun he => ?_, ?_⟩⟩
      · have : e = 1 ∨ e = 2 := by simpa [exLat, Hypergraph.node] using he
        rcases this with rfl | rfl <;> exact ⟨1, by decide, by decide, by decide⟩
      · rintro ⟨v, hv, he, ht⟩
        match v, (hv : v < 2) with
        | 0, _ => have : e = 0 := by simpa [exLat, Hypergraph.inE, Hypergraph.node] using he
                  subst this; simp [exLat, Hypergraph.tails] at ht
        | 1, _ => simpa [exLat, Hypergraph.inE, Hypergraph.node] using he
    | 1, _ =>
      refine ⟨by decide, fun e => ⟨fun he => ?_, ?_⟩⟩
      · simp [exLat, Hypergraph.node] at he
      · rintro ⟨v, hv, he, ht⟩
        match v, (hv : v < 2) with
        | 0, _ => have : e = 0 := by simpa [exLat, Hypergraph.inE, Hypergraph.node] using he
                  subst this; simp [exLat, Hypergraph.tails] at ht
        | 1, _ => have : e = 1 ∨ e = 2 := by simpa [exLat, Hypergraph.inE, Hypergraph.node] using he
                  rcases this with rfl | rfl <;> simp [exLat, Hypergraph.tails] at ht

end Cdec.HG
