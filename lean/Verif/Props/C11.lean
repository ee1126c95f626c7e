import Verif.HG.SubsetModel
import Verif.HG.BijLemmas
import Verif.HG.UnionLemmas
import Verif.Props.C32
/-! # C11: sub-hypergraphs -/
namespace Cdec.HG
variable {α : Type} [Inhabited α]

/-- New position of index `i` under a mask: the number of kept indices before it. -/
def newPos (keep : Nat → Bool) (i : Nat) : Nat := (List.range i).countP keep

theorem count_take_map (keep : Nat → Bool) (n i : Nat) (hi : i ≤ n) :
    (((List.range n).map keep).take i).count true = newPos keep i := by
  rw [← List.map_take, List.take_range, Nat.min_eq_left hi, newPos, List.count_eq_countP, List.countP_map]
  congr 1
  funext x
  simp

theorem mask_get (keep : Nat → Bool) (n i : Nat) :
    ((newIndicesKeep ((List.range n).map keep) 0).1[i]?).join =
      if i < n ∧ keep i = true then some (newPos keep i) else none := by
  rw [newIndices_get, List.getElem?_map]
  by_cases h : i < n
  · rw [List.getElem?_range h, count_take_map keep n i (by omega)]
    cases hk : keep i <;> simp [h, hk]
  · rw [List.getElem?_eq_none (by simpa using h)]
    simp [h]

theorem newPos_inj {keep : Nat → Bool} {a b : Nat} (ha : keep a = true) (hb : keep b = true)
    (h : newPos keep a = newPos keep b) : a = b := by
  rcases Nat.lt_trichotomy a b with hlt | heq | hgt
  · have := countP_lt_of_lt keep hlt ha; unfold newPos at h; omega
  · exact heq
  · have := countP_lt_of_lt keep hgt hb; unfold newPos at h; omega

theorem newPos_lt {keep : Nat → Bool} {a n : Nat} (ha : keep a = true) (h : a < n) :
    newPos keep a < newPos keep n := countP_lt_of_lt keep h ha

theorem newPos_surj (k : Nat → Bool) (n i : Nat) : i < newPos k n → ∃ a < n, k a = true ∧ newPos k a = i := by
  induction n with
  | zero => intro hi; simp [newPos] at hi
  | succ n ih =>
    intro hi
    have hs : newPos k (n + 1) = newPos k n + if k n then 1 else 0 := by
      unfold newPos; rw [List.range_succ, List.countP_append]; simp [List.countP_cons]
    rw [hs] at hi
    by_cases hlt : i < newPos k n
    · obtain ⟨a, h1, h2, h3⟩ := ih hlt; exact ⟨a, by omega, h2, h3⟩
    · by_cases hk : k n = true
      · rw [if_pos hk] at hi; exact ⟨n, by omega, hk, by omega⟩
      · rw [if_neg hk] at hi; omega

theorem subset_nodes (g : Hypergraph α) (kn ke : Nat → Bool) :
    let h := createNodeEdgeSubset g ((List.range g.nodes.length).map kn) ((List.range g.edges.length).map ke)
    h.nodes.length = newPos kn g.nodes.length ∧ h.edges.length = newPos ke g.edges.length ∧
    (∀ v, v < g.nodes.length → kn v = true → h.nodes[newPos kn v]? =
      (g.nodes[v]?).map (copyNode (newIndicesKeep ((List.range g.nodes.length).map kn) 0).1
        (newIndicesKeep ((List.range g.edges.length).map ke) 0).1)) ∧
    (∀ e, e < g.edges.length → ke e = true → h.edges[newPos ke e]? =
      (g.edges[e]?).map (copyEdge (newIndicesKeep ((List.range g.nodes.length).map kn) 0).1
        (newIndicesKeep ((List.range g.edges.length).map ke) 0).1)) := by
  intro h
  have len : ∀ {β : Type} (v : List β) (k : Nat → Bool), (keptOf v ((List.range v.length).map k)).length =
      newPos k v.length := by
    intro β v k
    have := count_take_map k v.length v.length (Nat.le_refl _)
    rw [List.take_of_length_le (by simp)] at this
    rw [← this]
    have : ∀ (v : List β) (ks : List Bool), v.length = ks.length → (keptOf v ks).length = ks.count true := by
      intro v
      induction v with
      | nil => intro ks hk; cases ks <;> simp_all [keptOf]
      | cons x v ih =>
        intro ks hk
        cases ks with
        | nil => simp at hk
        | cons k ks => cases k <;> simp_all [keptOf]
    exact this _ _ (by simp)
  have hN := C32_compaction ((List.range g.nodes.length).map kn)
    (g.nodes.map (copyNode (newIndicesKeep ((List.range g.nodes.length).map kn) 0).1
        (newIndicesKeep ((List.range g.edges.length).map ke) 0).1)) (by simp) default
  have hE := C32_compaction ((List.range g.edges.length).map ke)
    (g.edges.map (copyEdge (newIndicesKeep ((List.range g.nodes.length).map kn) 0).1
        (newIndicesKeep ((List.range g.edges.length).map ke) 0).1)) (by simp) ⟨0, none, [], default⟩
  obtain ⟨_, hN2, _, _, hN3, hN4⟩ := hN
  obtain ⟨_, hE2, _, _, hE3, hE4⟩ := hE
  have e1 : h.nodes = _ := hN3
  have e2 : h.edges = _ := hE3
  refine ⟨?_, ?_, fun v hv hk => ?_, fun e he hk => ?_⟩
  · rw [e1]; have := len (g.nodes.map (copyNode (newIndicesKeep ((List.range g.nodes.length).map kn) 0).1
        (newIndicesKeep ((List.range g.edges.length).map ke) 0).1)) kn
    simpa using this
  · rw [e2]; have := len (g.edges.map (copyEdge (newIndicesKeep ((List.range g.nodes.length).map kn) 0).1
        (newIndicesKeep ((List.range g.edges.length).map ke) 0).1)) ke
    simpa using this
  · rw [e1, hN4 v _ (by
      have := hN2 v (by simpa using hv)
      rw [this]
      simp only [List.getElem_map, List.getElem_range, hk, if_true]
      rw [count_take_map kn _ _ (by omega)]), List.getElem?_map]
  · rw [e2, hE4 e _ (by
      have := hE2 e (by simpa using he)
      rw [this]
      simp only [List.getElem_map, List.getElem_range, hk, if_true]
      rw [count_take_map ke _ _ (by omega)]), List.getElem?_map]

theorem reindex_kept (keep : Nat → Bool) (n : Nat) (is : List Nat) (h : ∀ i ∈ is, i < n) :
    reindex (newIndicesKeep ((List.range n).map keep) 0).1 is = (is.filter keep).map (newPos keep) := by
  induction is with
  | nil => rfl
  | cons i is ih =>
    have := ih fun j hj => h j (by simp [hj])
    unfold reindex at this ⊢
    rw [List.filterMap_cons, mask_get, this]
    by_cases hk : keep i = true
    · rw [if_pos ⟨h i (by simp), hk⟩]; simp [hk]
    · rw [if_neg (fun c => hk c.2)]; simp [hk]

/-- `CreateNodeEdgeSubset`, structural part of C11.  `g` has its indices in range and edge ids equal
to positions.  The masks are closed: a kept edge of a kept node has only kept tails.  Then the result has
the kept nodes and edges in order, edge ids equal positions, and at every kept node the derivations that
use kept edges only correspond one-to-one to the derivations at the new node, with the same payloads.
Node ids are NOT as claimed: see `C11_node_ids_fails`; the last conjunct says what they are. -/
theorem C11_node_edge_subset_partial (g : Hypergraph α) (hir : InRange g)
    (hid : ∀ i (hi : i < g.edges.length), g.edges[i].id = i) (kn ke : Nat → Bool)
    (hclosed : ∀ v < g.nodes.length, kn v = true → ∀ e ∈ g.inE v, ke e = true → ∀ t ∈ g.tails e, kn t = true) :
    let h := createNodeEdgeSubset g ((List.range g.nodes.length).map kn) ((List.range g.edges.length).map ke)
    h.nodes.length = newPos kn g.nodes.length ∧ h.edges.length = newPos ke g.edges.length ∧
    (∀ v < g.nodes.length, kn v = true →
      DerivBij g v (Avoids fun e => !ke e) h (newPos kn v) (newPos ke) id) ∧
    (∀ i (hi : i < h.edges.length), h.edges[i].id = i) ∧
    (∀ n ∈ h.nodes, n.id = if kn 0 = true then 0 else removedId) := by
  intro h
  obtain ⟨hnl, hel, hnode, hedge⟩ := subset_nodes g kn ke
  refine ⟨hnl, hel, fun v hv hk => ?_, fun i hi => ?_, fun n hn => ?_⟩
  · refine derivBij_of_local (fun e => !ke e) (fun v => v < g.nodes.length ∧ kn v = true) (newPos kn)
      (newPos ke) id ?_ ?_ ?_ ?_ v ⟨hv, hk⟩
    · rintro v ⟨hv, hk⟩
      have hn := hnode v hv hk
      rw [List.getElem?_eq_getElem hv, Option.map_some] at hn
      rw [Hypergraph.inE, Hypergraph.node, List.getD_eq_getElem?_getD, hn, Option.getD_some, copyNode]
      have hi : g.inE v = g.nodes[v].inEdges := by
        rw [Hypergraph.inE, Hypergraph.node, List.getD_eq_getElem?_getD, List.getElem?_eq_getElem hv, Option.getD_some]
      rw [reindex_kept ke _ _ (by rw [← hi]; exact hir.edge_lt v hv), ← hi]
      simp
    · rintro v ⟨hv, hk⟩ e he hp
      have hke : ke e = true := by simpa using hp
      have hlt := hir.edge_lt v hv e he
      have htk := hclosed v hv hk e he hke
      have htl := hir.tail_lt v hv e he
      refine ⟨?_, fun t ht => ⟨htl t ht, htk t ht⟩⟩
      have hx := hedge e hlt hke
      rw [List.getElem?_eq_getElem hlt, Option.map_some] at hx
      have hT : g.tails e = g.edges[e].tails := by simp [Hypergraph.tails, List.getElem?_eq_getElem hlt]
      rw [Hypergraph.tails, hx]
      simp only [copyEdge]
      rw [reindex_kept kn _ _ (by rw [← hT]; exact htl), ← hT,
        List.filter_eq_self.2 htk]
    · rintro u v _ _ e _ e' _ h1 h2 heq
      exact newPos_inj (by simpa using h1) (by simpa using h2) heq
    · rintro v ⟨hv, hk⟩ e he hp
      have hke : ke e = true := by simpa using hp
      have hlt := hir.edge_lt v hv e he
      refine ⟨hlt, ?_, ?_⟩
      · rw [hel]; exact newPos_lt hke hlt
      · rw [hedge e hlt hke, List.getElem?_eq_getElem hlt]; rfl
  · obtain ⟨e, he, hk, rfl⟩ := newPos_surj ke g.edges.length i (by rw [← hel]; exact hi)
    have hx := hedge e he hk
    have hx' : h.edges[newPos ke e]? = _ := hx
    rw [List.getElem?_eq_getElem hi, List.getElem?_eq_getElem he, Option.map_some, Option.some.injEq] at hx'
    rw [hx']
    simp only [copyEdge, hid e he]
    rw [mask_get, if_pos ⟨he, hk⟩]; rfl
  · obtain ⟨i, hi, rfl⟩ := List.getElem_of_mem hn
    obtain ⟨v, hv, hk, rfl⟩ := newPos_surj kn g.nodes.length i (by rw [← hnl]; exact hi)
    have hx : h.nodes[newPos kn v]? = _ := hnode v hv hk
    rw [List.getElem?_eq_getElem hi, List.getElem?_eq_getElem hv, Option.map_some, Option.some.injEq] at hx
    rw [hx]
    simp only [copyNode, default]
    rw [mask_get]
    have : 0 < g.nodes.length := by omega
    by_cases h0 : kn 0 = true <;> simp [h0, this, newPos]

/-! ## The masks computed by `CreateEdgeSubset` -/

theorem subset_inner (g : Hypergraph α) (v : Nat) (es : List Nat) (hnd : es.Nodup)
    (hh : ∀ e ∈ es, g.head e = some v) (ht : ∀ e ∈ es, v ∉ g.tails e) (s : (Nat → Bool) × (Nat → Bool)) :
    es.foldl (subsetStep g) s =
      (fun e => s.1 e && (!es.contains e || (g.tails e).all s.2),
       fun u => s.2 u || (decide (u = v) && es.any fun e => s.1 e && (g.tails e).all s.2)) := by
  induction es generalizing s with
  | nil => simp
  | cons a es ih =>
    obtain ⟨h1, h2⟩ := List.nodup_cons.1 hnd
    rw [List.foldl_cons, ih h2 (fun e he => hh e (by simp [he])) (fun e he => ht e (by simp [he]))]
    have hta : ∀ e ∈ a :: es, ∀ m : Nat → Bool, (∀ u, u ≠ v → m u = s.2 u) → (g.tails e).all m = (g.tails e).all s.2 := by
      intro e he m hm
      rw [Bool.eq_iff_iff, List.all_eq_true, List.all_eq_true]
      have : ∀ t ∈ g.tails e, m t = s.2 t := fun t hx => hm t fun hc => ht e he (hc ▸ hx)
      exact ⟨fun H t hx => this t hx ▸ H t hx, fun H t hx => (this t hx).symm ▸ H t hx⟩
    have hs : subsetStep g s a = (fun e => s.1 e && (decide (e ≠ a) || (g.tails a).all s.2),
        fun u => s.2 u || (decide (u = v) && (s.1 a && (g.tails a).all s.2))) := by
      rw [subsetStep, hh a (by simp)]
      ext x
      · by_cases hx : x = a
        · subst hx; cases hsa : s.1 x <;> cases hal : (g.tails x).all s.2 <;> simp [hsa]
        · cases hsa : s.1 a <;> cases hal : (g.tails a).all s.2 <;> simp [hx]
      · by_cases hx : x = v
        · subst hx; cases hsa : s.1 a <;> cases hal : (g.tails a).all s.2 <;> simp
        · have hx' : v ≠ x := fun h => hx h.symm
          cases hsa : s.1 a <;> cases hal : (g.tails a).all s.2 <;> simp [hx, hx']
    rw [hs]
    have hm : ∀ u, u ≠ v → (s.2 u || (decide (u = v) && (s.1 a && (g.tails a).all s.2))) = s.2 u := by
      intro u hu; simp [hu]
    ext x
    · simp only
      by_cases hx : x = a
      · subst hx
        have : es.contains x = false := by simpa using h1
        simp only [this, List.contains_cons, beq_self_eq_true, Bool.true_or, Bool.not_true, Bool.false_or,
          Bool.not_false, Bool.or_true, Bool.and_true, ne_eq, not_true_eq_false, decide_false]
      · by_cases hxe : x ∈ es
        · rw [hta x (by simp [hxe]) _ hm]
          simp [hx, hxe]
        · simp [hx, hxe]
    · simp only
      by_cases hx : x = v
      · subst hx
        have : (es.any fun e => (s.1 e && (decide (e ≠ a) || (g.tails a).all s.2)) && (g.tails e).all fun u =>
            s.2 u || (decide (u = x) && (s.1 a && (g.tails a).all s.2))) =
            es.any fun e => s.1 e && (g.tails e).all s.2 := by
          rw [Bool.eq_iff_iff, List.any_eq_true, List.any_eq_true]
          have hne : ∀ e ∈ es, e ≠ a := fun e he hc => h1 (hc ▸ he)
          constructor
          · rintro ⟨e, he, hp⟩
            rw [hta e (by simp [he]) _ hm] at hp
            simp only [Bool.and_eq_true] at hp ⊢
            exact ⟨e, he, hp.1.1, hp.2⟩
          · rintro ⟨e, he, hp⟩
            refine ⟨e, he, ?_⟩
            rw [hta e (by simp [he]) _ hm]
            simp only [Bool.and_eq_true] at hp ⊢
            exact ⟨⟨hp.1, by simp [hne e he]⟩, hp.2⟩
        rw [this]
        simp [Bool.or_assoc]
      · simp [hx]

/-- What `CreateEdgeSubset` computes: a node is kept iff it has a derivation from kept edges, and an edge
entering a node is kept iff it was requested and all its tails have such derivations. -/
theorem subsetMasks_spec (g : Hypergraph α) (wf : WF g) (hh : HeadsAgree g) (keep : Nat → Bool) :
    (∀ v < g.nodes.length, (subsetMasks g keep).2 v = true ↔ ∃ t, IsDeriv g v t ∧ Avoids (fun e => !keep e) t) ∧
    (∀ v < g.nodes.length, ∀ e ∈ g.inE v, (subsetMasks g keep).1 e = true ↔
      keep e = true ∧ ∀ t ∈ g.tails e, (subsetMasks g keep).2 t = true) := by
  have key : ∀ n ≤ g.nodes.length, ∀ s, s = (List.range n).foldl (fun s n => (g.inE n).foldl (subsetStep g) s)
      (keep, fun _ => false) →
      (∀ v < n, s.2 v = true ↔ ∃ t, IsDeriv g v t ∧ Avoids (fun e => !keep e) t) ∧
      (∀ v, n ≤ v → s.2 v = false) ∧
      (∀ v < n, ∀ e ∈ g.inE v, s.1 e = true ↔ keep e = true ∧ ∀ t ∈ g.tails e, s.2 t = true) ∧
      (∀ e, (∀ v < n, e ∉ g.inE v) → s.1 e = keep e) := by
    intro n
    induction n with
    | zero => rintro _ s rfl; simp
    | succ n ih =>
      rintro hn s' rfl
      have hn' : n < g.nodes.length := by omega
      obtain ⟨hA, hB, hC, hD⟩ := ih (by omega) _ rfl
      rw [List.range_succ, List.foldl_append, List.foldl_cons, List.foldl_nil]
      generalize (List.range n).foldl (fun s n => (g.inE n).foldl (subsetStep g) s) (keep, fun _ => false) = s at *
      have htopo := wf.topo n hn'
      rw [subset_inner g n (g.inE n) (wf.nodup n hn') (fun e he => (hh n hn' e).1 he)
        (fun e he hc => by have := htopo e he n hc; omega)]
      have hother : ∀ v < n, ∀ e ∈ g.inE v, e ∉ g.inE n := by
        intro v hv e he hc
        have h1 := (hh v (by omega) e).1 he
        have h2 := (hh n hn' e).1 hc
        rw [h1] at h2
        have := Option.some.inj h2
        omega
      have hsame : ∀ e ∈ g.inE n, s.1 e = keep e := fun e he => hD e fun v hv hc => hother v hv e hc he
      have htl : ∀ v ≤ n, ∀ e ∈ g.inE v, ∀ t ∈ g.tails e, ∀ b : Bool,
          (s.2 t || (decide (t = n) && b)) = s.2 t := by
        intro v hv e he t ht b
        have := wf.topo v (by omega) e he t ht
        have : t ≠ n := by omega
        simp [this]
      refine ⟨fun v hv => ?_, fun v hv => ?_, fun v hv e he => ?_, fun e he => ?_⟩
      · by_cases hvn : v = n
        · subst hvn
          simp only [hB v (Nat.le_refl _), Bool.false_or, decide_true, Bool.true_and, List.any_eq_true,
            Bool.and_eq_true, List.all_eq_true]
          constructor
          · rintro ⟨e, he, hk, ht⟩
            have : ∀ ts : List Nat, (∀ t ∈ ts, ∃ d, IsDeriv g t d ∧ Avoids (fun e => !keep e) d) →
                ∃ ch, List.Forall₂ (IsDeriv g) ts ch ∧ ∀ x ∈ ch.flatMap fun t => t.edges, (!keep x) = false := by
              intro ts
              induction ts with
              | nil => exact fun _ => ⟨[], .nil, by simp⟩
              | cons t ts ih2 =>
                intro H
                obtain ⟨d, hd, hda⟩ := H t (by simp)
                obtain ⟨ch, h1, h2⟩ := ih2 fun t ht => H t (by simp [ht])
                refine ⟨d :: ch, .cons hd h1, fun x hx => ?_⟩
                simp only [List.flatMap_cons, List.mem_append] at hx
                exact hx.elim (hda x) (h2 x)
            obtain ⟨ch, h1, h2⟩ := this (g.tails e) fun t hx =>
              (hA t (htopo e he t hx)).1 (ht t hx)
            refine ⟨.node e ch, isDeriv_iff.2 ⟨he, h1⟩, fun x hx => ?_⟩
            rw [Tree.edges] at hx
            rcases List.mem_cons.1 hx with rfl | hx
            · simp only [← hsame x he, hk]; rfl
            · exact h2 x hx
          · rintro ⟨⟨e, ch⟩, hd, ha⟩
            obtain ⟨he, hch⟩ := isDeriv_iff.1 hd
            refine ⟨e, he, ?_, fun t ht => ?_⟩
            · rw [hsame e he]
              simpa using ha e (by rw [Tree.edges]; simp)
            · obtain ⟨d, hdm, hdd⟩ := forall₂_exists_left hch t ht
              refine (hA t (htopo e he t ht)).2 ⟨d, hdd, fun x hx => ha x ?_⟩
              rw [Tree.edges]
              exact List.mem_cons_of_mem _ (List.mem_flatMap.2 ⟨d, hdm, hx⟩)
        · simp only [hvn, decide_false, Bool.false_and, Bool.or_false]
          exact hA v (by omega)
      · have : v ≠ n := by omega
        simp [this, hB v (by omega)]
      · have : ∀ b : Bool, (∀ t ∈ g.tails e, (s.2 t || (decide (t = n) && b)) = true) ↔ ∀ t ∈ g.tails e, s.2 t = true :=
          fun b => ⟨fun H t ht => htl v (by omega) e he t ht b ▸ H t ht,
            fun H t ht => (htl v (by omega) e he t ht b).symm ▸ H t ht⟩
        simp only [this]
        by_cases hvn : v = n
        · subst hvn
          have hc : (g.inE v).contains e = true := by simpa using he
          simp only [hc, Bool.not_true, Bool.false_or, Bool.and_eq_true, List.all_eq_true, hsame e he]
        · have hc : (g.inE n).contains e = false := by simpa using hother v (by omega) e he
          simp only [hc, Bool.not_false, Bool.true_or, Bool.and_true]
          exact hC v (by omega) e he
      · have hc : (g.inE n).contains e = false := by simpa using he n (by omega)
        simp only [hc, Bool.not_false, Bool.true_or, Bool.and_true]
        exact hD e fun v hv => he v (by omega)
  obtain ⟨hA, _, hC, _⟩ := key _ (Nat.le_refl _) _ rfl
  exact ⟨hA, hC⟩

/-- `CreateEdgeSubset`, structural part of C11.  For every topologically sorted hypergraph and every edge
mask the result contains exactly the nodes that can still be derived; at each of them the derivations that use
requested edges only correspond one-to-one, with payloads, to the derivations in the result; if the goal can
still be derived it is the goal of the result; edge ids equal positions.  Missing from C11: node ids, which
are wrong (last conjunct and `C11_node_ids_fails`). -/
theorem C11_edge_subset_partial (g : Hypergraph α) (wf : WF g) (hh : HeadsAgree g)
    (hid : ∀ i (hi : i < g.edges.length), g.edges[i].id = i) (keep : Nat → Bool) :
    ∃ pos eid : Nat → Nat,
    (∀ v, (∃ t, IsDeriv g v t ∧ Avoids (fun e => !keep e) t) →
      pos v < (createEdgeSubset g keep).nodes.length ∧
      DerivBij g v (Avoids fun e => !keep e) (createEdgeSubset g keep) (pos v) eid id) ∧
    (∀ k < (createEdgeSubset g keep).nodes.length, ∃ v, pos v = k ∧
      ∃ t, IsDeriv g v t ∧ Avoids (fun e => !keep e) t) ∧
    ((∃ t, IsDeriv g g.goal t ∧ Avoids (fun e => !keep e) t) → pos g.goal = (createEdgeSubset g keep).goal) ∧
    (∀ i (hi : i < (createEdgeSubset g keep).edges.length), (createEdgeSubset g keep).edges[i].id = i) ∧
    (∀ n ∈ (createEdgeSubset g keep).nodes, n.id = 0 ∨ n.id = removedId) := by
  obtain ⟨hA, hC⟩ := subsetMasks_spec g wf hh keep
  obtain ⟨h1, h2, h3, h4, h5⟩ := C11_node_edge_subset_partial g wf.inRange hid (subsetMasks g keep).2
    (subsetMasks g keep).1 (fun v hv _ e he hke => ((hC v hv e he).1 hke).2)
  have hav : ∀ (t : Tree) (v : Nat), IsDeriv g v t → (Avoids (fun e => !(subsetMasks g keep).1 e) t ↔
      Avoids (fun e => !keep e) t) := by
    intro t
    induction t using Tree.rec (motive_2 := fun ch => ∀ ts : List Nat, List.Forall₂ (IsDeriv g) ts ch →
      ((∀ d ∈ ch, Avoids (fun e => !(subsetMasks g keep).1 e) d) ↔ ∀ d ∈ ch, Avoids (fun e => !keep e) d)) with
    | node e ch ih =>
      intro v hd
      have hv := isDeriv_lt hd
      obtain ⟨he, hch⟩ := isDeriv_iff.1 hd
      have hsplit : ∀ p : Nat → Bool, Avoids p (.node e ch) ↔ p e = false ∧ ∀ d ∈ ch, Avoids p d := by
        intro p
        simp only [Avoids, Tree.edges, List.mem_cons, forall_eq_or_imp, List.mem_flatMap]
        exact and_congr_right fun _ => ⟨fun H d hd e he => H e ⟨d, hd, he⟩, fun H e ⟨d, hd, he⟩ => H d hd e he⟩
      rw [hsplit, hsplit, ih _ hch]
      simp only [Bool.not_eq_false']
      constructor
      · rintro ⟨ha, hb⟩; exact ⟨((hC v hv e he).1 ha).1, hb⟩
      · rintro ⟨ha, hb⟩
        refine ⟨(hC v hv e he).2 ⟨ha, fun t ht => ?_⟩, hb⟩
        obtain ⟨d, hdm, hdd⟩ := forall₂_exists_left hch t ht
        exact (hA t (isDeriv_lt hdd)).2 ⟨d, hdd, hb d hdm⟩
    | nil => simp
    | cons t ch ih1 ih2 =>
      rename_i ts hf
      cases hf with
      | cons hx hy =>
        simp only [List.forall_mem_cons]
        rw [ih1 _ hx, ih2 _ hy]
  have hlen : (createEdgeSubset g keep).nodes.length = newPos (subsetMasks g keep).2 g.nodes.length := h1
  refine ⟨newPos (subsetMasks g keep).2, newPos (subsetMasks g keep).1, ?_, ?_, ?_, h4, ?_⟩
  · rintro v ⟨t, ht, ha⟩
    have hv := isDeriv_lt ht
    have hk := (hA v hv).2 ⟨t, ht, ha⟩
    exact ⟨by rw [hlen]; exact newPos_lt hk hv, (h3 v hv hk).congr fun t ht => hav t v ht⟩
  · intro k hk
    rw [hlen] at hk
    obtain ⟨v, hv, hkv, rfl⟩ := newPos_surj _ _ _ hk
    exact ⟨v, rfl, (hA v hv).1 hkv⟩
  · rintro ⟨t, ht, ha⟩
    have hv := isDeriv_lt ht
    have hk := (hA _ hv).2 ⟨t, ht, ha⟩
    have hg : g.nodes.length = g.goal + 1 := by unfold Hypergraph.goal at hv ⊢; omega
    have : newPos (subsetMasks g keep).2 (g.goal + 1) = newPos (subsetMasks g keep).2 g.goal + 1 := by
      unfold newPos; rw [List.range_succ, List.countP_append]; simp [hk]
    have hr : (createEdgeSubset g keep).goal = (createEdgeSubset g keep).nodes.length - 1 := rfl
    rw [hr, hlen, hg, this]; rfl
  · intro n hn
    have := h5 n hn
    split at this
    · exact .inl this
    · exact .inr this

/-- A chain of two nodes. -/
def exChain2 : Hypergraph Nat :=
  { nodes := [⟨0, -1, [0], [1]⟩, ⟨1, -1, [1, 2], []⟩]
    edges := [⟨0, some 0, [], 10⟩, ⟨1, some 1, [0], 11⟩, ⟨2, some 1, [], 12⟩] }

/-- C11 as stated is false of the code: keeping everything in `exChain2` returns a hypergraph whose
second node has id 0. -/
theorem C11_node_ids_fails :
    WF exChain2 ∧ HeadsAgree exChain2 ∧ (∀ i (hi : i < exChain2.nodes.length), exChain2.nodes[i].id = i) ∧
    ¬ (∀ i (hi : i < (createEdgeSubset exChain2 fun _ => true).nodes.length),
        (createEdgeSubset exChain2 fun _ => true).nodes[i].id = i) := by
  refine ⟨by constructor <;> decide, ?_, by decide, ?_⟩
  · intro v hv e
    have hv' : v < 2 := hv
    match v, hv' with
    | 0, _ | 1, _ =>
      match e with
      | 0 | 1 | 2 => simp [exChain2, Hypergraph.inE, Hypergraph.node, Hypergraph.head]
      | e + 3 => simp [exChain2, Hypergraph.inE, Hypergraph.node, Hypergraph.head]
  · intro h
    have := h 1 (by decide)
    revert this
    decide

/-- Non-vacuity: dropping edge 1 of `exChain2` leaves one derivation of the goal; the result is what the
theorem says. -/
example : (∀ i (hi : i < exChain2.edges.length), exChain2.edges[i].id = i) ∧
    (createEdgeSubset exChain2 fun e => e != 1).edges =
      [⟨0, some 0, [], 10⟩, ⟨1, some 1, [], 12⟩] ∧
    (createEdgeSubset exChain2 fun e => e != 1).nodes.map Node.inEdges = [[0], [1]] := by decide

end Cdec.HG
