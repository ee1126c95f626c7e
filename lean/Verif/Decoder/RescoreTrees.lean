import Verif.Decoder.RescoreLemmas
import Verif.Decoder.RescoreSpec
import Verif.HG.SoundLemmas
/-! Helper lemmas: derivations of the rescored forest. -/
namespace Cdec.Dec
open Cdec.HG Spec
variable {S K φ α : Type} [DecidableEq K]

section
variable {M : Models S φ} {key : S → K} {g : Hypergraph α} {cur : Nat} {X : List (Nat × Nat × List Nat)} {r : RS S φ}

/-- What is known about an edge listed at a node. -/
theorem RInv.inE (hi : RInv M key g cur X r) {v' k : Nat} (hv : v' < r.out.nodes.length) :
    k ∈ r.out.inE v' ↔ r.out.head k = some v' := by
  have h := hi.built.inv.inc v' hv k
  have h2 : r.out.inE v' = (r.out.nodes[v']).inEdges := by
    unfold Hypergraph.inE Hypergraph.node
    rw [List.getD_eq_getElem?_getD, List.getElem?_eq_getElem hv]
    rfl
  rw [h2, ← List.count_pos_iff, h]
  split <;> simp_all

theorem RInv.at {v' u k : Nat} (hi : RInv M key g cur X r) (hv : v' ∈ r.nm u) (hk : k ∈ r.out.inE v') :
    ∃ e ts, X[k]? = some (u, e, ts) ∧ r.out.tails k = ts ∧ src r.out k = e ∧ feat r.out k = some (resAt M g u e (ts.map (r.st M))).2 ∧
      key (r.st M v') = key (resAt M g u e (ts.map (r.st M))).1 ∧ u < g.nodes.length ∧ e ∈ g.inE u ∧ List.Forall₂ (fun t' t => t' ∈ r.nm t) ts (g.tails e) := by
  have hhd := (hi.inE (hi.nmlt u v' hv).1).1 hk
  have hlt : k < r.out.edges.length := by
    by_contra hc
    rw [head_oob _ _ (by omega)] at hhd
    cases hhd
  rw [hi.elen] at hlt
  rcases hx : X[k] with ⟨u2, e, ts⟩
  have hX : X[k]? = some (u2, e, ts) := by rw [List.getElem?_eq_getElem hlt, hx]
  obtain ⟨h1, h2, h, h3, h4, h5⟩ := hi.edge k u2 e ts hX
  rw [hhd] at h3
  cases h3
  have : u2 = u := hi.disjoint h4 hv
  subst this
  obtain ⟨_, v2, v3, v4⟩ := hi.valid u2 e ts (List.mem_of_getElem? hX)
  obtain ⟨ed, hed1, hed2⟩ := Option.map_eq_some_iff.1 h2
  refine ⟨e, ts, hX, h1, ?_, ?_, h5, v2, v3, v4⟩
  · unfold src
    rw [hed1]
    simp [hed2]
  · unfold feat
    rw [hed1]
    simp [hed2]

theorem forall₂_mid {A B C : Type} {R : A → B → Prop} {Q : A → C → Prop} {P : C → B → Prop} {ts : List A} {bs : List B} {cs : List C}
    (h1 : List.Forall₂ R ts bs) (h2 : List.Forall₂ Q ts cs) (h : ∀ c ∈ cs, ∀ t b, R t b → Q t c → P c b) : List.Forall₂ P cs bs := by
  induction h1 generalizing cs with
  | nil => cases h2; exact .nil
  | cons r _ ih =>
    cases h2 with
    | cons q qs => exact .cons (h _ (by simp) _ _ r q) (ih qs fun c hc => h c (by simp [hc]))

/-- Every derivation of a new node projects to a derivation of the node it was made for. -/
theorem RInv.sound (hi : RInv M key g cur X r) (t : Tree) : ∀ v' u, v' ∈ r.nm u → IsDeriv r.out v' t → IsDeriv g u (t.map (src r.out)) := by
  induction t using Tree.rec (motive_2 := fun ch => ∀ c ∈ ch, ∀ v' u, v' ∈ r.nm u → IsDeriv r.out v' c → IsDeriv g u (c.map (src r.out))) with
  | node k ch ih =>
    intro v' u hv hd
    obtain ⟨hk, hch⟩ := isDeriv_iff.1 hd
    obtain ⟨e, ts, hX, h1, h2, h3, h4, h5, h6, h7⟩ := hi.at hv hk
    rw [tree_map_node, h2]
    refine isDeriv_iff.2 ⟨h6, ?_⟩
    rw [h1] at hch
    rw [List.forall₂_map_right_iff]
    exact (forall₂_mid h7 hch (P := fun c t => IsDeriv g t (c.map (src r.out))) fun c hc t' t ha hb => ih c hc t' t ha hb).flip
  | nil =>
    rename_i c hc v' u hv hd
    simp at hc
  | cons t ts h1 h2 =>
    rename_i c hc v' u hv hd
    rcases List.mem_cons.1 hc with rfl | hc
    · exact h1 v' u hv hd
    · exact h2 c hc v' u hv hd

theorem state_node (M : Models S φ) (e : Nat) (ch : List Tree) : state M (.node e ch) = (M.edge e (ch.map fun t => state M t)).1 := by
  rw [state]

theorem feats_node (M : Models S φ) (e : Nat) (ch : List Tree) :
    feats M (.node e ch) = (M.edge e (ch.map fun t => state M t)).2 :: ch.flatMap fun t => feats M t := by
  rw [feats]

theorem goalFeats_node (M : Models S φ) (e : Nat) (ch : List Tree) :
    goalFeats M (.node e ch) = M.final e ((ch.map fun t => state M t).headD M.noState) :: ch.flatMap fun t => feats M t := by
  rw [goalFeats]

/-- What the children of an edge give. -/
theorem children_exact {tails ts : List Nat} {ch : List Tree} (h7 : List.Forall₂ (fun t' t => t' ∈ r.nm t) ts tails) (hch : List.Forall₂ (IsDeriv r.out) ts ch)
    (hne : ∀ t ∈ tails, t ≠ g.nodes.length - 1)
    (ih : ∀ c ∈ ch, ∀ v' u, v' ∈ r.nm u → u ≠ g.nodes.length - 1 → IsDeriv r.out v' c →
      r.st M v' = state M (c.map (src r.out)) ∧ c.edges.map (feat r.out) = (feats M (c.map (src r.out))).map some) :
    ts.map (r.st M) = (ch.map fun t => t.map (src r.out)).map (fun t => state M t) ∧
    (ch.flatMap fun t => t.edges).map (feat r.out) = ((ch.map fun t => t.map (src r.out)).flatMap fun t => feats M t).map some := by
  induction h7 generalizing ch with
  | nil => cases hch; simp
  | @cons t' t ts tails h1 _ ih2 =>
    cases hch with
    | @cons _ c _ cs hd hds =>
      obtain ⟨a1, a2⟩ := ih c (by simp) t' t h1 (hne t (by simp)) hd
      obtain ⟨b1, b2⟩ := ih2 hds (fun t ht => hne t (by simp [ht])) fun c hc => ih c (by simp [hc])
      refine ⟨?_, ?_⟩
      · rw [List.map_cons, List.map_cons, List.map_cons, a1, b1]
      · rw [List.flatMap_cons, List.map_cons, List.flatMap_cons, List.map_append, List.map_append, a2, b2]

/-- States and features are those of the models applied along the projected derivation. -/
theorem RInv.exact (hi : RInv M key g cur X r) (wf : WF g) (hkey : ∀ a b, key a = key b → a = b) (t : Tree) :
    ∀ v' u, v' ∈ r.nm u → u ≠ g.nodes.length - 1 → IsDeriv r.out v' t →
      r.st M v' = state M (t.map (src r.out)) ∧ t.edges.map (feat r.out) = (feats M (t.map (src r.out))).map some := by
  induction t using Tree.rec (motive_2 := fun ch => ∀ c ∈ ch, ∀ v' u, v' ∈ r.nm u → u ≠ g.nodes.length - 1 → IsDeriv r.out v' c →
      r.st M v' = state M (c.map (src r.out)) ∧ c.edges.map (feat r.out) = (feats M (c.map (src r.out))).map some) with
  | node k ch ih =>
    intro v' u hv hu hd
    obtain ⟨hk, hch⟩ := isDeriv_iff.1 hd
    obtain ⟨e, ts, hX, h1, h2, h3, h4, h5, h6, h7⟩ := hi.at hv hk
    rw [h1] at hch
    obtain ⟨c1, c2⟩ := children_exact (M := M) (g := g) h7 hch (fun t ht => by have := wf.topo u h5 e h6 t ht; omega) ih
    have hres : resAt M g u e (ts.map (r.st M)) = M.edge e (ts.map (r.st M)) := by
      unfold resAt Models.result
      simp [hu]
    rw [hres] at h3 h4
    rw [tree_map_node, h2, state_node, feats_node, Tree.edges, ← c1]
    refine ⟨hkey _ _ h4, ?_⟩
    rw [List.map_cons, List.map_cons, h3, c2]
  | nil =>
    rename_i c hc v' u hv hu hd
    simp at hc
  | cons t ts h1 h2 =>
    rename_i c hc v' u hv hu hd
    rcases List.mem_cons.1 hc with rfl | hc
    · exact h1 v' u hv hu hd
    · exact h2 c hc v' u hv hu hd

/-- The same at the goal. -/
theorem RInv.exact_goal (hi : RInv M key g cur X r) (wf : WF g) (hkey : ∀ a b, key a = key b → a = b) (t : Tree) {v' : Nat}
    (hv : v' ∈ r.nm (g.nodes.length - 1)) (hd : IsDeriv r.out v' t) : t.edges.map (feat r.out) = (goalFeats M (t.map (src r.out))).map some := by
  cases t with
  | node k ch =>
    obtain ⟨hk, hch⟩ := isDeriv_iff.1 hd
    obtain ⟨e, ts, hX, h1, h2, h3, h4, h5, h6, h7⟩ := hi.at hv hk
    rw [h1] at hch
    obtain ⟨c1, c2⟩ := children_exact (M := M) (g := g) h7 hch (fun t ht => by have := wf.topo _ h5 e h6 t ht; omega)
      (fun c _ v' u a b d => hi.exact wf hkey c v' u a b d)
    have hres : resAt M g (g.nodes.length - 1) e (ts.map (r.st M)) = (M.noState, M.final e ((ts.map (r.st M)).headD M.noState)) := by
      unfold resAt Models.result
      simp
    rw [hres] at h3
    rw [tree_map_node, h2, goalFeats_node, Tree.edges, ← c1, List.map_cons, List.map_cons, h3, c2]

/-- Every derivation of a node whose combinations were all attached has a counterpart. -/
theorem RInv.complete (hi : RInv M key g cur X r) (wf : WF g) (hc : ∀ (u e : Nat) (ts : List Nat), u < g.nodes.length → e ∈ g.inE u →
      List.Forall₂ (fun t' t => t' ∈ r.nm t) ts (g.tails e) → (u, e, ts) ∈ X) (t : Tree) :
    ∀ u, u < g.nodes.length → IsDeriv g u t → ∃ v' ∈ r.nm u, ∃ t', IsDeriv r.out v' t' ∧ t'.map (src r.out) = t := by
  induction t using Tree.rec (motive_2 := fun ch => ∀ c ∈ ch, ∀ u, u < g.nodes.length → IsDeriv g u c → ∃ v' ∈ r.nm u, ∃ t', IsDeriv r.out v' t' ∧ t'.map (src r.out) = c) with
  | node e ch ih =>
    intro u hu hd
    obtain ⟨he, hch⟩ := isDeriv_iff.1 hd
    have hsub : ∃ ts ch', List.Forall₂ (fun t' t => t' ∈ r.nm t) ts (g.tails e) ∧ List.Forall₂ (IsDeriv r.out) ts ch' ∧ (ch'.map fun t => t.map (src r.out)) = ch := by
      have htl : ∀ t ∈ g.tails e, t < g.nodes.length := fun t ht => Nat.lt_trans (wf.topo u hu e he t ht) hu
      generalize g.tails e = tails at hch htl
      clear hd
      induction hch with
      | nil => exact ⟨[], [], .nil, .nil, rfl⟩
      | @cons t c ts cs h1 _ ih2 =>
        obtain ⟨v', hv', c', hc1, hc2⟩ := ih c (by simp) t (htl t (by simp)) h1
        obtain ⟨ts2, ch2, a1, a2, a3⟩ := ih2 (fun c hc => ih c (by simp [hc])) (fun t ht => htl t (by simp [ht]))
        exact ⟨v' :: ts2, c' :: ch2, .cons hv' a1, .cons hc1 a2, by rw [List.map_cons, hc2, a3]⟩
    obtain ⟨ts, ch', a1, a2, a3⟩ := hsub
    obtain ⟨k, hk, hX⟩ := List.getElem_of_mem (hc u e ts hu he a1)
    have hX' : X[k]? = some (u, e, ts) := by rw [List.getElem?_eq_getElem hk, hX]
    obtain ⟨b1, b2, h, b3, b4, b5⟩ := hi.edge k u e ts hX'
    have hin := (hi.inE (hi.nmlt u h b4).1).2 b3
    refine ⟨h, b4, .node k ch', isDeriv_iff.2 ⟨hin, by rw [b1]; exact a2⟩, ?_⟩
    obtain ⟨e2, ts2, hX2, _, h2, _⟩ := hi.at b4 hin
    rw [hX'] at hX2
    cases hX2
    rw [tree_map_node, h2, a3]
  | nil =>
    rename_i c hc v' u hv
    simp at hc
  | cons t ts h1 h2 =>
    rename_i c hc u hu hd
    rcases List.mem_cons.1 hc with rfl | hc
    · exact h1 u hu hd
    · exact h2 c hc u hu hd

/-- No two derivations have the same projection. -/
theorem RInv.unique (hi : RInv M key g cur X r) (hnd : X.Nodup) (t : Tree) :
    ∀ v' v'' u t2, v' ∈ r.nm u → v'' ∈ r.nm u → IsDeriv r.out v' t → IsDeriv r.out v'' t2 → t.map (src r.out) = t2.map (src r.out) → v' = v'' ∧ t = t2 := by
  induction t using Tree.rec (motive_2 := fun ch => ∀ (ts ts2 us : List Nat) (ch2 : List Tree), List.Forall₂ (fun t' t => t' ∈ r.nm t) ts us →
      List.Forall₂ (fun t' t => t' ∈ r.nm t) ts2 us → List.Forall₂ (IsDeriv r.out) ts ch → List.Forall₂ (IsDeriv r.out) ts2 ch2 →
      (ch.map fun t => t.map (src r.out)) = (ch2.map fun t => t.map (src r.out)) → ts = ts2 ∧ ch = ch2) with
  | node k ch ih =>
    rintro v' v'' u ⟨k2, ch2⟩ hv hv2 hd hd2 hm
    obtain ⟨hk, hch⟩ := isDeriv_iff.1 hd
    obtain ⟨hk2, hch2⟩ := isDeriv_iff.1 hd2
    obtain ⟨e, ts, hX, h1, h2, _, _, _, _, h7⟩ := hi.at hv hk
    obtain ⟨e', ts', hX', h1', h2', _, _, _, _, h7'⟩ := hi.at hv2 hk2
    rw [tree_map_node, tree_map_node, h2, h2'] at hm
    simp only [Tree.node.injEq] at hm
    obtain ⟨rfl, hm⟩ := hm
    rw [h1] at hch
    rw [h1'] at hch2
    obtain ⟨rfl, rfl⟩ := ih ts ts' _ ch2 h7 h7' hch hch2 hm
    have hkk : k = k2 := by
      have l1 := (List.getElem?_eq_some_iff.1 hX).1
      have l2 := (List.getElem?_eq_some_iff.1 hX').1
      refine (List.Nodup.getElem_inj_iff hnd (hi := l1) (hj := l2)).1 ?_
      rw [(List.getElem?_eq_some_iff.1 hX).2, (List.getElem?_eq_some_iff.1 hX').2]
    subst hkk
    refine ⟨?_, rfl⟩
    have e1 := (hi.inE (hi.nmlt u v' hv).1).1 hk
    have e2 := (hi.inE (hi.nmlt u v'' hv2).1).1 hk2
    rw [e1] at e2
    exact Option.some.inj e2
  | nil =>
    rename_i ts ts2 us ch2 h1 h2 h3 h4 h5
    cases h3
    cases h1
    cases h2
    cases h4
    exact ⟨rfl, rfl⟩
  | cons t ch ih1 ih2 =>
    rename_i ts ts2 us ch2 h1 h2 h3 h4 h5
    cases h3 with
    | cons a3 b3 =>
      cases h1 with
      | cons a1 b1 =>
        cases h2 with
        | cons a2 b2 =>
          cases h4 with
          | cons a4 b4 =>
            simp only [List.map_cons, List.cons.injEq] at h5
            obtain ⟨rfl, rfl⟩ := ih1 _ _ _ _ a1 a2 a3 a4 h5.1
            obtain ⟨rfl, rfl⟩ := ih2 _ _ _ _ b1 b2 b3 b4 h5.2
            exact ⟨rfl, rfl⟩

/-- Order and index tables. -/
theorem RInv.wf (hi : RInv M key g cur X r) (wf : WF g) : WF r.out := by
  refine ⟨?_, ?_, ?_⟩
  · intro v hv e he
    have := (hi.inE hv).1 he
    by_contra hc
    rw [head_oob _ _ (by omega)] at this
    cases this
  · intro v hv
    rw [List.nodup_iff_count_le_one]
    intro e
    have h := hi.built.inv.inc v hv e
    have h2 : r.out.inE v = (r.out.nodes[v]).inEdges := by
      unfold Hypergraph.inE Hypergraph.node
      rw [List.getD_eq_getElem?_getD, List.getElem?_eq_getElem hv]
      rfl
    rw [h2, h]
    split <;> omega
  · intro v hv e he t ht
    obtain ⟨u, hu⟩ := hi.cover v hv
    obtain ⟨e', ts, _, h1, _, _, _, h5, h6, h7⟩ := hi.at hu he
    rw [h1] at ht
    obtain ⟨t2, h8, h9⟩ := forall₂_lt (g := g) h7 t ht
    exact hi.order t2 u t v h9 hu (wf.topo u h5 e' h6 t2 h8)

/-- The nodes made for the goal are one node, the last one. -/
theorem RInv.goal_node (hi : RInv M key g cur X r) (hne : r.nm (g.nodes.length - 1) ≠ [])
    (hn : 0 < g.nodes.length) : r.nm (g.nodes.length - 1) = [r.out.goal] := by
  have hin : ∀ u v', v' ∈ r.nm u → r.out.inE v' ≠ [] := by
    intro u v' hv h0
    obtain ⟨k, hk⟩ := hi.used u v' hv
    have := (hi.inE (hi.nmlt u v' hv).1).2 hk
    rw [h0] at this
    simp at this
  have hnst : ∀ h ∈ r.nm (g.nodes.length - 1), key (r.st M h) = key M.noState := by
    intro h hh
    obtain ⟨k, hk⟩ := List.exists_mem_of_ne_nil _ (hin _ h hh)
    obtain ⟨e, ts, _, _, _, _, h4, _⟩ := hi.at hh hk
    rw [h4]
    unfold resAt Models.result
    simp
  obtain ⟨h, hh⟩ := List.exists_mem_of_ne_nil _ hne
  have hall : ∀ h' ∈ r.nm (g.nodes.length - 1), h' = h := fun h' hh' => hi.inj _ _ _ hh' hh (by rw [hnst h' hh', hnst h hh])
  have hlast : h = r.out.nodes.length - 1 := by
    have hlt := (hi.nmlt _ h hh).1
    by_contra hne
    obtain ⟨u, hu⟩ := hi.cover (r.out.nodes.length - 1) (by omega)
    obtain ⟨k, hk⟩ := List.exists_mem_of_ne_nil _ (hin _ _ hu)
    obtain ⟨_, _, _, _, _, _, _, hul, _⟩ := hi.at hu hk
    by_cases hug : u = g.nodes.length - 1
    · subst hug
      exact hne (hall _ hu).symm
    · have := hi.order u (g.nodes.length - 1) _ _ hu hh (by omega)
      omega
  have hnd := hi.nodup (g.nodes.length - 1)
  cases hl : r.nm (g.nodes.length - 1) with
  | nil => exact absurd hl hne
  | cons a l =>
    rw [hl] at hall hnd
    have ha : a = r.out.goal := by rw [hall a (by simp), hlast]; rfl
    cases l with
    | nil => rw [ha]
    | cons b l =>
      rw [hall b (by simp), hall a (by simp)] at hnd
      simp at hnd

end
end Cdec.Dec
