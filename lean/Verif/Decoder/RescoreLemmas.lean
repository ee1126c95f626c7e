import Verif.Decoder.Rescore
import Verif.HG.BuildLemmas
import Verif.HG.InsideLemmas
import Mathlib.Data.List.Forall2
/-! Helper lemmas: what a sequence of new edges builds, and the derivations it has. -/
namespace Cdec.Dec
open Cdec.HG
variable {S K φ α : Type} [DecidableEq K]

/-- The state of a node. -/
def RS.st (M : Models S φ) (r : RS S φ) (h : Nat) : S := r.states.getD h M.noState

/-- The nodes made for a node of the input. -/
def RS.nm (r : RS S φ) (u : Nat) : List Nat := r.nodemap.getD u []

/-- State and features for an edge into `u`. -/
def resAt (M : Models S φ) (g : Hypergraph α) (u e : Nat) (sts : List S) : S × φ := M.result (u == g.nodes.length - 1) e sts

/-- What holds after the new edges `X` (node, edge, new tails) have been attached, in this order, the last ones at node `cur`. -/
structure RInv (M : Models S φ) (key : S → K) (g : Hypergraph α) (cur : Nat) (X : List (Nat × Nat × List Nat)) (r : RS S φ) : Prop where
  built : Built r.out
  slen : r.states.length = r.out.nodes.length
  nlen : r.nodemap.length = g.nodes.length
  elen : r.out.edges.length = X.length
  edge : ∀ (k u e : Nat) (ts : List Nat), X[k]? = some (u, e, ts) → r.out.tails k = ts ∧
    (r.out.edges[k]?).map Edge.val = some (e, (resAt M g u e (ts.map (r.st M))).2) ∧
    ∃ h, r.out.head k = some h ∧ h ∈ r.nm u ∧ key (r.st M h) = key (resAt M g u e (ts.map (r.st M))).1
  valid : ∀ (u e : Nat) (ts : List Nat), (u, e, ts) ∈ X → u ≤ cur ∧ u < g.nodes.length ∧ e ∈ g.inE u ∧ List.Forall₂ (fun t' t => t' ∈ r.nm t) ts (g.tails e)
  order : ∀ u u' h h', h ∈ r.nm u → h' ∈ r.nm u' → u < u' → h < h'
  inj : ∀ u h h', h ∈ r.nm u → h' ∈ r.nm u → key (r.st M h) = key (r.st M h') → h = h'
  cover : ∀ h < r.out.nodes.length, ∃ u, h ∈ r.nm u
  nmlt : ∀ u h, h ∈ r.nm u → h < r.out.nodes.length ∧ u ≤ cur
  nodup : ∀ u, (r.nm u).Nodup
  used : ∀ u h, h ∈ r.nm u → ∃ k, r.out.head k = some h

/-- `s2n` has the nodes made for `cur`. -/
def S2N (M : Models S φ) (key : S → K) (cur : Nat) (s : RS S φ × List (K × Nat)) : Prop :=
  ∀ k h, s.2.lookup k = some h ↔ h ∈ s.1.nm cur ∧ key (s.1.st M h) = k

theorem RInv.disjoint {M : Models S φ} {key : S → K} {g : Hypergraph α} {cur : Nat} {X : List (Nat × Nat × List Nat)} {r : RS S φ} (hi : RInv M key g cur X r)
    {u u' h : Nat} (h1 : h ∈ r.nm u) (h2 : h ∈ r.nm u') : u = u' := by
  rcases Nat.lt_trichotomy u u' with h | h | h
  · exact absurd (hi.order _ _ _ _ h1 h2 h) (by omega)
  · exact h
  · exact absurd (hi.order _ _ _ _ h2 h1 h) (by omega)

theorem forall₂_lt {g : Hypergraph α} {r : RS S φ} {ts tails : List Nat} (h : List.Forall₂ (fun t' t => t' ∈ r.nm t) ts tails) :
    ∀ t' ∈ ts, ∃ t ∈ tails, t' ∈ r.nm t := by
  induction h with
  | nil => simp
  | cons h1 _ ih =>
    intro t' ht
    rcases List.mem_cons.1 ht with rfl | ht
    · exact ⟨_, by simp, h1⟩
    · obtain ⟨t, h2, h3⟩ := ih t' ht
      exact ⟨t, by simp [h2], h3⟩

theorem val_addEdge (g : Hypergraph α) (v : α) (ts : List Nat) (k : Nat) :
    ((addEdge g v ts).edges[k]?).map Edge.val = if k = g.edges.length then some v else (g.edges[k]?).map Edge.val := by
  unfold addEdge
  simp only []
  by_cases h : k = g.edges.length
  · subst h; simp
  · rw [if_neg h]
    by_cases hlt : k < g.edges.length
    · rw [List.getElem?_append_left hlt]
    · rw [List.getElem?_eq_none (by simp; omega), List.getElem?_eq_none (by omega)]

theorem val_connect (g : Hypergraph α) (eid h k : Nat) : ((connect g eid h).edges[k]?).map Edge.val = (g.edges[k]?).map Edge.val := by
  unfold connect
  simp only [List.getElem?_modify]
  rcases g.edges[k]? with _ | e
  · simp
  · by_cases hk : eid = k <;> simp [hk]

theorem getD_modify_list (l : List (List Nat)) (i : Nat) (f : List Nat → List Nat) (j : Nat) (hi : i < l.length) :
    (l.modify i f).getD j [] = if j = i then f (l.getD j []) else l.getD j [] := by
  simp only [List.getD_eq_getElem?_getD, List.getElem?_modify]
  by_cases h : j = i
  · subst h; simp [hi]
  · have : ¬ i = j := fun e => h e.symm
    simp [h, this]

theorem expand_found {M : Models S φ} {key : S → K} (g : Hypergraph α) (cat : Nat → Int) (u : Nat) (s : RS S φ × List (K × Nat)) (e : Nat) (ts : List Nat) (upd : Bool) (h : Nat)
    (hl : s.2.lookup (key (resAt M g u e (ts.map (s.1.st M))).1) = some h) :
    expand M key cat u (u == g.nodes.length - 1) s e ts upd =
      (⟨connect (addEdge s.1.out (e, (resAt M g u e (ts.map (s.1.st M))).2) ts) s.1.out.edges.length h,
        if upd then s.1.states.set h (resAt M g u e (ts.map (s.1.st M))).1 else s.1.states, s.1.nodemap⟩, s.2) := by
  unfold expand
  unfold resAt RS.st at hl ⊢
  simp only []
  rw [hl]

theorem expand_new {M : Models S φ} {key : S → K} (g : Hypergraph α) (cat : Nat → Int) (u : Nat) (s : RS S φ × List (K × Nat)) (e : Nat) (ts : List Nat) (upd : Bool)
    (hl : s.2.lookup (key (resAt M g u e (ts.map (s.1.st M))).1) = none) :
    expand M key cat u (u == g.nodes.length - 1) s e ts upd =
      (⟨connect (addNode (addEdge s.1.out (e, (resAt M g u e (ts.map (s.1.st M))).2) ts) (cat e)) s.1.out.edges.length s.1.out.nodes.length,
        s.1.states ++ [(resAt M g u e (ts.map (s.1.st M))).1], s.1.nodemap.modify u (· ++ [s.1.out.nodes.length])⟩,
        (key (resAt M g u e (ts.map (s.1.st M))).1, s.1.out.nodes.length) :: s.2) := by
  have hn : ∀ v, (addEdge s.1.out v ts).nodes.length = s.1.out.nodes.length := by simp [addEdge, indexTails_length]
  unfold expand
  unfold resAt RS.st at hl ⊢
  simp only []
  rw [hl]
  simp only [hn]

/-- Attaching one more edge. -/
theorem expand_inv {M : Models S φ} {key : S → K} {g : Hypergraph α} (wf : WF g) (cat : Nat → Int) {u : Nat} (hu : u < g.nodes.length) {X : List (Nat × Nat × List Nat)}
    {s : RS S φ × List (K × Nat)} (hi : RInv M key g u X s.1) (hs : S2N M key u s) {e : Nat} (he : e ∈ g.inE u) {ts : List Nat}
    (hts : List.Forall₂ (fun t' t => t' ∈ s.1.nm t) ts (g.tails e)) (upd : Bool) :
    let s' := expand M key cat u (u == g.nodes.length - 1) s e ts upd
    RInv M key g u (X ++ [(u, e, ts)]) s'.1 ∧ S2N M key u s' ∧ (∀ t, t ≠ u → s'.1.nm t = s.1.nm t) ∧ s'.1.nm u ≠ [] ∧
      (∀ t, t ≠ u → ∀ h ∈ s.1.nm t, s'.1.st M h = s.1.st M h) := by
  intro s'
  have htl : ∀ t' ∈ ts, t' < s.1.out.nodes.length ∧ ∃ t, t < u ∧ t' ∈ s.1.nm t := by
    intro t' ht'
    obtain ⟨t, h1, h2⟩ := forall₂_lt (g := g) hts t' ht'
    exact ⟨(hi.nmlt t t' h2).1, t, wf.topo u hu e he t h1, h2⟩
  have hXl : ∀ (k u2 e2 : Nat) (ts2 : List Nat), X[k]? = some (u2, e2, ts2) → ∀ t' ∈ ts2, ∃ t, t < u ∧ t' ∈ s.1.nm t := by
    intro k u2 e2 ts2 hk t' ht'
    obtain ⟨v1, v2, v3, v4⟩ := hi.valid u2 e2 ts2 (List.mem_of_getElem? hk)
    obtain ⟨t, h1, h2⟩ := forall₂_lt (g := g) v4 t' ht'
    have := wf.topo u2 v2 e2 v3 t h1
    exact ⟨t, by omega, h2⟩
  generalize hρ : resAt M g u e (ts.map (s.1.st M)) = ρ
  have hb1 : Built (addEdge s.1.out (e, ρ.2) ts) := .step (.addEdge _ ts) hi.built (fun t ht => (htl t ht).1)
  have hn1 : (addEdge s.1.out (e, ρ.2) ts).nodes.length = s.1.out.nodes.length := by simp [addEdge, indexTails_length]
  have he1 : (addEdge s.1.out (e, ρ.2) ts).edges.length = s.1.out.edges.length + 1 := by simp [addEdge]
  have hh1 : (addEdge s.1.out (e, ρ.2) ts).head s.1.out.edges.length = none := by
    rw [head_addEdge, head_oob _ _ (Nat.le_refl _)]
  have hXsplit : ∀ (k : Nat) (x : Nat × Nat × List Nat), (X ++ [(u, e, ts)])[k]? = some x → (k < X.length ∧ X[k]? = some x) ∨ (k = X.length ∧ x = (u, e, ts)) := by
    intro k x hk
    by_cases hlt : k < X.length
    · rw [List.getElem?_append_left hlt] at hk
      exact .inl ⟨hlt, hk⟩
    · rw [List.getElem?_append_right (by omega)] at hk
      have : k - X.length = 0 := by
        have := (List.getElem?_eq_some_iff.1 hk).1
        simp at this
        omega
      rw [this] at hk
      exact .inr ⟨by omega, by simpa using hk.symm⟩
  rcases hl : s.2.lookup (key ρ.1) with _ | h
  · -- a new node
    have hs' : s' = (⟨connect (addNode (addEdge s.1.out (e, ρ.2) ts) (cat e)) s.1.out.edges.length s.1.out.nodes.length, s.1.states ++ [ρ.1],
        s.1.nodemap.modify u (· ++ [s.1.out.nodes.length])⟩, (key ρ.1, s.1.out.nodes.length) :: s.2) := by
      rw [← hρ] at hl ⊢
      exact expand_new g cat u s e ts upd hl
    have hb2 : Built (connect (addNode (addEdge s.1.out (e, ρ.2) ts) (cat e)) s.1.out.edges.length s.1.out.nodes.length) := by
      refine .step (.connect _ _) (.step (.addNode (cat e)) hb1 trivial) ⟨?_, ?_, ?_⟩
      · change s.1.out.edges.length < (addEdge s.1.out (e, ρ.2) ts).edges.length
        omega
      · simp [Op.run, addNode, hn1]
      · exact hh1
    have hnm : ∀ t, s'.1.nm t = if t = u then s.1.nm t ++ [s.1.out.nodes.length] else s.1.nm t := by
      intro t
      rw [hs']
      unfold RS.nm
      simp only []
      rw [getD_modify_list _ _ _ _ (by rw [hi.nlen]; exact hu)]
    have hnn : s'.1.out.nodes.length = s.1.out.nodes.length + 1 := by
      rw [hs']
      simp [connect, addNode, hn1]
    have hst : ∀ x, x < s.1.out.nodes.length → s'.1.st M x = s.1.st M x := by
      intro x hx
      rw [hs']
      unfold RS.st
      simp only [List.getD_eq_getElem?_getD]
      rw [List.getElem?_append_left (by rw [hi.slen]; exact hx)]
    have hstn : s'.1.st M s.1.out.nodes.length = ρ.1 := by
      rw [hs']
      unfold RS.st
      simp only [List.getD_eq_getElem?_getD]
      rw [List.getElem?_append_right (by rw [hi.slen]), hi.slen]
      simp
    have hstm : ∀ (t h : Nat), h ∈ s.1.nm t → s'.1.st M h = s.1.st M h := fun t h hh => hst h (hi.nmlt t h hh).1
    have hmono : ∀ t h, h ∈ s.1.nm t → h ∈ s'.1.nm t := by
      intro t h hh
      rw [hnm]
      split
      · exact List.mem_append.2 (.inl hh)
      · exact hh
    have hmem : ∀ t h, h ∈ s'.1.nm t → h ∈ s.1.nm t ∨ (t = u ∧ h = s.1.out.nodes.length) := by
      intro t h hh
      rw [hnm] at hh
      split at hh
      · rcases List.mem_append.1 hh with hh | hh
        · exact .inl hh
        · exact .inr ⟨by assumption, by simpa using hh⟩
      · exact .inl hh
    have hmapts : ∀ ts2 : List Nat, (∀ t' ∈ ts2, ∃ t, t < u ∧ t' ∈ s.1.nm t) → ts2.map (s'.1.st M) = ts2.map (s.1.st M) := by
      intro ts2 h2
      apply List.map_congr_left
      intro t' ht'
      obtain ⟨t, _, h3⟩ := h2 t' ht'
      exact hstm t t' h3
    have hkeynew : ∀ h ∈ s.1.nm u, key (s.1.st M h) ≠ key ρ.1 := by
      intro h hh hk
      have := (hs (key ρ.1) h).2 ⟨hh, hk⟩
      rw [hl] at this
      cases this
    have hhead : ∀ k, s'.1.out.head k = if k = s.1.out.edges.length then some s.1.out.nodes.length else s.1.out.head k := by
      intro k
      rw [hs']
      simp only []
      rw [head_connect _ _ _ _ (by change s.1.out.edges.length < (addEdge s.1.out (e, ρ.2) ts).edges.length; omega), head_addNode, head_addEdge]
    refine ⟨⟨?_, ?_, ?_, ?_, ?_, ?_, ?_, ?_, ?_, ?_, ?_, ?_⟩, ?_, ?_, ?_, ?_⟩
    · rw [hs']; exact hb2
    · rw [hnn, hs']; simp [hi.slen]
    · rw [hs']; simp [hi.nlen]
    · rw [hs']; simp [connect, addNode, he1, hi.elen]
    · intro k u2 e2 ts2 hk
      have ht : s'.1.out.tails k = if k = s.1.out.edges.length then ts else s.1.out.tails k := by
        rw [hs']
        simp only []
        rw [tails_connect, tails_addNode, tails_addEdge]
      have hv : (s'.1.out.edges[k]?).map Edge.val = if k = s.1.out.edges.length then some (e, ρ.2) else (s.1.out.edges[k]?).map Edge.val := by
        rw [hs']
        simp only []
        rw [val_connect]
        change ((addEdge s.1.out (e, ρ.2) ts).edges[k]?).map Edge.val = _
        rw [val_addEdge]
      have hh := hhead k
      rcases hXsplit k _ hk with ⟨hlt, hk'⟩ | ⟨hke, hx⟩
      · obtain ⟨a1, a2, h, a3, a4, a5⟩ := hi.edge k u2 e2 ts2 hk'
        have hne : k ≠ s.1.out.edges.length := by rw [hi.elen]; omega
        rw [ht, hv, hh, if_neg hne, if_neg hne, if_neg hne, hmapts ts2 (hXl k u2 e2 ts2 hk')]
        exact ⟨a1, a2, h, a3, hmono _ _ a4, by rw [hstm _ _ a4]; exact a5⟩
      · cases hx
        have hke' : k = s.1.out.edges.length := by rw [hi.elen]; exact hke
        rw [ht, hv, hh, if_pos hke', if_pos hke', if_pos hke', hmapts ts (fun t' ht' => (htl t' ht').2), hρ]
        exact ⟨rfl, rfl, _, rfl, by rw [hnm, if_pos rfl]; simp, by rw [hstn]⟩
    · intro u2 e2 ts2 hx
      rcases List.mem_append.1 hx with hx | hx
      · obtain ⟨v1, v2, v3, v4⟩ := hi.valid u2 e2 ts2 hx
        exact ⟨v1, v2, v3, v4.imp fun a b h => hmono _ _ h⟩
      · have : (u2, e2, ts2) = (u, e, ts) := by simpa using hx
        cases this
        exact ⟨Nat.le_refl _, hu, he, hts.imp fun a b h => hmono _ _ h⟩
    · intro a b h h' ha hb hab
      rcases hmem a h ha with ha' | ⟨rfl, rfl⟩
      · rcases hmem b h' hb with hb' | ⟨rfl, rfl⟩
        · exact hi.order a b h h' ha' hb' hab
        · exact (hi.nmlt a h ha').1
      · rcases hmem b h' hb with hb' | ⟨rfl, rfl⟩
        · have := (hi.nmlt b h' hb').2
          omega
        · omega
    · intro a h h' ha hb hk
      rcases hmem a h ha with ha' | ⟨rfl, rfl⟩
      · rcases hmem a h' hb with hb' | ⟨rfl, rfl⟩
        · rw [hstm _ _ ha', hstm _ _ hb'] at hk
          exact hi.inj a h h' ha' hb' hk
        · rw [hstm _ _ ha', hstn] at hk
          exact absurd hk (hkeynew h ha')
      · rcases hmem a h' hb with hb' | ⟨_, rfl⟩
        · rw [hstm _ _ hb', hstn] at hk
          exact absurd hk.symm (hkeynew h' hb')
        · rfl
    · intro h hh
      rw [hnn] at hh
      by_cases hlt : h < s.1.out.nodes.length
      · obtain ⟨t, ht⟩ := hi.cover h hlt
        exact ⟨t, hmono _ _ ht⟩
      · exact ⟨u, by rw [hnm, if_pos rfl]; simp; omega⟩
    · intro t h hh
      rw [hnn]
      rcases hmem t h hh with hh | ⟨rfl, rfl⟩
      · have := hi.nmlt t h hh
        omega
      · omega
    · intro t
      rw [hnm]
      split
      · refine List.Nodup.append (hi.nodup t) (by simp) ?_
        intro x hx hx'
        rw [List.mem_singleton] at hx'
        have := (hi.nmlt t x hx).1
        omega
      · exact hi.nodup t
    · intro t h hh
      rcases hmem t h hh with hh | ⟨_, rfl⟩
      · obtain ⟨k, hk⟩ := hi.used t h hh
        refine ⟨k, ?_⟩
        rw [hhead, if_neg, hk]
        rintro rfl
        rw [head_oob _ _ (Nat.le_refl _)] at hk
        cases hk
      · exact ⟨s.1.out.edges.length, by rw [hhead, if_pos rfl]⟩
    · intro kk h
      have h2 : s'.2 = (key ρ.1, s.1.out.nodes.length) :: s.2 := by rw [hs']
      rw [h2, List.lookup_cons]
      by_cases hkk : kk = key ρ.1
      · subst hkk
        simp only [beq_self_eq_true, Option.some.injEq]
        constructor
        · rintro rfl
          exact ⟨by rw [hnm, if_pos rfl]; simp, by rw [hstn]⟩
        · rintro ⟨h3, h4⟩
          rcases hmem u h h3 with h3 | ⟨_, h3⟩
          · rw [hstm _ _ h3] at h4
            exact absurd h4 (hkeynew h h3)
          · exact h3.symm
      · have : (kk == key ρ.1) = false := by simpa using hkk
        simp only [this]
        rw [hs kk h]
        constructor
        · rintro ⟨h3, h4⟩
          exact ⟨hmono _ _ h3, by rw [hstm _ _ h3]; exact h4⟩
        · rintro ⟨h3, h4⟩
          rcases hmem u h h3 with h3 | ⟨_, rfl⟩
          · rw [hstm _ _ h3] at h4
            exact ⟨h3, h4⟩
          · rw [hstn] at h4
            exact absurd h4.symm hkk
    · intro t ht
      rw [hnm, if_neg ht]
    · rw [hnm, if_pos rfl]
      simp
    · exact fun t _ h hh => hstm t h hh
  · -- an old node
    have hs' : s' = (⟨connect (addEdge s.1.out (e, ρ.2) ts) s.1.out.edges.length h, if upd then s.1.states.set h ρ.1 else s.1.states, s.1.nodemap⟩, s.2) := by
      rw [← hρ] at hl ⊢
      exact expand_found g cat u s e ts upd h hl
    obtain ⟨hhu, hhk⟩ := (hs (key ρ.1) h).1 hl
    have hhlt := (hi.nmlt u h hhu).1
    have hb2 : Built (connect (addEdge s.1.out (e, ρ.2) ts) s.1.out.edges.length h) := by
      refine .step (.connect _ _) hb1 ⟨?_, ?_, ?_⟩
      · omega
      · omega
      · exact hh1
    have hnm : ∀ t, s'.1.nm t = s.1.nm t := by
      intro t
      rw [hs']
      rfl
    have hnn : s'.1.out.nodes.length = s.1.out.nodes.length := by
      rw [hs']
      simp [connect, hn1]
    have hst : ∀ x, x ≠ h → s'.1.st M x = s.1.st M x := by
      intro x hx
      rw [hs']
      unfold RS.st
      simp only []
      split
      · rw [getD_set_ne _ _ _ _ _ hx]
      · rfl
    have hkst : ∀ x, key (s'.1.st M x) = key (s.1.st M x) := by
      intro x
      by_cases hx : x = h
      · subst hx
        rw [hs']
        unfold RS.st at hhk ⊢
        simp only []
        split
        · rw [getD_set _ _ _ _ _ (by rw [hi.slen]; exact hhlt), if_pos rfl]
          exact hhk.symm
        · rfl
      · rw [hst x hx]
    have hstm : ∀ (t x : Nat), t ≠ u → x ∈ s.1.nm t → s'.1.st M x = s.1.st M x := by
      intro t x ht hx
      refine hst x ?_
      rintro rfl
      exact ht (hi.disjoint hx hhu)
    have hmapts : ∀ ts2 : List Nat, (∀ t' ∈ ts2, ∃ t, t < u ∧ t' ∈ s.1.nm t) → ts2.map (s'.1.st M) = ts2.map (s.1.st M) := by
      intro ts2 h2
      apply List.map_congr_left
      intro t' ht'
      obtain ⟨t, h4, h3⟩ := h2 t' ht'
      exact hstm t t' (by omega) h3
    have hhead : ∀ k, s'.1.out.head k = if k = s.1.out.edges.length then some h else s.1.out.head k := by
      intro k
      rw [hs']
      simp only []
      rw [head_connect _ _ _ _ (by omega), head_addEdge]
    refine ⟨⟨?_, ?_, ?_, ?_, ?_, ?_, ?_, ?_, ?_, ?_, ?_, ?_⟩, ?_, ?_, ?_, ?_⟩
    · rw [hs']; exact hb2
    · rw [hnn, hs']
      simp only []
      split
      · simp [hi.slen]
      · exact hi.slen
    · rw [hs']; exact hi.nlen
    · rw [hs']; simp [connect, he1, hi.elen]
    · intro k u2 e2 ts2 hk
      have ht : s'.1.out.tails k = if k = s.1.out.edges.length then ts else s.1.out.tails k := by
        rw [hs']
        simp only []
        rw [tails_connect, tails_addEdge]
      have hv : (s'.1.out.edges[k]?).map Edge.val = if k = s.1.out.edges.length then some (e, ρ.2) else (s.1.out.edges[k]?).map Edge.val := by
        rw [hs']
        simp only []
        rw [val_connect, val_addEdge]
      have hh := hhead k
      rcases hXsplit k _ hk with ⟨hlt, hk'⟩ | ⟨hke, hx⟩
      · obtain ⟨a1, a2, h', a3, a4, a5⟩ := hi.edge k u2 e2 ts2 hk'
        have hne : k ≠ s.1.out.edges.length := by rw [hi.elen]; omega
        rw [ht, hv, hh, if_neg hne, if_neg hne, if_neg hne, hmapts ts2 (hXl k u2 e2 ts2 hk')]
        exact ⟨a1, a2, h', a3, by rw [hnm]; exact a4, by rw [hkst]; exact a5⟩
      · cases hx
        have hke' : k = s.1.out.edges.length := by rw [hi.elen]; exact hke
        rw [ht, hv, hh, if_pos hke', if_pos hke', if_pos hke', hmapts ts (fun t' ht' => (htl t' ht').2), hρ]
        exact ⟨rfl, rfl, _, rfl, by rw [hnm]; exact hhu, by rw [hkst]; exact hhk⟩
    · intro u2 e2 ts2 hx
      simp only [hnm]
      rcases List.mem_append.1 hx with hx | hx
      · exact hi.valid u2 e2 ts2 hx
      · have : (u2, e2, ts2) = (u, e, ts) := by simpa using hx
        cases this
        exact ⟨Nat.le_refl _, hu, he, hts⟩
    · intro a b x x' ha hb hab
      rw [hnm] at ha hb
      exact hi.order a b x x' ha hb hab
    · intro a x x' ha hb hk
      rw [hnm] at ha hb
      rw [hkst, hkst] at hk
      exact hi.inj a x x' ha hb hk
    · intro x hx
      rw [hnn] at hx
      obtain ⟨t, ht⟩ := hi.cover x hx
      exact ⟨t, by rw [hnm]; exact ht⟩
    · intro t x hx
      rw [hnm] at hx
      rw [hnn]
      exact hi.nmlt t x hx
    · intro t
      rw [hnm]
      exact hi.nodup t
    · intro t x hx
      rw [hnm] at hx
      obtain ⟨k, hk⟩ := hi.used t x hx
      refine ⟨k, ?_⟩
      rw [hhead, if_neg, hk]
      rintro rfl
      rw [head_oob _ _ (Nat.le_refl _)] at hk
      cases hk
    · intro kk x
      have h2 : s'.2 = s.2 := by rw [hs']
      rw [h2, hs kk x, hnm, hkst]
    · exact fun t _ => hnm t
    · rw [hnm]
      intro h0
      rw [h0] at hhu
      simp at hhu
    · exact fun t ht h hh => hstm t h ht hh

end Cdec.Dec
