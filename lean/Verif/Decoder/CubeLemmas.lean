import Verif.Decoder.RescoreApply
import Verif.Props.C14
import Verif.Props.C06
/-! Helper lemmas: cube pruning as a sequence of attached edges. -/
namespace Cdec.Dec
open Cdec.HG Spec
variable {S K φ α : Type} [DecidableEq K]

namespace Cube

theorem foldl_heap_ne {T : Type} (f : T → Nat → T) (heap : T → List Cand) (pop : T → List Cand)
    (h : ∀ s k, (heap s = [] → f s k = s) ∧ (heap s ≠ [] → (pop (f s k)).length = (pop s).length + 1)) (sched : List Nat) (s : T)
    (hne : heap (sched.foldl f s) ≠ []) : (pop (sched.foldl f s)).length = (pop s).length + sched.length := by
  induction sched generalizing s with
  | nil => simp
  | cons k ks ih =>
    rw [List.foldl_cons] at hne ⊢
    rw [ih (f s k) hne]
    have hs : heap s ≠ [] := by
      intro h0
      have hstay : ∀ l : List Nat, l.foldl f s = s := by
        intro l
        induction l with
        | nil => rfl
        | cons a l ih2 => rw [List.foldl_cons, (h s a).1 h0, ih2]
      rw [(h s k).1 h0, hstay] at hne
      exact hne h0
    rw [(h s k).2 hs, List.length_cons]
    omega

theorem idx_some {l : List Cand} (h : l ≠ []) (k : Nat) : ∃ c, l[k % l.length]? = some c := by
  have : k % l.length < l.length := Nat.mod_lt _ (List.length_pos_iff.2 h)
  exact ⟨_, List.getElem?_eq_getElem this⟩

theorem run_spec (st : Strategy) (bounds : Nat → List Nat) (inEdges : List Nat) (hnd : inEdges.Nodup) (hb : ∀ e ∈ inEdges, ∀ b ∈ bounds e, 0 < b) (sched : List Nat) :
    let s := st.run bounds inEdges sched
    (s.popped ++ s.heap).Nodup ∧ (∀ c ∈ s.popped ++ s.heap, Spec.Valid bounds inEdges c) ∧ (s.heap = [] → ∀ c, c ∈ s.popped ↔ Spec.Valid bounds inEdges c) ∧
      s.popped.length ≤ sched.length ∧ (s.heap ≠ [] → s.popped.length = sched.length) := by
  cases st with
  | fast =>
    obtain ⟨h1, h2, h3⟩ := C14_fast bounds inEdges hnd hb sched
    refine ⟨h1, h2, h3, (C14_limit bounds inEdges sched).1, fun hne => ?_⟩
    have := foldl_heap_ne (stepFast bounds) St.heap St.popped (fun s k => ⟨fun h0 => by simp [stepFast, h0], fun h0 => by
      obtain ⟨c, hc⟩ := idx_some h0 k
      simp [stepFast, hc]⟩) sched ⟨start bounds inEdges, []⟩ hne
    exact this.trans (Nat.zero_add _)
  | normal =>
    obtain ⟨h1, h2, h3⟩ := C14_normal bounds inEdges hnd hb sched
    refine ⟨h1, h2, h3, (C14_limit bounds inEdges sched).2.1, fun hne => ?_⟩
    have := foldl_heap_ne (stepNormal bounds) (fun s => s.1.heap) (fun s => s.1.popped) (fun s k => ⟨fun h0 => by simp [stepNormal, h0], fun h0 => by
      obtain ⟨c, hc⟩ := idx_some h0 k
      simp [stepNormal, hc]⟩) sched (⟨start bounds inEdges, []⟩, start bounds inEdges) hne
    exact this.trans (Nat.zero_add _)
  | fast2 =>
    obtain ⟨h1, h2, h3⟩ := C14_fast2 bounds inEdges hnd hb sched
    refine ⟨h1, fun c hc => ((h2 c).1 hc).1, h3, (C14_limit bounds inEdges sched).2.2, fun hne => ?_⟩
    have := foldl_heap_ne (stepFast2 bounds) St.heap St.popped (fun s k => ⟨fun h0 => by simp [stepFast2, h0], fun h0 => by
      obtain ⟨c, hc⟩ := idx_some h0 k
      simp [stepFast2, hc]⟩) sched ⟨start bounds inEdges, []⟩ hne
    exact this.trans (Nat.zero_add _)

end Cube

section
variable {M : Models S φ} {key : S → K} {g : Hypergraph α} {cat : Nat → Int}

/-- The edges attached for a list of candidates. -/
def candL (g : Hypergraph α) (nodemap : List (List Nat)) (upd : Nat → Bool) : Nat → List Cube.Cand → List (Nat × List Nat × Bool)
  | _, [] => []
  | k, c :: cs => (c.1, pick nodemap (g.tails c.1) c.2, upd k) :: candL g nodemap upd (k + 1) cs

theorem candL_map (nodemap : List (List Nat)) (upd : Nat → Bool) (k : Nat) (cs : List Cube.Cand) :
    ((candL g nodemap upd k cs).map fun x => (x.1, x.2.1)) = cs.map fun c => (c.1, pick nodemap (g.tails c.1) c.2) := by
  induction cs generalizing k with
  | nil => rfl
  | cons c cs ih => simp [candL, ih]

theorem incorporate_eq (v : Nat) (upd : Nat → Bool) (nodemap : List (List Nat)) (k : Nat) (cs : List Cube.Cand) (s : RS S φ × List (K × Nat)) :
    incorporate M key cat g v (v == g.nodes.length - 1) upd nodemap k cs s = attach M key cat g v (candL g nodemap upd k cs) s := by
  induction cs generalizing k s with
  | nil => rfl
  | cons c cs ih =>
    unfold incorporate candL
    rw [ih]
    rfl

theorem RInv.arrange {cur : Nat} {X : List (Nat × Nat × List Nat)} {r : RS S φ} (hi : RInv M key g cur X r) {nm' : List (List Nat)}
    (hl : nm'.length = r.nodemap.length) (hp : ∀ t, (nm'.getD t []).Perm (r.nm t)) : RInv M key g cur X { r with nodemap := nm' } := by
  have hm : ∀ t h, h ∈ ({ r with nodemap := nm' } : RS S φ).nm t ↔ h ∈ r.nm t := fun t h => (hp t).mem_iff
  refine ⟨hi.built, hi.slen, hl.trans hi.nlen, hi.elen, ?_, ?_, ?_, ?_, ?_, ?_, ?_, ?_⟩
  · intro k u e ts hX
    obtain ⟨a1, a2, h, a3, a4, a5⟩ := hi.edge k u e ts hX
    exact ⟨a1, a2, h, a3, (hm _ _).2 a4, a5⟩
  · intro u e ts hX
    obtain ⟨a1, a2, a3, a4⟩ := hi.valid u e ts hX
    exact ⟨a1, a2, a3, a4.imp fun a b h => (hm _ _).2 h⟩
  · intro u u' h h' h1 h2
    exact hi.order u u' h h' ((hm _ _).1 h1) ((hm _ _).1 h2)
  · intro u h h' h1 h2
    exact hi.inj u h h' ((hm _ _).1 h1) ((hm _ _).1 h2)
  · intro h hh
    obtain ⟨u, hu⟩ := hi.cover h hh
    exact ⟨u, (hm _ _).2 hu⟩
  · intro u h h1
    exact hi.nmlt u h ((hm _ _).1 h1)
  · intro u
    exact (hp u).nodup_iff.2 (hi.nodup u)
  · intro u h h1
    exact hi.used u h ((hm _ _).1 h1)

theorem AInv.arrange {v : Nat} {X : List (Nat × Nat × List Nat)} {r : RS S φ} (ha : AInv M key g v X r) {nm' : List (List Nat)}
    (hl : nm'.length = r.nodemap.length) (hp : ∀ t, (nm'.getD t []).Perm (r.nm t)) : AInv M key g v X { r with nodemap := nm' } := by
  refine ⟨ha.inv.arrange hl hp, ?_, ?_, ha.nodup, ha.lt⟩
  · intro t ht
    have := hp t
    rw [ha.nil t ht] at this
    exact this.eq_nil
  · intro t ht h0
    have := hp t
    rw [show nm'.getD t [] = [] from h0] at this
    exact ha.ne t ht this.symm.eq_nil

/-- Every node of the result has a derivation. -/
theorem RInv.exists_deriv {cur : Nat} {X : List (Nat × Nat × List Nat)} {r : RS S φ} (hi : RInv M key g cur X r) (wf : WF g) :
    ∀ h < r.out.nodes.length, ∃ t, IsDeriv r.out h t := by
  intro h
  induction h using Nat.strongRecOn with
  | ind h ih =>
    intro hh
    have hwf := hi.wf wf
    obtain ⟨u, hu⟩ := hi.cover h hh
    obtain ⟨k, hk⟩ := hi.used u h hu
    have hin := (hi.inE hh).2 hk
    have : ∃ ch, List.Forall₂ (IsDeriv r.out) (r.out.tails k) ch := by
      have htl : ∀ t ∈ r.out.tails k, t < h := hwf.topo h hh k hin
      generalize r.out.tails k = ts at htl
      induction ts with
      | nil => exact ⟨[], .nil⟩
      | cons t ts ih2 =>
        obtain ⟨c, hc⟩ := ih t (htl t (by simp)) (by have := htl t (by simp); omega)
        obtain ⟨cs, hcs⟩ := ih2 fun t ht => htl t (by simp [ht])
        exact ⟨c :: cs, .cons hc hcs⟩
    obtain ⟨ch, hch⟩ := this
    exact ⟨.node k ch, isDeriv_iff.2 ⟨hin, hch⟩⟩

/-- There are at most as many combinations as derivations. -/
theorem AInv.combos_le (wf : WF g) {v : Nat} (hv : v < g.nodes.length) {X : List (Nat × Nat × List Nat)} {r : RS S φ} (ha : AInv M key g v X r)
    {l : List Cube.Cand} (hnd : l.Nodup) (hl : ∀ c ∈ l, Cube.Spec.Valid (bounds g r.nodemap) (g.inE v) c) {ds : List Tree} (hds : ListsDerivs g v ds) :
    l.length ≤ ds.length := by
  have hT : ∃ T : Nat → Tree, ∀ h < r.out.nodes.length, IsDeriv r.out h (T h) := by
    classical
    refine ⟨fun h => if hh : h < r.out.nodes.length then (ha.inv.exists_deriv wf h hh).choose else .node 0 [], fun h hh => ?_⟩
    simp only [hh, dite_true]
    exact (ha.inv.exists_deriv wf h hh).choose_spec
  obtain ⟨T, hT⟩ := hT
  have hpm : ∀ c ∈ l, List.Forall₂ (fun t' t => t' ∈ r.nm t) (pick r.nodemap (g.tails c.1) c.2) (g.tails c.1) := fun c hc => pick_mem (hl c hc).2
  have hmap : (l.map fun c => Tree.node c.1 ((pick r.nodemap (g.tails c.1) c.2).map fun h => (T h).map (src r.out))).Nodup := by
    refine List.Nodup.map_on ?_ hnd
    rintro ⟨e, js⟩ hc ⟨e', js'⟩ hc' h
    simp only [Tree.node.injEq] at h
    obtain ⟨rfl, h⟩ := h
    have h1 := hpm _ hc
    have h2 := hpm _ hc'
    have heq : pick r.nodemap (g.tails e) js = pick r.nodemap (g.tails e) js' := by
      simp only [] at h1 h2
      generalize pick r.nodemap (g.tails e) js = ts at h h1
      generalize pick r.nodemap (g.tails e) js' = ts' at h h2
      generalize g.tails e = tl at h1 h2
      induction h1 generalizing ts' with
      | nil => cases h2; rfl
      | cons a1 _ ih =>
        cases h2 with
        | cons a2 b2 =>
          simp only [List.map_cons, List.cons.injEq] at h
          rw [(ha.inv.unique ha.nodup _ _ _ _ _ a1 a2 (hT _ (ha.inv.nmlt _ _ a1).1) (hT _ (ha.inv.nmlt _ _ a2).1) h.1).1, ih _ h.2 b2]
    exact congrArg (Prod.mk e) (pick_inj (fun t => ha.inv.nodup t) (hl _ hc).2 (hl _ hc').2 heq)
  have hsub : (l.map fun c => Tree.node c.1 ((pick r.nodemap (g.tails c.1) c.2).map fun h => (T h).map (src r.out))) ⊆ ds := by
    intro t ht
    obtain ⟨c, hc, rfl⟩ := List.mem_map.1 ht
    refine (hds.2 _).2 (isDeriv_iff.2 ⟨(hl c hc).1, ?_⟩)
    rw [List.forall₂_map_right_iff]
    exact (hpm c hc).flip.imp fun t h hm => ha.inv.sound _ _ _ hm (hT h (ha.inv.nmlt _ _ hm).1)
  have := (List.subperm_of_subset hmap hsub).length_le
  simpa using this

/-- One node of cube pruning. -/
theorem kbest_spec (hg : Ready g) (st : Strategy) (c : Choices) (hsch : c.sched ≠ []) (harr : ∀ l, (c.arrange l).Perm l) {v : Nat} (hv : v < g.nodes.length)
    {X : List (Nat × Nat × List Nat)} {r : RS S φ} (ha : AInv M key g v X r) :
    ∃ Y : List (Nat × List Nat), AInv M key g (v + 1) (X ++ Y.map fun y => (v, y)) (kbest st M key cat g v c r) ∧ Y.length ≤ c.sched.length ∧
      (∀ t, t ≠ v → (kbest st M key cat g v c r).nm t = r.nm t) ∧
      ((∀ ds, ListsDerivs g v ds → ds.length ≤ c.sched.length) → ∀ (e : Nat) (ts : List Nat), e ∈ g.inE v →
        List.Forall₂ (fun t' t => t' ∈ r.nm t) ts (g.tails e) → (e, ts) ∈ Y) := by
  have hpos := ha.bounds_pos hg.wf hv
  obtain ⟨h1, h2, h3, h4, h5⟩ := Cube.run_spec st (bounds g r.nodemap) (g.inE v) (hg.wf.nodup v hv) hpos c.sched
  generalize hs : st.run (bounds g r.nodemap) (g.inE v) c.sched = s at h1 h2 h3 h4 h5
  have hk : kbest st M key cat g v c r = { (attach M key cat g v (candL g r.nodemap c.upd 0 s.popped) (r, [])).1 with
      nodemap := (attach M key cat g v (candL g r.nodemap c.upd 0 s.popped) (r, [])).1.nodemap.modify v c.arrange } := by
    unfold kbest
    simp only [hs, incorporate_eq]
  have hvalid : ∀ x ∈ s.popped, x.1 ∈ g.inE v ∧ List.Forall₂ (fun t' t => t' ∈ r.nm t) (pick r.nodemap (g.tails x.1) x.2) (g.tails x.1) := by
    intro x hx
    have := h2 x (List.mem_append.2 (.inl hx))
    exact ⟨this.1, pick_mem this.2⟩
  have hpne : s.popped ≠ [] := by
    intro h0
    by_cases hh : s.heap = []
    · obtain ⟨e, he⟩ := List.exists_mem_of_ne_nil _ (hg.ne v hv)
      have := (h3 hh (e, decode (bounds g r.nodemap e) 0)).2 ⟨he, decode_lt (hpos e he) 0⟩
      rw [h0] at this
      simp at this
    · have := h5 hh
      rw [h0] at this
      simp at this
      exact hsch (List.eq_nil_of_length_eq_zero this.symm)
  have hcm := candL_map (g := g) r.nodemap c.upd 0 s.popped
  have hin : ∀ x ∈ candL g r.nodemap c.upd 0 s.popped, x.1 ∈ g.inE v ∧ List.Forall₂ (fun t' t => t' ∈ r.nm t) x.2.1 (g.tails x.1) := by
    intro x hx
    have : (x.1, x.2.1) ∈ s.popped.map fun c => (c.1, pick r.nodemap (g.tails c.1) c.2) := by
      rw [← hcm]
      exact List.mem_map.2 ⟨x, hx, rfl⟩
    obtain ⟨y, hy, hy2⟩ := List.mem_map.1 this
    rw [Prod.mk.injEq] at hy2
    rw [← hy2.1, ← hy2.2]
    exact hvalid y hy
  obtain ⟨b1, b2⟩ := ha.node (cat := cat) hg.wf hv (candL g r.nodemap c.upd 0 s.popped) hin (by
      intro h0
      rw [h0] at hcm
      simp at hcm
      exact hpne hcm) (by
      rw [hcm]
      refine List.Nodup.map_on ?_ h1.of_append_left
      rintro ⟨e, js⟩ hc ⟨e', js'⟩ hc' h
      simp only [Prod.mk.injEq] at h
      obtain ⟨rfl, h⟩ := h
      exact congrArg (Prod.mk e) (pick_inj (fun t => ha.inv.nodup t) (h2 _ (List.mem_append.2 (.inl hc))).2 (h2 _ (List.mem_append.2 (.inl hc'))).2 h))
  have hlen : v < (attach M key cat g v (candL g r.nodemap c.upd 0 s.popped) (r, [])).1.nodemap.length := by
    rw [b1.inv.nlen]; exact hv
  refine ⟨s.popped.map fun c => (c.1, pick r.nodemap (g.tails c.1) c.2), ?_, by simpa using h4, ?_, ?_⟩
  · rw [hk, ← hcm, List.map_map]
    refine b1.arrange (by simp) fun t => ?_
    rw [getD_modify_list _ _ _ _ hlen]
    split
    · exact harr _
    · exact List.Perm.refl _
  · intro t ht
    rw [hk, ← b2 t ht]
    unfold RS.nm
    simp only []
    rw [getD_modify_list _ _ _ _ hlen, if_neg ht]
  · intro hds e ts he hts
    have hemp : s.heap = [] := by
      by_contra hne
      have e1 := h5 hne
      have e2 := hds _ (derivs_lists hg.wf v hv)
      have e3 := ha.combos_le hg.wf hv h1 h2 (derivs_lists hg.wf v hv)
      rw [List.length_append] at e3
      have := List.length_pos_iff.2 hne
      omega
    obtain ⟨js, c1, c2⟩ := pick_surj hts
    exact List.mem_map.2 ⟨(e, js), (h3 hemp (e, js)).2 ⟨he, c1⟩, by rw [c2]⟩

theorem cube_spec (hg : Ready g) (st : Strategy) (choices : Nat → Choices) (hsch : ∀ v, (choices v).sched ≠ []) (harr : ∀ v l, ((choices v).arrange l).Perm l) (v : Nat) (hv : v ≤ g.nodes.length) :
    ∃ X, AInv M key g v X ((List.range v).foldl (fun r v => kbest st M key cat g v (choices v) r) ⟨HG.empty, [], List.replicate g.nodes.length []⟩) ∧
      (∀ u, (X.filter fun x => x.1 == u).length ≤ (choices u).sched.length) ∧
      ((∀ u < g.nodes.length, ∀ ds, ListsDerivs g u ds → ds.length ≤ (choices u).sched.length) → ∀ u < v,
        AllAttached g ((List.range v).foldl (fun r v => kbest st M key cat g v (choices v) r) ⟨HG.empty, [], List.replicate g.nodes.length []⟩) u X) := by
  induction v with
  | zero => exact ⟨[], AInv.start, by simp, by intro _ u hu; omega⟩
  | succ v ih =>
    obtain ⟨X, h1, h2, h3⟩ := ih (by omega)
    rw [List.range_succ, List.foldl_append, List.foldl_cons, List.foldl_nil]
    generalize (List.range v).foldl (fun r v => kbest st M key cat g v (choices v) r) ⟨HG.empty, [], List.replicate g.nodes.length []⟩ = r at h1 h3
    obtain ⟨Y, k1, k2, k3, k4⟩ := kbest_spec (cat := cat) hg st (choices v) (hsch v) (harr v) (by omega) h1
    refine ⟨_, k1, ?_, ?_⟩
    · intro u
      rw [List.filter_append, List.length_append]
      by_cases hu : u = v
      · subst hu
        have e1 : X.filter (fun x => x.1 == u) = [] := by
          rw [List.filter_eq_nil_iff]
          intro x hx
          have := h1.lt x hx
          simp
          omega
        rw [e1]
        have e2 := List.length_filter_le (fun x => x.1 == u) (Y.map fun y => (u, y))
        simp only [List.length_map] at e2
        simp only [List.length_nil]
        omega
      · have e1 : (Y.map fun y => (v, y)).filter (fun x => x.1 == u) = [] := by
          rw [List.filter_eq_nil_iff]
          intro x hx
          obtain ⟨y, _, rfl⟩ := List.mem_map.1 hx
          simp
          omega
        rw [e1]
        exact h2 u
    · intro hds u hu
      by_cases huv : u = v
      · subst huv
        intro e ts he hts
        exact List.mem_append.2 (.inr (List.mem_map.2 ⟨(e, ts), k4 (hds u (by omega)) e ts he (forall₂_nm (fun t ht => (k3 t (Nat.ne_of_lt (hg.wf.topo u (by omega) e he t ht))).symm) hts), rfl⟩))
      · exact (h3 hds u (by omega)).step hg.wf (by omega) (v := v) (by omega) k3

end
end Cdec.Dec
