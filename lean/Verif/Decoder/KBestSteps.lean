import Verif.Decoder.KBestLemmas
/-! The functions of the lazy k-best extraction keep the invariant of C05. -/
namespace Cdec.Dec.KBest
open Cdec.HG Spec
variable {W φ T α : Type} [CommMonoid W] [LinearOrder W] [IsOrderedMonoid W] [AddCommMonoid φ] [DecidableEq T]

/-- What is assumed of the forest, of `k` and of the library functions on heaps. -/
structure Laws (p : Params W φ T α) : Prop where
  wf : WF p.g
  ne : ∀ v < p.g.nodes.length, p.g.inE v ≠ []
  kpos : 0 < p.kPrime
  pop_none : ∀ l, p.pop l = none ↔ l = []
  pop_some : ∀ l d r, p.pop l = some (d, r) → l.Perm (d :: r) ∧ ∀ c ∈ l, c.score ≤ d.score
  keep : ∀ n l, ∃ r, l.Perm (p.keep n l ++ r) ∧ (p.keep n l).length = min n l.length ∧ ∀ a ∈ p.keep n l, ∀ b ∈ r, b.score ≤ a.score

/-- Without a filter only the first `k` may be asked for. -/
def within (p : Params W φ T α) (k : Nat) : Prop := p.uniq = true ∨ k < p.kPrime

theorem within.mono {p : Params W φ T α} {k k' : Nat} (h : within p k) (hk : k' ≤ k) : within p k' := by
  rcases h with h | h
  · exact .inl h
  · exact .inr (by omega)

/-- What a call for a node below `v` does. -/
def RecOk (p : Params W φ T α) (rec : Rec W φ T) (v : Nat) : Prop :=
  ∀ s : State W φ T, (∀ u < v, NInv p s u) → ∀ t < v, ∀ k, within p k → ∃ s', rec s t k = some (s', (s' t).D[k]?) ∧ (∀ u < v, NInv p s' u) ∧ Ext v s s' ∧
    (k < (s' t).D.length ∨ num p t ≤ (s' t).D.length)

theorem exists_deriv {p : Params W φ T α} (hp : Laws p) (v : Nat) (hv : v < p.g.nodes.length) : ∃ t, IsDeriv p.g v t := by
  induction v using Nat.strongRecOn with
  | ind v ih =>
    obtain ⟨e, he⟩ := List.exists_mem_of_ne_nil _ (hp.ne v hv)
    have h : ∀ l : List Nat, (∀ t ∈ l, t < v) → ∃ ch, List.Forall₂ (IsDeriv p.g) l ch := by
      intro l
      induction l with
      | nil => exact fun _ => ⟨[], .nil⟩
      | cons t l ihl =>
        intro h
        obtain ⟨ch, hc⟩ := ihl fun t ht => h t (by simp [ht])
        obtain ⟨c, h1⟩ := ih t (h t (by simp)) (Nat.lt_trans (h t (by simp)) hv)
        exact ⟨c :: ch, .cons h1 hc⟩
    obtain ⟨ch, hc⟩ := h _ (hp.wf.topo v hv e he)
    exact ⟨.node e ch, isDeriv_iff.2 ⟨he, hc⟩⟩

theorem num_pos {p : Params W φ T α} (hp : Laws p) {v : Nat} (hv : v < p.g.nodes.length) : 0 < num p v := by
  obtain ⟨t, ht⟩ := exists_deriv hp v hv
  have := (mem_classes hp.wf hv).2 ⟨t, ht, rfl⟩
  exact List.length_pos_of_mem this

section
variable {p : Params W φ T α} (hp : Laws p) {rec : Rec W φ T} {v : Nat} (hv : v < p.g.nodes.length) (hr : RecOk p rec v)
include hp hv hr

theorem createLoop_spec (l : List (Nat × Nat)) : ∀ (s : State W φ T) (acc : W × φ × List Tree), (∀ u < v, NInv p s u) →
    (∀ x ∈ l, x.1 < v ∧ within p x.2 ∧ x.2 < num p x.1) →
    ∃ s' ch, createLoop rec s l acc = some (s', some (acc.1 * (ch.map fun t => t.weight p.w).prod, acc.2.1 + (ch.map fun t => t.total p.x).sum, acc.2.2 ++ ch)) ∧
      (∀ u < v, NInv p s' u) ∧ Ext v s s' ∧ Ants s' (l.map Prod.fst) (l.map Prod.snd) ch := by
  induction l with
  | nil => exact fun s acc hs _ => ⟨s, [], by simp [createLoop], hs, Ext.refl _ _, .nil⟩
  | cons x l ih =>
    intro s acc hs hl
    obtain ⟨t, i⟩ := x
    obtain ⟨a1, a2, a3⟩ := hl (t, i) (by simp)
    obtain ⟨s1, b1, b2, b3, b4⟩ := hr s hs t a1 i a2
    have hi : i < (s1 t).D.length := by
      simp only [] at a3
      omega
    rw [List.getElem?_eq_getElem hi] at b1
    obtain ⟨s2, ch, c1, c2, c3, c4⟩ := ih s1 (acc.1 * (s1 t).D[i].item.score, acc.2.1 + (s1 t).D[i].item.feats, acc.2.2 ++ [(s1 t).D[i].item.tree]) b2
      (fun x hx => hl x (by simp [hx]))
    have hok := (b2 t a1).itemOk _ (List.getElem_mem hi)
    refine ⟨s2, (s1 t).D[i].item.tree :: ch, ?_, c2, b3.trans c3, ?_⟩
    · rw [createLoop, b1]
      simp only []
      rw [c1]
      simp only [List.map_cons, List.prod_cons, List.sum_cons, hok.score, hok.feats, mul_assoc, add_assoc, List.append_assoc, List.singleton_append]
    · exact .cons (At.mono c3.pre ⟨_, List.getElem?_eq_getElem hi, rfl⟩) c4

theorem create_spec {s : State W φ T} (hs : ∀ u < v, NInv p s u) {e : Nat} (he : e ∈ p.g.inE v) {j : List Nat}
    (hj : List.Forall₂ (fun j t => j < num p t) j (p.g.tails e)) (hw : ∀ i ∈ j, within p i) :
    ∃ s' d, create p rec s e j = some (s', some d) ∧ (∀ u < v, NInv p s' u) ∧ Ext v s s' ∧ d.key = (e, j) ∧ ItemOk p s' v d := by
  have hlen := hj.length_eq
  have hx : ∀ x ∈ (p.g.tails e).zip j, x.1 < v ∧ within p x.2 ∧ x.2 < num p x.1 := by
    rintro ⟨t, i⟩ hx
    refine ⟨hp.wf.topo v hv e he t (List.of_mem_zip hx).1, hw i (List.of_mem_zip hx).2, ?_⟩
    exact (List.forall₂_iff_zip.1 hj.flip).2 hx
  obtain ⟨s', ch, h1, h2, h3, h4⟩ := createLoop_spec hp hv hr _ s (p.w e, p.x e, []) hs hx
  rw [List.map_fst_zip (by omega), List.map_snd_zip (by omega)] at h4
  refine ⟨s', ⟨e, j, p.w e * (ch.map fun t => t.weight p.w).prod, p.x e + (ch.map fun t => t.total p.x).sum, .node e ch⟩, ?_, h2, h3, rfl, he, ?_, ?_, ch, rfl, h4⟩
  · rw [create, h1]
    simp
  · exact (weight_node _ _ _).symm
  · exact (total_node _ _ _).symm

theorem forall₂_zero_num {e : Nat} (he : e ∈ p.g.inE v) : List.Forall₂ (fun j t => j < num p t) (List.replicate (p.g.tails e).length 0) (p.g.tails e) := by
  have h : ∀ l : List Nat, (∀ t ∈ l, t < v) → List.Forall₂ (fun j t => j < num p t) (List.replicate l.length 0) l := by
    intro l
    induction l with
    | nil => exact fun _ => .nil
    | cons t l ih => exact fun h => .cons (num_pos hp (Nat.lt_trans (h t (by simp)) hv)) (ih fun t ht => h t (by simp [ht]))
  exact h _ (hp.wf.topo v hv e he)

theorem initLoop_spec (es : List Nat) : ∀ (s : State W φ T) (acc : List (Item W φ)), (∀ u < v, NInv p s u) → (∀ e ∈ es, e ∈ p.g.inE v) →
    ∃ s' cs, initLoop p rec s es acc = some (s', acc ++ cs) ∧ (∀ u < v, NInv p s' u) ∧ Ext v s s' ∧ (∀ c ∈ cs, ItemOk p s' v c) ∧
      keysOf cs = es.map fun e => (e, List.replicate (p.g.tails e).length 0) := by
  induction es with
  | nil => exact fun s acc hs _ => ⟨s, [], by simp [initLoop], hs, Ext.refl _ _, by simp, rfl⟩
  | cons e es ih =>
    intro s acc hs he
    obtain ⟨s1, d, a1, a2, a3, a4, a5⟩ := create_spec hp hv hr hs (he e (by simp)) (forall₂_zero_num hp hv hr (he e (by simp)))
      (fun i hi => by rw [List.eq_of_mem_replicate hi]; exact .inr hp.kpos)
    obtain ⟨s2, cs, b1, b2, b3, b4, b5⟩ := ih s1 (acc ++ [d]) a2 fun e h => he e (by simp [h])
    refine ⟨s2, d :: cs, ?_, b2, a3.trans b3, ?_, ?_⟩
    · rw [initLoop, a1]
      simp only []
      rw [b1]
      simp
    · intro c hc
      rcases List.mem_cons.1 hc with rfl | hc
      · exact a5.mono b3.pre
      · exact b4 c hc
    · simp only [keysOf, List.map_cons] at b5 ⊢
      rw [b5, a4]

end

/-- The candidate of an edge that is made first is at least as good as any derivation with that edge. -/
theorem init_best {p : Params W φ T α} (wf : WF p.g) {s : State W φ T} {v : Nat} (hv : v < p.g.nodes.length) (hs : ∀ u < v, NInv p s u) {c : Item W φ}
    (hc : ItemOk p s v c) (hj : c.j = List.replicate (p.g.tails c.edge).length 0) {ch : List Tree} (hch : List.Forall₂ (IsDeriv p.g) (p.g.tails c.edge) ch) :
    (Tree.node c.edge ch).weight p.w ≤ c.score := by
  have htl := wf.topo v hv c.edge hc.mem
  obtain ⟨js, h1⟩ := exists_idxs wf hch (fun t ht => ⟨Nat.lt_trans (htl t ht) hv, hs t (htl t ht)⟩)
  obtain ⟨ch0, h2, h3⟩ := hc.tree
  rw [hc.score, h2, weight_node, weight_node]
  refine mul_le_mul' (le_refl _) (h1.weight_le h3 ?_)
  rw [hj, ← h1.lt_num.length_eq]
  exact forall₂_zero js

theorem set_self (s : State W φ T) (v : Nat) (n : NodeState W φ T) : (s.set v n) v = n := by simp [State.set]

theorem set_ne (s : State W φ T) {v u : Nat} (n : NodeState W φ T) (h : u ≠ v) : (s.set v n) u = s u := by simp [State.set, h]

/-- Setting a node's state, when its list of derivations only grows. -/
theorem Ext.set {s : State W φ T} {v : Nat} {n : NodeState W φ T} (h : (s v).D <+: n.D) : Ext (v + 1) s (s.set v n) := by
  refine ⟨fun u hu => set_ne _ _ (by omega), fun u => ?_⟩
  by_cases hu : u = v
  · subst hu
    rw [set_self]
    exact h
  · rw [set_ne _ _ hu]
    exact List.prefix_refl _

theorem NInv.set {p : Params W φ T α} {s : State W φ T} {v : Nat} {n : NodeState W φ T} (h : (s v).D <+: n.D) (hs : ∀ u < v, NInv p s u) :
    ∀ u < v, NInv p (s.set v n) u := fun u hu => (hs u hu).mono (set_ne _ _ (by omega)) (Ext.set h).pre

/-- A state in the middle of a call for `v`. -/
structure Mid (p : Params W φ T α) (s : State W φ T) (v : Nat) (P : List (Item W φ)) (pend : Option (Nat × List Nat)) : Prop where
  low : ∀ u < v, NInv p s u
  live : Live p s v P pend

theorem getCandidates_spec {p : Params W φ T α} (hp : Laws p) {rec : Rec W φ T} {v : Nat} (hv : v < p.g.nodes.length) (hr : RecOk p rec v)
    {s : State W φ T} (hs : ∀ u < v, NInv p s u) (hn : NInv p s v) :
    ∃ s' P pend, getCandidates p rec s v = some s' ∧ Mid p s' v P pend ∧ Ext (v + 1) s s' ∧
      ∀ k, pend = some k → (s' v).D.getLast?.map (fun d => d.item.key) = some k := by
  unfold getCandidates
  by_cases hc : ((s v).D.isEmpty && (s v).cand.isEmpty) = true
  · rw [if_pos hc]
    simp only [Bool.and_eq_true, List.isEmpty_iff] at hc
    have h0 : s v = ⟨[], [], []⟩ := by
      rcases hn with h0 | ⟨P, pend, hl, _⟩
      · exact h0
      · exfalso
        obtain ⟨e, he⟩ := List.exists_mem_of_ne_nil _ (hp.ne v hv)
        have hP : P = [] := by
          cases P with
          | nil => rfl
          | cons c P =>
            have := hl.cov c (by simp)
            rw [hc.1] at this
            simp at this
        have hi := hl.init e he
        rw [hP, hc.2] at hi
        rcases hi with hi | ⟨_, I, _, i2, i3⟩
        · simp [keysOf] at hi
        · cases I with
          | nil => have := hp.kpos; simp at i2; omega
          | cons k I =>
            obtain ⟨c, h, _⟩ := i3 k (by simp)
            simp at h
    obtain ⟨s1, cs, a1, a2, a3, a4, a5⟩ := initLoop_spec hp hv hr (p.g.inE v) s [] hs fun _ h => h
    rw [a1]
    simp only [List.nil_append]
    have h1 : s1 v = ⟨[], [], []⟩ := (a3.same v (Nat.le_refl _)).trans h0
    obtain ⟨r, k1, k2, k3⟩ := hp.keep (if p.uniq then cs.length else min p.kPrime cs.length) cs
    generalize hn' : (if p.uniq then cs.length else min p.kPrime cs.length) = n at *
    generalize hK : p.keep n cs = K at *
    have hpre : (s1 v).D <+: (({ s1 v with cand := K } : NodeState W φ T)).D := List.prefix_refl _
    have hext := Ext.set hpre
    have hsv : (s1.set v { s1 v with cand := K }) v = ⟨K, [], []⟩ := by rw [set_self, h1]
    have hmem : ∀ c ∈ K, c ∈ cs := fun c hc => k1.mem_iff.2 (List.mem_append.2 (.inl hc))
    have hz : ∀ c ∈ cs, c.j = List.replicate (p.g.tails c.edge).length 0 := by
      intro c hc
      have : c.key ∈ keysOf cs := List.mem_map.2 ⟨c, hc, rfl⟩
      rw [a5] at this
      obtain ⟨e, _, he⟩ := List.mem_map.1 this
      have e1 : e = c.edge := congrArg Prod.fst he
      have e2 : _ = c.j := congrArg Prod.snd he
      rw [← e2, e1]
    have hnd : (keysOf cs).Nodup := by
      rw [a5]
      refine List.Nodup.map_on ?_ (hp.wf.nodup v hv)
      intro x _ y _ hxy
      exact congrArg Prod.fst hxy
    have hKnd : (keysOf K).Nodup := by
      have := (k1.map Item.key).nodup_iff.1 hnd
      rw [List.map_append] at this
      exact (List.nodup_append.1 this).1
    refine ⟨_, [], none, rfl, ⟨NInv.set hpre a2, ?_⟩, ?_, by simp⟩
    · constructor <;> rw [hsv]
      · simpa using hKnd
      · intro c hc
        exact (a4 c (hmem c (by simpa using hc))).mono hext.pre
      · intro k
        simp only [List.not_mem_nil, List.nil_append, false_iff, not_and]
        intro hk
        obtain ⟨c, hc, rfl⟩ := List.mem_map.1 hk
        rintro ⟨x, hx, hx0⟩
        have : x ∈ c.j := hx
        rw [hz c (hmem c hc)] at this
        exact hx0 (List.eq_of_mem_replicate this)
      · simp
      · simp
      · exact ⟨by simp, by simp, by simp, by simp⟩
      · simp
      · intro e he
        have : (e, List.replicate (p.g.tails e).length 0) ∈ keysOf cs := by
          rw [a5]
          exact List.mem_map.2 ⟨e, he, rfl⟩
        obtain ⟨c, hc, hk⟩ := List.mem_map.1 this
        have hce : c.edge = e := congrArg Prod.fst hk
        rcases List.mem_append.1 (k1.mem_iff.1 hc) with h | h
        · exact .inl (by simpa [keysOf] using ⟨c, h, hk⟩)
        · have hlt : n < cs.length := by
            have := k1.length_eq
            have := List.length_pos_of_mem h
            simp only [List.length_append] at *
            omega
          have hu : p.uniq = false := by
            cases hu : p.uniq with
            | false => rfl
            | true =>
              rw [hu] at hn'
              simp at hn'
              omega
          refine .inr ⟨hu, keysOf K, hKnd, ?_, ?_⟩
          · rw [keysOf, List.length_map, k2]
            rw [hu] at hn'
            simp at hn'
            omega
          · intro k hk
            obtain ⟨c', hc', rfl⟩ := List.mem_map.1 hk
            refine ⟨c', by simpa using hc', rfl, fun ch hch => ?_⟩
            refine le_trans ?_ (k3 c' hc' c h)
            have := init_best hp.wf hv a2 (a4 c hc) (hz c hc) (by rw [hce]; exact hch)
            rwa [hce] at this
      · simp
      · intro _
        refine ⟨rfl, ?_, by simp, by simp⟩
        intro c hc
        rw [hz c (hmem c hc)]
        simp
    · exact (a3.mono (Nat.le_succ v)).trans hext
  · rw [if_neg hc]
    rcases hn with h0 | ⟨P, pend, h1, h2⟩
    · rw [h0] at hc
      simp at hc
    · exact ⟨s, P, pend, rfl, ⟨hs, h1⟩, Ext.refl _ _, h2⟩

theorem Ants.lt_num {p : Params W φ T α} (wf : WF p.g) {s : State W φ T} {ts js : List Nat} {ch : List Tree} (h : Ants s ts js ch)
    (hn : ∀ t ∈ ts, t < p.g.nodes.length ∧ NInv p s t) : List.Forall₂ (fun j t => j < num p t) js ts := by
  induction h with
  | nil => exact .nil
  | @cons t i c ts js cs a _ ih =>
    refine .cons ?_ (ih fun t ht => hn t (by simp [ht]))
    obtain ⟨h1, h2⟩ := hn t (by simp)
    obtain ⟨d, h3, _⟩ := a
    obtain ⟨h4, _⟩ := List.getElem?_eq_some_iff.1 h3
    have := h2.best.le_num wf h1
    rw [List.length_map] at this
    omega

theorem forall₂_bump {p : Params W φ T α} {js ts : List Nat} (h : List.Forall₂ (fun j t => j < num p t) js ts) {i : Nat} (hi : i < js.length)
    (hb : js.getD i 0 + 1 < num p (ts.getD i 0)) : List.Forall₂ (fun j t => j < num p t) (Cube.bump js i) ts := by
  induction h generalizing i with
  | nil => simp at hi
  | cons x xs ih =>
    cases i with
    | zero => exact .cons (by simpa using hb) xs
    | succ i => exact .cons x (ih (by simpa using hi) (by simpa using hb))

/-- The successor of `d` in direction `i` has been made, if there is one. -/
def Made (p : Params W φ T α) (s : State W φ T) (v : Nat) (P : List (Item W φ)) (d : Item W φ) (i : Nat) : Prop :=
  d.j.getD i 0 + 1 < num p ((p.g.tails d.edge).getD i 0) → (d.edge, Cube.bump d.j i) ∈ keysOf (P ++ (s v).cand)

section
variable {p : Params W φ T α} (hp : Laws p) {rec : Rec W φ T} {v : Nat} (hv : v < p.g.nodes.length) (hr : RecOk p rec v)
include hp hv hr

theorem nextStep_spec {s : State W φ T} {P : List (Item W φ)} {pend : Option (Nat × List Nat)} (hm : Mid p s v P pend) {d : Item W φ} (hd : d ∈ P)
    (hk : p.uniq = false → d.j.sum + 1 ≤ (s v).D.length ∧ (s v).D.length < p.kPrime) {i : Nat} (hi : i < d.j.length) :
    ∃ s', nextStep p rec v d s i = some s' ∧ Mid p s' v P pend ∧ Ext (v + 1) s s' ∧ (s' v).D = (s v).D ∧ (s v).cand <+: (s' v).cand ∧ Made p s' v P d i := by
  have hdok := hm.live.ok d (List.mem_append.2 (.inl hd))
  have htl := hp.wf.topo v hv d.edge hdok.mem
  obtain ⟨ch0, _, hants⟩ := hdok.tree
  have hlt := hants.lt_num hp.wf (fun t ht => ⟨Nat.lt_trans (htl t ht) hv, hm.low t (htl t ht)⟩)
  have hlen := hlt.length_eq
  have hbi : (Cube.bump d.j i).getD i 0 = d.j.getD i 0 + 1 := by rw [Cube.bump_getD _ _ _ hi, if_pos rfl]
  have hti : (p.g.tails d.edge).getD i 0 ∈ p.g.tails d.edge := by
    rw [List.getD_eq_getElem?_getD, List.getElem?_eq_getElem (by omega), Option.getD_some]
    exact List.getElem_mem _
  generalize ht : (p.g.tails d.edge).getD i 0 = t at *
  have hsum := bump_sum hi
  have hw : ∀ x ≤ (Cube.bump d.j i).sum, within p x := by
    intro x hx
    unfold within
    cases hu : p.uniq with
    | true => exact .inl rfl
    | false =>
      have := hk hu
      exact .inr (by omega)
  obtain ⟨s1, a1, a2, a3, a4⟩ := hr s hm.low t (htl t hti) _ (hw _ (getD_le_sum (Cube.bump d.j i) i))
  have hv1 : s1 v = s v := a3.same v (Nat.le_refl _)
  have hl1 : Live p s1 v P pend := hm.live.mono hv1 a3.pre
  have hle := ((a2 t (htl t hti)).best).le_num hp.wf (Nat.lt_trans (htl t hti) hv)
  rw [List.length_map] at hle
  rw [hbi] at a1 a4
  unfold nextStep
  simp only []
  rw [ht, hbi, a1]
  rcases hD : (s1 t).D[d.j.getD i 0 + 1]? with _ | ant
  · simp only []
    refine ⟨s1, rfl, ⟨a2, hl1⟩, a3.mono (Nat.le_succ v), by rw [hv1], by rw [hv1]; exact List.prefix_refl _, ?_⟩
    intro hlt'
    rw [ht] at hlt'
    have : d.j.getD i 0 + 1 < (s1 t).D.length := by omega
    rw [List.getElem?_eq_none_iff] at hD
    omega
  · simp only []
    obtain ⟨hlt1, _⟩ := List.getElem?_eq_some_iff.1 hD
    by_cases hds : (s1 v).ds.contains (d.edge, Cube.bump d.j i) = true
    · rw [if_pos hds]
      refine ⟨s1, rfl, ⟨a2, hl1⟩, a3.mono (Nat.le_succ v), by rw [hv1], by rw [hv1]; exact List.prefix_refl _, fun _ => ?_⟩
      exact ((hl1.ds _).1 (by simpa using hds)).1
    · rw [if_neg hds]
      have hfb := forall₂_bump hlt hi (by rw [ht]; omega)
      obtain ⟨s2, nd, b1, b2, b3, b4, b5⟩ := create_spec hp hv hr a2 hdok.mem hfb (fun x hx => hw x (by
        obtain ⟨n, hn, rfl⟩ := List.mem_iff_getElem.1 hx
        have := getD_le_sum (Cube.bump d.j i) n
        rw [List.getD_eq_getElem?_getD, List.getElem?_eq_getElem hn, Option.getD_some] at this
        exact this))
      rw [b1]
      simp only []
      have hv2 : s2 v = s v := (b3.same v (Nat.le_refl _)).trans hv1
      have hl2 : Live p s2 v P pend := hl1.mono (b3.same v (Nat.le_refl _)) b3.pre
      have hpre : (s2 v).D <+: ({ s2 v with cand := (s2 v).cand ++ [nd], ds := (s2 v).ds ++ [nd.key] } : NodeState W φ T).D := List.prefix_refl _
      have hext := Ext.set hpre
      have hnz : ∃ x ∈ Cube.bump d.j i, x ≠ 0 := bump_ne_zero hi
      have hnew : nd.key ∉ keysOf (P ++ (s2 v).cand) := by
        intro h
        apply hds
        have : s2 v = s1 v := b3.same v (Nat.le_refl _)
        rw [this] at h
        have := (hl1.ds nd.key).2 ⟨h, by rw [b4]; exact hnz⟩
        rw [b4] at this
        simpa using this
      have hkk : keysOf (P ++ ((s2 v).cand ++ [nd])) = keysOf (P ++ (s2 v).cand) ++ [nd.key] := by simp [keysOf]
      refine ⟨_, rfl, ⟨NInv.set hpre b2, ?_⟩, (a3.mono (Nat.le_succ v)).trans ((b3.mono (Nat.le_succ v)).trans hext), ?_, ?_, ?_⟩
      · constructor <;> rw [set_self]
        · simp only []
          rw [hkk]
          exact List.nodup_append.2 ⟨hl2.keys, by simp, by
            intro a ha b hb
            rw [List.mem_singleton] at hb
            rintro rfl
            exact hnew (hb ▸ ha)⟩
        · intro c hc
          simp only [← List.append_assoc] at hc
          rcases List.mem_append.1 hc with hc | hc
          · exact (hl2.ok c hc).mono hext.pre
          · rw [List.mem_singleton] at hc
            subst hc
            exact b5.mono hext.pre
        · intro k
          simp only []
          rw [hkk, List.mem_append, List.mem_append, hl2.ds, List.mem_singleton]
          constructor
          · rintro (h | h)
            · exact ⟨.inl h.1, h.2⟩
            · refine ⟨.inr h, ?_⟩
              rw [h, b4]
              exact hnz
          · rintro ⟨h1 | h1, h2⟩
            · exact .inl ⟨h1, h2⟩
            · exact .inr h1
        · exact hl2.sub
        · exact hl2.cov
        · exact hl2.best
        · exact hl2.yld
        · intro e he
          simp only []
          rcases hl2.init e he with h | ⟨h1, I, h2, h3, h4⟩
          · exact .inl (by rw [hkk]; exact List.mem_append.2 (.inl h))
          · refine .inr ⟨h1, I, h2, h3, fun k hk => ?_⟩
            obtain ⟨c, h5, h6⟩ := h4 k hk
            exact ⟨c, by rw [← List.append_assoc]; exact List.mem_append.2 (.inl h5), h6⟩
        · intro c hc h1 i' h2 h3
          simp only []
          rw [hkk]
          exact List.mem_append.2 (.inl (hl2.closed c hc h1 i' h2 h3))
        · intro hu
          obtain ⟨h1, h2, h3, h4⟩ := hl2.pos hu
          refine ⟨h1, ?_, h3, h4⟩
          intro c hc
          simp only [List.mem_append, List.mem_singleton] at hc
          rcases hc with hc | rfl
          · exact h2 c hc
          · have : c.j = Cube.bump d.j i := congrArg Prod.snd b4
            rw [this, hsum]
            simp only []
            rw [hv2]
            exact (hk hu).1
      · rw [set_self]
        simp only []
        rw [hv2]
      · rw [set_self]
        simp only []
        rw [hv2]
        exact List.prefix_append _ _
      · intro _
        rw [set_self]
        simp only []
        rw [hkk, b4]
        simp

theorem lazyNext_steps {P : List (Item W φ)} {pend : Option (Nat × List Nat)} {d : Item W φ} (hd : d ∈ P) (is : List Nat) : ∀ s : State W φ T, Mid p s v P pend →
    (p.uniq = false → d.j.sum + 1 ≤ (s v).D.length ∧ (s v).D.length < p.kPrime) → (∀ i ∈ is, i < d.j.length) →
    ∃ s', lazyNext p rec v d s is = some s' ∧ Mid p s' v P pend ∧ Ext (v + 1) s s' ∧ (s' v).D = (s v).D ∧ (s v).cand <+: (s' v).cand ∧ ∀ i ∈ is, Made p s' v P d i := by
  induction is with
  | nil => exact fun s hm _ _ => ⟨s, rfl, hm, Ext.refl _ _, rfl, List.prefix_refl _, by simp⟩
  | cons i is ih =>
    intro s hm hk hi
    obtain ⟨s1, a1, a2, a3, a4, a5, a6⟩ := nextStep_spec hp hv hr hm hd hk (hi i (by simp))
    obtain ⟨s2, b1, b2, b3, b4, b5, b6⟩ := ih s1 a2 (by rw [a4]; exact hk) fun i h => hi i (by simp [h])
    refine ⟨s2, ?_, b2, a3.trans b3, b4.trans a4, a5.trans b5, ?_⟩
    · rw [lazyNext, a1]
      exact b1
    · intro i' hi'
      rcases List.mem_cons.1 hi' with rfl | hi'
      · intro h
        obtain ⟨c, hc, hk⟩ := List.mem_map.1 (a6 h)
        refine List.mem_map.2 ⟨c, ?_, hk⟩
        rcases List.mem_append.1 hc with hc | hc
        · exact List.mem_append.2 (.inl hc)
        · exact List.mem_append.2 (.inr (b5.subset hc))
      · exact b6 i' hi'

/-- `LazyNext` makes the missing successors. -/
theorem lazyNext_spec {s : State W φ T} {P : List (Item W φ)} {pend : Option (Nat × List Nat)} (hm : Mid p s v P pend) {d : Item W φ} (hd : d ∈ P)
    (hpend : ∀ k, pend = some k → k = d.key) (hk : p.uniq = false → d.j.sum + 1 ≤ (s v).D.length ∧ (s v).D.length < p.kPrime) :
    ∃ s', lazyNext p rec v d s (List.range d.j.length) = some s' ∧ Mid p s' v P none ∧ Ext (v + 1) s s' ∧ (s' v).D = (s v).D := by
  obtain ⟨s1, a1, a2, a3, a4, a5, a6⟩ := lazyNext_steps hp hv hr hd (List.range d.j.length) s hm hk (by simp)
  refine ⟨s1, a1, ⟨a2.low, { a2.live with closed := ?_ }⟩, a3, a4⟩
  intro c hc _ i hi hlt
  by_cases hcd : pend = some c.key
  · have hkey := hpend _ hcd
    have e1 : c.edge = d.edge := congrArg Prod.fst hkey
    have e2 : c.j = d.j := congrArg Prod.snd hkey
    rw [e1, e2] at hlt ⊢
    rw [e2] at hi
    exact a6 i (by simpa using hi) hlt
  · exact a2.live.closed c hc hcd i hi hlt

theorem antYields_spec {ts js : List Nat} {ch : List Tree} : ∀ s : State W φ T, (∀ u < v, NInv p s u) → Ants s ts js ch → (∀ t ∈ ts, t < v) → (∀ i ∈ js, within p i) →
    ∃ s', antYields rec s (ts.zip js) = some (s', ch.map fun t => yieldOf p.traverse t) ∧ (∀ u < v, NInv p s' u) ∧ Ext v s s' := by
  induction ts generalizing js ch with
  | nil =>
    intro s hs ha _ _
    cases ha
    exact ⟨s, rfl, hs, Ext.refl _ _⟩
  | cons t ts ih =>
    intro s hs ha ht hj
    cases ha with
    | @cons _ i c _ js cs x y =>
      obtain ⟨s1, a1, a2, a3, a4⟩ := hr s hs t (ht t (by simp)) i (hj i (by simp))
      obtain ⟨d, d1, d2⟩ := x
      have d3 := prefix_getElem? (a3.pre t) d1
      obtain ⟨s2, b1, b2, b3⟩ := ih s1 a2 (y.mono a3.pre) (fun t h => ht t (by simp [h])) (fun i h => hj i (by simp [h]))
      refine ⟨s2, ?_, b2, a3.trans b3⟩
      rw [List.zip_cons_cons, antYields, a1, d3]
      simp only []
      rw [b1]
      simp only [List.map_cons]
      rw [(a2 t (ht t (by simp))).yld d (List.mem_of_getElem? d3), d2]

end

/-- Without a filter, different index vectors give different lists of antecedents. -/
theorem Ants.inj {p : Params W φ T α} (hu : p.uniq = false) {s : State W φ T} {ts js js' : List Nat} {ch : List Tree} (h : Ants s ts js ch) (h' : Ants s ts js' ch)
    (hn : ∀ t ∈ ts, NInv p s t) : js = js' := by
  induction h generalizing js' with
  | nil => cases h'; rfl
  | @cons t i c ts js cs a _ ih =>
    cases h' with
    | @cons _ i' _ _ js' _ a' b' =>
      have hnd := (hn t (by simp)).best.nodup
      have hc : cls p = fun t => (.inl t : Tree ⊕ T) := by
        funext t
        simp [cls, hu]
      rw [hc, List.nodup_map_iff (fun _ _ h => Sum.inl.inj h)] at hnd
      have e1 := at_iff.1 a
      have e2 := at_iff.1 a'
      obtain ⟨l1, g1⟩ := List.getElem?_eq_some_iff.1 e1
      obtain ⟨l2, g2⟩ := List.getElem?_eq_some_iff.1 e2
      have : i = i' := (hnd.getElem_inj_iff).1 (g1.trans g2.symm)
      rw [this, ih b' fun t ht => hn t (by simp [ht])]

/-- The trees of objects are derivations. -/
theorem ItemOk.deriv {p : Params W φ T α} (wf : WF p.g) {s : State W φ T} {v : Nat} (hv : v < p.g.nodes.length) (hn : ∀ u < v, NInv p s u) {c : Item W φ}
    (h : ItemOk p s v c) : IsDeriv p.g v c.tree := by
  obtain ⟨ch, h1, h2⟩ := h.tree
  rw [h1, isDeriv_iff]
  refine ⟨h.mem, ?_⟩
  have htl := wf.topo v hv c.edge h.mem
  generalize p.g.tails c.edge = ts at h2 htl
  generalize c.j = js at h2
  clear h1 h
  induction h2 with
  | nil => exact .nil
  | @cons t i c' ts js cs a _ ih =>
    refine .cons ?_ (ih fun t ht => htl t (by simp [ht]))
    exact (hn t (htl t (by simp))).best.deriv c' (List.mem_of_getElem? (at_iff.1 a))

/-- Index vectors below bounds. -/
def vecs : List Nat → List (List Nat)
  | [] => [[]]
  | n :: ns => (List.range n).flatMap fun i => (vecs ns).map (i :: ·)

theorem mem_vecs {p : Params W φ T α} {ts js : List Nat} (h : List.Forall₂ (fun j t => j < num p t) js ts) : js ∈ vecs (ts.map (num p)) := by
  induction h with
  | nil => simp [vecs]
  | @cons j t js ts a _ ih =>
    rw [List.map_cons, vecs, List.mem_flatMap]
    exact ⟨j, by simpa using a, List.mem_map.2 ⟨js, ih, rfl⟩⟩

/-- All the combinations at a node. -/
noncomputable def allKeys (p : Params W φ T α) (v : Nat) : List (Nat × List Nat) :=
  (p.g.inE v).flatMap fun e => (vecs ((p.g.tails e).map (num p))).map fun js => (e, js)

theorem Mid.length_le {p : Params W φ T α} (wf : WF p.g) {s : State W φ T} {v : Nat} (hv : v < p.g.nodes.length) {P : List (Item W φ)} {pend : Option (Nat × List Nat)}
    (h : Mid p s v P pend) : P.length + (s v).cand.length ≤ (allKeys p v).length := by
  have hsub : keysOf (P ++ (s v).cand) ⊆ allKeys p v := by
    intro k hk
    obtain ⟨c, hc, rfl⟩ := List.mem_map.1 hk
    have hok := h.live.ok c hc
    obtain ⟨ch, _, ha⟩ := hok.tree
    have htl := wf.topo v hv c.edge hok.mem
    refine List.mem_flatMap.2 ⟨c.edge, hok.mem, List.mem_map.2 ⟨c.j, mem_vecs ?_, rfl⟩⟩
    exact ha.lt_num wf fun t ht => ⟨Nat.lt_trans (htl t ht) hv, h.low t (htl t ht)⟩
  have := (List.subperm_of_subset h.live.keys hsub).length_le
  rw [keysOf, List.length_map, List.length_append] at this
  exact this

/-- The state of `v` after the candidate `d` was moved to the list of derivations. -/
theorem Mid.push {p : Params W φ T α} (hp : Laws p) {s s' : State W φ T} {v : Nat} (hv : v < p.g.nodes.length) {P : List (Item W φ)} (hm : Mid p s v P none)
    (hk : p.uniq = false → (s v).D.length < p.kPrime) {d : Item W φ} {rest : List (Item W φ)} (hpop : p.pop (s v).cand = some (d, rest))
    (hcls : cls p d.tree ∉ ((s v).D.map fun d => d.item.tree).map (cls p)) (hs : s' v = ⟨rest, (s v).D ++ [⟨d, yieldOf p.traverse d.tree⟩], (s v).ds⟩)
    (hpre : ∀ u, (s u).D <+: (s' u).D) (hlow : ∀ u < v, NInv p s' u) : Mid p s' v (P ++ [d]) (some d.key) := by
  obtain ⟨q1, q2⟩ := hp.pop_some _ _ _ hpop
  have hl := hm.live
  have hdc : d ∈ (s v).cand := q1.mem_iff.2 (by simp)
  have hdok := hl.ok d (List.mem_append.2 (.inr hdc))
  have hder := hdok.deriv hp.wf hv hm.low
  have hperm : (P ++ (s v).cand).Perm (P ++ [d] ++ rest) := by
    rw [List.append_assoc]
    exact q1.append_left P
  have hkeys : ∀ k, k ∈ keysOf (P ++ (s v).cand) ↔ k ∈ keysOf (P ++ [d] ++ rest) := fun k => (hperm.map Item.key).mem_iff
  have hmiss : ∀ t, IsDeriv p.g v t → cls p t ∉ ((s v).D.map fun d => d.item.tree).map (cls p) → t.weight p.w ≤ d.tree.weight p.w := by
    intro t ht hc
    obtain ⟨c, h1, h2⟩ := hl.exists_cand hp.wf hv hm.low hk ht hc
    rw [← hdok.score]
    exact le_trans h2 (q2 c h1)
  have hmap : (((s v).D ++ [(⟨d, yieldOf p.traverse d.tree⟩ : Entry W φ T)]).map fun d => d.item.tree) = ((s v).D.map fun d => d.item.tree) ++ [d.tree] := by simp
  refine ⟨hlow, ?_⟩
  constructor <;> rw [hs]
  · exact (hperm.map Item.key).nodup_iff.1 hl.keys
  · intro c hc
    exact (hl.ok c (hperm.mem_iff.2 hc)).mono hpre
  · intro k
    rw [← hkeys]
    exact hl.ds k
  · intro x hx
    rcases List.mem_append.1 hx with hx | hx
    · exact List.mem_append.2 (.inl (hl.sub x hx))
    · rw [List.mem_singleton] at hx
      subst hx
      simp
  · intro c hc
    rw [hmap, List.map_append, List.mem_append]
    rcases List.mem_append.1 hc with hc | hc
    · exact .inl (hl.cov c hc)
    · rw [List.mem_singleton] at hc
      subst hc
      exact .inr (by simp)
  · rw [hmap]
    generalize hL : ((s v).D.map fun d => d.item.tree) = L at *
    have hb := hl.best
    rw [hL] at hb
    refine ⟨?_, ?_, ?_, ?_⟩
    · intro t ht
      rcases List.mem_append.1 ht with ht | ht
      · exact hb.deriv t ht
      · rw [List.mem_singleton] at ht
        rw [ht]
        exact hder
    · rw [List.map_append, List.nodup_append]
      refine ⟨hb.nodup, by simp, ?_⟩
      intro a ha b hb' hab
      simp only [List.map_cons, List.map_nil, List.mem_singleton] at hb'
      exact hcls (hb' ▸ hab ▸ ha)
    · rw [List.pairwise_append]
      refine ⟨hb.sorted, by simp, ?_⟩
      intro a ha b hb'
      rw [List.mem_singleton] at hb'
      rw [hb']
      exact hb.dom d.tree hder a ha (.inr hcls)
    · intro t ht t' ht' hor
      rcases List.mem_append.1 ht' with ht' | ht'
      · refine hb.dom t ht t' ht' ?_
        rcases hor with h | h
        · exact .inl h
        · exact .inr fun h' => h (by rw [List.map_append]; exact List.mem_append.2 (.inl h'))
      · rw [List.mem_singleton] at ht'
        subst ht'
        refine hmiss t ht ?_
        rcases hor with h | h
        · rwa [h]
        · exact fun h' => h (by rw [List.map_append]; exact List.mem_append.2 (.inl h'))
  · intro x hx
    rcases List.mem_append.1 hx with hx | hx
    · exact hl.yld x hx
    · rw [List.mem_singleton] at hx
      subst hx
      rfl
  · intro e he
    simp only []
    rcases hl.init e he with h | ⟨h1, I, h2, h3, h4⟩
    · exact .inl ((hkeys _).1 h)
    · refine .inr ⟨h1, I, h2, h3, fun k hk => ?_⟩
      obtain ⟨c, h5, h6⟩ := h4 k hk
      exact ⟨c, hperm.mem_iff.1 h5, h6⟩
  · intro c hc hne i hi hlt
    simp only []
    rw [← hkeys]
    rcases List.mem_append.1 hc with hc | hc
    · exact hl.closed c hc (by simp) i hi hlt
    · rw [List.mem_singleton] at hc
      subst hc
      exact absurd rfl hne
  · intro hu
    obtain ⟨h1, h2, h3, h4⟩ := hl.pos hu
    refine ⟨?_, ?_, ?_, ?_⟩
    · simp only [List.map_append, List.map_cons, List.map_nil]
      rw [← h1]
    · intro c hc
      have := h2 c (q1.mem_iff.2 (List.mem_cons.2 (.inr hc)))
      simp only [List.length_append, List.length_singleton]
      omega
    · intro i x hx
      simp only [] at hx
      rw [List.getElem?_append] at hx
      split at hx
      · exact h3 i x hx
      · obtain ⟨g1, g2⟩ := List.getElem?_eq_some_iff.1 hx
        simp only [List.length_singleton] at g1
        have : i = (s v).D.length := by omega
        subst this
        simp at g2
        subst g2
        exact h2 d hdc
    · have := hk hu
      simp only [List.length_append, List.length_singleton]
      omega

/-- The state of `v` after the candidate `d` was thrown away by the filter. -/
theorem Mid.skip {p : Params W φ T α} (hp : Laws p) {s s' : State W φ T} {v : Nat} {P : List (Item W φ)} (hm : Mid p s v P none)
    (hu : p.uniq = true) {d : Item W φ} {rest : List (Item W φ)} (hpop : p.pop (s v).cand = some (d, rest))
    (hcls : cls p d.tree ∈ ((s v).D.map fun d => d.item.tree).map (cls p)) (hs : s' v = ⟨rest, (s v).D, (s v).ds⟩)
    (hpre : ∀ u, (s u).D <+: (s' u).D) (hlow : ∀ u < v, NInv p s' u) : Mid p s' v (P ++ [d]) (some d.key) := by
  obtain ⟨q1, q2⟩ := hp.pop_some _ _ _ hpop
  have hl := hm.live
  have hperm : (P ++ (s v).cand).Perm (P ++ [d] ++ rest) := by
    rw [List.append_assoc]
    exact q1.append_left P
  have hkeys : ∀ k, k ∈ keysOf (P ++ (s v).cand) ↔ k ∈ keysOf (P ++ [d] ++ rest) := fun k => (hperm.map Item.key).mem_iff
  refine ⟨hlow, ?_⟩
  constructor <;> rw [hs]
  · exact (hperm.map Item.key).nodup_iff.1 hl.keys
  · intro c hc
    exact (hl.ok c (hperm.mem_iff.2 hc)).mono hpre
  · intro k
    rw [← hkeys]
    exact hl.ds k
  · intro x hx
    exact List.mem_append.2 (.inl (hl.sub x hx))
  · intro c hc
    rcases List.mem_append.1 hc with hc | hc
    · exact hl.cov c hc
    · rw [List.mem_singleton] at hc
      subst hc
      exact hcls
  · exact hl.best
  · exact hl.yld
  · intro e he
    simp only []
    rcases hl.init e he with h | ⟨h1, _⟩
    · exact .inl ((hkeys _).1 h)
    · rw [hu] at h1
      cases h1
  · intro c hc hne i hi hlt
    simp only []
    rw [← hkeys]
    rcases List.mem_append.1 hc with hc | hc
    · exact hl.closed c hc (by simp) i hi hlt
    · rw [List.mem_singleton] at hc
      subst hc
      exact absurd rfl hne
  · intro h
    rw [hu] at h
    cases h

/-- Without a filter, a candidate is never a derivation that was found before. -/
theorem Mid.new {p : Params W φ T α} (wf : WF p.g) (hu : p.uniq = false) {s : State W φ T} {v : Nat} (hv : v < p.g.nodes.length) {P : List (Item W φ)}
    (hm : Mid p s v P none) {d : Item W φ} (hd : d ∈ (s v).cand) : cls p d.tree ∉ ((s v).D.map fun d => d.item.tree).map (cls p) := by
  intro h
  have hc : ∀ t, cls p t = (.inl t : Tree ⊕ T) := fun t => by simp [cls, hu]
  simp only [List.mem_map, hc, Sum.inl.injEq, exists_eq_right] at h
  obtain ⟨x, hx, hxd⟩ := h
  have hl := hm.live
  have hxP := hl.sub x hx
  have o1 := hl.ok _ (List.mem_append.2 (.inl hxP))
  have o2 := hl.ok d (List.mem_append.2 (.inr hd))
  obtain ⟨c1, e1, a1⟩ := o1.tree
  obtain ⟨c2, e2, a2⟩ := o2.tree
  rw [e1, e2] at hxd
  injection hxd with f1 f2
  subst f2
  rw [f1] at a1
  have htl := wf.topo v hv d.edge o2.mem
  have := a1.inj hu a2 fun t ht => hm.low t (htl t ht)
  have hk : x.item.key = d.key := Prod.ext f1 this
  have := hl.keys
  rw [keysOf, List.map_append, List.nodup_append] at this
  exact this.2.2 _ (List.mem_map.2 ⟨_, hxP, rfl⟩) _ (List.mem_map.2 ⟨_, hd, rfl⟩) hk

theorem popLoop_spec {p : Params W φ T α} (hp : Laws p) {rec : Rec W φ T} {v : Nat} (hv : v < p.g.nodes.length) (hr : RecOk p rec v) {k : Nat} (hk : within p k)
    (fuel : Nat) : ∀ (s : State W φ T) (P : List (Item W φ)), Mid p s v P none → (s v).D.length ≤ k → (allKeys p v).length < fuel + P.length →
    ∃ s' P' pend, popLoop p rec v k fuel s = some s' ∧ Mid p s' v P' pend ∧ Ext (v + 1) s s' ∧
      (∀ x, pend = some x → (s' v).D.getLast?.map (fun d => d.item.key) = some x) ∧ (k < (s' v).D.length ∨ num p v ≤ (s' v).D.length) := by
  induction fuel with
  | zero =>
    intro s P hm _ hf
    have := hm.length_le hp.wf hv
    omega
  | succ fuel ih =>
    intro s P hm hlen hf
    have hkp : p.uniq = false → (s v).D.length < p.kPrime := by
      intro hu
      rcases hk with h | h
      · rw [hu] at h
        cases h
      · omega
    rw [popLoop]
    rcases hpop : p.pop (s v).cand with _ | ⟨d, rest⟩
    · simp only []
      refine ⟨s, P, none, rfl, hm, Ext.refl _ _, by simp, .inr ?_⟩
      have hc := (hp.pop_none _).1 hpop
      have := num_le_of_all hp.wf hv (L := (s v).D.map fun d => d.item.tree) (fun t ht => by
        by_contra hn
        obtain ⟨c, h1, _⟩ := hm.live.exists_cand hp.wf hv hm.low hkp ht hn
        rw [hc] at h1
        cases h1)
      rw [List.length_map] at this
      exact this
    · simp only []
      obtain ⟨q1, q2⟩ := hp.pop_some _ _ _ hpop
      have hdc : d ∈ (s v).cand := q1.mem_iff.2 (by simp)
      have hdok := hm.live.ok d (List.mem_append.2 (.inr hdc))
      have htl := hp.wf.topo v hv d.edge hdok.mem
      obtain ⟨ch, t1, t2⟩ := hdok.tree
      have hpre0 : (s v).D <+: ({ s v with cand := rest } : NodeState W φ T).D := List.prefix_refl _
      have hw : ∀ i ∈ d.j, within p i := by
        intro i hi
        cases hu : p.uniq with
        | true => exact .inl hu
        | false =>
          have h1 := (hm.live.pos hu).2.1 d hdc
          obtain ⟨n, hn, rfl⟩ := List.mem_iff_getElem.1 hi
          have h2 := getD_le_sum d.j n
          rw [List.getD_eq_getElem?_getD, List.getElem?_eq_getElem hn, Option.getD_some] at h2
          exact hk.mono (by omega)
      obtain ⟨s1, a1, a2, a3⟩ := antYields_spec hp hv hr _ (NInv.set hpre0 hm.low) (t2.mono (Ext.set hpre0).pre) htl hw
      rw [a1]
      simp only []
      have hv1 : s1 v = ⟨rest, (s v).D, (s v).ds⟩ := by
        rw [a3.same v (Nat.le_refl _), set_self]
      have hy : p.traverse d.edge (ch.map fun t => yieldOf p.traverse t) = yieldOf p.traverse d.tree := by
        rw [t1, yieldOf_node]
      rw [hy]
      have hext1 : Ext (v + 1) s s1 := (Ext.set hpre0).trans (a3.mono (Nat.le_succ v))
      have hyl : (s v).D.map Entry.yield = (s v).D.map fun d => yieldOf p.traverse d.item.tree :=
        List.map_congr_left fun x hx => hm.live.yld x hx
      by_cases hf' : (p.uniq && ((s1 v).D.map Entry.yield).contains (yieldOf p.traverse d.tree)) = true
      · rw [if_pos hf']
        simp only [Bool.and_eq_true, List.contains_iff_mem] at hf'
        obtain ⟨hu, hmem⟩ := hf'
        rw [hv1] at hmem
        simp only [] at hmem
        have hcls : cls p d.tree ∈ ((s v).D.map fun d => d.item.tree).map (cls p) := by
          rw [hyl] at hmem
          obtain ⟨x, h1, h2⟩ := List.mem_map.1 hmem
          refine List.mem_map.2 ⟨x.item.tree, List.mem_map.2 ⟨x, h1, rfl⟩, ?_⟩
          simp [cls, hu, h2]
        have hm1 := hm.skip hp hu hpop hcls hv1 hext1.pre a2
        obtain ⟨s2, b1, b2, b3, b4⟩ := lazyNext_spec hp hv hr hm1 (d := d) (by simp) (fun k hk => (Option.some.inj hk).symm)
          (fun h => by rw [hu] at h; cases h)
        rw [b1]
        simp only []
        obtain ⟨s3, P', pend, c1, c2, c3, c4, c5⟩ := ih s2 _ b2 (by rw [b4, hv1]; exact hlen) (by simp; omega)
        exact ⟨s3, P', pend, c1, c2, hext1.trans (b3.trans c3), c4, c5⟩
      · rw [if_neg hf']
        have hcls : cls p d.tree ∉ ((s v).D.map fun d => d.item.tree).map (cls p) := by
          cases hu : p.uniq with
          | false => exact hm.new hp.wf hu hv hdc
          | true =>
            intro h
            apply hf'
            rw [hu, hv1]
            simp only [Bool.true_and, List.contains_iff_mem]
            rw [hyl]
            obtain ⟨t, h1, h2⟩ := List.mem_map.1 h
            obtain ⟨x, h3, rfl⟩ := List.mem_map.1 h1
            refine List.mem_map.2 ⟨x, h3, ?_⟩
            simpa [cls, hu] using h2
        have hpre1 : (s1 v).D <+: ({ s1 v with D := (s1 v).D ++ [(⟨d, yieldOf p.traverse d.tree⟩ : Entry W φ T)] } : NodeState W φ T).D := List.prefix_append _ _
        have hext2 := hext1.trans (Ext.set hpre1)
        have hm2 := hm.push hp hv hkp hpop hcls (s' := s1.set v { s1 v with D := (s1 v).D ++ [⟨d, yieldOf p.traverse d.tree⟩] })
          (by rw [set_self, hv1]) hext2.pre (NInv.set hpre1 a2)
        have hlen2 : ((s1.set v { s1 v with D := (s1 v).D ++ [(⟨d, yieldOf p.traverse d.tree⟩ : Entry W φ T)] }) v).D = (s v).D ++ [⟨d, yieldOf p.traverse d.tree⟩] := by
          rw [set_self, hv1]
        by_cases hkl : k < ((s1.set v { s1 v with D := (s1 v).D ++ [(⟨d, yieldOf p.traverse d.tree⟩ : Entry W φ T)] }) v).D.length
        · rw [if_pos hkl]
          refine ⟨_, _, _, rfl, hm2, hext2, ?_, .inl hkl⟩
          intro x hx
          rw [hlen2]
          simpa using hx
        · rw [if_neg hkl]
          rw [hlen2, List.length_append, List.length_singleton] at hkl
          obtain ⟨s2, b1, b2, b3, b4⟩ := lazyNext_spec hp hv hr hm2 (d := d) (by simp) (fun k hk => (Option.some.inj hk).symm) (fun hu => by
            rw [hlen2, List.length_append, List.length_singleton]
            have h1 := (hm.live.pos hu).2.1 d hdc
            rcases hk with h | h
            · rw [hu] at h
              cases h
            · omega)
          rw [b1]
          simp only []
          obtain ⟨s3, P', pend, c1, c2, c3, c4, c5⟩ := ih s2 _ b2 (by rw [b4, hlen2]; simp; omega) (by simp; omega)
          exact ⟨s3, P', pend, c1, c2, hext2.trans (b3.trans c3), c4, c5⟩

/-- A bound on the rounds. -/
noncomputable def rounds (p : Params W φ T α) : Nat := ((List.range p.g.nodes.length).map fun v => (allKeys p v).length).sum + 1

theorem lt_rounds {p : Params W φ T α} {v : Nat} (hv : v < p.g.nodes.length) : (allKeys p v).length < rounds p := by
  have : (allKeys p v).length ≤ ((List.range p.g.nodes.length).map fun v => (allKeys p v).length).sum := by
    have h := getD_le_sum ((List.range p.g.nodes.length).map fun v => (allKeys p v).length) v
    simpa [List.getD_eq_getElem?_getD, hv] using h
  unfold rounds
  omega

/-- A call for one node, given what calls for lower nodes do. -/
theorem lazyKthBest_step {p : Params W φ T α} (hp : Laws p) {fuel depth : Nat} (hf : rounds p ≤ fuel) {v : Nat} (hv : v < p.g.nodes.length)
    (hr : RecOk p (lazyKthBest p fuel depth) v) {s : State W φ T} (hs : ∀ u ≤ v, NInv p s u) {k : Nat} (hk : within p k) :
    ∃ s', lazyKthBest p fuel (depth + 1) s v k = some (s', (s' v).D[k]?) ∧ (∀ u ≤ v, NInv p s' u) ∧ Ext (v + 1) s s' ∧ (k < (s' v).D.length ∨ num p v ≤ (s' v).D.length) := by
  have low : ∀ {s' : State W φ T} {P : List (Item W φ)} {pend : Option (Nat × List Nat)}, Mid p s' v P pend →
      (∀ x, pend = some x → (s' v).D.getLast?.map (fun d => d.item.key) = some x) → ∀ u ≤ v, NInv p s' u := by
    intro s' P pend hm h u hu
    rcases Nat.lt_or_eq_of_le hu with hu | rfl
    · exact hm.low u hu
    · exact .inr ⟨P, pend, hm.live, h⟩
  obtain ⟨s1, P, pend, a1, a2, a3, a4⟩ := getCandidates_spec hp hv hr (fun u hu => hs u (by omega)) (hs v (Nat.le_refl _))
  rw [lazyKthBest]
  beta_reduce
  rw [a1]
  simp only []
  by_cases hkl : k < (s1 v).D.length
  · rw [if_pos hkl]
    exact ⟨s1, rfl, low a2 a4, a3, .inl hkl⟩
  · rw [if_neg hkl]
    have hkp : p.uniq = false → (s1 v).D.length < p.kPrime := by
      intro hu
      rcases hk with h | h
      · rw [hu] at h
        cases h
      · omega
    have hmid : ∃ s2, lastNext p (lazyKthBest p fuel depth) v s1 = some s2 ∧ Mid p s2 v P none ∧ Ext (v + 1) s1 s2 ∧
          (s2 v).D = (s1 v).D := by
      unfold lastNext
      rcases hD : (s1 v).D.getLast? with _ | d
      · refine ⟨s1, rfl, ?_, Ext.refl _ _, rfl⟩
        have : pend = none := by
          cases pend with
          | none => rfl
          | some x =>
            have := a4 x rfl
            rw [hD] at this
            cases this
        rwa [this] at a2
      · simp only []
        have hdm : d ∈ (s1 v).D := List.mem_of_getLast? hD
        refine lazyNext_spec hp hv hr a2 (a2.live.sub d hdm) ?_ ?_
        · intro x hx
          have := a4 x hx
          rw [hD] at this
          exact (Option.some.inj this).symm
        · intro hu
          refine ⟨?_, hkp hu⟩
          have hpos := List.length_pos_of_mem hdm
          rw [List.getLast?_eq_getElem?] at hD
          have := (a2.live.pos hu).2.2.1 _ d hD
          omega
    obtain ⟨s2, b1, b2, b3, b4⟩ := hmid
    rw [b1]
    simp only []
    obtain ⟨s3, P', pend', c1, c2, c3, c4, c5⟩ := popLoop_spec hp hv hr hk fuel s2 P b2 (by rw [b4]; omega) (by have := lt_rounds (p := p) hv; omega)
    rw [c1]
    exact ⟨s3, rfl, low c2 c4, a3.trans (b3.trans c3), c5⟩

theorem lazyKthBest_ok {p : Params W φ T α} (hp : Laws p) {fuel : Nat} (hf : rounds p ≤ fuel) (depth : Nat) :
    ∀ v ≤ depth, v ≤ p.g.nodes.length → RecOk p (lazyKthBest p fuel depth) v := by
  induction depth with
  | zero =>
    intro v hv _ s _ t ht
    omega
  | succ depth ih =>
    intro v hv hvn s hs t ht k hk
    obtain ⟨s', a1, a2, a3, a4⟩ := lazyKthBest_step hp hf (by omega) (ih t (by omega) (by omega)) (fun u hu => hs u (by omega)) hk
    refine ⟨s', a1, ?_, a3.mono (by omega), a4⟩
    intro u hu
    by_cases hut : u ≤ t
    · exact a2 u hut
    · exact (hs u hu).mono (a3.same u (by omega)) a3.pre

end Cdec.Dec.KBest
