import Verif.Train.MertInside
import Verif.Props.C34
import Verif.Props.C19
import Verif.HG.InsideLemmas
import Verif.HG.Forward
/-!
# C65: the segments of a forest's upper envelope are its best derivations
-/
namespace Cdec.Mert
open Cdec.HG Spec
variable {K : Type} [Field K] [LinearOrder K] [IsStrictOrderedRing K] {α : Type}

namespace Spec

/-- `out` is the translation of a derivation: the target side of the rule at its root with the variables replaced by the
translations of the subtrees. -/
inductive Yields (target : Nat → List Int) : Tree → List Int → Prop
  | mk {e : Nat} {ch : List Tree} {vals : List (List Int)} {out : List Int} (hlen : ch.length = vals.length)
      (hch : ∀ (i : Nat) (h : i < ch.length), Yields target ch[i] (vals[i]'(hlen ▸ h))) (hout : Dec.Spec.Replaced vals (target e) out) :
      Yields target (.node e ch) out

/-- The score of a derivation under the weights `origin + x * direction`. -/
def scoreAt (dm db : Nat → K) (t : Tree) (x : K) : K := t.total dm * x + t.total db

end Spec

/-- How a derivation is laid out in the parents of a point. -/
def enc : Tree → Prov
  | .node e ch => (ch.map fun t => enc t).foldl .pair (.edge e)

/-- A hull represents a set of lines with provenance: each of its points is one of them, and none exceeds its value. -/
structure Reps (D : K → K → Prov → Prop) (h : Hull K) : Prop where
  valid : Valid h
  sound : ∀ p ∈ h.points, D p.m p.b p.prov
  complete : ∀ m b q, D m b q → ∀ x, ((m * x + b : K) : WithBot K) ≤ value h.points x

theorem ensure_mem {srt : List (Pt K) → List (Pt K)} (hs : IsSlopeSort srt) (h : Hull K) :
    ∀ s ∈ (h.ensure srt).points, ∃ p ∈ h.points, s.m = p.m ∧ s.b = p.b ∧ s.prov = p.prov := by
  unfold Hull.ensure
  split
  · exact fun s hs => ⟨s, hs, rfl, rfl, rfl⟩
  · exact (C34_sort hs h).2.2

theorem Reps.add {srt : List (Pt K) → List (Pt K)} (hs : IsSlopeSort srt) {D E : K → K → Prov → Prop} {a b : Hull K} (ha : Reps D a) (hb : Reps E b) :
    Reps (fun m y q => D m y q ∨ E m y q) (a.add srt b) := by
  obtain ⟨h1, h2⟩ := C34_add hs a b hb.valid
  refine ⟨h2, ?_, ?_⟩
  · have hbs : ∀ s ∈ (b.ensure srt).points, E s.m s.b s.prov := by
      intro s hm
      obtain ⟨p, hp, e1, e2, e3⟩ := ensure_mem hs b s hm
      rw [e1, e2, e3]
      exact hb.sound p hp
    intro p hp
    unfold Hull.add at hp
    simp only [] at hp
    split at hp
    · exact Or.inr (hbs p hp)
    · rcases List.mem_append.1 hp with hp | hp
      · exact Or.inl (ha.sound p hp)
      · exact Or.inr (hbs p hp)
  · rintro m y q (h | h) x
    · rw [h1 x]
      exact le_trans (ha.complete m y q h x) (le_max_left _ _)
    · rw [h1 x]
      exact le_trans (hb.complete m y q h x) (le_max_right _ _)

theorem not_isOne {D : K → K → Prov → Prop} {h : Hull K} (hr : Reps D h) (hD : ∀ m b q, D m b q → q ≠ .none) : h.isOne ≠ true := by
  intro h1
  unfold Hull.isOne at h1
  split at h1
  · rename_i p hp
    have := hD _ _ _ (hr.sound p (by rw [hp]; simp))
    simp only [Bool.and_eq_true, Bool.not_eq_true', Pt.edge, Pt.hasParents] at h1
    cases hq : p.prov with
    | none => exact this hq
    | edge e => rw [hq] at h1; simp at h1
    | pair a b => rw [hq] at h1; simp at h1
  · cases h1

theorem Reps.mul {srt : List (Pt K) → List (Pt K)} (hs : IsSlopeSort srt) {D E : K → K → Prov → Prop} {a b : Hull K} (ha : Reps D a) (hb : Reps E b)
    (hD : ∀ m b q, D m b q → q ≠ .none) (hE : ∀ m b q, E m b q → q ≠ .none) :
    Reps (fun m y q => ∃ m1 y1 q1 m2 y2 q2, D m1 y1 q1 ∧ E m2 y2 q2 ∧ m = m1 + m2 ∧ y = y1 + y2 ∧ q = .pair q1 q2) (a.mul srt b) := by
  obtain ⟨h1, h2⟩ := C34_mul hs a b ha.valid hb.valid
  have ha1 := not_isOne ha hD
  have hb1 := not_isOne hb hE
  refine ⟨h2, ?_, ?_⟩
  · have has : ∀ s ∈ (a.ensure srt).points, D s.m s.b s.prov := by
      intro s hm
      obtain ⟨p, hp, e1, e2, e3⟩ := ensure_mem hs a s hm
      rw [e1, e2, e3]
      exact ha.sound p hp
    have hbs : ∀ s ∈ (b.ensure srt).points, E s.m s.b s.prov := by
      intro s hm
      obtain ⟨p, hp, e1, e2, e3⟩ := ensure_mem hs b s hm
      rw [e1, e2, e3]
      exact hb.sound p hp
    intro p hp
    unfold Hull.mul at hp
    rw [if_neg hb1, if_neg ha1] at hp
    simp only [] at hp
    split at hp
    · rename_i e he
      have hpe : e ∈ (a.ensure srt).points := by
        unfold Hull.edgePoint at he
        split at he
        · rename_i p' hp'
          split at he
          · cases he
            rw [hp']
            simp
          · cases he
        · cases he
      obtain ⟨r, hr, rfl⟩ := List.mem_map.1 hp
      exact ⟨e.m, e.b, e.prov, r.m, r.b, r.prov, has e hpe, hbs r hr, add_comm _ _, add_comm _ _, rfl⟩
    · obtain ⟨r, hr, s, hs', e1, e2, e3⟩ := merge_mem _ _ _ p hp
      exact ⟨r.m, r.b, r.prov, s.m, s.b, s.prov, has r hr, hbs s hs', e1, e2, e3⟩
  · rintro m y q ⟨m1, y1, q1, m2, y2, q2, h3, h4, rfl, rfl, rfl⟩ x
    rw [h1 x]
    have e : ((m1 + m2) * x + (y1 + y2) : K) = (m1 * x + y1) + (m2 * x + y2) := by ring
    rw [e, WithBot.coe_add]
    exact add_le_add (ha.complete m1 y1 q1 h3 x) (hb.complete m2 y2 q2 h4 x)

/-- The lines of the derivations of a node. -/
def DerivLine (g : Hypergraph α) (dm db : Nat → K) (v : Nat) (m b : K) (q : Prov) : Prop :=
  ∃ t, IsDeriv g v t ∧ m = t.total dm ∧ b = t.total db ∧ q = enc t

/-- The lines of the choices of derivations for the first tails of an edge. -/
def PartLine (g : Hypergraph α) (dm db : Nat → K) (e : Nat) (ts : List Nat) (m b : K) (q : Prov) : Prop :=
  ∃ ch : List Tree, List.Forall₂ (IsDeriv g) ts ch ∧ m = dm e + (ch.map fun t => t.total dm).sum ∧ b = db e + (ch.map fun t => t.total db).sum ∧
    q = (ch.map enc).foldl .pair (.edge e)

theorem foldl_pair_ne (l : List Prov) (q : Prov) (h : q ≠ .none) : l.foldl .pair q ≠ .none := by
  induction l generalizing q with
  | nil => exact h
  | cons a l ih => exact ih _ (by simp)

theorem enc_node (e : Nat) (ch : List Tree) : enc (.node e ch) = (ch.map enc).foldl .pair (.edge e) := by
  rw [enc]

theorem enc_ne (t : Tree) : enc t ≠ .none := by
  cases t with
  | node e ch => rw [enc_node]; exact foldl_pair_ne _ _ (by simp)

theorem hullEdge_reps {srt : List (Pt K) → List (Pt K)} (hs : IsSlopeSort srt) (g : Hypergraph α) (dm db : Nat → K) (acc : List (Hull K)) (e : Nat)
    (hacc : ∀ t ∈ g.tails e, Reps (DerivLine g dm db t) (acc.getD t .zero)) :
    Reps (PartLine g dm db e (g.tails e)) (hullEdge srt g dm db acc e) := by
  have key : ∀ (ts pre : List Nat) (h : Hull K), (∀ t ∈ ts, Reps (DerivLine g dm db t) (acc.getD t .zero)) → Reps (PartLine g dm db e pre) h →
      Reps (PartLine g dm db e (pre ++ ts)) (ts.foldl (fun s t => s.mul srt (acc.getD t .zero)) h) := by
    intro ts
    induction ts with
    | nil => intro pre h _ hr; simpa using hr
    | cons t ts ih =>
      intro pre h hts hr
      rw [List.foldl_cons, show pre ++ t :: ts = (pre ++ [t]) ++ ts by simp]
      refine ih (pre ++ [t]) _ (fun u hu => hts u (by simp [hu])) ?_
      have hm := hr.mul hs (hts t (by simp)) (by rintro m b q ⟨ch, _, _, _, rfl⟩; exact foldl_pair_ne _ _ (by simp))
        (by rintro m b q ⟨t', _, _, _, rfl⟩; exact enc_ne t')
      have hiff : ∀ m y q, (∃ m1 y1 q1 m2 y2 q2, PartLine g dm db e pre m1 y1 q1 ∧ DerivLine g dm db t m2 y2 q2 ∧ m = m1 + m2 ∧ y = y1 + y2 ∧ q = .pair q1 q2) ↔
          PartLine g dm db e (pre ++ [t]) m y q := by
        intro m y q
        constructor
        · rintro ⟨m1, y1, q1, m2, y2, q2, ⟨ch, hc, rfl, rfl, rfl⟩, ⟨t', ht, rfl, rfl, rfl⟩, rfl, rfl, rfl⟩
          refine ⟨ch ++ [t'], List.rel_append hc (.cons ht .nil), ?_, ?_, ?_⟩
          · simp [add_assoc]
          · simp [add_assoc]
          · simp
        · rintro ⟨ch, hc, rfl, rfl, rfl⟩
          have hlen := hc.length_eq
          rcases List.eq_nil_or_concat ch with rfl | ⟨ch', t', rfl⟩
          · simp at hlen
          · simp only [List.length_append, List.length_singleton, List.concat_eq_append, Nat.add_right_cancel_iff] at hlen
            rw [List.concat_eq_append] at hc ⊢
            have hc1 : List.Forall₂ (IsDeriv g) pre ch' ∧ IsDeriv g t t' := by
              have h1 := List.forall₂_take_append _ _ _ (List.forall₂_iff_get.2 ⟨by simp [hlen], fun i h1 h2 => (List.forall₂_iff_get.1 hc).2 i h1 h2⟩ : List.Forall₂ (IsDeriv g) (pre ++ [t]) (ch' ++ [t'])).flip
              have h2 := List.forall₂_drop_append _ _ _ (hc : List.Forall₂ (IsDeriv g) (pre ++ [t]) (ch' ++ [t'])).flip
              rw [hlen] at h1 h2
              simp at h1 h2
              exact ⟨h1.flip, h2⟩
            exact ⟨_, _, _, _, _, _, ⟨ch', hc1.1, rfl, rfl, rfl⟩, ⟨t', hc1.2, rfl, rfl, rfl⟩, by simp [add_assoc], by simp [add_assoc], by simp⟩
      exact ⟨hm.valid, fun p hp => (hiff _ _ _).1 (hm.sound p hp), fun m b q h x => hm.complete m b q ((hiff _ _ _).2 h) x⟩
  unfold hullEdge
  have h0 : Reps (PartLine g dm db e []) (Hull.ofEdge (dm e) (db e) e) := by
    obtain ⟨c1, c2, _⟩ := C34_constants (dm e) (db e) e true
    refine ⟨c1, ?_, ?_⟩
    · intro p hp
      simp only [Hull.ofEdge, List.mem_singleton] at hp
      subst hp
      exact ⟨[], .nil, by simp, by simp, rfl⟩
    · rintro m b q ⟨ch, hc, rfl, rfl, rfl⟩ x
      cases hc
      rw [c2 x]
      simp
  simpa using key (g.tails e) [] _ hacc h0

theorem hullNode_ne (srt : List (Pt K) → List (Pt K)) (g : Hypergraph α) (dm db : Nat → K) (i : Nat) (acc : List (Hull K)) (j : Nat) (h : j ≠ i) :
    (hullNode srt g dm db i acc).getD j .zero = acc.getD j .zero := by
  unfold hullNode
  induction g.inE i generalizing acc with
  | nil => rfl
  | cons e es ih => rw [List.foldl_cons, ih, getD_set_ne _ _ _ _ _ h]

theorem hullNode_length (srt : List (Pt K) → List (Pt K)) (g : Hypergraph α) (dm db : Nat → K) (i : Nat) (acc : List (Hull K)) :
    (hullNode srt g dm db i acc).length = acc.length := by
  unfold hullNode
  induction g.inE i generalizing acc with
  | nil => rfl
  | cons e es ih => rw [List.foldl_cons, ih, List.length_set]

theorem hullNode_reps {srt : List (Pt K) → List (Pt K)} (hs : IsSlopeSort srt) {g : Hypergraph α} (wf : HG.WF g) (dm db : Nat → K) (i : Nat) (hi : i < g.nodes.length)
    (acc : List (Hull K)) (hlen : acc.length = g.nodes.length) (hz : acc.getD i .zero = .zero)
    (hacc : ∀ t, t < i → Reps (DerivLine g dm db t) (acc.getD t .zero)) :
    Reps (DerivLine g dm db i) ((hullNode srt g dm db i acc).getD i .zero) := by
  have key : ∀ (es : List Nat) (acc : List (Hull K)) (D : K → K → Prov → Prop), acc.length = g.nodes.length → (∀ e ∈ es, e ∈ g.inE i) →
      (∀ t, t < i → Reps (DerivLine g dm db t) (acc.getD t .zero)) → Reps D (acc.getD i .zero) →
      Reps (fun m b q => D m b q ∨ ∃ e ∈ es, PartLine g dm db e (g.tails e) m b q)
        ((es.foldl (fun acc e => acc.set i ((acc.getD i .zero).add srt (hullEdge srt g dm db acc e))) acc).getD i .zero) := by
    intro es
    induction es with
    | nil => intro acc D _ _ _ hD; simpa using hD
    | cons e es ih =>
      intro acc D hl hes ha hD
      rw [List.foldl_cons]
      have he : Reps (PartLine g dm db e (g.tails e)) (hullEdge srt g dm db acc e) :=
        hullEdge_reps hs g dm db acc e (fun t ht => ha t (wf.topo i hi e (hes e (by simp)) t ht))
      have := ih (acc.set i ((acc.getD i .zero).add srt (hullEdge srt g dm db acc e))) _ (by simpa using hl) (fun u hu => hes u (by simp [hu]))
        (fun t ht => by rw [getD_set_ne _ _ _ _ _ (by omega)]; exact ha t ht)
        (by rw [getD_set _ _ _ _ _ (by omega), if_pos rfl]; exact hD.add hs he)
      refine ⟨this.valid, fun p hp => ?_, fun m b q h x => this.complete m b q ?_ x⟩
      · rcases this.sound p hp with (h | h) | ⟨u, hu, h⟩
        · exact .inl h
        · exact .inr ⟨e, by simp, h⟩
        · exact .inr ⟨u, by simp [hu], h⟩
      · rcases h with h | ⟨u, hu, h⟩
        · exact .inl (.inl h)
        · rcases List.mem_cons.1 hu with rfl | hu
          · exact .inl (.inr h)
          · exact .inr ⟨u, hu, h⟩
  have h0 : Reps (fun _ _ _ => False) (acc.getD i .zero) := by
    rw [hz]
    exact ⟨(C34_constants (0 : K) 0 0 true).2.2.2.2.1, by simp [Hull.zero], fun _ _ _ h => h.elim⟩
  have := key (g.inE i) acc _ hlen (fun e he => he) hacc h0
  have hiff : ∀ m b q, (False ∨ ∃ e ∈ g.inE i, PartLine g dm db e (g.tails e) m b q) ↔ DerivLine g dm db i m b q := by
    intro m b q
    constructor
    · rintro (h | ⟨e, he, ch, hc, rfl, rfl, rfl⟩)
      · exact h.elim
      · refine ⟨.node e ch, isDeriv_iff.2 ⟨he, hc⟩, ?_, ?_, (enc_node e ch).symm⟩
        · rw [Tree.total]
        · rw [Tree.total]
    · rintro ⟨⟨e, ch⟩, ht, rfl, rfl, rfl⟩
      obtain ⟨he, hc⟩ := isDeriv_iff.1 ht
      exact .inr ⟨e, he, ch, hc, by rw [Tree.total], by rw [Tree.total], enc_node e ch⟩
  exact ⟨this.valid, fun p hp => (hiff _ _ _).1 (this.sound p hp), fun m b q h x => this.complete m b q ((hiff _ _ _).2 h) x⟩

theorem insideHulls_reps {srt : List (Pt K) → List (Pt K)} (hs : IsSlopeSort srt) {g : Hypergraph α} (wf : HG.WF g) (dm db : Nat → K) (v : Nat) (hv : v < g.nodes.length) :
    Reps (DerivLine g dm db v) ((insideHulls srt g dm db).getD v .zero) := by
  induction v using Nat.strong_induction_on with
  | _ v ih =>
    obtain ⟨acc, h1, h2, h3, h4⟩ := (forward (Hull.zero : Hull K) (hullNode srt g dm db) (List.replicate g.nodes.length .zero)
      (hullNode_length srt g dm db) (hullNode_ne srt g dm db) g.nodes.length).2.2 v hv
    change (insideHulls srt g dm db).getD v .zero = _ at h4
    change ∀ k < v, acc.getD k .zero = (insideHulls srt g dm db).getD k .zero at h2
    rw [h4]
    refine hullNode_reps hs wf dm db v hv acc (by simpa using h1) ?_ fun t ht => ?_
    · rw [h3 v (Nat.le_refl _)]
      simp [List.getD_eq_getElem?_getD, List.getElem?_replicate, hv]
    · rw [h2 t ht]
      exact ih t ht (by omega)

/-! ## Reading a derivation back from a point -/

theorem spine_foldl (g : Hypergraph α) (target : Nat → List Int) (e : Nat) (ch : List Tree) (vals : List (List Int))
    (h : List.Forall₂ (fun t v => constructTranslation g target (enc t) = some v) ch vals) :
    ∀ (q : Prov) (pre : List (List Int)), spine g target q = some (e, pre) →
      spine g target ((ch.map enc).foldl .pair q) = some (e, vals.reverse ++ pre) := by
  induction h with
  | nil => intro q pre hq; simpa using hq
  | @cons t v ch vals h1 _ ih =>
    intro q pre hq
    rw [List.map_cons, List.foldl_cons, ih (.pair q (enc t)) (v :: pre) ?_]
    · simp
    · rw [spine, hq]
      unfold constructTranslation at h1
      rw [h1]

/-- The translation read from a point is the translation of the derivation. -/
theorem translation_enc {g : Hypergraph α} (target : Nat → List Int) (hlin : ∀ v < g.nodes.length, ∀ e ∈ g.inE v, Dec.Spec.Linear (target e) (g.tails e).length)
    (hwf : HG.WF g) (t : Tree) : ∀ v < g.nodes.length, IsDeriv g v t → ∃ out, constructTranslation g target (enc t) = some out ∧ Yields target t out := by
  induction t using Tree.rec (motive_2 := fun ch => ∀ ts : List Nat, (∀ u ∈ ts, u < g.nodes.length) → List.Forall₂ (IsDeriv g) ts ch →
      ∃ vals, List.Forall₂ (fun t v => constructTranslation g target (enc t) = some v) ch vals ∧ List.Forall₂ (Yields target) ch vals) with
  | node e ch ih =>
    intro v hv hd
    obtain ⟨he, hc⟩ := isDeriv_iff.1 hd
    obtain ⟨vals, h1, h2⟩ := ih (g.tails e) (fun u hu => by have := hwf.topo v hv e he u hu; omega) hc
    have hl : vals.length = (g.tails e).length := by rw [hc.length_eq, h1.length_eq]
    obtain ⟨out, ho1, ho2, _⟩ := Dec.C19_target_length (target e) vals (by rw [hl]; exact hlin v hv e he)
    refine ⟨out, ?_, ?_⟩
    · unfold constructTranslation
      rw [enc_node, spine_foldl g target e ch vals h1 _ [] (by rw [spine])]
      simp only [finish, List.append_nil, List.length_reverse, List.reverse_reverse]
      rw [if_pos hl, ho1]
    · exact .mk h2.length_eq (fun i hi => by simpa using (List.forall₂_iff_get.1 h2).2 i hi (h2.length_eq ▸ hi)) ho2
  | nil => exact ⟨[], .nil, .nil⟩
  | cons t ch iht ihc =>
    rename_i ts hts h
    cases h with
    | cons h1 h2 =>
      rename_i u us
      obtain ⟨out, o1, o2⟩ := iht u (hts u (by simp)) h1
      obtain ⟨vals, v1, v2⟩ := ihc us (fun w hw => hts w (by simp [hw])) h2
      exact ⟨out :: vals, .cons o1 v1, .cons o2 v2⟩

theorem edgesUsed_foldl (l : List Prov) (q : Prov) : edgesUsed (l.foldl .pair q) = edgesUsed q ++ l.flatMap edgesUsed := by
  induction l generalizing q with
  | nil => simp
  | cons a l ih => rw [List.foldl_cons, ih]; simp [edgesUsed]

theorem edgesUsed_enc (t : Tree) : edgesUsed (enc t) = t.edges := by
  induction t using Tree.rec (motive_2 := fun ch => (ch.map enc).flatMap edgesUsed = ch.flatMap fun t => t.edges) with
  | node e ch ih => rw [enc_node, edgesUsed_foldl, Tree.edges, ih]; simp [edgesUsed]
  | nil => rfl
  | cons t ch iht ihc => simp only [List.map_cons, List.flatMap_cons, iht, ihc]

theorem exists_le_of_le_value {pts : List (Pt K)} {c x : K} (h : (c : WithBot K) ≤ value pts x) : ∃ q ∈ pts, c ≤ lineAt q x := by
  induction pts with
  | nil => simp [value] at h
  | cons p l ih =>
    have h' : (c : WithBot K) ≤ max ((lineAt p x : K) : WithBot K) (value l x) := h
    rcases le_max_iff.1 h' with h' | h'
    · exact ⟨p, by simp, WithBot.coe_le_coe.1 h'⟩
    · obtain ⟨q, hq, hle⟩ := ih h'
      exact ⟨q, by simp [hq], hle⟩

/-- Every segment of the upper envelope of a node comes from a derivation of the node: it has the slope and intercept of the derivation,
`ConstructTranslation` returns the translation of the derivation and `CollectEdgesUsed` marks exactly its edges; and it is a best derivation
at every position of the segment. -/
theorem C65_segments {srt : List (Pt K) → List (Pt K)} (hs : IsSlopeSort srt) {g : Hypergraph α} (wf : HG.WF g) (target : Nat → List Int)
    (hlin : ∀ v < g.nodes.length, ∀ e ∈ g.inE v, Dec.Spec.Linear (target e) (g.tails e).length) (dm db : Nat → K) (v : Nat) (hv : v < g.nodes.length)
    (k : Nat) (p : Pt K) (hp : (((insideHulls srt g dm db).getD v .zero).ensure srt).points[k]? = some p) :
    ∃ t, IsDeriv g v t ∧ p.m = t.total dm ∧ p.b = t.total db ∧ (∃ out, constructTranslation g target p.prov = some out ∧ Yields target t out) ∧
      (∀ e, e ∈ edgesUsed p.prov ↔ e ∈ t.edges) ∧
      ∀ x : K, p.x ≤ (x : WithBot K) →
        (∀ q, (((insideHulls srt g dm db).getD v .zero).ensure srt).points[k + 1]? = some q → (x : WithBot K) ≤ q.x) →
        ∀ t', IsDeriv g v t' → scoreAt dm db t' x ≤ scoreAt dm db t x := by
  have hr := insideHulls_reps hs wf dm db v hv
  obtain ⟨r, hrm, e1, e2, e3⟩ := ensure_mem hs _ p (List.mem_of_getElem? hp)
  obtain ⟨t, ht, f1, f2, f3⟩ := hr.sound r hrm
  have hseg : Segmented (((insideHulls srt g dm db).getD v .zero).ensure srt).points :=
    ensure_segmented hs (hr.valid.resolve_left (not_isOne hr (by rintro m b q ⟨t', _, _, _, rfl⟩; exact enc_ne t')))
  refine ⟨t, ht, e1.trans f1, e2.trans f2, ?_, ?_, ?_⟩
  · rw [e3, f3]
    exact translation_enc target hlin wf t v hv ht
  · intro e
    rw [e3, f3, edgesUsed_enc]
  · intro x hx hn t' ht'
    have hle := hr.complete _ _ _ ⟨t', ht', rfl, rfl, rfl⟩ x
    rw [← ensure_value hs] at hle
    obtain ⟨q, hq, hqle⟩ := exists_le_of_le_value hle
    have := hseg.maximal k p hp x hx hn q hq
    unfold scoreAt
    refine le_trans hqle (le_trans this ?_)
    unfold lineAt
    rw [e1, e2, f1, f2]

/-- The value of the envelope at any position is the score of a best derivation; the envelope is empty when there is no derivation. -/
theorem C65_value {srt : List (Pt K) → List (Pt K)} (hs : IsSlopeSort srt) {g : Hypergraph α} (wf : HG.WF g) (dm db : Nat → K) (v : Nat) (hv : v < g.nodes.length) :
    (∀ (x : K) t, IsDeriv g v t → ((scoreAt dm db t x : K) : WithBot K) ≤ value ((insideHulls srt g dm db).getD v .zero).points x) ∧
    (∀ p ∈ ((insideHulls srt g dm db).getD v .zero).points, ∃ t, IsDeriv g v t ∧ ∀ x : K, lineAt p x = scoreAt dm db t x) ∧
    (((insideHulls srt g dm db).getD v .zero).points = [] ↔ ¬ ∃ t, IsDeriv g v t) := by
  have hr := insideHulls_reps hs wf dm db v hv
  have h2 : ∀ p ∈ ((insideHulls srt g dm db).getD v .zero).points, ∃ t, IsDeriv g v t ∧ ∀ x : K, lineAt p x = scoreAt dm db t x := by
    intro p hp
    obtain ⟨t, ht, f1, f2, _⟩ := hr.sound p hp
    exact ⟨t, ht, fun x => by unfold lineAt scoreAt; rw [f1, f2]⟩
  refine ⟨fun x t ht => hr.complete _ _ _ ⟨t, ht, rfl, rfl, rfl⟩ x, h2, ?_, ?_⟩
  · rintro h ⟨t, ht⟩
    have := hr.complete _ _ _ ⟨t, ht, rfl, rfl, rfl⟩ 0
    rw [h] at this
    simp [value] at this
  · intro h
    rcases hc : ((insideHulls srt g dm db).getD v .zero).points with _ | ⟨p, l⟩
    · rfl
    · obtain ⟨t, ht, _⟩ := h2 p (by rw [hc]; simp)
      exact absurd ⟨t, ht⟩ h

/-! A case that meets the hypotheses: node 0 has two words to choose from, node 1 pairs node 0 with itself, reversed. -/

/-- Two lexical edges into node 0 and one binary edge into node 1. -/
def exG : Hypergraph Unit :=
  ⟨[⟨0, 0, [0, 1], [2, 2]⟩, ⟨1, 0, [2], []⟩], [⟨0, some 0, [], ()⟩, ⟨1, some 0, [], ()⟩, ⟨2, some 1, [0, 0], ()⟩]⟩

/-- The target sides: `5`, `6 7`, `[2] 8 [1]`. -/
def exTarget : Nat → List Int
  | 0 => [5]
  | 1 => [6, 7]
  | _ => [-1, 8, 0]

example : HG.WF exG ∧ (∀ v < exG.nodes.length, ∀ e ∈ exG.inE v, Dec.Spec.Linear (exTarget e) (exG.tails e).length) := by
  refine ⟨⟨by decide, by decide, by decide⟩, ?_⟩
  have : ∀ v < exG.nodes.length, ∀ e ∈ exG.inE v, (((exTarget e).filter fun c => decide (c ≤ 0)).map fun c => (-c).toNat).Perm (List.range (exG.tails e).length) := by
    decide
  exact this

example : ((insideHulls slopeSort exG (fun e => ((e : ℚ)) - 1) (fun e => (e : ℚ) - 2)).getD 1 .zero).points.map
    (fun p => (p.x, p.m, p.b, constructTranslation exG exTarget p.prov)) =
    [(⊥, (-1 : ℚ), (-4 : ℚ), some [5, 8, 5]), (((-1 : ℚ) : WithBot ℚ), 1, -2, some [6, 7, 8, 6, 7])] := by decide +kernel

end Cdec.Mert
