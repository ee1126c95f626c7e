import Verif.Decoder.IntersectFastChain
/-! # C106: intersecting a linear chain with a reference -/
namespace Cdec.Dec.Fast
open Cdec.HG Cdec.Dec.Fast.Spec
open Cdec.Dec.Parser.Spec (LTree Shows)
variable {φ : Type}

/-- For every forest and every sentence: the function ends; it says yes exactly if each position of the sentence has an edge that writes its word; the derivations of the new forest are exactly those of the
old one whose words are those of the sentence, one for one; and the edges of a derivation keep what they carry, except that those without tails have their positions and their rule turned round. -/
theorem C106_fast_intersect (heap : Nat → Rule) (next : Nat) (target : List Int) (hg : Hypergraph (FVal φ)) (hfit : Fit heap next target hg) :
    ∃ ok heap' g' f F, (∀ fuel, F ≤ fuel → fastIntersect heap next target hg fuel = some (ok, heap', g')) ∧
      (ok = true ↔ ∀ i < target.length, ∃ x ∈ hg.edges, x.tails = [] ∧ Right heap target x ∧ x.val.prevI = i) ∧ WF g' ∧ 0 < g'.nodes.length ∧
      (∀ T, IsDeriv hg hg.goal T → Follows heap target hg T → IsDeriv g' g'.goal (T.map f)) ∧
      (∀ T', IsDeriv g' g'.goal T' → ∃ T, IsDeriv hg hg.goal T ∧ Follows heap target hg T ∧ T.map f = T') ∧
      (∀ T U, IsDeriv hg hg.goal T → Follows heap target hg T → IsDeriv hg hg.goal U → Follows heap target hg U → T.map f = U.map f → T = U) ∧
      ∀ T, IsDeriv hg hg.goal T → Follows heap target hg T → ∀ e ∈ T.edges, ∃ x x', hg.edges[e]? = some x ∧ g'.edges[f e]? = some x' ∧
        (x.tails ≠ [] → x'.val = x.val ∧ heap' x'.val.rule = heap x.val.rule) ∧ (x.tails = [] → Turned heap heap' target hg e x.val x'.val) := by
  obtain ⟨s, hs, hi⟩ := loop_inv hg.edges hfit.leaf hfit.rule
  let g1 : Hypergraph (FVal φ) := ⟨hg.nodes, s.edges⟩
  have htails : ∀ e, hg.tails e = g1.tails e := by
    intro e
    unfold Hypergraph.tails
    cases he : hg.edges[e]? with
    | none =>
      have : g1.edges[e]? = none := by
        rw [List.getElem?_eq_none_iff] at he ⊢
        have := hi.len
        simp only [g1]
        omega
      rw [this]
    | some x =>
      obtain ⟨x', a1, a2, _⟩ := (hi.done e x he).ex
      have : g1.edges[e]? = some x' := a1
      rw [this]
      exact a2.symm
  have hder : ∀ v T, IsDeriv hg v T ↔ IsDeriv g1 v T := fun v T => deriv_congr (g := hg) (h := g1) (fun _ => rfl) htails T v
  have hwf : WF g1 := by
    refine ⟨fun v hv e he => ?_, hfit.wf.nodup, fun v hv e he t ht => hfit.wf.topo v hv e he t (by rw [htails]; exact ht)⟩
    have := hfit.wf.edge_lt v hv e he
    have := hi.len
    simp only [g1]
    omega
  obtain ⟨g', f, ⟨F, hF⟩, w1, w2, hb⟩ := C07_prune_edges g1 hwf hfit.pos (fun e => s.prune.getD e false) true
  have hav : ∀ T, IsDeriv hg hg.goal T → (Follows heap target hg T ↔ Avoids (fun e => s.prune.getD e false) T) := by
    intro T hT
    constructor
    · intro h e he
      cases hx : hg.edges[e]? with
      | none =>
        rw [List.getElem?_eq_none_iff] at hx
        have := hi.plen
        simp only [List.getD_eq_getElem?_getD]
        rw [List.getElem?_eq_none (by omega)]
        rfl
      | some x =>
        obtain ⟨b, b1, b2⟩ := (hi.done e x hx).prune
        simp only [List.getD_eq_getElem?_getD, b1, Option.getD_some]
        cases b with
        | false => rfl
        | true => exact absurd (h e he x hx (b2.1 rfl).1) (b2.1 rfl).2
    · intro h e he x hx ht
      obtain ⟨b, b1, b2⟩ := (hi.done e x hx).prune
      have := h e he
      simp only [List.getD_eq_getElem?_getD, b1, Option.getD_some] at this
      by_contra hc
      have := b2.2 ⟨ht, hc⟩
      simp_all
  refine ⟨decide (s.cov.length = target.length), s.heap, g', f, F, fun fuel hfuel => ?_, ?_, w1, w2, ?_, ?_, ?_, ?_⟩
  · unfold fastIntersect
    rw [hs]
    simp only []
    have := hF fuel hfuel
    simp only [g1] at this
    rw [this]
    rfl
  · rw [decide_eq_true_iff, covered hi.nodup]
    · constructor
      · intro h i hlt
        obtain ⟨x, hx, hk, e⟩ := (hi.cov _).1 (h i hlt)
        exact ⟨x, hx, hk.1, hk.2, e⟩
      · intro h i hlt
        obtain ⟨x, hx, h1, h2, e⟩ := h i hlt
        exact (hi.cov _).2 ⟨x, hx, ⟨h1, h2⟩, e⟩
    · intro i hin
      obtain ⟨x, hx, hk, rfl⟩ := (hi.cov _).1 hin
      obtain ⟨a, b, _⟩ := hfit.leaf x hx hk.1
      exact ⟨a, b⟩
  · intro T h1 h2
    exact hb.fwd T ((hder _ _).1 h1) ((hav T h1).1 h2)
  · intro T' h1
    obtain ⟨T, a, b, c⟩ := hb.bwd T' h1
    have a' := (hder _ _).2 a
    exact ⟨T, a', (hav T a').2 b, c⟩
  · intro T U h1 h2 h3 h4
    exact hb.inj T U ((hder _ _).1 h1) ((hav T h1).1 h2) ((hder _ _).1 h3) ((hav U h3).1 h4)
  · intro T h1 h2 e he
    obtain ⟨p1, p2, p3⟩ := hb.payload T ((hder _ _).1 h1) ((hav T h1).1 h2) e he
    have hlt : e < hg.edges.length := by have := hi.len; simp only [g1] at p1; omega
    have hx : hg.edges[e]? = some hg.edges[e] := List.getElem?_eq_getElem hlt
    obtain ⟨x', a1, a2, a3, a4⟩ := (hi.done e _ hx).ex
    have hg1 : g1.edges[e]? = some x' := a1
    rw [hg1, List.getElem?_eq_getElem p2] at p3
    simp only [Option.map_some, Option.some.injEq] at p3
    refine ⟨hg.edges[e], g'.edges[f e], hx, List.getElem?_eq_getElem p2, fun ht => ?_, fun ht => ?_⟩
    · have := a3 fun hk => ht hk.1
      rw [p3, this]
      exact ⟨rfl, hi.old _ (hfit.rule _ (List.getElem_mem hlt))⟩
    · have hk : Kept heap target hg.edges[e] := ⟨ht, h2 e he _ hx ht⟩
      obtain ⟨o, o1, o2, o3, o4⟩ := a4 hk
      have hfirst : First heap target hg e hg.edges[e].val.rule ↔ ∀ e' < e, ∀ y, hg.edges[e']? = some y → Kept heap target y → y.val.rule ≠ hg.edges[e].val.rule :=
        ⟨fun h e' he' y hy hk => h e' he' y hy hk.1 hk.2, fun h e' he' y hy h1 h2 => h e' he' y hy ⟨h1, h2⟩⟩
      rw [p3, o1]
      exact ⟨rfl, ⟨rfl, rfl, rfl, rfl⟩, fun h => o3 (hfirst.1 h), fun h => o4 fun h' => h (hfirst.2 h')⟩

/-- If no two edges without tails share a rule object, every word's rule is turned round. -/
theorem C106_unshared (heap heap' : Nat → Rule) (target : List Int) (g : Hypergraph (FVal φ))
    (h : ∀ (e e' : Nat) (x y : Edge (FVal φ)), g.edges[e]? = some x → g.edges[e']? = some y → x.tails = [] → y.tails = [] → x.val.rule = y.val.rule → e = e') (e : Nat) (x : Edge (FVal φ)) (x' : FVal φ)
    (hx : g.edges[e]? = some x) (ht : x.tails = []) (hc : Turned heap heap' target g e x.val x') : heap' x'.rule = invert (heap x.val.rule) := by
  refine hc.inverted fun e' he' y hy hyt _ hr => ?_
  have := h e' e y x hy hx hyt ht hr
  omega

/-! ### The lexical translator -/

/-- The lexical translator with its reference: yes is said exactly if every word of the reference can be written by some allowed rule at some source position, and the derivations are then exactly the
choices of such positions and rules, word for word. -/
theorem C106_lexical (E : LexEnv Nat) (heap : Nat → Rule) (next bin goal : Nat) (hne : E.ref ≠ []) (hall : ∀ j w, E.srcWord j = some w → (E.rules w).isSome)
    (hr : ∀ j r, E.Allowed j r → (heap r).e = [E.trg r] ∧ (heap r).arity = 0 ∧ r < next) (hb : bin < next ∧ goal < next) :
    ∃ g, lexTrellis E = some (some g) ∧ ∃ ok heap' g' F, (∀ fuel, F ≤ fuel → fastIntersect heap next E.ref (lexForest bin goal g) fuel = some (ok, heap', g')) ∧
      (ok = true ↔ ∀ w ∈ E.ref, ∃ j r, E.Allowed j r ∧ E.trg r = w) ∧
      ∀ s, (∃ T', IsDeriv g' g'.goal T' ∧ Shows (Decode.mapVal (·.feats) g') T' s) ↔
        ∃ choice : List (SrcPos × Nat), choice.length = E.ref.length ∧ (∀ c ∈ choice, E.Allowed c.1 c.2) ∧ choice.map (fun c => E.trg c.2) = E.ref ∧ lexTree choice = some s := by
  obtain ⟨g, _, h1, _, h3, h4, h5, _⟩ := lex_core E hne hall
  obtain ⟨e1, e2⟩ := lex_edges hall h1
  have hmap : lexForest bin goal g = Decode.mapVal (lexVal bin goal) g := rfl
  have hfit : Fit heap next E.ref (lexForest bin goal g) := by
    refine ⟨⟨fun v hv e he => ?_, h3.nodup, fun v hv e he t ht => h3.topo v hv e he t (by rw [hmap] at ht; simpa using ht)⟩, h4, ?_, ?_⟩
    · have := h3.edge_lt v hv e he
      simpa [lexForest] using this
    · intro x hx ht
      obtain ⟨y, hy, rfl⟩ := List.mem_map.1 hx
      rcases e1 y hy with ⟨_, j, i, r, hi, hal, hv⟩ | ⟨hn, _⟩
      · obtain ⟨q1, q2, _⟩ := hr j r hal
        simp only [hv, lexVal, q1, q2]
        refine ⟨by omega, by omega, by simp⟩
      · exact absurd ht hn
    · intro x hx
      obtain ⟨y, hy, rfl⟩ := List.mem_map.1 hx
      rcases e1 y hy with ⟨_, j, i, r, hi, hal, hv⟩ | ⟨_, hv | hv⟩
      · simp only [hv, lexVal]; exact (hr j r hal).2.2
      · simp only [hv, lexVal]; exact hb.1
      · simp only [hv, lexVal]; exact hb.2
  obtain ⟨ok, heap', g', f, F, r1, r2, _, _, r3, r4, r5, r6⟩ := C106_fast_intersect heap next E.ref (lexForest bin goal g) hfit
  refine ⟨g, h1, ok, heap', g', F, r1, ?_, ?_⟩
  · rw [r2]
    constructor
    · intro h w hw
      obtain ⟨i, hi, rfl⟩ := List.mem_iff_getElem.1 hw
      obtain ⟨x, hx, ht, hrt, hp⟩ := h i hi
      obtain ⟨y, hy, rfl⟩ := List.mem_map.1 hx
      rcases e1 y hy with ⟨_, j, i', r, _, hal, hv⟩ | ⟨hn, _⟩
      · refine ⟨j, r, hal, ?_⟩
        simp only [hv, lexVal] at hp
        have hii : i' = i := by omega
        subst hii
        simp only [Right, hv, lexVal, (hr j r hal).1, Int.toNat_natCast, List.getElem?_eq_getElem hi, Option.some.injEq] at hrt
        rw [hrt]; rfl
      · exact absurd ht hn
    · intro h i hi
      obtain ⟨j, r, hal, hw⟩ := h _ (List.getElem_mem hi)
      obtain ⟨x, hx, ht, hv⟩ := e2 j i r hi hal
      refine ⟨_, List.mem_map.2 ⟨x, hx, rfl⟩, ht, ?_, ?_⟩
      · simp only [Right, hv, lexVal, (hr j r hal).1, Int.toNat_natCast, List.getElem?_eq_getElem hi]
        rw [← hw]; rfl
      · simp only [hv, lexVal]
  · intro s
    -- the words of a derivation
    have hfol : ∀ T choice, IsDeriv g g.goal T → choice.length = E.ref.length → (∀ c ∈ choice, E.Allowed c.1 c.2) → Shows g T s → lexTree choice = some s →
        (Follows heap E.ref (lexForest bin goal g) T ↔ choice.map (fun c => E.trg c.2) = E.ref) := by
      intro T choice hT hl hal hs hc
      have a : Follows heap E.ref (lexForest bin goal g) T ↔ ∀ e ∈ T.edges, ∀ x, g.edges[e]? = some x → x.tails = [] →
          E.ref[(lexVal bin goal x.val).prevI.toNat]? = some ((heap (lexVal bin goal x.val).rule).e.getD 0 0) := by
        unfold Follows Right
        constructor
        · intro h e he x hx ht
          exact h e he ⟨x.id, x.head, x.tails, lexVal bin goal x.val⟩ (by rw [hmap, Decode.mapVal_edge, hx]; rfl) ht
        · intro h e he x hx ht
          rw [hmap, Decode.mapVal_edge] at hx
          obtain ⟨y, hy, rfl⟩ := Option.map_eq_some_iff.1 hx
          exact h e he y hy ht
      rw [a, leaf_labels (fun v => E.ref[(lexVal bin goal v).prevI.toNat]? = some ((heap (lexVal bin goal v).rule).e.getD 0 0)) T _ s hT hs]
      unfold lexTree at hc
      obtain ⟨t, ht, rfl⟩ := Option.map_eq_some_iff.1 hc
      have : leavesOf (LTree.node LexVal.goal [t]) = choice.zipIdx.map fun x => LexVal.lex x.1.1 x.2 x.1.2 := by
        rw [← leavesOf_chainOf _ _ _ ht]
        simp [leavesOf, leavesOfs]
      rw [this]
      have hat : ∀ (i : Nat) (c : SrcPos × Nat), choice[i]? = some c → ((heap c.2).e.getD 0 0) = E.trg c.2 := fun i c hc => by
        rw [(hr c.1 c.2 (hal c (List.mem_of_getElem? hc))).1]; rfl
      constructor
      · intro h
        refine List.ext_getElem (by simpa using hl) fun i i1 i2 => ?_
        rw [List.length_map] at i1
        have := h (.lex choice[i].1 i choice[i].2) (List.mem_map.2 ⟨(choice[i], i), List.mem_zipIdx_iff_getElem?.2 (List.getElem?_eq_getElem i1), rfl⟩)
        simp only [lexVal, Int.toNat_natCast, List.getElem?_eq_getElem i2, Option.some.injEq] at this
        rw [hat i _ (List.getElem?_eq_getElem i1)] at this
        rw [List.getElem_map, this]
      · intro h b hb
        obtain ⟨⟨c, i⟩, hm, rfl⟩ := List.mem_map.1 hb
        have hm := List.mem_zipIdx_iff_getElem?.1 hm
        simp only [lexVal, Int.toNat_natCast]
        rw [hat i c hm, ← h, List.getElem?_map, hm]
        rfl
    have hsh : ∀ T, IsDeriv g g.goal T → Follows heap E.ref (lexForest bin goal g) T → (Shows (Decode.mapVal (·.feats) g') (T.map f) s ↔ Shows g T s) := by
      intro T hT hF
      refine shows_map T s fun e he => ?_
      have hT' : IsDeriv (lexForest bin goal g) (lexForest bin goal g).goal T := by
        rw [hmap]
        exact (Decode.mapVal_deriv _ _ _ _).2 hT
      obtain ⟨x, x', a1, a2, a3, a4⟩ := r6 T hT' hF e he
      rw [hmap, Decode.mapVal_edge] at a1
      obtain ⟨y, hy, rfl⟩ := Option.map_eq_some_iff.1 a1
      refine ⟨y, x', hy, a2, ?_⟩
      have hv : (lexVal bin goal y.val).feats = y.val := by cases y.val <;> rfl
      by_cases ht : y.tails = []
      · rw [(a4 ht).feats, hv]
      · rw [(a3 ht).1, hv]
    have hd : ∀ T, IsDeriv (lexForest bin goal g) (lexForest bin goal g).goal T ↔ IsDeriv g g.goal T := fun T => by
      rw [hmap]; exact Decode.mapVal_deriv _ _ _ _
    constructor
    · rintro ⟨T', b1, b2⟩
      obtain ⟨T, c1, c2, rfl⟩ := r4 T' b1
      rw [hd] at c1
      rw [hsh T c1 c2] at b2
      obtain ⟨choice, d1, d2, d3⟩ := (h5 s).1 ⟨T, c1, b2⟩
      exact ⟨choice, d1, d2, (hfol T choice c1 d1 d2 b2 d3).1 c2, d3⟩
    · rintro ⟨choice, d1, d2, d3, d4⟩
      obtain ⟨T, c1, b2⟩ := (h5 s).2 ⟨choice, d1, d2, d4⟩
      have c2 := (hfol T choice c1 d1 d2 b2 d4).2 d3
      exact ⟨T.map f, r3 T ((hd T).2 c1) c2, (hsh T c1 c2).2 b2⟩

/-! ### The tagger -/

theorem tagForest_edge (g : Hypergraph TagVal) (e : Nat) : (tagForest g).edges[e]? = (g.edges[e]?).map fun x => ⟨x.id, x.head, x.tails, tagVal e g.edges.length x.val⟩ := by
  simp [tagForest, List.getElem?_mapIdx]

theorem tagForest_tails (g : Hypergraph TagVal) (e : Nat) : (tagForest g).tails e = g.tails e := by
  unfold Hypergraph.tails
  rw [tagForest_edge]
  cases g.edges[e]? <;> rfl

theorem tree_edges_map (f : Nat → Nat) (T : Tree) : (T.map f).edges = T.edges.map f := by
  induction T using Tree.rec (motive_2 := fun ch => (ch.map fun t => t.map f).flatMap Tree.edges = (ch.flatMap Tree.edges).map f) with
  | node e ch ih => rw [Tree.map, Tree.edges, Tree.edges, List.map_cons, ih]
  | nil => rfl
  | cons T ch ih1 ih2 => rw [List.map_cons, List.flatMap_cons, List.flatMap_cons, List.map_append, ih1, ih2]

theorem tagVal_feats (e n : Nat) (v : TagVal) : (tagVal e n v).feats = v := by cases v <;> rfl

/-- The tagger with its reference, which is not shorter than the input: yes is said exactly if the reference is a tagging of the input with tags of the tag set; what remains are the derivations of the
first tags of the reference; and each word has its rule and positions turned round. -/
theorem C106_tagger (cat goalCat : Int) (tagset seq ref : List Int) (hne : seq ≠ []) (hl : seq.length ≤ ref.length) :
    ∃ g, tagTrellis cat goalCat tagset seq = some g ∧ ∃ ok heap' g' F,
      (∀ fuel, F ≤ fuel → fastIntersect (tagHeap cat goalCat g) (g.edges.length + 2) ref (tagForest g) fuel = some (ok, heap', g')) ∧
      (ok = true ↔ ref.length = seq.length ∧ ∀ t ∈ ref, t ∈ tagset) ∧
      (∀ s, (∃ T', IsDeriv g' g'.goal T' ∧ Shows (Decode.mapVal (·.feats) g') T' s) ↔
        (∀ t ∈ ref.take seq.length, t ∈ tagset) ∧ taggingTree seq (ref.take seq.length) = some s) ∧
      ∀ T', IsDeriv g' g'.goal T' → ∀ e ∈ T'.edges, ∃ x, g'.edges[e]? = some x ∧
        ∀ i w t, x.val.feats = .lex i w t → heap' x.val.rule = ⟨cat, [t], [w], 0⟩ ∧ x.val.i = i ∧ x.val.j = i + 1 ∧ x.val.prevI = i ∧ x.val.prevJ = i + 1 := by
  obtain ⟨g, _, h1, _, h3, h4, h5, _⟩ := tag_core cat goalCat tagset seq hne
  obtain ⟨e1, e2⟩ := tag_edges h1
  have hheap : ∀ e x i w t, g.edges[e]? = some x → x.val = .lex i w t → tagHeap cat goalCat g e = ⟨cat, [w], [t], 0⟩ := by
    intro e x i w t hx hv
    unfold tagHeap
    rw [hx]
    simp only [hv]
  have hlt : ∀ i w, seq[i]? = some w → i < seq.length := fun i w h => (List.getElem?_eq_some_iff.1 h).1
  have hfit : Fit (tagHeap cat goalCat g) (g.edges.length + 2) ref (tagForest g) := by
    refine ⟨⟨fun v hv e he => ?_, h3.nodup, fun v hv e he t ht => h3.topo v hv e he t (by rw [tagForest_tails] at ht; exact ht)⟩, h4, ?_, ?_⟩
    · have := h3.edge_lt v hv e he
      simpa [tagForest] using this
    · intro x hx ht
      obtain ⟨e, he⟩ := List.mem_iff_getElem?.1 hx
      rw [tagForest_edge] at he
      obtain ⟨y, hy, rfl⟩ := Option.map_eq_some_iff.1 he
      rcases e1 y (List.mem_of_getElem? hy) with ⟨_, i, w, t, hi, hal, hv⟩ | ⟨hn, _⟩
      · have := hlt i w hi
        have hh := hheap e y i w t hy hv
        simp only [hv, tagVal, hh]
        exact ⟨by omega, by omega, by simp⟩
      · exact absurd ht hn
    · intro x hx
      obtain ⟨e, he⟩ := List.mem_iff_getElem?.1 hx
      rw [tagForest_edge] at he
      obtain ⟨y, hy, rfl⟩ := Option.map_eq_some_iff.1 he
      have := (List.getElem?_eq_some_iff.1 hy).1
      cases hv : y.val <;> simp only [tagVal] <;> omega
  obtain ⟨ok, heap', g', f, F, r1, r2, _, _, r3, r4, r5, r6⟩ := C106_fast_intersect _ _ ref (tagForest g) hfit
  have hd : ∀ T, IsDeriv (tagForest g) (tagForest g).goal T ↔ IsDeriv g g.goal T := fun T => deriv_congr (g := tagForest g) (h := g) (fun _ => rfl) (tagForest_tails g) T _
  refine ⟨g, h1, ok, heap', g', F, r1, ?_, ?_, ?_⟩
  · rw [r2]
    have hpos : ∀ i x, x ∈ (tagForest g).edges → x.tails = [] → Right (tagHeap cat goalCat g) ref x → x.val.prevI = (i : Nat) → ∃ t, i < seq.length ∧ ref[i]? = some t ∧ t ∈ tagset := by
      intro i x hx ht hrt hp
      obtain ⟨e, he⟩ := List.mem_iff_getElem?.1 hx
      rw [tagForest_edge] at he
      obtain ⟨y, hy, rfl⟩ := Option.map_eq_some_iff.1 he
      rcases e1 y (List.mem_of_getElem? hy) with ⟨_, i', w, t, hi, hal, hv⟩ | ⟨hn, _⟩
      · have := hlt i' w hi
        have hh := hheap e y i' w t hy hv
        simp only [Right, hv, tagVal, hh] at hrt hp
        have : i' = i := by omega
        subst this
        exact ⟨t, by omega, by simpa using hrt, hal⟩
      · exact absurd ht hn
    constructor
    · intro h
      have hle : ref.length = seq.length := by
        by_contra hc
        obtain ⟨x, hx, ht, hrt, hp⟩ := h seq.length (by omega)
        obtain ⟨t, a, _⟩ := hpos _ x hx ht hrt hp
        omega
      refine ⟨hle, fun t ht => ?_⟩
      obtain ⟨i, hi, rfl⟩ := List.mem_iff_getElem.1 ht
      obtain ⟨x, hx, ht, hrt, hp⟩ := h i hi
      obtain ⟨t, _, a, b⟩ := hpos _ x hx ht hrt hp
      rw [List.getElem?_eq_getElem hi] at a
      cases a
      exact b
    · rintro ⟨hle, h⟩ i hi
      obtain ⟨x, hx, ht, hv⟩ := e2 i seq[i] ref[i] (List.getElem?_eq_getElem (by omega)) (h _ (List.getElem_mem hi))
      obtain ⟨e, he⟩ := List.mem_iff_getElem?.1 hx
      refine ⟨⟨x.id, x.head, x.tails, tagVal e g.edges.length x.val⟩, List.mem_iff_getElem?.2 ⟨e, by rw [tagForest_edge, he]; rfl⟩, ht, ?_, by rw [hv]; rfl⟩
      have hh := hheap e x _ _ _ he hv
      simp only [Right, hv, tagVal, hh, Int.toNat_natCast, List.getElem?_eq_getElem hi]
      rfl
  · intro s
    have hfol : ∀ T tags, IsDeriv g g.goal T → tags.length = seq.length → Shows g T s → taggingTree seq tags = some s →
        (Follows (tagHeap cat goalCat g) ref (tagForest g) T ↔ tags = ref.take seq.length) := by
      intro T tags hT htl hs hc
      have a : Follows (tagHeap cat goalCat g) ref (tagForest g) T ↔ ∀ e ∈ T.edges, ∀ x, g.edges[e]? = some x → x.tails = [] → ∀ i w t, x.val = .lex i w t → ref[i]? = some t := by
        unfold Follows Right
        constructor
        · intro h e he x hx ht i w t hv
          have := h e he ⟨x.id, x.head, x.tails, tagVal e g.edges.length x.val⟩ (by rw [tagForest_edge, hx]; rfl) ht
          have hh := hheap e x i w t hx hv
          simp only [hv, tagVal, hh] at this
          simpa using this
        · intro h e he x hx ht
          rw [tagForest_edge] at hx
          obtain ⟨y, hy, rfl⟩ := Option.map_eq_some_iff.1 hx
          rcases e1 y (List.mem_of_getElem? hy) with ⟨_, i, w, t, hi, hal, hv⟩ | ⟨hn, _⟩
          · have hh := hheap e y i w t hy hv
            simp only [hv, tagVal, hh]
            simpa using h e he y hy ht i w t hv
          · exact absurd ht hn
      rw [a, leaf_labels (fun v => ∀ i w t, v = TagVal.lex i w t → ref[i]? = some t) T _ s hT hs]
      unfold taggingTree at hc
      obtain ⟨t, ht, rfl⟩ := Option.map_eq_some_iff.1 hc
      have : leavesOf (LTree.node TagVal.goal [t]) = (seq.zip tags).zipIdx.map fun x => TagVal.lex x.2 x.1.1 x.1.2 := by
        rw [← leavesOf_chainOf _ _ _ ht]
        simp [leavesOf, leavesOfs]
      rw [this]
      constructor
      · intro h
        refine List.ext_getElem (by simp; omega) fun i i1 i2 => ?_
        have := h (.lex i seq[i] tags[i]) (List.mem_map.2 ⟨((seq[i], tags[i]), i), List.mem_zipIdx_iff_getElem?.2 (by rw [List.getElem?_eq_getElem (by simp; omega)]; simp), rfl⟩) _ _ _ rfl
        rw [List.getElem?_eq_getElem (by omega)] at this
        rw [List.getElem_take]
        exact (Option.some.inj this).symm
      · rintro h b hb i w t' rfl
        obtain ⟨⟨c, i'⟩, hm, he⟩ := List.mem_map.1 hb
        have hm := List.mem_zipIdx_iff_getElem?.1 hm
        simp only [TagVal.lex.injEq] at he
        obtain ⟨rfl, rfl, rfl⟩ := he
        obtain ⟨q1, q2⟩ := List.getElem?_eq_some_iff.1 hm
        simp only [List.length_zip] at q1
        have : tags[i']? = some c.2 := by
          rw [List.getElem?_eq_getElem (by omega)]
          simp only [] at q2
          rw [← q2]
          simp
        rw [h, List.getElem?_take] at this
        split at this
        · exact this
        · cases this
    have hsh : ∀ T, IsDeriv g g.goal T → Follows (tagHeap cat goalCat g) ref (tagForest g) T → (Shows (Decode.mapVal (·.feats) g') (T.map f) s ↔ Shows g T s) := by
      intro T hT hF
      refine shows_map T s fun e he => ?_
      obtain ⟨x, x', a1, a2, a3, a4⟩ := r6 T ((hd T).2 hT) hF e he
      rw [tagForest_edge] at a1
      obtain ⟨y, hy, rfl⟩ := Option.map_eq_some_iff.1 a1
      refine ⟨y, x', hy, a2, ?_⟩
      by_cases ht : y.tails = []
      · rw [(a4 ht).feats, tagVal_feats]
      · rw [(a3 ht).1, tagVal_feats]
    constructor
    · rintro ⟨T', b1, b2⟩
      obtain ⟨T, c1, c2, rfl⟩ := r4 T' b1
      rw [hd] at c1
      rw [hsh T c1 c2] at b2
      obtain ⟨tags, d1, d2, d3⟩ := (h5 s).1 ⟨T, c1, b2⟩
      have := (hfol T tags c1 d1 b2 d3).1 c2
      rw [← this]
      exact ⟨d2, d3⟩
    · rintro ⟨d2, d3⟩
      have d1 : (ref.take seq.length).length = seq.length := by simp; omega
      obtain ⟨T, c1, b2⟩ := (h5 s).2 ⟨_, d1, d2, d3⟩
      have c2 := (hfol T _ c1 d1 b2 d3).2 rfl
      exact ⟨T.map f, r3 T ((hd T).2 c1) c2, (hsh T c1 c2).2 b2⟩
  · intro T' hT' e' he'
    obtain ⟨T, c1, c2, rfl⟩ := r4 T' hT'
    obtain ⟨e, he, rfl⟩ : ∃ e ∈ T.edges, f e = e' := by
      rw [tree_edges_map] at he'
      simpa using he'
    obtain ⟨x, x', a1, a2, a3, a4⟩ := r6 T c1 c2 e he
    refine ⟨x', a2, fun i w t hv => ?_⟩
    have a1' := a1
    rw [tagForest_edge] at a1'
    obtain ⟨y, hy, rfl⟩ := Option.map_eq_some_iff.1 a1'
    by_cases ht : y.tails = []
    · have hturn := a4 ht
      have hyv : y.val = .lex i w t := by
        rw [← tagVal_feats e g.edges.length y.val, ← hturn.feats]; exact hv
      have hun : ∀ (e e' : Nat) (x y : Edge (FVal TagVal)), (tagForest g).edges[e]? = some x → (tagForest g).edges[e']? = some y → x.tails = [] → y.tails = [] →
          x.val.rule = y.val.rule → e = e' := by
        intro e e' x y hx hy hxt hyt hr
        rw [tagForest_edge] at hx hy
        obtain ⟨x0, hx0, rfl⟩ := Option.map_eq_some_iff.1 hx
        obtain ⟨y0, hy0, rfl⟩ := Option.map_eq_some_iff.1 hy
        rcases e1 x0 (List.mem_of_getElem? hx0) with ⟨_, i, w, t, _, _, hv⟩ | ⟨hn, _⟩
        · rcases e1 y0 (List.mem_of_getElem? hy0) with ⟨_, i', w', t', _, _, hv'⟩ | ⟨hn, _⟩
          · simpa only [hv, hv', tagVal] using hr
          · exact absurd hyt hn
        · exact absurd hxt hn
      have hinv := C106_unshared _ _ ref (tagForest g) hun e _ x'.val a1 ht hturn
      have hsp := hturn.span
      simp only [hyv, tagVal] at hinv hsp
      rw [hheap e y i w t hy hyv] at hinv
      exact ⟨hinv, hsp⟩
    · have hxv := (a3 ht).1
      rw [hxv, tagVal_feats] at hv
      rcases e1 y (List.mem_of_getElem? hy) with ⟨h, _⟩ | ⟨_, h⟩
      · exact absurd h ht
      · exact absurd hv (h i w t)

/-! ### Where it goes wrong -/

/-- A reference that is shorter than the input of the tagger is read outside of its end. -/
theorem C106_short_reference_fails (cat goalCat : Int) (tagset seq ref : List Int) (hne : tagset ≠ []) (hl : ref.length < seq.length) (fuel : Nat) :
    ∃ g, tagTrellis cat goalCat tagset seq = some g ∧ fastIntersect (tagHeap cat goalCat g) (g.edges.length + 2) ref (tagForest g) fuel = none := by
  obtain ⟨g, _, h1, _⟩ := tag_core cat goalCat tagset seq (by rintro rfl; simp at hl)
  refine ⟨g, h1, ?_⟩
  obtain ⟨t, ht⟩ := List.exists_mem_of_ne_nil _ hne
  obtain ⟨x, hx, hxt, hv⟩ := (tag_edges h1).2 ref.length seq[ref.length] t (List.getElem?_eq_getElem hl) ht
  obtain ⟨e, he⟩ := List.mem_iff_getElem?.1 hx
  have hmem : (⟨x.id, x.head, x.tails, tagVal e g.edges.length x.val⟩ : Edge (FVal TagVal)) ∈ (tagForest g).edges := List.mem_iff_getElem?.2 ⟨e, by rw [tagForest_edge, he]; rfl⟩
  have hnone : ∀ s, step ref s (⟨x.id, x.head, x.tails, tagVal e g.edges.length x.val⟩ : Edge (FVal TagVal)) = none := by
    intro s
    unfold step leaf
    simp only [hxt, if_true, hv, tagVal]
    rw [if_neg (by omega), List.getElem?_eq_none (by simp)]
  have hfold : ∀ (l : List (Edge (FVal TagVal))) (z : Edge (FVal TagVal)), z ∈ l → (∀ s, step ref s z = none) → ∀ s, l.foldlM (step ref) s = none := by
    intro l z
    induction l with
    | nil => intro h; cases h
    | cons y l ih =>
      intro h hz s
      rw [List.foldlM_cons]
      rcases List.mem_cons.1 h with rfl | h
      · rw [hz]; rfl
      · cases step ref s y with
        | none => rfl
        | some s' => exact ih h hz s'
  unfold fastIntersect
  rw [hfold _ _ hmem hnone]

/-- The input `a` of the lexical translator with the reference `b b` and one rule `a → b`. -/
def twice : LexEnv Nat where
  src := [1]
  ref := [2, 2]
  useNull := false
  alignOnly := false
  nullWord := 9
  rules := fun w => if w = 1 then some [0] else none
  trg := fun _ => 2
  cat := -5
  goalCat := -6

/-- The objects: the rule `a → b`, and the two rules of the constructor. -/
def twiceHeap (o : Nat) : Rule := if o = 0 then ⟨-5, [1], [2], 0⟩ else if o = 1 then ⟨-5, [-5, -5], [0, -1], 2⟩ else ⟨-6, [-5], [0], 1⟩

/-- A rule object that is used for two words of the reference is turned round only at the first: of the two edges of the only derivation, one has the rule `b → a` and the other still `a → b`, while the
positions of both are exchanged. -/
theorem C106_shared_rule_fails : ∃ g ok heap' g', lexTrellis twice = some (some g) ∧ fastIntersect twiceHeap 3 twice.ref (lexForest 1 2 g) 100 = some (ok, heap', g') ∧ ok = true ∧
    (g'.edges.map fun x => (x.tails.length, (heap' x.val.rule).f, (heap' x.val.rule).e, x.val.i, x.val.prevI)) =
      [(0, [2], [1], 0, 0), (0, [1], [2], 1, 0), (2, [-5, -5], [0, -1], -1, -1), (1, [-5], [0], -1, -1)] := by
  refine ⟨_, _, _, _, rfl, rfl, by decide +kernel, by decide +kernel⟩

/-- A forest that has been cut down: two words with two tags each, of which only the taggings `7 9` and `8 6` are left. -/
def cut : Hypergraph (FVal Unit) :=
  ⟨[⟨0, -5, [0], [4]⟩, ⟨1, -5, [1], [4]⟩, ⟨2, -5, [2], [5]⟩, ⟨3, -5, [3], [5]⟩, ⟨4, -5, [4, 5], [6]⟩, ⟨5, -6, [6], []⟩],
   [⟨0, some 0, [], ⟨0, (), 0, 1, 0, 1⟩⟩, ⟨1, some 1, [], ⟨1, (), 1, 2, 1, 2⟩⟩, ⟨2, some 2, [], ⟨2, (), 0, 1, 0, 1⟩⟩, ⟨3, some 3, [], ⟨3, (), 1, 2, 1, 2⟩⟩,
    ⟨4, some 4, [0, 1], ⟨4, (), 0, 2, -1, -1⟩⟩, ⟨5, some 4, [2, 3], ⟨4, (), 0, 2, -1, -1⟩⟩, ⟨6, some 5, [4], ⟨5, (), -1, -1, -1, -1⟩⟩]⟩

def cutHeap (o : Nat) : Rule :=
  if o = 0 then ⟨-5, [1], [7], 0⟩ else if o = 1 then ⟨-5, [2], [9], 0⟩ else if o = 2 then ⟨-5, [1], [8], 0⟩ else if o = 3 then ⟨-5, [2], [6], 0⟩
  else if o = 4 then ⟨-5, [-5, -5], [0, -1], 2⟩ else ⟨-6, [-5], [0], 1⟩

/-- After pruning, both words of the reference `7 6` may still be written by some edge while no derivation writes both: yes is said and the forest is empty. -/
theorem C106_pruned_forest_fails : ∃ heap' g', fastIntersect cutHeap 6 [7, 6] cut 100 = some (true, heap', g') ∧ g'.edges = [] ∧ Fit cutHeap 6 [7, 6] cut := by
  have hfit : Fit cutHeap 6 [7, 6] cut := by
    refine ⟨⟨?_, ?_, ?_⟩, by decide, ?_, ?_⟩ <;> decide
  exact ⟨_, ⟨[default], []⟩, rfl, rfl, hfit⟩

/-- Non-vacuity: the hypotheses of `C106_lexical` for this input. -/
example : twice.ref ≠ [] ∧ (∀ j w, twice.srcWord j = some w → (twice.rules w).isSome) ∧ (∀ j r, twice.Allowed j r → (twiceHeap r).e = [twice.trg r] ∧ (twiceHeap r).arity = 0 ∧ r < 3) := by
  have h0 : ∀ j w, twice.srcWord j = some w → w = 1 := by
    intro j w h
    match j, h with
    | none, h => cases h
    | some 0, h => cases h; rfl
    | some (j + 1), h => cases h
  refine ⟨by decide, fun j w h => by rw [h0 j w h]; rfl, ?_⟩
  rintro j r ⟨w, rs, h1, h2, h3, _⟩
  rw [h0 j w h1] at h2
  cases h2
  rw [List.mem_singleton.1 h3]
  exact ⟨rfl, rfl, by decide⟩
example : twice.Allowed (some 0) 0 := ⟨1, [0], rfl, rfl, by simp, fun h => absurd h (by decide)⟩

/-- Non-vacuity: the tagger on two words, with a reference that is a tagging. -/
example : (do
    let g ← tagTrellis (-5) (-6) [7, 8] [1, 2]
    let r ← fastIntersect (tagHeap (-5) (-6) g) (g.edges.length + 2) [8, 7] (tagForest g) 100
    some (r.1, r.2.2.edges.map fun x => ((r.2.1 x.val.rule).f, (r.2.1 x.val.rule).e))) = some (true, [([8], [1]), ([7], [2]), ([-5, -5], [0, -1]), ([-5], [0])]) := by decide +kernel

end Cdec.Dec.Fast
