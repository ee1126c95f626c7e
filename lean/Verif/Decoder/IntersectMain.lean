import Verif.Decoder.IntersectTrees
/-! Parses and derivations. -/
namespace Cdec.Dec.Intersect
open Cdec.HG Cdec.Dec.Parser Cdec.Dec.Parser.Spec Cdec.Dec.Spec Cdec.Dec.Intersect.Spec
variable {φ : Type} [AddMonoid φ] {conv : List Char → Nat} {name : Nat → List Char} {eps : Int} {h : Hypergraph (EVal φ)} {ws : List Int}

omit [AddMonoid φ] in
theorem yields_iff {e : Nat} {ch : List Tree} {out : List Int} : Yields h (.node e ch) out ↔ ∃ (x : Edge (EVal φ)) (vals : List (List Int)), h.edges[e]? = some x ∧
    List.Forall₂ (Yields h) ch vals ∧ Replaced vals x.val.rule.e out := by
  constructor
  · intro hy
    cases hy with
    | node h1 h2 h3 => exact ⟨_, _, h1, h2, h3⟩
  · rintro ⟨x, vals, h1, h2, h3⟩
    exact .node h1 h2 h3

omit [AddMonoid φ] in
theorem tails_some {e : Nat} {x : Edge (EVal φ)} (hx : h.edges[e]? = some x) : h.tails e = x.tails := by
  unfold Hypergraph.tails
  rw [hx]

/-- What a parse says. -/
def Good (conv : List Char → Nat) (name : Nat → List Char) (h : Hypergraph (EVal φ)) (ws : List Int) (c : Int) (i j : Nat) (t : LTree (Val Nat φ)) (y : Nat × Tree) : Prop :=
  c = cats conv name h y.1 ∧ IsDeriv h y.1 y.2 ∧ Yields h y.2 (slice ws i j) ∧ (img h y.2).1 = j - i ∧ t = (img h y.2).2 i

theorem match_deriv (hp : ∀ s, 0 < conv s) (hi : Function.Injective conv) (hg : Gr h) (hw : ∀ w ∈ ws, 0 < w ∧ w ≠ eps) {r : Nat} {x : Edge (EVal φ)} {v : Nat}
    (hx : h.edges[r]? = some x) (hv : x.head = some v) {G : Gram Node Nat} {i j : Nat} {sh sp y} (hm : Match (tenv conv name eps h ws) G i j sh sp (ruleOf conv name h r).f y)
    {ts : List (LTree (Val Nat φ))} (hts : List.Forall₂ (fun (s : Int × Nat × Nat) t => ∃ y, Good conv name h ws s.1 s.2.1 s.2.2 t y) sp ts) :
    ∃ T, Good conv name h ws (ruleOf conv name h r).lhs i j (.node ⟨r, i, j, featsOf h r + y, sh⟩ ts) (v, T) := by
  obtain ⟨hl, hf, hne⟩ := hg.rules r x hx
  have hfe : (ruleOf conv name h r).f = newSource (cats conv name h) x.tails x.val.rule.e := by rw [ruleOf_some hx]; rfl
  rw [hfe] at hm
  have hneg : ∀ s ∈ sp, s.1 < 0 := by
    intro s hs
    obtain ⟨q, hq⟩ := List.mem_iff_getElem?.1 hs
    obtain ⟨hlen, hall⟩ := forall₂_get.1 hts
    have hq' := (List.getElem?_eq_some_iff.1 hq).1
    obtain ⟨y, hy⟩ := hall q s _ hq (List.getElem?_eq_getElem (by omega))
    rw [hy.1]
    exact cats_neg hp h _
  obtain ⟨m1, m2, m3⟩ := match_lay hw (cats_neg hp h) x.tails x.val.rule.e j sh sp y hm hneg
  obtain ⟨l, hl1, hl2⟩ := forall₂_choose hts
  have hlen2 := (forall₂_get.1 hts).1
  have hspn : sp.length = (order x.val.rule.e).length := by
    have := congrArg List.length m2
    simpa using this
  obtain ⟨chp, c1, c2⟩ := unorder (linear_order hl) l (by omega)
  obtain ⟨spn, s1, s2⟩ := unorder (linear_order hl) sp hspn
  -- what is known about part `k`, the `q`-th on the target side
  have key : ∀ q k : Nat, (order x.val.rule.e)[q]? = some k → ∃ (s : Int × Nat × Nat) (t : LTree (Val Nat φ)) (z : Nat × Tree), sp[q]? = some s ∧ ts[q]? = some t ∧ chp[k]? = some z ∧ spn[k]? = some s ∧
      IsDeriv h (x.tails.getD k 0) z.2 ∧ Yields h z.2 (slice ws s.2.1 s.2.2) ∧ (img h z.2).1 = s.2.2 - s.2.1 ∧ t = (img h z.2).2 s.2.1 := by
    intro q k hq
    have hql := (List.getElem?_eq_some_iff.1 hq).1
    have hs := List.getElem?_eq_getElem (l := sp) (i := q) (by omega)
    have ht := List.getElem?_eq_getElem (l := ts) (i := q) (by omega)
    obtain ⟨z, hz, g1, g2, g3, g4, g5⟩ := hl2 q _ _ hs ht
    have hc : sp[q].1 = cats conv name h (x.tails.getD k 0) := by
      have := congrArg (fun l : List Int => l[q]?) m2
      simp only [List.getElem?_map, hs, hq, Option.map_some, Option.some.injEq] at this
      exact this
    rw [hc] at g1
    have hzk := cats_inj hi h g1
    refine ⟨_, _, z, hs, ht, by rw [c2 q k hq, hz], by rw [s2 q k hq, hs], ?_, g3, g4, g5⟩
    rw [hzk]
    exact g2
  have hchk : ∀ k < x.tails.length, ∃ q : Nat, (order x.val.rule.e)[q]? = some k := fun k hk => order_at hl hk
  let ch := chp.map (·.2)
  let vals := spn.map fun s => slice ws s.2.1 s.2.2
  have hchl : ch.length = x.tails.length := by simp [ch, c1]
  have hyc : List.Forall₂ (Yields h) ch vals := by
    refine forall₂_get.2 ⟨by simp [ch, vals, c1, s1], fun k T o hT ho => ?_⟩
    have hk : k < x.tails.length := by have := (List.getElem?_eq_some_iff.1 hT).1; omega
    obtain ⟨q, hq⟩ := hchk k hk
    obtain ⟨s, t, z, _, _, k3, k4, _, k6, _⟩ := key q k hq
    simp only [ch, vals, List.getElem?_map, k3, k4, Option.map_some, Option.some.injEq] at hT ho
    subst hT ho
    exact k6
  obtain ⟨e1, e2⟩ := m3 (lens h ch) vals
    (forall₂_get.2 ⟨hspn.symm, fun q k s hq hs => by
      obtain ⟨s', t, z, k1, _, k3, _, _, _, k7, _⟩ := key q k hq
      rw [hs] at k1
      have := Option.some.inj k1
      subst this
      rw [lens_some (T := z.2) (by simp [ch, k3])]
      exact k7⟩)
    (forall₂_get.2 ⟨hspn.symm, fun q k s hq hs => by
      obtain ⟨s', t, z, k1, _, k3, k4, _⟩ := key q k hq
      rw [hs] at k1
      have := Option.some.inj k1
      subst this
      simp only [vals, List.getElem?_map, k4, Option.map_some]⟩)
  refine ⟨.node r ch, ?_, ?_, ?_, ?_, ?_⟩
  · rw [ruleOf_some hx, hv]
    rfl
  · refine isDeriv_iff.2 ⟨(hg.inE v r).2 ⟨x, hx, hv⟩, forall₂_get.2 ?_⟩
    rw [tails_some hx]
    refine ⟨hchl.symm, fun k w T hk hT => ?_⟩
    obtain ⟨q, hq⟩ := hchk k (List.getElem?_eq_some_iff.1 hk).1
    obtain ⟨s, t, z, _, _, k3, _, k5, _⟩ := key q k hq
    simp only [ch, List.getElem?_map, k3, Option.map_some, Option.some.injEq] at hT
    subst hT
    rw [List.getD_eq_getElem?_getD, hk] at k5
    exact k5
  · exact yields_iff.2 ⟨x, vals, hx, hyc, e2⟩
  · rw [img_len hx]
    have := lay_end (lens h ch) x.val.rule.e i
    rw [e1] at this
    simp only [] at this
    omega
  · simp only []
    rw [img_at hx, e1]
    have hfe' : featsOf h r + y = x.val.feats := by
      rw [m1, add_zero]
      unfold featsOf
      rw [hx]
    rw [hfe']
    congr 1
    refine List.ext_getElem? fun q => ?_
    rw [List.getElem?_map, List.getElem?_zipWith]
    cases hq : (order x.val.rule.e)[q]? with
    | none =>
      have := List.getElem?_eq_none_iff.1 hq
      rw [List.getElem?_eq_none (by omega)]
      rfl
    | some k =>
      obtain ⟨s, t, z, k1, k2, k3, _, _, _, _, k8⟩ := key q k hq
      rw [k1, k2, k8]
      simp only [Option.map_some]
      rw [partAt_some (T := z.2) (by simp [ch, k3])]

/-- Parses are images of derivations. -/
theorem parse_img (hp : ∀ s, 0 < conv s) (hi : Function.Injective conv) (hg : Gr h) (hw : ∀ w ∈ ws, 0 < w ∧ w ≠ eps) {u : List Nat}
    (hu : ∀ r ∈ u, r ∈ (tenv conv name eps h ws).unaries) (t : LTree (Val Nat φ)) :
    ∀ c i j, Parse (tenv conv name eps h ws) u c i j t → ∃ y, Good conv name h ws c i j t y := by
  induction t using LTree.rec (motive_2 := fun ts => ∀ sp : List (Int × Nat × Nat), List.Forall₂ (fun (s : Int × Nat × Nat) t => Parse (tenv conv name eps h ws) u s.1 s.2.1 s.2.2 t) sp ts →
      List.Forall₂ (fun (s : Int × Nat × Nat) t => ∃ y, Good conv name h ws s.1 s.2.1 s.2.2 t y) sp ts) with
  | node b ts ih =>
    intro c i j hpar
    have hspan := parse_span hpar
    rw [text_n] at hspan
    cases hpar with
    | @rule G i j sh sp α x g r ch hG hij hj hh hm hwalk hr hf =>
      obtain ⟨gr, hgr, rfl⟩ := mem_text_grams.1 hG
      obtain ⟨h1, rfl⟩ := (rules_text hwalk).1 hr
      have hadd := (mem_added (val := ruleOf conv name h)).2 (.inl h1)
      rw [List.mem_singleton.1 hgr, added_calls, List.mem_range] at hadd
      have hx := List.getElem?_eq_getElem hadd
      obtain ⟨v, hv⟩ := hg.heads r _ hx
      obtain ⟨T, hT⟩ := match_deriv hp hi hg hw hx hv hm (ih _ hf)
      exact ⟨_, hT⟩
    | @unary i j r t hr ht =>
      obtain ⟨gr, hgr, h1⟩ := mem_text_unaries.1 (hu r hr)
      have hadd := (mem_added (val := ruleOf conv name h)).2 (.inr h1)
      rw [List.mem_singleton.1 hgr, added_calls, List.mem_range] at hadd
      have hx := List.getElem?_eq_getElem hadd
      obtain ⟨v, hv⟩ := hg.heads r _ hx
      have hm : Match (tenv conv name eps h ws) (textGram (ruleOf conv name h) (ws.length + 1) (calls h)) i j [none] [((ruleOf conv name h r).f.headD 0, i, j)] (ruleOf conv name h r).f 0 := by
        rw [unary_f (unary_unary h1)]
        refine Match.part (sh := []) (sp := []) (α := []) (.nil ?_ ?_) hspan.1 ?_ ?_
        · rw [text_n]; omega
        · simp [textGram]
        · rw [text_n]; exact hspan.2
        · simp only [textGram, decide_eq_true_eq]; omega
      obtain ⟨T, hT⟩ := match_deriv hp hi hg hw hx hv hm (ih [((ruleOf conv name h r).f.headD 0, i, j)] (.cons ht .nil))
      exact ⟨_, hT⟩
  | nil =>
    rename_i sp h
    cases h
    exact .nil
  | cons t ts ih1 ih2 =>
    rename_i sp h
    cases h with
    | cons a b => exact .cons (ih1 _ _ _ a) (ih2 _ b)

/-- Images of derivations are parses. -/
theorem img_parse (hp : ∀ s, 0 < conv s) (hg : Gr h) (hw : ∀ w ∈ ws, 0 < w ∧ w ≠ eps) {u : List Nat}
    (hu : ∀ r ∈ (tenv conv name eps h ws).unaries, r ∈ u) (T : Tree) :
    ∀ v i j, IsDeriv h v T → i ≤ j → j ≤ ws.length → Yields h T (slice ws i j) → i < j ∧ (img h T).1 = j - i ∧ Parse (tenv conv name eps h ws) u (cats conv name h v) i j ((img h T).2 i) := by
  induction T using Tree.rec (motive_2 := fun ch => ∀ T ∈ ch, ∀ v i j, IsDeriv h v T → i ≤ j → j ≤ ws.length → Yields h T (slice ws i j) →
      i < j ∧ (img h T).1 = j - i ∧ Parse (tenv conv name eps h ws) u (cats conv name h v) i j ((img h T).2 i)) with
  | node e ch ih =>
    intro v i j hd hij hj hy
    obtain ⟨he, hch⟩ := isDeriv_iff.1 hd
    obtain ⟨x, hx, hv⟩ := (hg.inE v e).1 he
    rw [tails_some hx] at hch
    obtain ⟨hchl, hchk⟩ := forall₂_get.1 hch
    obtain ⟨hl, hf, hne⟩ := hg.rules e x hx
    obtain ⟨x', vals, hx', hyc, hrep⟩ := yields_iff.1 hy
    rw [hx] at hx'
    have := Option.some.inj hx'
    subst this
    obtain ⟨hvl, hvk⟩ := forall₂_get.1 hyc
    have part : ∀ (k : Nat) o, vals[k]? = some o → ∀ a b, a ≤ b → b ≤ ws.length → slice ws a b = o → ∃ T, ch[k]? = some T ∧ a < b ∧ (img h T).1 = b - a ∧
        Parse (tenv conv name eps h ws) u (cats conv name h (x.tails.getD k 0)) a b ((img h T).2 a) := by
      intro k o ho a b hab hb hs
      have hk := (List.getElem?_eq_some_iff.1 ho).1
      have hT := List.getElem?_eq_getElem (l := ch) (i := k) (by omega)
      have ht := List.getElem?_eq_getElem (l := x.tails) (i := k) (by omega)
      obtain ⟨p1, p2, p3⟩ := ih _ (List.mem_of_getElem? hT) _ a b (hchk k _ _ ht hT) hab hb (hs ▸ hvk k _ _ hT ho)
      refine ⟨_, hT, p1, p2, ?_⟩
      rw [List.getD_eq_getElem?_getD, ht]
      exact p3
    have hv' : ∀ (k : Nat) o, vals[k]? = some o → ∀ a b, a ≤ b → b ≤ ws.length → slice ws a b = o → a < b ∧ (lens h ch).getD k 0 = b - a := by
      intro k o ho a b hab hb hs
      obtain ⟨T, hT, p1, p2, _⟩ := part k o ho a b hab hb hs
      exact ⟨p1, by rw [lens_some hT, p2]⟩
    have hlt : i < j := by
      rcases Nat.lt_or_ge i j with h | hge
      · exact h
      · exfalso
        have : i = j := by omega
        subst this
        rw [slice_self] at hrep
        generalize hout : ([] : List Int) = out at hrep
        generalize htgt : x.val.rule.e = tgt at hrep hne
        cases hrep with
        | nil => exact hne rfl
        | word => simp at hout
        | @var k o rest out' ho _ =>
          have ho' : o = [] := by
            have := congrArg List.length hout
            simp at this
            exact List.eq_nil_of_length_eq_zero (by omega)
          have := (hv' k o ho i i (Nat.le_refl _) hj (by rw [slice_self, ho'])).1
          omega
    have hhas : ∀ m, m ≤ ws.length → (textGram (ruleOf conv name h) (ws.length + 1) (calls h)).has i m = true := fun m hm => by
      simp only [textGram, decide_eq_true_eq]
      omega
    obtain ⟨r1, r2, r3⟩ := replaced_match (C := cats conv name h) (val := ruleOf conv name h) (rfeats := featsOf h) (gs := [(ws.length + 1, calls h)]) (goalCat := goalCat conv name h)
      (kGoal := kGoal conv) (goalRule := h.edges.length) hw x.tails hv' hhas hrep hij hj rfl (.nil (by rw [text_n]; omega) (hhas i (by omega)))
    simp only [List.nil_append] at r1
    have hfe : (ruleOf conv name h e).f = newSource (cats conv name h) x.tails x.val.rule.e := by rw [ruleOf_some hx]; rfl
    have hlhs : (ruleOf conv name h e).lhs = cats conv name h v := by rw [ruleOf_some hx, hv]; rfl
    refine ⟨hlt, ?_, ?_⟩
    · rw [img_len hx]
      have := lay_end (lens h ch) x.val.rule.e i
      omega
    · have hkids : List.Forall₂ (fun (s : Int × Nat × Nat) t => Parse (tenv conv name eps h ws) u s.1 s.2.1 s.2.2 t)
          ((lay (lens h ch) x.val.rule.e i).2.1.map fun s => (cats conv name h (x.tails.getD s.1 0), s.2.1, s.2.2)) ((lay (lens h ch) x.val.rule.e i).2.1.map (partAt h ch)) := by
        rw [List.forall₂_map_left_iff, List.forall₂_map_right_iff, List.forall₂_same]
        intro s hs
        obtain ⟨q1, q2, q3⟩ := r3 s hs
        obtain ⟨T, hT, _, _, p3⟩ := part s.1 _ q3 s.2.1 s.2.2 q1 q2 rfl
        have := partAt_some (h := h) hT s.2.1 s.2.2
        rw [show s = (s.1, s.2.1, s.2.2) from rfl, this]
        exact p3
      have hadd : e ∈ added (calls h) := by
        rw [added_calls, List.mem_range]
        exact (List.getElem?_eq_some_iff.1 hx).1
      have hfeats : (tenv conv name eps h ws).rfeats e + 0 = x.val.feats := by
        show featsOf h e + 0 = _
        rw [add_zero]
        unfold featsOf
        rw [hx]
      rcases (mem_added (val := ruleOf conv name h)).1 hadd with ht | ht
      · obtain ⟨nd, hnd⟩ := walk_trie (limit := ws.length + 1) ht
        rw [← hfe] at r1
        have hres := Parse.rule (u := u) (mem_text_grams.2 ⟨(ws.length + 1, calls h), List.mem_singleton.2 rfl, rfl⟩) hlt (by rw [text_n]; exact hj) (hhas j hj) r1 hnd
          ((rules_text hnd).2 ⟨ht, rfl⟩) hkids
        rw [hfeats] at hres
        rw [img_at hx, ← hlhs, r2]
        exact hres
      · have hun := unary_unary ht
        obtain ⟨e1, e2, e3⟩ := unary_rule hp hg hx hun
        rw [img_at hx, ← hlhs, r2]
        have hlay : lay (lens h ch) x.val.rule.e i = ([none], [(0, i, i + (lens h ch).getD 0 0)], i + (lens h ch).getD 0 0) := by rw [e1]; rfl
        rw [hlay] at hkids r2 ⊢
        simp only [List.map_cons, List.map_nil] at hkids r2 ⊢
        rw [r2] at hkids ⊢
        have hk : Parse (tenv conv name eps h ws) u ((tenv conv name eps h ws).rhs e) i j (partAt h ch (0, i, j)) := by
          cases hkids with
          | cons a _ =>
            have : (tenv conv name eps h ws).rhs e = cats conv name h (x.tails.getD 0 0) := by
              show (ruleOf conv name h e).f.headD 0 = _
              rw [e3]
              rfl
            rw [this]
            exact a
        have hres := Parse.unary (hu e (mem_text_unaries.2 ⟨(ws.length + 1, calls h), List.mem_singleton.2 rfl, ht⟩)) hk
        rw [hfeats] at hres
        exact hres
  | nil =>
    rename_i T hT _ _ _ _ _ _ _
    simp at hT
  | cons t ts ih1 ih2 =>
    rename_i T hT v i j a b c d
    rcases List.mem_cons.1 hT with rfl | hT
    · exact ih1 v i j a b c d
    · exact ih2 T hT v i j a b c d

/-- Different derivations have different images. -/
theorem img_inj (hg : Gr h) (T : Tree) : ∀ T' v v' i i', IsDeriv h v T → IsDeriv h v' T' → (img h T).2 i = (img h T').2 i' → T = T' ∧ i = i' := by
  induction T using Tree.rec (motive_2 := fun ch => ∀ T ∈ ch, ∀ T' v v' i i', IsDeriv h v T → IsDeriv h v' T' → (img h T).2 i = (img h T').2 i' → T = T' ∧ i = i') with
  | node e ch ih =>
    rintro ⟨e', ch'⟩ v v' i i' hd hd' heq
    obtain ⟨he, hch⟩ := isDeriv_iff.1 hd
    obtain ⟨he', hch'⟩ := isDeriv_iff.1 hd'
    obtain ⟨x, hx, hv⟩ := (hg.inE v e).1 he
    obtain ⟨x', hx', hv'⟩ := (hg.inE v' e').1 he'
    rw [img_at hx, img_at hx', LTree.node.injEq, Val.mk.injEq] at heq
    obtain ⟨⟨rfl, rfl, _⟩, hk⟩ := heq
    rw [hx] at hx'
    have := Option.some.inj hx'
    subst this
    rw [tails_some hx] at hch hch'
    obtain ⟨l1, a1⟩ := forall₂_get.1 hch
    obtain ⟨l2, a2⟩ := forall₂_get.1 hch'
    refine ⟨?_, rfl⟩
    congr 1
    refine List.ext_getElem (by omega) fun k h1 h2 => ?_
    obtain ⟨q, hq⟩ := order_at (hg.rules e x hx).1 (show k < x.tails.length by omega)
    have o1 := congrArg (fun l : List Nat => l[q]?) (lay_order (lens h ch) x.val.rule.e i)
    have o2 := congrArg (fun l : List Nat => l[q]?) (lay_order (lens h ch') x.val.rule.e i)
    simp only [List.getElem?_map, hq, Option.map_eq_some_iff] at o1 o2
    obtain ⟨⟨k1, sa, sb⟩, b1, rfl⟩ := o1
    obtain ⟨⟨k2, sa', sb'⟩, b2, hk2⟩ := o2
    simp only [] at hk2 h1 h2
    subst hk2
    have hkq := congrArg (fun l : List (LTree (Val Nat φ)) => l[q]?) hk
    simp only [List.getElem?_map, b1, b2, Option.map_some, Option.some.injEq] at hkq
    have g1 := List.getElem?_eq_getElem h1
    have g2 := List.getElem?_eq_getElem h2
    rw [partAt_some g1, partAt_some g2] at hkq
    have ht := List.getElem?_eq_getElem (l := x.tails) (i := k2) (by omega)
    exact (ih _ (List.getElem_mem h1) _ _ _ _ _ (a1 k2 _ _ ht g1) (a2 k2 _ _ ht g2) hkq).1
  | nil => rename_i T hT _ _ _ _ _ _ _ _; simp at hT
  | cons t ts ih1 ih2 =>
    rename_i T hT T' v v' i i' a b c
    rcases List.mem_cons.1 hT with rfl | hT
    · exact ih1 T' v v' i i' a b c
    · exact ih2 T hT T' v v' i i' a b c

end Cdec.Dec.Intersect
