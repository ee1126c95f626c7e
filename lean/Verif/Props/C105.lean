import Verif.Decoder.IntersectEnd
/-! # C105: intersecting a forest with a reference keeps exactly the derivations of the reference -/
namespace Cdec.Dec.Intersect
open Cdec.HG Cdec.Dec.Parser Cdec.Dec.Parser.Spec Cdec.Dec.Spec Cdec.Dec.Intersect.Spec
variable {φ : Type}

/-- For every forest and every sentence: `Intersect` ends; it says yes exactly if the forest has a derivation whose target string is the sentence; and then the
derivations of these strings and the derivations of the new forest correspond one to one, each new derivation being the old one with source and target exchanged. -/
theorem C105_intersect [AddMonoid φ] (conv : List Char → Nat) (name : Nat → List Char) (hp : ∀ s, 0 < conv s) (hi : Function.Injective conv) (eps sos : Int) (ws : List Int)
    (hw : ∀ w ∈ ws, 0 < w ∧ w ≠ eps) (hg : Hypergraph (EVal φ)) (hfit : Fit hg) :
    ∃ ok g' F, (∀ fuel, F ≤ fuel → intersect conv name eps sos (sentence ws) hg fuel = some (ok, g')) ∧ (ok = true ↔ ∃ T, IsDeriv hg hg.goal T ∧ Yields hg T ws) ∧
      (ok = true → WF g' ∧ ∃ m : Tree → Tree,
        (∀ T, IsDeriv hg hg.goal T → Yields hg T ws → IsDeriv g' g'.goal (m T) ∧ GoalCopy ws hg g' T (m T)) ∧
        (∀ T U, IsDeriv hg hg.goal T → Yields hg T ws → IsDeriv hg hg.goal U → Yields hg U ws → m T = m U → T = U) ∧
        ∀ T', IsDeriv g' g'.goal T' → ∃ T, IsDeriv hg hg.goal T ∧ Yields hg T ws ∧ m T = T') := by
  classical
  obtain ⟨s, hs1, hs2, hs3⟩ := mkFilter_spec (φ := φ) ws 9999 sos
  let P : Nat → Bool := s.edge hg
  obtain ⟨h, f, ⟨k, hk⟩, hwf, hpos, hbij⟩ := C07_prune_edges hg hfit.wf hfit.pos P true
  have hgr : Gr h := pruned_gr hfit hwf (hk k (Nat.le_refl _))
  have hok := (text_ok (name := name) hp hi hgr hw).ok (rfeats := featsOf h)
  obtain ⟨u, hu, hum⟩ := unaries_used (name := name) hp hi eps hgr ws
  obtain ⟨b, g, F, p1, p2, p3⟩ := parse_ready (tenv conv name eps h ws) hok hu
  have hsl : slice ws 0 ws.length = ws := by simp [slice]
  -- old derivations and derivations of the pruned forest
  have hsame : ∀ T, IsDeriv hg hg.goal T → Avoids P T → Same hg h f T := by
    intro T hT hA e he
    obtain ⟨h1, _, h3⟩ := hbij.payload T hT hA e he
    exact ⟨h1, by simpa using h3⟩
  have havoid : ∀ T, IsDeriv hg hg.goal T → Yields hg T ws → Avoids P T := fun T hT hy => yields_avoids hfit hs2 hs3 T _ ws hT hy (List.infix_refl _)
  -- their images
  have fwd : ∀ T, IsDeriv hg hg.goal T → Yields hg T ws → Yields h (T.map f) ws ∧ IsDeriv h h.goal (T.map f) ∧
      Parse (tenv conv name eps h ws) u (goalCat conv name h) 0 ws.length ((img h (T.map f)).2 0) := by
    intro T hT hy
    have hA := havoid T hT hy
    have hy' := (yields_map T ws (hsame T hT hA)).2 hy
    have hd := hbij.fwd T hT hA
    exact ⟨hy', hd, (img_parse hp hgr hw (fun r hr => (hum r).2 hr) _ _ 0 ws.length hd (Nat.zero_le _) (Nat.le_refl _) (by rw [hsl]; exact hy')).2.2⟩
  have bwd : ∀ t, Parse (tenv conv name eps h ws) u (goalCat conv name h) 0 ws.length t → ∃ T, IsDeriv hg hg.goal T ∧ Yields hg T ws ∧ t = (img h (T.map f)).2 0 := by
    intro t ht
    obtain ⟨⟨v, T1⟩, g1, g2, g3, _, g5⟩ := parse_img hp hi hgr hw (fun r hr => (hum r).1 hr) t _ _ _ ht
    have hv : h.goal = v := cats_inj hi h g1
    simp only [] at g2 g3 g5
    rw [← hv] at g2
    obtain ⟨T, hT, hA, rfl⟩ := hbij.bwd T1 g2
    rw [hsl] at g3
    exact ⟨T, hT, (yields_map T ws (hsame T hT hA)).1 g3, g5⟩
  have hb : b = true ↔ ∃ T, IsDeriv hg hg.goal T ∧ Yields hg T ws := by
    rw [p2, text_n]
    constructor
    · rintro ⟨t, ht⟩
      obtain ⟨T, h1, h2, _⟩ := bwd t ht
      exact ⟨T, h1, h2⟩
    · rintro ⟨T, h1, h2⟩
      exact ⟨_, (fwd T h1 h2).2.2⟩
  refine ⟨b, if b then Decode.mapVal (outVal conv name h) g else h, max k F, fun fuel hfuel => ?_, hb, fun hbt => ?_⟩
  · unfold intersect
    rw [hs1]
    simp only []
    have e1 : pruneEdges hg (s.edge hg) true fuel = some h := hk fuel (by omega)
    rw [e1]
    simp only []
    rw [env_text, p1 fuel (by omega)]
    simp only []
    cases b <;> simp
  · subst hbt
    rw [if_pos rfl]
    obtain ⟨q1, q2, q3, q4, q5⟩ := p3 rfl
    have q4' := q4 (tenv_distinct eps h ws)
    rw [text_n] at q3
    have hex : ∀ T, IsDeriv hg hg.goal T → Yields hg T ws → ∃ T', IsDeriv g g.goal T' ∧ Shows g T' (goalTree (tenv conv name eps h ws) ((img h (T.map f)).2 0)) := fun T h1 h2 =>
      (q3 _).2 ⟨_, (fwd T h1 h2).2.2, rfl⟩
    let m : Tree → Tree := fun T => if hT : IsDeriv hg hg.goal T ∧ Yields hg T ws then (hex T hT.1 hT.2).choose else T
    have hm : ∀ T, IsDeriv hg hg.goal T → Yields hg T ws → IsDeriv g g.goal (m T) ∧ Shows g (m T) (goalTree (tenv conv name eps h ws) ((img h (T.map f)).2 0)) := by
      intro T h1 h2
      have : m T = (hex T h1 h2).choose := dif_pos ⟨h1, h2⟩
      rw [this]
      exact (hex T h1 h2).choose_spec
    refine ⟨Decode.mapVal_ready (outVal conv name h) q5 |>.wf, m, ?_, ?_, ?_⟩
    · intro T h1 h2
      obtain ⟨m1, m2⟩ := hm T h1 h2
      refine ⟨(Decode.mapVal_deriv _ _ _ _).2 m1, ?_⟩
      generalize m T = T' at m1 m2
      obtain ⟨e', ch'⟩ := T'
      obtain ⟨x', hx', hval, hsub⟩ := shows_iff.1 m2
      obtain ⟨t', ts', hsh, hnil, rfl⟩ := List.forall₂_cons_right_iff.1 hsub
      rw [List.forall₂_nil_right_iff] at hnil
      subst hnil
      have hedge : (Decode.mapVal (outVal conv name h) g).edges[e']? = some ⟨x'.id, x'.head, x'.tails, outVal conv name h x'.val⟩ := by
        rw [Decode.mapVal_edge, hx']
        rfl
      have hov : (outVal conv name h x'.val).parent = none ∧ (outVal conv name h x'.val).feats = 0 := by
        rw [hval]
        unfold outVal
        simp only [textEnv, List.getElem?_eq_none (Nat.le_refl _), featsOf, add_zero, and_self]
      obtain ⟨f1, f2, _⟩ := fwd T h1 h2
      refine ⟨e', _, t', rfl, hedge, hov.1, hov.2, ?_⟩
      refine copy_map (fun e x hx => (hfit.rules e x hx).1) (fun e x hx => (hgr.rules e x hx).1) T t' (hsame T h1 (havoid T h1 h2)) ?_
      exact img_copy hp hgr (T.map f) _ 0 ws t' f2 f1 (by simp) (by simp [slice]) hsh
    · intro T U h1 h2 h1' h2' heq
      obtain ⟨_, m2⟩ := hm T h1 h2
      obtain ⟨_, m2'⟩ := hm U h1' h2'
      rw [heq] at m2
      have := Decode.shows_fun _ _ _ m2 m2'
      unfold goalTree at this
      simp only [LTree.node.injEq, List.cons.injEq, and_true, true_and] at this
      have := (img_inj hgr _ _ _ _ _ _ (fwd T h1 h2).2.1 (fwd U h1' h2').2.1 this).1
      exact hbij.inj T U h1 (havoid T h1 h2) h1' (havoid U h1' h2') this
    · intro T' hT'
      rw [Decode.mapVal_goal, Decode.mapVal_deriv] at hT'
      obtain ⟨t, ht⟩ := Decode.ready_shows q5 T' hT'
      obtain ⟨t0, ht0, rfl⟩ := (q3 t).1 ⟨T', hT', ht⟩
      obtain ⟨T, h1, h2, rfl⟩ := bwd t0 ht0
      obtain ⟨m1, m2⟩ := hm T h1 h2
      exact ⟨T, h1, h2, q4' _ _ _ m1 hT' m2 ht⟩

/-! ### Features -/

/-- The sum of the features of the edges of a derivation. -/
def total [AddMonoid φ] (g : Hypergraph (EVal φ)) (T : Tree) : φ := T.total (featsOf g)

/-- The copy of a derivation has the same features, and so has the derivation of the new goal: no feature is lost, doubled or invented, whatever the order of the
parts. -/
theorem C105_features [AddCommMonoid φ] (ws : List Int) (g g' : Hypergraph (EVal φ)) (hfit : Fit g) (T T' : Tree) (v : Nat) (hT : IsDeriv g v T) (hc : GoalCopy ws g g' T T') :
    total g' T' = total g T := by
  have main : ∀ T v T', IsDeriv g v T → Copy ws g g' T T' → total g' T' = total g T := by
    intro T
    induction T using Tree.rec (motive_2 := fun ch => ∀ T ∈ ch, ∀ v T', IsDeriv g v T → Copy ws g g' T T' → total g' T' = total g T) with
    | node e ch ih =>
      intro v T' hd hc
      cases hc with
      | @node _ e' a x x' _ sub ch' out a1 a2 a3 a4 a5 a6 a7 a8 a9 a10 a11 a12 a13 =>
        obtain ⟨_, hch⟩ := isDeriv_iff.1 hd
        rw [tails_some a1] at hch
        obtain ⟨l1, k1⟩ := forall₂_get.1 hch
        have hl := (hfit.rules e x a1).1
        have e1 : featsOf g' e' = featsOf g e := by
          unfold featsOf
          rw [a1, a2]
          exact a5
        have hmap : ch'.map (total g') = (order x.val.rule.e).map fun k => total g (ch.getD k (.node 0 [])) := by
          refine List.ext_getElem? fun q => ?_
          obtain ⟨b1, b2⟩ := forall₂_get.1 a12
          obtain ⟨b3, b4⟩ := forall₂_get.1 a13
          rw [List.getElem?_map, List.getElem?_map]
          cases hq : (order x.val.rule.e)[q]? with
          | none =>
            have := List.getElem?_eq_none_iff.1 hq
            rw [List.getElem?_eq_none (by omega)]
            rfl
          | some k =>
            have hql := (List.getElem?_eq_some_iff.1 hq).1
            have hs := List.getElem?_eq_getElem (l := sub) (i := q) (by omega)
            have hs' := List.getElem?_eq_getElem (l := ch') (i := q) (by omega)
            have hk := b2 q _ _ hq hs
            have hkl := (List.getElem?_eq_some_iff.1 hk).1
            have ht := List.getElem?_eq_getElem (l := x.tails) (i := k) (by omega)
            rw [hs']
            simp only [Option.map_some]
            rw [List.getD_eq_getElem?_getD, hk]
            exact congrArg some (ih _ (List.mem_of_getElem? hk) _ _ (k1 k _ _ ht hk) (b4 q _ _ hs hs'))
        have hperm : ((order x.val.rule.e).map fun k => total g (ch.getD k (.node 0 []))).Perm (ch.map (total g)) := by
          have h1 := (linear_order hl).map fun k => total g (ch.getD k (.node 0 []))
          refine h1.trans (List.Perm.of_eq ?_)
          refine List.ext_getElem? fun q => ?_
          rw [List.getElem?_map, List.getElem?_map]
          by_cases hq : q < x.tails.length
          · rw [List.getElem?_range hq]
            have := List.getElem?_eq_getElem (l := ch) (i := q) (by omega)
            rw [this, Option.map_some, List.getD_eq_getElem?_getD, this]
            rfl
          · rw [List.getElem?_eq_none (by simp; omega), List.getElem?_eq_none (by omega)]
            rfl
        show Tree.total _ _ = Tree.total _ _
        rw [Tree.total, Tree.total, e1]
        congr 1
        have h2 := hperm.sum_eq
        rw [← hmap] at h2
        exact h2
    | nil => rename_i T hT _ _ _ _; simp at hT
    | cons t ts ih1 ih2 =>
      rename_i T hT v T' a b
      rcases List.mem_cons.1 hT with rfl | hT
      · exact ih1 v T' a b
      · exact ih2 T hT v T' a b
  obtain ⟨e', x', t, rfl, h1, _, h3, h4⟩ := hc
  have h5 := main T v t hT h4
  show Tree.total _ _ = _
  rw [Tree.total]
  have : featsOf g' e' = 0 := by
    unfold featsOf
    rw [h1]
    exact h3
  rw [this, zero_add]
  simpa [total] using h5

/-! ### Concrete cases -/

/-- A dictionary. -/
def exConv : List Char → Nat
  | [] => 1
  | c :: s => exConv s * 1114112 + c.toNat

theorem exConv_pos (s : List Char) : 0 < exConv s := by
  induction s with
  | nil => decide
  | cons c s ih => rw [exConv]; omega

theorem exConv_inj : Function.Injective exConv := by
  have hc : ∀ c : Char, c.toNat < 1114112 := fun c => by
    have := c.valid
    unfold UInt32.isValidChar Nat.isValidChar at this
    show c.val.toNat < _
    omega
  intro a
  induction a with
  | nil =>
    intro b h
    cases b with
    | nil => rfl
    | cons c s =>
      have := exConv_pos s
      rw [exConv, exConv] at h
      omega
  | cons c s ih =>
    intro b h
    cases b with
    | nil =>
      have := exConv_pos s
      rw [exConv, exConv] at h
      omega
    | cons c' s' =>
      rw [exConv, exConv] at h
      have h1 := hc c
      have h2 := hc c'
      have h3 : c.toNat = c'.toNat := by omega
      rw [ih (show exConv s = exConv s' by omega), Char.toNat_inj.1 h3]

/-- `[S] → [X] [X]` in both orders, `[X] → x ||| 5`, and for the second part also `[X] → x ||| 6`. -/
def exHG : Hypergraph (EVal Nat) where
  nodes := [⟨0, -2, [0], [3, 4]⟩, ⟨1, -2, [1, 2], [3, 4]⟩, ⟨2, -1, [3, 4], []⟩]
  edges := [⟨0, some 0, [], ⟨⟨-2, [9], [5], 0⟩, none, 1, 0, 1, -1, -1⟩⟩, ⟨1, some 1, [], ⟨⟨-2, [9], [6], 0⟩, none, 2, 1, 2, -1, -1⟩⟩,
    ⟨2, some 1, [], ⟨⟨-2, [9], [5], 0⟩, none, 4, 1, 2, -1, -1⟩⟩, ⟨3, some 2, [0, 1], ⟨⟨-1, [-2, -2], [0, -1], 2⟩, none, 8, 0, 2, -1, -1⟩⟩,
    ⟨4, some 2, [0, 1], ⟨⟨-1, [-2, -2], [-1, 0], 2⟩, none, 16, 0, 2, -1, -1⟩⟩]

theorem exHG_fit : Fit exHG where
  wf := by constructor <;> decide
  cons := by
    have hsmall : ∀ e, 5 ≤ e → exHG.edges[e]? = none := fun e he => List.getElem?_eq_none he
    refine ⟨by decide, by decide, by decide, by decide, ?_, ?_⟩
    · intro v hv e
      by_cases he : e < 5
      · revert v e
        decide
      · have h1 : (exHG.tails e).count v = 0 := by unfold Hypergraph.tails; rw [hsmall e (by omega)]; rfl
        rw [h1, List.count_eq_zero]
        intro hm
        have : ∀ v (hv : v < exHG.nodes.length), ∀ e ∈ (exHG.nodes[v]).outEdges, e < 5 := by decide
        exact he (this v hv e hm)
    · intro v hv e
      by_cases he : e < 5
      · revert v e
        decide
      · have h1 : exHG.head e = none := by unfold Hypergraph.head; rw [hsmall e (by omega)]
        rw [h1, if_neg (by simp), List.count_eq_zero]
        intro hm
        have : ∀ v (hv : v < exHG.nodes.length), ∀ e ∈ (exHG.nodes[v]).inEdges, e < 5 := by decide
        exact he (this v hv e hm)
  pos := by decide
  rules := by
    intro e x hx
    have he : e < 5 := (List.getElem?_eq_some_iff.1 hx).1
    have : ∀ e < 5, ∀ x ∈ exHG.edges[e]?, (order x.val.rule.e).Perm (List.range x.tails.length) ∧ numVars x.val.rule.f = x.tails.length ∧ x.val.rule.e ≠ [] ∧ x.val.rule.e.length ≤ 9999 := by
      intro e he x hx
      match e, he with
      | 0, _ | 1, _ | 2, _ | 3, _ | 4, _ =>
        cases hx
        decide
    exact this e he x hx

/-- The hypotheses hold; `5 5` has two derivations, `6 5` has one, `6 6` has none. -/
example : ∀ w ∈ [(5 : Int), 5], 0 < w ∧ w ≠ 7 := by decide
example : (intersect exConv (fun _ => ['X']) 7 8 (sentence [5, 5]) exHG 100).map (fun x => x.2.edges.map fun e => (e.tails, e.val.feats)) =
    some [([], 1), ([], 4), ([], 1), ([], 4), ([0, 1], 8), ([2, 3], 16), ([4], 0)] := by decide +kernel
example : (intersect exConv (fun _ => ['X']) 7 8 (sentence [6, 5]) exHG 100).map (fun x => (x.1, x.2.nodes.length, x.2.edges.length)) = some (true, 4, 4) := by decide +kernel
example : (intersect exConv (fun _ => ['X']) 7 8 (sentence [6, 6]) exHG 100).map Prod.fst = some false := by decide +kernel
example : Yields exHG (.node 4 [.node 0 [], .node 1 []]) [6, 5] :=
  .node (vals := [[5], [6]]) rfl (.cons (.node rfl .nil (.word (by decide) .nil)) (.cons (.node rfl .nil (.word (by decide) .nil)) .nil))
    (.var (k := 1) (v := [6]) rfl (.var (k := 0) (v := [5]) rfl .nil))

/-! ### Where the claim is false -/

/-- `[S] → [X] [X]`, `[X] → x ||| 5`, and `[X] → x |||` with an empty target side. -/
def exEmpty : Hypergraph (EVal Nat) where
  nodes := [⟨0, -2, [0], [2]⟩, ⟨1, -2, [1], [2]⟩, ⟨2, -1, [2], []⟩]
  edges := [⟨0, some 0, [], ⟨⟨-2, [9], [5], 0⟩, none, 1, 0, 1, -1, -1⟩⟩, ⟨1, some 1, [], ⟨⟨-2, [9], [], 0⟩, none, 2, 1, 2, -1, -1⟩⟩,
    ⟨2, some 2, [0, 1], ⟨⟨-1, [-2, -2], [0, -1], 2⟩, none, 8, 0, 2, -1, -1⟩⟩]

/-- A rule whose target side is empty: the forest has a derivation of the reference, and `Intersect` says no. -/
theorem C105_empty_target_fails : ∃ (hg : Hypergraph (EVal Nat)) (T : Tree), WF hg ∧ IsDeriv hg hg.goal T ∧ Yields hg T [5] ∧
    (intersect exConv (fun _ => ['X']) 7 8 (sentence [5]) hg 100).map Prod.fst = some false := by
  refine ⟨exEmpty, .node 2 [.node 0 [], .node 1 []], by constructor <;> decide, ?_, ?_, by decide +kernel⟩
  · exact isDeriv_iff.2 ⟨by decide, .cons (isDeriv_iff.2 ⟨by decide, .nil⟩) (.cons (isDeriv_iff.2 ⟨by decide, .nil⟩) .nil)⟩
  · exact .node (vals := [[5], []]) rfl (.cons (.node rfl .nil (.word (by decide) .nil)) (.cons (.node rfl .nil .nil) .nil))
      (.var (k := 0) (v := [5]) rfl (.var (k := 1) (v := []) rfl .nil))

/-- One rule, `[S] → x ||| 1 3`. -/
def exArc : Hypergraph (EVal Nat) where
  nodes := [⟨0, -1, [0], []⟩]
  edges := [⟨0, some 0, [], ⟨⟨-1, [9], [1, 3], 0⟩, none, 1, 0, 1, -1, -1⟩⟩]

/-- A lattice in which an arc passes over a position, with one arc from each position: the forest has a derivation of a path of the lattice, `Intersect` takes the
lattice for the sentence of the labels, removes the rule and says no.  With a second arc anywhere it says yes. -/
theorem C105_lattice_fails : ∃ (target target' : List (List (Arc Nat))) (hg : Hypergraph (EVal Nat)) (T : Tree), IsDeriv hg hg.goal T ∧ Yields hg T [1, 3] ∧
    Path target 0 [1, 3] ∧ Path target' 0 [1, 3] ∧
    (intersect exConv (fun _ => ['X']) 7 8 target hg 100).map Prod.fst = some false ∧ (intersect exConv (fun _ => ['X']) 7 8 target' hg 100).map Prod.fst = some true := by
  refine ⟨[[⟨1, 0, 2⟩], [⟨2, 0, 1⟩], [⟨3, 0, 1⟩]], [[⟨1, 0, 2⟩], [⟨2, 0, 1⟩, ⟨4, 0, 1⟩], [⟨3, 0, 1⟩]], exArc, .node 0 [], ?_, ?_, ?_, ?_, by decide +kernel, by decide +kernel⟩
  · exact isDeriv_iff.2 ⟨by decide, .nil⟩
  · exact .node rfl .nil (.word (by decide) (.word (by decide) .nil))
  · exact .arc (a := ⟨1, 0, 2⟩) (by simp) (.arc (a := ⟨3, 0, 1⟩) (by simp) .nil)
  · exact .arc (a := ⟨1, 0, 2⟩) (by simp) (.arc (a := ⟨3, 0, 1⟩) (by simp) .nil)

end Cdec.Dec.Intersect
