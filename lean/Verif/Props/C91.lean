import Verif.Decoder.RefineLemmas
/-!
# C91: coarse-to-fine refinement of a forest
-/
namespace Cdec.Dec.Refine
open Cdec.HG Parser.Spec
variable {R φ : Type}

namespace Spec

/-- The rule at the root of a tree. -/
def rootRule : LTree (RVal R φ) → R
  | .node x _ => x.rule

/-- The symbols of the fine rule at the places of the categories of the coarse rule. -/
def cats (coarse fine : List Int) : List Int := ((coarse.zip fine).filter fun p => decide (p.1 < 0)).map (·.2)

/-- A fine tree refines a coarse tree: same shape, same spans and lattice costs, each rule is one of the fine rules of the coarse rule, and the categories on the source
side of each fine rule are the left-hand sides of the rules below it. -/
inductive Refines (E : Rules R) : LTree (RVal R φ) → LTree (RVal R φ) → Prop
  | node {x y : RVal R φ} {ch ch' : List (LTree (RVal R φ))} {frs : List R} : E.fine x.rule = some frs → y.rule ∈ frs → y.i = x.i → y.j = x.j → y.cost = x.cost →
      List.Forall₂ (Refines E) ch ch' → cats (E.f x.rule) (E.f y.rule) = ch'.map (fun t => E.lhs (rootRule t)) → Refines E (.node x ch) (.node y ch')

/-- Every edge has a tail for each category of its rule; its rule has fine rules, with source sides of the same length. -/
def Fits (E : Rules R) (g : Hypergraph (RVal R φ)) : Prop :=
  ∀ v, ∀ e ∈ g.inE v, ∀ ed, g.edges[e]? = some ed → ed.tails.length = ((E.f ed.val.rule).filter fun c => decide (c < 0)).length ∧
    ∃ frs, E.fine ed.val.rule = some frs ∧ ∀ fr ∈ frs, (E.f fr).length = (E.f ed.val.rule).length

/-- The tree is a derivation of the goal of the forest. -/
def Tree (g : Hypergraph (RVal R φ)) (t : LTree (RVal R φ)) : Prop := ∃ T, IsDeriv g g.goal T ∧ Shows g T t

end Spec
open Spec

theorem ntPositions_cons (a : Int) (f : List Int) : ntPositions (a :: f) = (if a < 0 then [0] else []) ++ (ntPositions f).map (· + 1) := by
  unfold ntPositions
  rw [List.length_cons, List.range_succ_eq_map, List.filter_cons, List.filter_map]
  have : ((fun i => decide ((a :: f).getD i 0 < 0)) ∘ Nat.succ) = fun i => decide (f.getD i 0 < 0) := by
    funext i; simp
  rw [this]
  by_cases h : a < 0
  · simp [h]
  · simp [h]

theorem fineCats_eq (f : List Int) : ∀ ff : List Int, ff.length = f.length → fineCats f ff = cats f ff := by
  induction f with
  | nil => intro ff h; simp [fineCats, ntPositions, cats]
  | cons a f ih =>
    intro ff h
    cases ff with
    | nil => simp at h
    | cons b ff =>
      have := ih ff (by simpa using h)
      unfold fineCats cats at this ⊢
      rw [ntPositions_cons, List.zip_cons_cons, List.filter_cons, List.map_append, List.map_map]
      have e : ((fun p => (b :: ff).getD p 0) ∘ fun x => x + 1) = fun p => ff.getD p 0 := by funext p; simp
      rw [e, this]
      by_cases ha : a < 0 <;> simp [ha]

theorem ntPositions_length (f : List Int) : (ntPositions f).length = (f.filter fun c => decide (c < 0)).length := by
  induction f with
  | nil => rfl
  | cons a f ih =>
    rw [ntPositions_cons, List.filter_cons]
    by_cases ha : a < 0 <;> simp [ha, ih]

variable {E : Rules R} {g : Hypergraph (RVal R φ)}

theorem fit (hw : WF g) (hf : Fits E g) : ∀ v < g.nodes.length, ∀ e ∈ g.inE v, Fit E g v e := by
  intro v hv e he
  have hlt := hw.edge_lt v hv e he
  obtain ⟨h1, frs, h2, _⟩ := hf v e he _ (List.getElem?_eq_getElem hlt)
  refine ⟨_, frs, List.getElem?_eq_getElem hlt, h2, by rw [h1, ntPositions_length], ?_⟩
  intro t ht
  apply hw.topo v hv e he t
  rw [tails_lt' g e hlt]
  exact ht

/-- The edges of a refined node. -/
theorem apps_iff (hf : Fits E g) {last cur : Nat} {s : State R φ} (h : Inv' E last cur (NodeJob E g) s) {v w : Nat} {c : Int} (hw : s.s2n v c = some w) {ts : List Nat} {y : RVal R φ} :
    some (ts, y) ∈ s.forest.apps w ↔ ∃ tl x frs, some (tl, x) ∈ g.apps v ∧ E.fine x.rule = some frs ∧ y.rule ∈ frs ∧ y.i = x.i ∧ y.j = x.j ∧ y.cost = x.cost ∧ E.lhs y.rule = c ∧
      Resolved s.s2n tl (cats (E.f x.rule) (E.f y.rule)) ts := by
  rw [h.apps v c w hw]
  have hcat : ∀ {e tl x frs fr}, e ∈ g.inE v → g.app e = some (tl, x) → E.fine x.rule = some frs → fr ∈ frs → fineCats (E.f x.rule) (E.f fr) = cats (E.f x.rule) (E.f fr) := by
    intro e tl x frs fr he ha hfr hm
    obtain ⟨ed, h1, rfl, rfl⟩ := app_iff.1 ha
    obtain ⟨_, frs', h2, h3⟩ := hf v e he ed h1
    rw [hfr] at h2
    cases h2
    exact fineCats_eq _ _ (h3 fr hm)
  constructor
  · rintro ⟨⟨v', tl, x, fr⟩, ts', ⟨e, he, _, ha, frs, hfr, hm⟩, hv, hl, hr, heq⟩
    simp only [] at he ha hfr hm hv hl
    subst hv
    simp only [Option.some.injEq, Prod.mk.injEq] at heq
    obtain ⟨rfl, rfl⟩ := heq
    refine ⟨tl, x, frs, List.mem_map.2 ⟨e, he, ha⟩, hfr, hm, rfl, rfl, rfl, hl, ?_⟩
    unfold Job.Res at hr
    simp only [] at hr
    rw [hcat he ha hfr hm] at hr
    exact hr
  · rintro ⟨tl, x, frs, ha, hfr, hm, hi, hj, hc, hl, hr⟩
    obtain ⟨e, he, ha⟩ := List.mem_map.1 ha
    refine ⟨⟨v, tl, x, y.rule⟩, ts, ⟨e, he, rfl, ha, frs, hfr, hm⟩, rfl, hl, ?_, ?_⟩
    · unfold Job.Res
      simp only []
      rw [hcat he ha hfr hm]
      exact hr
    · cases y
      simp only [] at hi hj hc
      subst hi; subst hj; subst hc
      rfl

/-- Derivations of a refined node are refinements of derivations. -/
theorem der_sound (hf : Fits E g) {last cur : Nat} {s : State R φ} (h : Inv' E last cur (NodeJob E g) s) (t' : LTree (RVal R φ)) :
    ∀ v c w, s.s2n v c = some w → Der s.forest w t' → E.lhs (rootRule t') = c ∧ ∃ t, Der g v t ∧ Refines E t t' := by
  induction t' using LTree.rec (motive_2 := fun ch' => ∀ (tl : List Nat) (cs : List Int) (ts : List Nat), Resolved s.s2n tl cs ts → List.Forall₂ (Der s.forest) ts ch' →
      cs = ch'.map (fun t => E.lhs (rootRule t)) ∧ ∃ ch, List.Forall₂ (Der g) tl ch ∧ List.Forall₂ (Refines E) ch ch') with
  | node y ch' ih =>
    intro v c w hw hd
    obtain ⟨ts, ha, hch⟩ := der_iff.1 hd
    obtain ⟨tl, x, frs, h1, h2, h3, h4, h5, h6, h7, h8⟩ := (apps_iff hf h hw).1 ha
    obtain ⟨e1, ch, e2, e3⟩ := ih tl _ ts h8 hch
    exact ⟨h7, .node x ch, der_iff.2 ⟨tl, h1, e2⟩, .node h2 h3 h4 h5 h6 e3 e1⟩
  | nil =>
    rename_i tl cs ts hr hch
    cases hch
    obtain ⟨h1, h2⟩ := hr
    have : (tl.zip cs).length = 0 := h1.length_eq
    rw [List.length_zip] at this
    have e1 : tl = [] := by apply List.eq_nil_of_length_eq_zero; omega
    have e2 : cs = [] := by apply List.eq_nil_of_length_eq_zero; omega
    subst e1; subst e2
    exact ⟨rfl, [], .nil, .nil⟩
  | cons t' ch' ih1 ih2 =>
    rename_i tl cs ts hr hch
    cases hch with
    | @cons w _ ts' _ hd hch =>
    obtain ⟨h1, h2⟩ := hr
    cases tl with
    | nil => simp at h1
    | cons v tl =>
      cases cs with
      | nil => simp at h2
      | cons c cs =>
        rw [List.zip_cons_cons, List.forall₂_cons] at h1
        obtain ⟨e1, t, e2, e3⟩ := ih1 v c w h1.1 hd
        obtain ⟨e4, ch, e5, e6⟩ := ih2 tl cs ts' ⟨h1.2, by simpa using h2⟩ hch
        exact ⟨by rw [List.map_cons, e1, e4], t :: ch, .cons e2 e5, .cons e3 e6⟩

/-- Refinements of derivations are derivations of refined nodes. -/
theorem der_complete (hf : Fits E g) {last cur : Nat} {s : State R φ} (h : Inv' E last cur (NodeJob E g) s) (t : LTree (RVal R φ)) :
    ∀ v t', Der g v t → Refines E t t' → ∃ w, s.s2n v (E.lhs (rootRule t')) = some w ∧ Der s.forest w t' := by
  induction t using LTree.rec (motive_2 := fun ch => ∀ (tl : List Nat) (ch' : List (LTree (RVal R φ))), List.Forall₂ (Der g) tl ch → List.Forall₂ (Refines E) ch ch' →
      ∃ ts, Resolved s.s2n tl (ch'.map (fun t => E.lhs (rootRule t))) ts ∧ List.Forall₂ (Der s.forest) ts ch') with
  | node x ch ih =>
    intro v t' hd hr
    obtain ⟨tl, ha, hch⟩ := der_iff.1 hd
    cases hr with
    | @node _ y _ ch' frs h1 h2 h3 h4 h5 h6 h7 =>
    obtain ⟨ts, e1, e2⟩ := ih tl ch' hch h6
    rw [← h7] at e1
    obtain ⟨e, he, hae⟩ := List.mem_map.1 ha
    have hnn : s.s2n v (E.lhs y.rule) ≠ none := by
      have hcat : fineCats (E.f x.rule) (E.f y.rule) = cats (E.f x.rule) (E.f y.rule) := by
        obtain ⟨ed, g1, rfl, rfl⟩ := app_iff.1 hae
        obtain ⟨_, frs', g2, g3⟩ := hf v e he ed g1
        rw [h1] at g2
        cases g2
        exact fineCats_eq _ _ (g3 _ h2)
      refine h.none ⟨v, tl, x, y.rule⟩ ts ⟨e, he, rfl, hae, frs, h1, h2⟩ ?_
      unfold Job.Res
      simp only []
      rw [hcat]
      exact e1
    obtain ⟨w, hw⟩ := Option.ne_none_iff_exists'.1 hnn
    exact ⟨w, hw, der_iff.2 ⟨ts, (apps_iff hf h hw).2 ⟨tl, x, frs, ha, h1, h2, h3, h4, h5, rfl, e1⟩, e2⟩⟩
  | nil =>
    rename_i tl ch' hd hr
    cases hd
    cases hr
    exact ⟨[], ⟨.nil, rfl⟩, .nil⟩
  | cons t ch ih1 ih2 =>
    rename_i tl ch' hd hr
    cases hd with
    | cons a b =>
      cases hr with
      | cons c d =>
        obtain ⟨w, e1, e2⟩ := ih1 _ _ a c
        obtain ⟨ts, ⟨e3, e4⟩, e5⟩ := ih2 _ _ b d
        exact ⟨w :: ts, ⟨.cons e1 e3, by simpa using e4⟩, .cons e2 e5⟩

/-- Every refined node has a derivation. -/
theorem der_exists {last cur : Nat} {s : State R φ} (h : Inv' E last cur (NodeJob E g) s) (hw : WF s.forest) (w : Nat) : w < s.forest.nodes.length → ∃ t, Der s.forest w t := by
  induction w using Nat.strongRecOn with
  | ind w ih =>
    intro hlt
    obtain ⟨v, c, hvc⟩ := h.surj w hlt
    obtain ⟨a, ha⟩ := List.exists_mem_of_ne_nil _ (h.full v c w hvc)
    obtain ⟨d, ts, _, _, _, hr, rfl⟩ := (h.apps v c w hvc a).1 ha
    have hts : ∀ t ∈ ts, t < w := by
      obtain ⟨e, he, hae⟩ := List.mem_map.1 ha
      obtain ⟨ed, h1, rfl, _⟩ := app_iff.1 hae
      intro t ht
      refine hw.topo w hlt e he t ?_
      unfold Hypergraph.tails
      rw [h1]
      exact ht
    have : ∀ ts : List Nat, (∀ t ∈ ts, t < w) → ∃ ch, List.Forall₂ (Der s.forest) ts ch := by
      intro ts
      induction ts with
      | nil => intro _; exact ⟨[], .nil⟩
      | cons t ts iht =>
        intro hts
        obtain ⟨ch, hch⟩ := iht fun x hx => hts x (by simp [hx])
        obtain ⟨t1, ht1⟩ := ih t (hts t (by simp)) (by have := hts t (by simp); omega)
        exact ⟨t1 :: ch, .cons ht1 hch⟩
    obtain ⟨ch, hch⟩ := this ts hts
    exact ⟨_, der_iff.2 ⟨ts, ha, hch⟩⟩

/-- The refined forest is in topological order. -/
theorem refined_wf {last cur : Nat} {s : State R φ} (h : Inv' E last cur (NodeJob E g) s) : WF s.forest where
  edge_lt := h.inv.inRange.edge_lt
  nodup := h.inv.inRange.nodup
  topo := by
    intro w hw e he t ht
    have hlt := h.inv.inRange.edge_lt w hw e he
    obtain ⟨v, c, hvc⟩ := h.surj w hw
    have ha : s.forest.app e ∈ s.forest.apps w := List.mem_map.2 ⟨e, he, rfl⟩
    obtain ⟨d, ts, hd, rfl, _, hr, heq⟩ := (h.apps v c w hvc _).1 ha
    obtain ⟨ed, h1, rfl, _⟩ := app_iff.1 heq
    unfold Hypergraph.tails at ht
    rw [h1] at ht
    obtain ⟨t0, ht0, c0, hc0⟩ := resolved_mem hr t ht
    exact h.ord _ _ _ _ _ _ hc0 hvc (h.tl d hd t0 ht0)

/-- Refining a forest, for every forest and every set of fine rules: it does not stop, the result is a well-formed forest in topological order, it reports success exactly if
some derivation has a refinement; then, if the fine rules of the edges at the goal have one left-hand side, as those of the goal rule have, the derivations of the result
are exactly the refinements of the derivations of the coarse forest. -/
theorem C91_refine (E : Rules R) (g : Hypergraph (RVal R φ)) (hw : WF g) (hf : Fits E g) :
    ∃ ok g', refine E g = some (ok, g') ∧ Consistent g' ∧ WF g' ∧ (ok = true ↔ ∃ t t', Tree g t ∧ Refines E t t') ∧
      (ok = true → ∀ c, (∀ t t', Tree g t → Refines E t t' → E.lhs (rootRule t') = c) → ∀ t', Tree g' t' ↔ ∃ t, Tree g t ∧ Refines E t t') := by
  obtain ⟨s, h1, h⟩ := refine_inv (fit hw hf)
  have hwf := refined_wf h
  have hlast : s.goal = true → ∃ c, s.s2n g.goal c = some s.forest.goal := by
    intro hg
    obtain ⟨c, w, hcw⟩ := h.goal.1 hg
    have hlt := h.lt _ _ _ hcw
    obtain ⟨v, c', hv⟩ := h.surj s.forest.goal (by unfold Hypergraph.goal; omega)
    have hvle : v < g.nodes.length := by
      obtain ⟨a, ha⟩ := List.exists_mem_of_ne_nil _ (h.full v c' _ hv)
      obtain ⟨d, _, ⟨e, he, _⟩, rfl, _⟩ := (h.apps v c' _ hv a).1 ha
      by_contra hn
      rw [inE_oob g d.v (by omega)] at he
      simp at he
    by_cases hvg : v = g.goal
    · exact ⟨c', hvg ▸ hv⟩
    · have := h.ord _ _ _ _ _ _ hv hcw (by unfold Hypergraph.goal at hvg; omega)
      unfold Hypergraph.goal at this
      omega
  refine ⟨s.goal, s.forest, h1, h.inv, hwf, ⟨?_, ?_⟩, ?_⟩
  · intro hg
    obtain ⟨c, hc⟩ := hlast hg
    obtain ⟨t', ht'⟩ := der_exists h hwf _ (h.lt _ _ _ hc)
    obtain ⟨_, t, h2, h3⟩ := der_sound hf h t' _ _ _ hc ht'
    exact ⟨t, t', h2, h3⟩
  · rintro ⟨t, t', h2, h3⟩
    obtain ⟨w, hw, _⟩ := der_complete hf h t _ t' h2 h3
    exact h.goal.2 ⟨_, w, hw⟩
  · intro hg c hc t'
    obtain ⟨c', hc'⟩ := hlast hg
    constructor
    · intro ht'
      obtain ⟨_, t, h2, h3⟩ := der_sound hf h t' _ _ _ hc' ht'
      exact ⟨t, h2, h3⟩
    · rintro ⟨t, h2, h3⟩
      obtain ⟨t1', ht1'⟩ := der_exists h hwf _ (h.lt _ _ _ hc')
      obtain ⟨e1, t1, h4, h5⟩ := der_sound hf h t1' _ _ _ hc' ht1'
      have e2 := hc t1 t1' h4 h5
      have e3 := hc t t' h2 h3
      obtain ⟨w, hw, hd⟩ := der_complete hf h t _ t' h2 h3
      rw [e3, ← e2, e1, hc'] at hw
      cases hw
      exact hd

/-- If the rule of an edge has no fine rules, the decoder stops. -/
theorem C91_mixed (E : Rules R) (g : Hypergraph (RVal R φ)) (v : Nat) (hv : v < g.nodes.length) (e : Nat) (he : e ∈ g.inE v) (ed : Edge (RVal R φ)) (hed : g.edges[e]? = some ed)
    (hn : E.fine ed.val.rule = none) : refine E g = none := by
  have hstep : ∀ last s, edgeStep E g last v s e = none := by
    intro last s; unfold edgeStep; rw [hed]; simp only [hn]
  have hfold : ∀ {σ τ : Type} (f : σ → τ → Option σ) (l : List τ) (a : τ), a ∈ l → (∀ s, f s a = none) → ∀ s, l.foldlM f s = none := by
    intro σ τ f l a ha hf
    induction l with
    | nil => simp at ha
    | cons b l ih =>
      intro s
      rw [List.foldlM_cons]
      rcases List.mem_cons.1 ha with rfl | ha
      · rw [hf s]; rfl
      · cases f s b with
        | none => rfl
        | some s' => exact ih ha s'
  unfold refine
  rw [hfold _ _ v (List.mem_range.2 hv)]
  · rfl
  · intro s
    exact hfold _ _ e he (hstep _) s

/-- With fine rules of different left-hand sides at the goal, only the derivations of one of them are left. -/
theorem C91_goals_fails : ∃ (E : Rules Nat) (g : Hypergraph (RVal Nat Nat)) (g' : Hypergraph (RVal Nat Nat)) (t t' : LTree (RVal Nat Nat)), WF g ∧ Fits E g ∧ refine E g = some (true, g') ∧
    Tree g t ∧ Refines E t t' ∧ ¬ Tree g' t' := by
  refine ⟨⟨fun r => -(r : Int) - 1, fun _ => [5], fun r => if r = 0 then some [1, 2] else none⟩, ⟨[⟨0, -1, [0], []⟩], [⟨0, some 0, [], ⟨0, 0, 1, 0⟩⟩]⟩,
    ⟨[⟨0, -2, [0], []⟩, ⟨1, -3, [1], []⟩], [⟨0, some 0, [], ⟨1, 0, 1, 0⟩⟩, ⟨1, some 1, [], ⟨2, 0, 1, 0⟩⟩]⟩,
    .node ⟨0, 0, 1, 0⟩ [], .node ⟨1, 0, 1, 0⟩ [], ?_, ?_, rfl, ?_, ?_, ?_⟩
  · constructor <;> decide
  · intro v e he ed hed
    match v with
    | 0 =>
      have : e = 0 := by simpa [Hypergraph.inE, Hypergraph.node] using he
      subst this
      simp at hed
      subst hed
      exact ⟨rfl, [1, 2], rfl, by simp⟩
    | v + 1 => simp [Hypergraph.inE, Hypergraph.node] at he; exact absurd he (by simp [default, instInhabitedNode])
  · exact der_iff.2 ⟨[], by simp [Hypergraph.apps, Hypergraph.inE, Hypergraph.node, Hypergraph.goal, Hypergraph.app], .nil⟩
  · exact .node (frs := [1, 2]) rfl (by simp) rfl rfl rfl .nil rfl
  · intro h
    obtain ⟨ts, h1, _⟩ := der_iff.1 h
    simp [Hypergraph.apps, Hypergraph.inE, Hypergraph.node, Hypergraph.goal, Hypergraph.app] at h1

/-- Rules for a case: coarse 0 (a word) with fine 1 and 2, coarse 3 (the goal rule) with fine 4 and 5; categories -11, -12 and -13. -/
def exRules : Rules Nat :=
  ⟨fun r => if r = 1 then -11 else if r = 2 then -12 else if r = 0 then -1 else -20,
    fun r => if r ≤ 2 then [7] else if r = 3 then [-1] else if r = 4 then [-11] else [-13],
    fun r => if r = 0 then some [1, 2] else if r = 3 then some [4, 5] else none⟩

/-- Its forest. -/
def exForest : Hypergraph (RVal Nat Nat) := ⟨[⟨0, -1, [0], [1]⟩, ⟨1, -20, [1], []⟩], [⟨0, some 0, [], ⟨0, 0, 1, 3⟩⟩, ⟨1, some 1, [0], ⟨3, 0, 1, 0⟩⟩]⟩

theorem ex_fits : WF exForest ∧ Fits exRules exForest := by
  constructor
  · constructor <;> decide
  · intro v e he ed hed
    match v with
    | 0 =>
      have : e = 0 := by simpa [Hypergraph.inE, Hypergraph.node, exForest] using he
      subst this
      simp [exForest] at hed
      subst hed
      exact ⟨rfl, [1, 2], rfl, by decide⟩
    | 1 =>
      have : e = 1 := by simpa [Hypergraph.inE, Hypergraph.node, exForest] using he
      subst this
      simp [exForest] at hed
      subst hed
      exact ⟨rfl, [4, 5], rfl, by decide⟩
    | v + 2 => simp [Hypergraph.inE, Hypergraph.node, exForest] at he; exact absurd he (by simp [default, instInhabitedNode])

/-- The case meets the hypotheses, and its only refinement is rule 4 over rule 1. -/
example : ∃ g', refine exRules exForest = some (true, g') ∧ Tree g' (.node ⟨4, 0, 1, 0⟩ [.node ⟨1, 0, 1, 3⟩ []]) := by
  obtain ⟨ok, g', h1, _, _, h2, h3⟩ := C91_refine exRules exForest ex_fits.1 ex_fits.2
  have ht : Tree exForest (.node ⟨3, 0, 1, 0⟩ [.node ⟨0, 0, 1, 3⟩ []]) :=
    der_iff.2 ⟨[0], by simp [Hypergraph.apps, Hypergraph.inE, Hypergraph.node, Hypergraph.goal, Hypergraph.app, exForest],
      .cons (der_iff.2 ⟨[], by simp [Hypergraph.apps, Hypergraph.inE, Hypergraph.node, Hypergraph.app, exForest], .nil⟩) .nil⟩
  have hr : Refines exRules (.node ⟨3, 0, 1, 0⟩ [.node ⟨0, 0, 1, 3⟩ []] : LTree (RVal Nat Nat)) (.node ⟨4, 0, 1, 0⟩ [.node ⟨1, 0, 1, 3⟩ []]) :=
    .node (frs := [4, 5]) rfl (by simp) rfl rfl rfl (.cons (.node (frs := [1, 2]) rfl (by simp) rfl rfl rfl .nil rfl) .nil) rfl
  have hok : ok = true := h2.2 ⟨_, _, ht, hr⟩
  subst hok
  refine ⟨g', h1, (h3 rfl (-20) ?_ _).2 ⟨_, ht, hr⟩⟩
  intro t t' h4 h5
  cases h5 with
  | @node x y ch ch' frs a b =>
    obtain ⟨ts, h6, _⟩ := der_iff.1 h4
    simp [Hypergraph.apps, Hypergraph.inE, Hypergraph.node, Hypergraph.goal, Hypergraph.app, exForest] at h6
    obtain ⟨_, rfl⟩ := h6
    have : frs = [4, 5] := (Option.some.inj a).symm
    subst this
    have : y.rule = 4 ∨ y.rule = 5 := by simpa using b
    rcases this with h | h <;> simp [rootRule, exRules, h]

end Cdec.Dec.Refine
