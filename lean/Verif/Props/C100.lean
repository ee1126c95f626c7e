import Mathlib.Algebra.Order.Group.Nat
import Mathlib.Algebra.Order.Monoid.TypeTags
import Verif.Decoder.DecodeLemmas
import Verif.Props.C89
/-!
# C100: the decoder prints the best translation
-/
namespace Cdec.Dec.Decode
open Cdec.HG Cdec.Dec Cdec.Dec.Parser Cdec.Dec.Parser.Spec Cdec.Dec.Scfg Cdec.Dec.Scfg.Spec Cdec.Dec.Decode.Spec
variable {S φ W : Type}

namespace Spec

/-- The variables of every target side are those of its source side, each once: what `TRule::ReadFromString` and the grammar extractor make. -/
def Sides (val : Nat → Rule) (gs : List Gr) : Prop := ∀ g ∈ gs, ∀ r ∈ added g.calls, Dec.Spec.Linear (val r).e ((val r).f.filter fun c => decide (c < 0)).length

/-- The derivations of an input: parses of the whole lattice under the goal rule, by the rules of the grammars `gs`, the glue rules and the pass-through rules; `u` are the
unary rules. -/
def Derivation [Add φ] [Zero φ] (val : Nat → Rule) (rfeats : Nat → φ) (gs : List Gr) (stop glue : Nat) (pass : Int → Nat) (lat : List (List (Arc φ))) (eps goalCat kGoal : Int) (goalRule : Nat)
    (u : List Nat) (t : LTree (Val Nat φ)) : Prop :=
  ∃ t0, Parse (env val rfeats lat (gs ++ [glueGrammar stop glue] ++ [passGrammar pass lat]) eps goalCat kGoal goalRule) u goalCat 0 lat.length t0 ∧
    t = .node ⟨goalRule, 0, lat.length, rfeats goalRule + 0, [none]⟩ [t0]

/-- The unary rules of the grammars that do not have the goal category on their right side. -/
def unaryOf (val : Nat → Rule) (gs : List Gr) (stop : Nat) (goalCat : Int) : List Nat :=
  ((gs.flatMap fun G => (Grammar.run val G.calls).unaries) ++ [stop]).filter fun r => decide ((val r).f.headD 0 ≠ goalCat)

end Spec

/-- Every rule of the tree has as many variables as children. -/
inductive Fits (val : Nat → Rule) : LTree (Val Nat φ) → Prop
  | node {v : Val Nat φ} {ch : List (LTree (Val Nat φ))} : (∀ t ∈ ch, Fits val t) → Dec.Spec.Linear (val v.rule).e ch.length → Fits val (.node v ch)

theorem fits_iff {val : Nat → Rule} {v : Val Nat φ} {ch : List (LTree (Val Nat φ))} :
    Fits val (.node v ch) ↔ (∀ t ∈ ch, Fits val t) ∧ Dec.Spec.Linear (val v.rule).e ch.length :=
  ⟨fun h => by cases h with | node a b => exact ⟨a, b⟩, fun ⟨a, b⟩ => .node a b⟩

theorem yields_iff {val : Nat → Rule} {v : Val Nat φ} {ch : List (LTree (Val Nat φ))} {out : List Int} :
    Yields val (.node v ch) out ↔ ∃ vs, List.Forall₂ (Yields val) ch vs ∧ Dec.Spec.Replaced vs (val v.rule).e out :=
  ⟨fun h => by cases h with | node a b => exact ⟨_, a, b⟩, fun ⟨_, a, b⟩ => .node a b⟩

/-! ## Rescoring does not change rules -/

theorem fits_relabel {val : Nat → Rule} {P : Pass S φ W} (t : LTree (Val Nat φ)) : Fits val (relabel P t).2 ↔ Fits val t := by
  induction t using LTree.rec (motive_2 := fun ts => (∀ t ∈ (ts.map fun t => relabel P t).map (·.2), Fits val t) ↔ ∀ t ∈ ts, Fits val t) with
  | node v ch ih =>
    rw [relabel_node, fits_iff, fits_iff, ih]
    simp [withFeats]
  | nil => simp
  | cons t ts h1 h2 => simp only [List.map_cons, List.forall_mem_cons]; rw [h1, h2]

theorem yields_relabel {val : Nat → Rule} {P : Pass S φ W} (t : LTree (Val Nat φ)) : ∀ out, Yields val (relabel P t).2 out ↔ Yields val t out := by
  induction t using LTree.rec (motive_2 := fun ts => ∀ vs, List.Forall₂ (Yields val) ((ts.map fun t => relabel P t).map (·.2)) vs ↔ List.Forall₂ (Yields val) ts vs) with
  | node v ch ih =>
    intro out
    rw [relabel_node, yields_iff, yields_iff]
    simp only [ih, withFeats]
  | nil => simp
  | cons t ts h1 h2 =>
    rename_i vs
    cases vs with
    | nil => simp
    | cons v vs => simp only [List.map_cons, List.forall₂_cons]; rw [h1, h2]

theorem yields_relabels {val : Nat → Rule} {P : Pass S φ W} (ts : List (LTree (Val Nat φ))) :
    ∀ vs, List.Forall₂ (Yields val) ((ts.map fun t => relabel P t).map (·.2)) vs ↔ List.Forall₂ (Yields val) ts vs := by
  induction ts with
  | nil => simp
  | cons t ts ih =>
    intro vs
    cases vs with
    | nil => simp
    | cons v vs => simp only [List.map_cons, List.forall₂_cons]; rw [yields_relabel, ih]

theorem fits_rescored {val : Nat → Rule} {P : Pass S φ W} (t : LTree (Val Nat φ)) : Fits val (rescored P t) ↔ Fits val t := by
  obtain ⟨v, ch⟩ := t
  rw [rescored]
  split
  · rw [fits_iff, fits_iff]
    simp only [List.length_map, List.forall_mem_map, fits_relabel]
  · rfl

theorem yields_rescored {val : Nat → Rule} {P : Pass S φ W} (t : LTree (Val Nat φ)) (out : List Int) : Yields val (rescored P t) out ↔ Yields val t out := by
  obtain ⟨v, ch⟩ := t
  rw [rescored]
  split
  · rw [yields_iff, yields_iff]
    simp only [yields_relabels]
  · rfl

theorem fits_after {val : Nat → Rule} (ps : List (Pass S φ W)) : ∀ t : LTree (Val Nat φ), Fits val (afterPasses ps t) ↔ Fits val t := by
  induction ps with
  | nil => exact fun t => Iff.rfl
  | cons P ps ih => exact fun t => (ih _).trans (fits_rescored t)

theorem yields_after {val : Nat → Rule} (ps : List (Pass S φ W)) : ∀ (t : LTree (Val Nat φ)) (out : List Int), Yields val (afterPasses ps t) out ↔ Yields val t out := by
  induction ps with
  | nil => exact fun t _ => Iff.rfl
  | cons P ps ih => exact fun t out => (ih _ out).trans (yields_rescored t out)

/-! ## Reading off the translation -/

theorem trav_shows {val : Nat → Rule} {g : Hypergraph (Val Nat φ)} (T : Tree) : ∀ t, Shows g T t → Fits val t → ∃ out, T.traverse (eTrav val g) = some out ∧ Yields val t out := by
  induction T using Tree.rec (motive_2 := fun ch => ∀ ts, List.Forall₂ (Shows g) ch ts → (∀ t ∈ ts, Fits val t) →
      ∃ vs, (ch.map fun T => T.traverse (eTrav val g)).mapM id = some vs ∧ List.Forall₂ (Yields val) ts vs) with
  | node e ch ih =>
    rintro ⟨b, ts⟩ h hf
    obtain ⟨x, h1, rfl, h2⟩ := shows_iff.1 h
    obtain ⟨f1, f2⟩ := fits_iff.1 hf
    obtain ⟨vs, h3, h4⟩ := ih _ h2 f1
    obtain ⟨out, h5, h6, _⟩ := C19_target_length (val x.val.rule).e vs (by rw [← h4.length_eq]; exact f2)
    refine ⟨out, ?_, yields_iff.2 ⟨vs, h4, h6⟩⟩
    rw [traverse_node, eTrav, h1]
    simp only []
    rw [h3]
    exact h5
  | nil =>
    rename_i h _
    cases h
    exact ⟨[], rfl, .nil⟩
  | cons T ch ih1 ih2 =>
    rename_i h hf
    cases h with
    | cons a b =>
      obtain ⟨v, h1, h2⟩ := ih1 _ a (hf _ (by simp))
      obtain ⟨vs, h3, h4⟩ := ih2 _ b fun t ht => hf t (by simp [ht])
      refine ⟨v :: vs, ?_, .cons h2 h4⟩
      rw [List.map_cons, List.mapM_cons, h1, h3]
      rfl

theorem weight_shows [Monoid W] {weigh : φ → W} {g : Hypergraph (Val Nat φ)} (T : Tree) : ∀ t, Shows g T t → T.weight (edgeProb weigh g) = prob weigh t := by
  induction T using Tree.rec (motive_2 := fun ch => ∀ ts, List.Forall₂ (Shows g) ch ts → (ch.map fun T => T.weight (edgeProb weigh g)) = ts.map fun t => prob weigh t) with
  | node e ch ih =>
    rintro ⟨b, ts⟩ h
    obtain ⟨x, h1, rfl, h2⟩ := shows_iff.1 h
    rw [Tree.weight, prob, ih _ h2, edgeProb, h1]
  | nil => rename_i h; cases h; rfl
  | cons T ch ih1 ih2 =>
    rename_i h
    cases h with
    | cons a b => rw [List.map_cons, List.map_cons, ih1 _ a, ih2 _ b]

/-! ## The rules of a parse -/

theorem match_parts [Add φ] [Zero φ] {ι R : Type} {p : Env ι R φ} {G : Gram ι R} {i j : Nat} {sh : List (Option (Nat × Nat))} {sp : List (Int × Nat × Nat)} {α : List Int} {x : φ}
    (hm : Match p G i j sh sp α x) (hl : ∀ k (a : Arc φ), a ∈ p.lat.getD k [] → 0 < a.label) : (∀ s ∈ sp, s.1 < 0) → (α.filter fun c => decide (c < 0)).length = sp.length := by
  induction hm with
  | nil => intro _; rfl
  | eps _ _ _ _ ih => exact ih
  | @word k idx a sh sp α x _ h1 _ _ ih =>
    intro h
    have := hl k a (List.mem_of_getElem? h1)
    rw [List.filter_append, List.length_append, ih h, List.filter_cons_of_neg (by simp; omega)]
    rfl
  | @part k m c sh sp α x _ _ _ _ ih =>
    intro h
    have := h (c, k, m) (by simp)
    rw [List.filter_append, List.length_append, ih fun s hs => h s (by simp [hs]), List.filter_cons_of_pos (by simpa using this)]
    simp

variable {val : Nat → Rule} {rfeats : Nat → φ} {gs : List Gr} {stop glue : Nat} {pass : Int → Nat} {lat : List (List (Arc φ))} {eps goalCat dflt kGoal : Int} {goalRule : Nat}

theorem linear1 : Dec.Spec.Linear [0] 1 := by unfold Dec.Spec.Linear; decide

theorem linear2 : Dec.Spec.Linear [0, -1] 2 := by unfold Dec.Spec.Linear; decide

theorem rule_sides (h : Setup val gs stop glue pass lat goalCat dflt kGoal goalRule) (hs : Sides val gs) {g : Gr} (hg : g ∈ allGrammars gs stop glue pass lat) {r : Nat}
    (hr : r ∈ Dec.Spec.trieRules val g.calls ∨ r ∈ Dec.Spec.unaryRules val g.calls) : Dec.Spec.Linear (val r).e ((val r).f.filter fun c => decide (c < 0)).length := by
  have hgn := h.goal_neg
  have hdn := h.dflt_neg
  simp only [allGrammars, List.mem_append, List.mem_singleton] at hg
  rcases hg with (hg | rfl) | rfl
  · exact hs g hg r ((mem_added (val := val)).2 hr)
  · rcases hr with hr | hr
    · rw [(trie_glue h).1] at hr
      subst hr
      rw [h.glue]
      simp only [List.filter_cons, hgn, hdn, decide_true, if_true, List.filter_nil, List.length_cons, List.length_nil]
      exact linear2
    · rw [(trie_glue h).2] at hr
      subst hr
      rw [h.stop]
      simp only [List.filter_cons, hdn, decide_true, if_true, List.filter_nil, List.length_cons, List.length_nil]
      exact linear1
  · rcases hr with hr | hr
    · obtain ⟨w, hw, rfl⟩ := (trie_pass h).1.1 hr
      have hp := h.labels w hw
      rw [h.pass w hw]
      have h1 : ¬ w < 0 := by omega
      have h2 : ¬ w ≤ 0 := by omega
      simp [Dec.Spec.Linear, h1, h2]
    · exact absurd hr (trie_pass h).2

theorem unary_one (h : Setup val gs stop glue pass lat goalCat dflt kGoal goalRule) {g : Gr} (hg : g ∈ allGrammars gs stop glue pass lat) {r : Nat}
    (hr : r ∈ Dec.Spec.unaryRules val g.calls) : ((val r).f.filter fun c => decide (c < 0)).length = 1 := by
  have hdn := h.dflt_neg
  simp only [allGrammars, List.mem_append, List.mem_singleton] at hg
  rcases hg with (hg | rfl) | rfl
  · have h1 := h.arity g hg r ((mem_added (val := val)).2 (.inr hr))
    have h2 := unary_unary hr
    simp [Rule.isUnary] at h2
    omega
  · rw [(trie_glue h).2] at hr
    subst hr
    rw [h.stop]
    simp [hdn]
  · exact absurd hr (trie_pass h).2

theorem parse_fits [Add φ] [Zero φ] (h : Setup val gs stop glue pass lat goalCat dflt kGoal goalRule) (hs : Sides val gs) {u : List Nat}
    (hu : ∀ r ∈ u, r ∈ (env val rfeats lat (allGrammars gs stop glue pass lat) eps goalCat kGoal goalRule).unaries) (t : LTree (Val Nat φ)) :
    ∀ c i j, Parse (env val rfeats lat (allGrammars gs stop glue pass lat) eps goalCat kGoal goalRule) u c i j t → Fits val t := by
  have hlab : ∀ k (a : Arc φ), a ∈ lat.getD k [] → 0 < a.label := by
    intro k a ha
    rw [List.getD_eq_getElem?_getD] at ha
    cases hk : lat[k]? with
    | none => rw [hk] at ha; simp at ha
    | some alts => rw [hk] at ha; exact h.labels _ ⟨alts, List.mem_of_getElem? hk, a, ha, rfl⟩
  have hneg : ∀ {c i j t}, Parse (env val rfeats lat (allGrammars gs stop glue pass lat) eps goalCat kGoal goalRule) u c i j t → c < 0 := by
    intro c i j t hp
    cases hp with
    | rule => exact h.lhs _
    | unary => exact h.lhs _
  refine LTree.rec (motive_1 := fun t => ∀ c i j, Parse (env val rfeats lat (allGrammars gs stop glue pass lat) eps goalCat kGoal goalRule) u c i j t → Fits val t)
    (motive_2 := fun ch => ∀ t ∈ ch, ∀ c i j, Parse (env val rfeats lat (allGrammars gs stop glue pass lat) eps goalCat kGoal goalRule) u c i j t → Fits val t) ?_ (by simp) ?_ t
  · intro b ch ih c i j hp
    cases hp with
    | @rule G _ _ sh sp α x g r _ hG hij hj hhas hm hw hr hch =>
      obtain ⟨gr, hgr, rfl⟩ := mem_env_grams.1 hG
      obtain ⟨h1, h2⟩ := (rules_gram hw).1 hr
      have hsp : (∀ s ∈ sp, s.1 < 0) ∧ ∀ t ∈ ch, Fits val t := by
        clear hm
        induction hch with
        | nil => simp
        | @cons s t sp ch hp _ ih2 =>
          obtain ⟨a, b⟩ := ih2 fun t ht => ih t (by simp [ht])
          exact ⟨List.forall_mem_cons.2 ⟨hneg hp, a⟩, List.forall_mem_cons.2 ⟨ih t (by simp) _ _ _ hp, b⟩⟩
      refine .node hsp.2 ?_
      have := rule_sides h hs hgr (.inl h1)
      rw [h2, match_parts hm hlab hsp.1, hch.length_eq] at this
      exact this
    | @unary _ _ r t hr hp =>
      obtain ⟨g, hg, hr1⟩ := mem_env_unaries.1 (hu r hr)
      refine .node (by simpa using ih t (by simp) _ _ _ hp) ?_
      have := rule_sides h hs hg (.inr hr1)
      rw [unary_one h hg hr1] at this
      exact this
  · intro t ch h1 h2 t' ht'
    rcases List.mem_cons.1 ht' with rfl | ht'
    · exact h1
    · exact h2 t' ht'

/-! ## The decoder -/

variable [DecidableEq S] [Add φ] [Zero φ] [Monoid W] [LinearOrder W] [MulLeftMono W] [MulRightMono W]

theorem decode_core (h : Setup val gs stop glue pass lat goalCat dflt kGoal goalRule) (hs : Sides val gs) (weigh : φ → W) (passes : List (Pass S φ W)) {u : List Nat}
    (hu : sortUnaries (env val rfeats lat (allGrammars gs stop glue pass lat) eps goalCat kGoal goalRule) = some u)
    (hmem : ∀ r ∈ u, r ∈ (env val rfeats lat (allGrammars gs stop glue pass lat) eps goalCat kGoal goalRule).unaries) :
    ∃ F, ∀ fuel, F ≤ fuel →
      ((∀ t, ¬ Derivation val rfeats gs stop glue pass lat eps goalCat kGoal goalRule u t) ∧
          decode val rfeats eps goalCat kGoal goalRule (some pass) (gs ++ [glueGrammar stop glue]) weigh passes lat fuel = some none) ∨
      ∃ t out, Derivation val rfeats gs stop glue pass lat eps goalCat kGoal goalRule u t ∧ Yields val t out ∧
        (∀ t', Derivation val rfeats gs stop glue pass lat eps goalCat kGoal goalRule u t' →
          prob (finalWeigh weigh passes) (afterPasses passes t') ≤ prob (finalWeigh weigh passes) (afterPasses passes t)) ∧
        decode val rfeats eps goalCat kGoal goalRule (some pass) (gs ++ [glueGrammar stop glue]) weigh passes lat fuel = some (some out) := by
  obtain ⟨b, g, F, h1, h2, h3⟩ := parse_ready _ (env_ok (rfeats := rfeats) (eps := eps) h) hu
  refine ⟨F, fun fuel hf => ?_⟩
  have htr : translate val rfeats eps goalCat kGoal goalRule (some pass) (gs ++ [glueGrammar stop glue]) lat fuel = some (b, g) := h1 fuel hf
  unfold decode
  rw [htr]
  cases b with
  | false =>
    refine .inl ⟨?_, rfl⟩
    rintro t ⟨t0, h4, _⟩
    have := h2.2 ⟨t0, h4⟩
    simp at this
  | true =>
    right
    obtain ⟨wf, hpos, hlang, _, hready⟩ := h3 rfl
    have hpre : preGoalArity1 g = true := by
      unfold preGoalArity1
      rw [List.all_eq_true]
      intro e he
      simpa using hready.goal e he
    obtain ⟨hh, a1, a2, a3⟩ := rescoreAll_spec passes g hready
    simp only [hpre, if_true, a1]
    have hgl : hh.goal < hh.nodes.length := by
      have := a2.pos
      unfold Hypergraph.goal
      omega
    have hL : ∀ t, Lang g t ↔ Derivation val rfeats gs stop glue pass lat eps goalCat kGoal goalRule u t := fun t => hlang t
    have hgoalfit : ∀ t, Derivation val rfeats gs stop glue pass lat eps goalCat kGoal goalRule u t → Fits val t := by
      rintro t ⟨t0, h4, rfl⟩
      refine .node (by simpa using parse_fits h hs hmem t0 _ _ _ h4) ?_
      show Dec.Spec.Linear (val goalRule).e 1
      rw [h.goal]
      exact linear1
    obtain ⟨T, b1, b2, b3⟩ := C04_viterbi_best_derivation hh a2.wf a2.ne (edgeProb (finalWeigh weigh passes) hh) (eTrav val hh) (1, some []) hh.goal hgl
    obtain ⟨t', ht'⟩ := ready_shows a2 T b1
    obtain ⟨t, c1, rfl⟩ := (a3 t').1 ⟨T, b1, ht'⟩
    have c2 := (hL t).1 c1
    obtain ⟨out, d1, d2⟩ := trav_shows (val := val) T _ ht' ((fits_after passes t).2 (hgoalfit t c2))
    refine ⟨t, out, c2, (yields_after passes t out).1 d2, fun t' ht => ?_, ?_⟩
    · obtain ⟨T', e1, e2⟩ := (a3 _).2 ⟨t', (hL t').2 ht, rfl⟩
      have := b3 T' e1
      rw [weight_shows _ _ ‹Shows hh T _›, weight_shows _ _ e2] at this
      exact this
    · rw [lastWeigh_eq]
      unfold viterbiESentence
      rw [b2, d1]
      rfl

/-- C100.  For every grammar, lattice, weights, and list of rescoring passes with any feature functions, the decoder ends.  If the input has no derivation it prints an empty line;
otherwise what it prints is the translation of a derivation that no other derivation beats, where a derivation is scored by running the models of all passes bottom up along it and
multiplying the weights that the last pass gives to its rule applications.  The derivations are those with unary rules from `u`, which are all the unary rules of the grammars unless
they form a cycle. -/
theorem C100_best (h : Setup val gs stop glue pass lat goalCat dflt kGoal goalRule) (hs : Sides val gs) (weigh : φ → W) (passes : List (Pass S φ W)) :
    ∃ u F, List.Subperm u (unaryOf val gs stop goalCat) ∧
      ((∃ rank : Int → Nat, ∀ r ∈ unaryOf val gs stop goalCat, rank ((val r).f.headD 0) < rank (val r).lhs) → List.Perm u (unaryOf val gs stop goalCat)) ∧
      ∀ fuel, F ≤ fuel →
        ((∀ t, ¬ Derivation val rfeats gs stop glue pass lat eps goalCat kGoal goalRule u t) ∧
          decode val rfeats eps goalCat kGoal goalRule (some pass) (gs ++ [glueGrammar stop glue]) weigh passes lat fuel = some none) ∨
        ∃ t out, Derivation val rfeats gs stop glue pass lat eps goalCat kGoal goalRule u t ∧ Yields val t out ∧
          (∀ t', Derivation val rfeats gs stop glue pass lat eps goalCat kGoal goalRule u t' →
            prob (finalWeigh weigh passes) (afterPasses passes t') ≤ prob (finalWeigh weigh passes) (afterPasses passes t)) ∧
          decode val rfeats eps goalCat kGoal goalRule (some pass) (gs ++ [glueGrammar stop glue]) weigh passes lat fuel = some (some out) := by
  obtain ⟨u, hu, _, h2, h3⟩ := sortUnaries_spec (env val rfeats lat (allGrammars gs stop glue pass lat) eps goalCat kGoal goalRule)
  have hun : (env val rfeats lat (allGrammars gs stop glue pass lat) eps goalCat kGoal goalRule).unaries = (gs.flatMap fun G => (Grammar.run val G.calls).unaries) ++ [stop] := by
    show ((gs ++ [glueGrammar stop glue] ++ [passGrammar pass lat]).flatMap fun G => (Grammar.run val G.calls).unaries) = _
    have e1 : (Grammar.run val (glueGrammar stop glue).calls).unaries = [stop] := by
      rw [(C17_unaries val _).1]
      simp [Dec.Spec.unaryRules, glueGrammar, h.stop, h.glue, Rule.isUnary]
    have e2 : (Grammar.run val (passGrammar pass lat).calls).unaries = [] := by
      rw [(C17_unaries val _).1, List.eq_nil_iff_forall_not_mem]
      exact fun r => (trie_pass h).2
    rw [List.flatMap_append, List.flatMap_append, List.flatMap_singleton, List.flatMap_singleton, e1, e2, List.append_nil]
  have hfil : ((env val rfeats lat (allGrammars gs stop glue pass lat) eps goalCat kGoal goalRule).unaries.filter fun r =>
      decide ((env val rfeats lat (allGrammars gs stop glue pass lat) eps goalCat kGoal goalRule).rhs r ≠ goalCat)) = unaryOf val gs stop goalCat := by
    rw [hun]
    rfl
  obtain ⟨F, hF⟩ := decode_core (eps := eps) (rfeats := rfeats) h hs weigh passes hu fun r hr => List.mem_of_mem_filter (h2.subset hr)
  refine ⟨u, F, ?_, fun ⟨rank, hr⟩ => ?_, hF⟩
  · rw [← hfil]
    exact h2
  · rw [← hfil]
    refine h3 ⟨rank, fun r h4 h5 => hr r ?_⟩
    rw [← hfil]
    exact List.mem_filter.2 ⟨h4, decide_eq_true h5⟩

omit [DecidableEq S] [LinearOrder W] [MulLeftMono W] [MulRightMono W] in
/-- With weights that turn sums into products (`exp` of a dot product), the probability of a derivation is the weight of the sum of its features. -/
theorem C100_score {φ W : Type} [AddMonoid φ] [Monoid W] (weigh : φ → W) (h0 : weigh 0 = 1) (ha : ∀ x y, weigh (x + y) = weigh x * weigh y) (t : LTree (Val Nat φ)) :
    prob weigh t = weigh (total t) := by
  induction t using LTree.rec (motive_2 := fun ts => (ts.map fun t => prob weigh t).prod = weigh (ts.map fun t => total t).sum) with
  | node v ch ih => rw [prob, total, ha, ih]
  | nil => simp [h0]
  | cons t ts h1 h2 => rw [List.map_cons, List.map_cons, List.prod_cons, List.sum_cons, ha, h1, h2]

/-- Every sentence and every lattice with a path that has no arc labelled `*EPS*` is translated: the decoder prints a translation. -/
theorem C100_always (h : Setup val gs stop glue pass lat goalCat dflt kGoal goalRule) (hs : Sides val gs) (weigh : φ → W) (passes : List (Pass S φ W)) (hn : 0 < lat.length)
    (ws : List Int) (hp : LatPath lat 0 lat.length ws) (he : eps ∉ ws) :
    ∃ F, ∀ fuel, F ≤ fuel →
      ∃ out, decode val rfeats eps goalCat kGoal goalRule (some pass) (gs ++ [glueGrammar stop glue]) weigh passes lat fuel = some (some out) := by
  obtain ⟨u, hu, _, h2, _⟩ := sortUnaries_spec (env val rfeats lat (allGrammars gs stop glue pass lat) eps goalCat kGoal goalRule)
  obtain ⟨F, hF⟩ := decode_core (eps := eps) (rfeats := rfeats) h hs weigh passes hu fun r hr => List.mem_of_mem_filter (h2.subset hr)
  refine ⟨F, fun fuel hf => ?_⟩
  rcases hF fuel hf with ⟨h3, _⟩ | ⟨_, out, _, _, _, h3⟩
  · obtain ⟨t, ht, _⟩ := path_parse h hu hp he hn
    exact absurd ⟨t, ht, rfl⟩ (h3 _)
  · exact ⟨out, h3⟩

/-- Without grammars, and whatever the models and weights are, a sentence is printed as it is. -/
theorem C100_identity (h : Setup val [] stop glue pass lat goalCat dflt kGoal goalRule) (weigh : φ → W) (passes : List (Pass S φ W)) (hn : 0 < lat.length)
    (he : ¬ Label lat eps) (ws : List Int) (hp : ∀ out, LatPath lat 0 lat.length out ↔ out = ws) :
    ∃ F, ∀ fuel, F ≤ fuel → decode val rfeats eps goalCat kGoal goalRule (some pass) [glueGrammar stop glue] weigh passes lat fuel = some (some ws) := by
  obtain ⟨u, hu, _, h2, _⟩ := sortUnaries_spec (env val rfeats lat (allGrammars [] stop glue pass lat) eps goalCat kGoal goalRule)
  have hmem : ∀ r ∈ u, r ∈ (env val rfeats lat (allGrammars [] stop glue pass lat) eps goalCat kGoal goalRule).unaries := fun r hr => List.mem_of_mem_filter (h2.subset hr)
  obtain ⟨F, hF⟩ := decode_core (eps := eps) (rfeats := rfeats) h (fun _ hg => absurd hg (by simp)) weigh passes hu hmem
  refine ⟨F, fun fuel hf => ?_⟩
  rcases hF fuel hf with ⟨h3, _⟩ | ⟨t, out, ⟨t0, h4, rfl⟩, h5, _, h3⟩
  · have hp1 := (hp ws).2 rfl
    obtain ⟨t, ht, _⟩ := path_parse (rfeats := rfeats) h hu hp1 (fun hm => he (latPath_labels hp1 eps hm)) hn
    exact absurd ⟨t, ht, rfl⟩ (h3 _)
  · obtain ⟨vs, h6, h7⟩ := yields_iff.1 h5
    cases h6 with
    | @cons _ v _ vs h8 h9 =>
    cases h9
    have h10 := (hp v).1 (alone_parse h he hmem t0 _ _ _ _ h4 h8)
    subst h10
    change Dec.Spec.Replaced _ (val goalRule).e _ at h7
    rw [h.goal] at h7
    have q : Dec.Spec.Replaced [v] (-((0 : Nat) : Int) :: []) (v ++ []) := .var rfl .nil
    have e1 := (C19_target _ _ _).2 ⟨h7, rfl⟩
    have e2 := (C19_target (-((0 : Nat) : Int) :: []) [v] _).2 ⟨q, rfl⟩
    have e3 : out = v ++ [] := Option.some.inj (e1.symm.trans e2)
    rw [List.append_nil] at e3
    rw [← e3]
    exact h3

/-! ## A case -/

/-- The grammar of C89's case: `[X] ||| 1 ||| 7`. -/
def exGrams : List Gr := [⟨.text 10, [⟨3, 0, 0⟩]⟩]

theorem ex_sides : Sides exVal exGrams := by
  intro g hg r hr
  simp only [exGrams, List.mem_singleton] at hg
  subst hg
  have : r = 3 := by simpa [added] using hr
  subst this
  simp [Dec.Spec.Linear, exVal]

/-- Rule 3 costs nothing in the first pass, other rules 1.  The state is the number of the rule at the root. -/
def exPass1 : Pass Nat Nat (Multiplicative Nat) := ⟨true, fun v _ => (v.rule, v.feats + if v.rule = 3 then 6 else 1), fun v _ => v.feats, 0, Multiplicative.ofAdd⟩

/-- The second pass likes a glue rule over a pass-through rule. -/
def exPass2 : Pass Nat Nat (Multiplicative Nat) := ⟨true, fun v ss => (v.rule, v.feats + if v.rule = 1 ∧ 10 ≤ ss.getD 1 0 then 10 else 0), fun v s => v.feats + s, 0, Multiplicative.ofAdd⟩

example : ∃ F, ∀ fuel, F ≤ fuel →
    ∃ out, decode exVal (fun _ => 0) 99 (-2) (-3) 2 (some fun w => 10 + w.toNat) (exGrams ++ [glueGrammar 0 1]) Multiplicative.ofAdd [exPass1, exPass2] exLat fuel = some (some out) :=
  C100_always (ex_setup _ (.inr rfl)) ex_sides _ _ (by decide) _ ex_path.1 (by decide)

example : decode exVal (fun _ => 0) 99 (-2) (-3) 2 (some fun w => 10 + w.toNat) (exGrams ++ [glueGrammar 0 1]) Multiplicative.ofAdd [exPass1, exPass2] exLat 100 = some (some [7, 2]) := by
  decide +kernel

/-- The weights decide: with a pass that likes short derivations the arc over both words is chosen. -/
example : decode exVal (fun _ => 0) 99 (-2) (-3) 2 (some fun w => 10 + w.toNat) (exGrams ++ [glueGrammar 0 1]) Multiplicative.ofAdd
    [⟨true, fun v _ => (v.rule, if v.rule = 15 then 9 else 0), fun v _ => v.feats, 0, Multiplicative.ofAdd⟩] exLat 100 = some (some [5]) := by
  decide +kernel

end Cdec.Dec.Decode
