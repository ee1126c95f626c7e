import Verif.Decoder.ScfgLemmas
import Verif.Props.C19
/-!
# C89: with glue and pass-through rules every sentence has a translation
-/
namespace Cdec.Dec.Scfg
open Cdec.HG Parser Parser.Spec
variable {φ : Type} [Add φ] [Zero φ]

namespace Spec

/-- A path through the lattice from one position to another, and the labels of its arcs. -/
inductive LatPath (lat : List (List (Arc φ))) (i : Nat) : Nat → List Int → Prop
  | nil : LatPath lat i i []
  | snoc {k : Nat} {ws : List Int} {a : Arc φ} : LatPath lat i k ws → a ∈ lat.getD k [] → LatPath lat i (k + a.len) (ws ++ [a.label])

/-- `Yields val t out`: the target words of a tree of rules, with the target sides of `val`. -/
inductive Yields (val : Nat → Rule) : LTree (Val Nat φ) → List Int → Prop
  | node {v : Val Nat φ} {ch : List (LTree (Val Nat φ))} {vs : List (List Int)} {out : List Int} :
      List.Forall₂ (Yields val) ch vs → Dec.Spec.Replaced vs (val v.rule).e out → Yields val (.node v ch) out

/-- `out` is a translation in the forest. -/
def Translation (val : Nat → Rule) (g : Hypergraph (Val Nat φ)) (out : List Int) : Prop :=
  ∃ T t, IsDeriv g g.goal T ∧ Shows g T t ∧ Yields val t out

/-- The configuration: arcs of the lattice go forward, words are positive, categories negative; the rules that the translator makes are what their texts say; the
rules of the other grammars do not have `[Goal]` on the left, and their arity is the number of their categories. -/
structure Setup (val : Nat → Rule) (gs : List Gr) (stop glue : Nat) (pass : Int → Nat) (lat : List (List (Arc φ))) (goalCat dflt kGoal : Int) (goalRule : Nat) : Prop where
  forward : ∀ k (a : Arc φ), a ∈ lat.getD k [] → 0 < a.len ∧ k + a.len ≤ lat.length
  size : lat.length < kUnreachable
  labels : ∀ w, Label lat w → 0 < w
  lhs : ∀ r, (val r).lhs < 0
  dflt_neg : dflt < 0
  stop : val stop = ⟨goalCat, [dflt], [0], 1⟩
  glue : val glue = ⟨goalCat, [goalCat, dflt], [0, -1], 2⟩
  pass : ∀ w, Label lat w → val (pass w) = ⟨dflt, [w], [w], 0⟩
  goal : val goalRule = ⟨kGoal, [goalCat], [0], 1⟩
  goal_ne : goalCat ≠ kGoal
  dflt_ne : dflt ≠ kGoal
  rules_ne : ∀ g ∈ gs, ∀ r ∈ added g.calls, (val r).lhs ≠ kGoal
  arity : ∀ g ∈ gs, ∀ r ∈ added g.calls, (val r).arity = ((val r).f.filter fun c => decide (c < 0)).length

end Spec
open Spec

variable {val : Nat → Rule} {rfeats : Nat → φ} {gs : List Gr} {stop glue : Nat} {pass : Int → Nat} {lat : List (List (Arc φ))} {eps goalCat dflt kGoal : Int} {goalRule : Nat}

/-- All the grammars of a sentence. -/
abbrev allGrammars (gs : List Gr) (stop glue : Nat) (pass : Int → Nat) (lat : List (List (Arc φ))) : List Gr := gs ++ [glueGrammar stop glue] ++ [passGrammar pass lat]

omit [Add φ] [Zero φ] in
theorem Spec.Setup.goal_neg (h : Setup val gs stop glue pass lat goalCat dflt kGoal goalRule) : goalCat < 0 := by
  have := h.lhs stop; rw [h.stop] at this; exact this

omit [Add φ] [Zero φ] in
theorem trie_pass (h : Setup val gs stop glue pass lat goalCat dflt kGoal goalRule) {r : Nat} :
    (r ∈ Dec.Spec.trieRules val (passGrammar pass lat).calls ↔ ∃ w, Label lat w ∧ r = pass w) ∧ r ∉ Dec.Spec.unaryRules val (passGrammar pass lat).calls := by
  unfold Dec.Spec.trieRules Dec.Spec.unaryRules
  simp only [List.mem_map, List.mem_filter, pass_calls]
  constructor
  · constructor
    · rintro ⟨c, ⟨⟨w, hw, rfl⟩, _⟩, rfl⟩; exact ⟨w, hw, rfl⟩
    · rintro ⟨w, hw, rfl⟩
      exact ⟨_, ⟨⟨w, hw, rfl⟩, by simp [h.pass w hw, Rule.isUnary]⟩, rfl⟩
  · rintro ⟨c, ⟨⟨w, hw, rfl⟩, hc⟩, rfl⟩
    simp [h.pass w hw, Rule.isUnary] at hc

omit [Add φ] [Zero φ] in
theorem trie_glue (h : Setup val gs stop glue pass lat goalCat dflt kGoal goalRule) {r : Nat} :
    (r ∈ Dec.Spec.trieRules val (glueGrammar stop glue).calls ↔ r = glue) ∧ (r ∈ Dec.Spec.unaryRules val (glueGrammar stop glue).calls ↔ r = stop) := by
  unfold Dec.Spec.trieRules Dec.Spec.unaryRules glueGrammar
  simp [h.stop, h.glue, Rule.isUnary, eq_comm]

omit [Add φ] [Zero φ] in
theorem setup_ok (h : Setup val gs stop glue pass lat goalCat dflt kGoal goalRule) :
    ∀ g ∈ allGrammars gs stop glue pass lat, (∀ r, r ∈ Dec.Spec.trieRules val g.calls ∨ r ∈ Dec.Spec.unaryRules val g.calls → (val r).lhs ≠ kGoal) ∧
      ∀ r ∈ Dec.Spec.trieRules val g.calls, ∀ c < 0, (val r).f ≠ [c] := by
  intro g hg
  simp only [allGrammars, List.mem_append, List.mem_singleton] at hg
  rcases hg with (hg | rfl) | rfl
  · refine ⟨fun r hr => h.rules_ne g hg r ((mem_added (val := val)).2 hr), ?_⟩
    intro r hr c hc he
    have h3 := h.arity g hg r ((mem_added (val := val)).2 (.inl hr))
    rw [he, List.filter_cons_of_pos (by simpa using hc)] at h3
    have h4 := trie_not_unary hr
    simp [Rule.isUnary, he, h3] at h4
  · constructor
    · rintro r (hr | hr)
      · rw [(trie_glue h).1] at hr; subst hr; rw [h.glue]; exact h.goal_ne
      · rw [(trie_glue h).2] at hr; subst hr; rw [h.stop]; exact h.goal_ne
    · intro r hr c hc he
      rw [(trie_glue h).1] at hr; subst hr; rw [h.glue] at he; simp at he
  · constructor
    · rintro r (hr | hr)
      · obtain ⟨w, hw, rfl⟩ := (trie_pass h).1.1 hr
        rw [h.pass w hw]; exact h.dflt_ne
      · exact absurd hr (trie_pass h).2
    · intro r hr c hc he
      obtain ⟨w, hw, rfl⟩ := (trie_pass h).1.1 hr
      rw [h.pass w hw] at he
      have := h.labels w hw
      simp at he; omega

omit [Add φ] [Zero φ] in
theorem env_ok (h : Setup val gs stop glue pass lat goalCat dflt kGoal goalRule) : Ok (env val rfeats lat (allGrammars gs stop glue pass lat) eps goalCat kGoal goalRule) where
  arcs := h.forward
  goal := by show (val goalRule).lhs = kGoal; rw [h.goal]
  goal_ne := h.goal_ne
  rules_ne := by
    intro G hG α g hw r hr
    obtain ⟨gr, hgr, rfl⟩ := mem_env_grams.1 hG
    exact (setup_ok h gr hgr).1 r (.inl ((rules_gram hw).1 hr).1)
  unaries_ne := by
    intro r hr
    obtain ⟨g, hg, h1⟩ := mem_env_unaries.1 hr
    exact (setup_ok h g hg).1 r (.inr h1)
  single := by
    rintro G hG c g ⟨r0, hc⟩ he
    obtain ⟨gr, hgr, rfl⟩ := mem_env_grams.1 hG
    have hw : walk (gramOf val lat gr) (gramOf val lat gr).root [c] = some g := by
      simp only [walk, he, Option.bind_some]
    apply List.eq_nil_iff_forall_not_mem.2
    intro r hr
    obtain ⟨h1, h2⟩ := (rules_gram hw).1 hr
    exact (setup_ok h gr hgr).2 r h1 c (by rw [hc]; exact h.lhs r0) h2

/-! ## Distances along arcs -/

omit [Add φ] [Zero φ] in
theorem arc_lens {k : Nat} {a : Arc φ} (ha : a ∈ lat.getD k []) : Dec.Spec.Arc (lat.map fun alts => alts.map Arc.len) k (k + a.len) := by
  rw [List.getD_eq_getElem?_getD] at ha
  cases hk : lat[k]? with
  | none => rw [hk] at ha; simp at ha
  | some alts =>
    rw [hk] at ha
    exact ⟨alts.map Arc.len, by simp [hk], a.len, List.mem_map.2 ⟨a, ha, rfl⟩, rfl⟩

omit [Add φ] [Zero φ] in
theorem lens_forward (h : ∀ k (a : Arc φ), a ∈ lat.getD k [] → 0 < a.len ∧ k + a.len ≤ lat.length) : Dec.Spec.Forward (lat.map fun alts => alts.map Arc.len) := by
  rintro i j ⟨alts, h1, d, h2, rfl⟩
  rw [List.getElem?_map] at h1
  obtain ⟨l, hl, rfl⟩ := Option.map_eq_some_iff.1 h1
  obtain ⟨a, ha, rfl⟩ := List.mem_map.1 h2
  have := h i a (by rw [List.getD_eq_getElem?_getD, hl]; exact ha)
  simp; omega

theorem path_lt {lens : List (List Nat)} (hf : Dec.Spec.Forward lens) {i j n : Nat} (h : Dec.Spec.Path lens i j n) : i < j := by
  induction h with
  | arc h => exact (hf _ _ h).1
  | cons h _ ih => exact lt_trans (hf _ _ h).1 ih

theorem path_pos {lens : List (List Nat)} {i j n : Nat} (h : Dec.Spec.Path lens i j n) : 0 < n := by cases h <;> omega

/-- The nearest position that can be reached is reached by one arc. -/
theorem near_one {lens : List (List Nat)} (hf : Dec.Spec.Forward lens) {i j n : Nat} (h : Dec.Spec.Path lens i j n) (hn : ∀ x, i < x → x < j → ¬ ∃ m, Dec.Spec.Path lens i x m) : n = 1 := by
  cases h with
  | arc h => rfl
  | cons h h' => exact absurd ⟨1, .arc h⟩ (hn _ (hf _ _ h).1 (path_lt hf h'))

omit [Add φ] [Zero φ] in
theorem dist_arc (h : Setup val gs stop glue pass lat goalCat dflt kGoal goalRule) {k : Nat} {a : Arc φ} (ha : a ∈ lat.getD k []) :
    dist lat k (k + a.len) = 1 ∧ dist lat k (k + 1) = 1 := by
  have hf := lens_forward h.forward
  have harc := arc_lens ha
  have hlen : (lat.map fun alts => alts.map Arc.len).length < kUnreachable := by simpa using h.size
  have hb := h.forward k a ha
  unfold dist
  constructor
  · obtain ⟨h1, h2⟩ := C18_distance _ hf hlen k (k + a.len) ⟨1, .arc harc⟩
    have := h2 1 (.arc harc)
    have h3 := path_pos h1
    omega
  · by_cases hr : ∃ n, Dec.Spec.Path (lat.map fun alts => alts.map Arc.len) k (k + 1) n
    · obtain ⟨h1, _⟩ := C18_distance _ hf hlen k (k + 1) hr
      exact near_one hf h1 (fun x h1 h2 => by omega)
    · rcases C18_unreachable _ hf hlen k (k + 1) (by simp; omega) (by simp; omega) hr with ⟨j', h1, ⟨h2, _⟩, h3⟩ | ⟨_, h2⟩
      · exact near_one hf h2 (fun x h4 h5 => h3 x h4 h5)
      · exact absurd ⟨1, .arc harc⟩ (h2 (k + a.len) (by omega))

omit [Add φ] [Zero φ] in
theorem pass_has (i j : Nat) : (gramOf val lat (passGrammar pass lat)).has i j = decide ((if i = j then 0 else dist lat i j) < 4) := rfl

/-! ## The parse by glue and pass-through rules -/

theorem word_parse (h : Setup val gs stop glue pass lat goalCat dflt kGoal goalRule) (u : List Nat) {k : Nat} {a : Arc φ} (ha : a ∈ lat.getD k []) (he : a.label ≠ eps) :
    ∃ t, Parse (env val rfeats lat (allGrammars gs stop glue pass lat) eps goalCat kGoal goalRule) u dflt k (k + a.len) t ∧ Yields val t [a.label] := by
  have hl : Label lat a.label := by
    rw [List.getD_eq_getElem?_getD] at ha
    cases hk : lat[k]? with
    | none => rw [hk] at ha; simp at ha
    | some alts => rw [hk] at ha; exact ⟨alts, List.mem_of_getElem? hk, a, ha, rfl⟩
  obtain ⟨d1, d2⟩ := dist_arc h ha
  have hb := h.forward k a ha
  obtain ⟨idx, hidx⟩ := List.mem_iff_getElem?.1 ha
  have hr : pass a.label ∈ Dec.Spec.trieRules val (passGrammar pass lat).calls := (trie_pass h).1.2 ⟨_, hl, rfl⟩
  obtain ⟨g, hg⟩ := walk_gram_trie lat hr
  have hv := h.pass _ hl
  refine ⟨.node ⟨pass a.label, k, k + a.len, rfeats (pass a.label) + (0 + a.feats), [] ++ [some (k, idx)]⟩ [], ?_, ?_⟩
  · have := Parse.rule (p := env val rfeats lat (allGrammars gs stop glue pass lat) eps goalCat kGoal goalRule) (u := u) (G := gramOf val lat (passGrammar pass lat))
      (i := k) (j := k + a.len) (sh := [] ++ [some (k, idx)]) (sp := []) (α := [] ++ [a.label]) (x := 0 + a.feats) (g := g) (r := pass a.label) (ch := [])
      (mem_env_grams.2 ⟨_, by simp, rfl⟩) (by omega) hb.2
      (by rw [pass_has]; rw [if_neg (by omega), d1]; rfl)
      (.word (.nil (by show k ≤ lat.length; omega) (by rw [pass_has]; rw [if_pos rfl]; rfl)) hidx
        (by rw [pass_has]; rw [if_neg (by omega), d2]; rfl) he)
      (by rw [hv] at hg; exact hg) ((rules_gram hg).2 ⟨hr, rfl⟩) .nil
    have e : (env val rfeats lat (allGrammars gs stop glue pass lat) eps goalCat kGoal goalRule).lhs (pass a.label) = dflt := by show (val _).lhs = _; rw [hv]
    rw [e] at this
    exact this
  · refine .node .nil ?_
    rw [hv]
    exact .word (h.labels _ hl) .nil

theorem path_parse (h : Setup val gs stop glue pass lat goalCat dflt kGoal goalRule) {u : List Nat}
    (hu : sortUnaries (env val rfeats lat (allGrammars gs stop glue pass lat) eps goalCat kGoal goalRule) = some u) {j : Nat} {ws : List Int} (hp : LatPath lat 0 j ws) :
    eps ∉ ws → 0 < j →
    ∃ t, Parse (env val rfeats lat (allGrammars gs stop glue pass lat) eps goalCat kGoal goalRule) u goalCat 0 j t ∧ Yields val t ws := by
  induction hp with
  | nil => intro _ h; omega
  | @snoc k ws a hp ha ih =>
    intro he _
    simp only [List.mem_append, List.mem_singleton, not_or] at he
    obtain ⟨t, ht, hy⟩ := word_parse (rfeats := rfeats) (eps := eps) h u ha (Ne.symm he.2)
    have hb := h.forward k a ha
    by_cases hk : 0 < k
    · obtain ⟨s, hs, hsy⟩ := ih he.1 hk
      have hr : glue ∈ Dec.Spec.trieRules val (glueGrammar stop glue).calls := (trie_glue h).1.2 rfl
      obtain ⟨g, hg⟩ := walk_gram_trie lat hr
      have hhas : ∀ m, (gramOf val lat (glueGrammar stop glue)).has 0 m = true := fun m => rfl
      have hn : 0 ≤ (env val rfeats lat (allGrammars gs stop glue pass lat) eps goalCat kGoal goalRule).n := Nat.zero_le _
      refine ⟨.node ⟨glue, 0, k + a.len, rfeats glue + 0, ([] ++ [none]) ++ [none]⟩ [s, t], ?_, ?_⟩
      · have := Parse.rule (p := env val rfeats lat (allGrammars gs stop glue pass lat) eps goalCat kGoal goalRule) (u := u) (G := gramOf val lat (glueGrammar stop glue))
          (i := 0) (j := k + a.len) (sp := ([] ++ [(goalCat, 0, k)]) ++ [(dflt, k, k + a.len)]) (α := ([] ++ [goalCat]) ++ [dflt]) (g := g) (r := glue) (ch := [s, t])
          (mem_env_grams.2 ⟨_, by simp, rfl⟩) (by omega) hb.2 (hhas _)
          (.part (.part (.nil hn (hhas _)) hk (by show k ≤ lat.length; omega) (hhas _)) (by omega) hb.2 (hhas _))
          (by rw [h.glue] at hg; exact hg) ((rules_gram hg).2 ⟨hr, rfl⟩) (.cons hs (.cons ht .nil))
        have e : (env val rfeats lat (allGrammars gs stop glue pass lat) eps goalCat kGoal goalRule).lhs glue = goalCat := by show (val _).lhs = _; rw [h.glue]
        rw [e] at this
        exact this
      · refine .node (.cons hsy (.cons hy .nil)) ?_
        rw [h.glue]
        have h1 : Dec.Spec.Replaced [ws, [a.label]] (-((1 : Nat) : Int) :: []) ([a.label] ++ []) := .var rfl .nil
        have h2 : Dec.Spec.Replaced [ws, [a.label]] (-((0 : Nat) : Int) :: -((1 : Nat) : Int) :: []) (ws ++ ([a.label] ++ [])) := .var rfl h1
        simpa using h2
    · have hk : k = 0 := by omega
      subst hk
      have hws : ws = [] := by
        have : ∀ {j : Nat} {ws : List Int}, LatPath lat 0 j ws → j = 0 → ws = [] := by
          intro j ws hp
          cases hp with
          | nil => intro _; rfl
          | snoc _ ha => intro h0; have := (h.forward _ _ ha).1; omega
        exact this hp rfl
      subst hws
      by_cases hgd : dflt = goalCat
      · exact ⟨t, hgd ▸ ht, by simpa using hy⟩
      · have hmem : stop ∈ u := by
          refine goal_unaries hu (mem_env_unaries.2 ⟨glueGrammar stop glue, by simp, (trie_glue h).2.2 rfl⟩) ?_ ?_
          · show (val stop).lhs = goalCat; rw [h.stop]
          · show (val stop).f.headD 0 ≠ goalCat; rw [h.stop]; exact hgd
        refine ⟨.node ⟨stop, 0, 0 + a.len, rfeats stop + 0, [none]⟩ [t], ?_, ?_⟩
        · have := Parse.unary (p := env val rfeats lat (allGrammars gs stop glue pass lat) eps goalCat kGoal goalRule) (i := 0) (j := 0 + a.len) (t := t) hmem
            (by show Parse _ _ ((val stop).f.headD 0) _ _ _; rw [h.stop]; exact ht)
          have e : (env val rfeats lat (allGrammars gs stop glue pass lat) eps goalCat kGoal goalRule).lhs stop = goalCat := by show (val _).lhs = _; rw [h.stop]
          rw [e] at this
          exact this
        · refine .node (.cons hy .nil) ?_
          rw [h.stop]
          have h1 : Dec.Spec.Replaced [[a.label]] (-((0 : Nat) : Int) :: []) ([a.label] ++ []) := .var rfl .nil
          simpa using h1

/-- For all grammars, with the glue grammar and pass-through rules: if there is a path through the lattice, without arcs labelled `*EPS*`, there is a forest, and the
words of the path, unchanged, are one of its translations.  So every sentence of one or more words is translated. -/
theorem C89_translates (h : Setup val gs stop glue pass lat goalCat dflt kGoal goalRule) (hn : 0 < lat.length) (ws : List Int) (hp : LatPath lat 0 lat.length ws) (he : eps ∉ ws) :
    ∃ g F, (∀ fuel, F ≤ fuel → translate val rfeats eps goalCat kGoal goalRule (some pass) (gs ++ [glueGrammar stop glue]) lat fuel = some (true, g)) ∧ Translation val g ws := by
  obtain ⟨u, hu, _⟩ := sortUnaries_spec (env val rfeats lat (allGrammars gs stop glue pass lat) eps goalCat kGoal goalRule)
  obtain ⟨b, g, F, h1, h2, h3⟩ := parse_core _ (env_ok (rfeats := rfeats) (eps := eps) h) hu
  obtain ⟨t, ht, hy⟩ := path_parse h hu hp he hn
  have hb : b = true := h2.2 ⟨t, ht⟩
  subst hb
  refine ⟨g, F, h1, ?_⟩
  obtain ⟨T, hT, hs⟩ := ((h3 rfl).2.2.1 _).2 ⟨t, ht, rfl⟩
  refine ⟨T, _, hT, hs, .node (.cons hy .nil) ?_⟩
  show Dec.Spec.Replaced [ws] (val goalRule).e ws
  rw [h.goal]
  have h1 : Dec.Spec.Replaced [ws] (-((0 : Nat) : Int) :: []) (ws ++ []) := .var rfl .nil
  simpa using h1

/-! ## Glue and pass-through rules alone -/

omit [Add φ] [Zero φ] in
theorem latPath_trans {i j k : Nat} {v w : List Int} (h : LatPath lat i j v) (h' : LatPath lat j k w) : LatPath lat i k (v ++ w) := by
  induction h' with
  | nil => simpa using h
  | snoc _ ha ih => rw [← List.append_assoc]; exact .snoc ih ha

/-- Inside a match of one positive symbol there is one arc. -/
theorem match_word {p : Env Node Nat φ} {G : Gram Node Nat} {i j : Nat} {sh : List (Option (Nat × Nat))} {sp : List (Int × Nat × Nat)} {α : List Int} {x : φ}
    (hm : Match p G i j sh sp α x) (heps : ∀ k (a : Arc φ), a ∈ p.lat.getD k [] → a.label ≠ p.eps) :
    (α = [] → j = i ∧ sp = []) ∧
    (∀ w, α = [w] → (sp = [] ∧ ∃ a ∈ p.lat.getD i [], a.label = w ∧ j = i + a.len) ∨ sp = [(w, i, j)]) ∧
    (∀ v w, α = [v, w] → v < 0 → w < 0 → (∀ k (a : Arc φ), a ∈ p.lat.getD k [] → 0 < a.label) → ∃ k, sp = [(v, i, k), (w, k, j)]) := by
  induction hm with
  | nil => simp
  | @word j idx a sh sp α x hm ha _ _ ih =>
    refine ⟨by simp, ?_, ?_⟩
    · intro w hw
      have hα : α = [] := by cases α <;> simp_all
      subst hα
      obtain ⟨rfl, rfl⟩ := ih.1 rfl
      exact .inl ⟨rfl, a, List.mem_of_getElem? ha, by simpa using hw, rfl⟩
    · intro v w hvw hv hw hpos
      have := hpos j a (List.mem_of_getElem? ha)
      have h2 : a.label = w := by
        have := congrArg List.getLast? hvw
        simpa using this
      omega
  | @eps j idx a sh sp α x hm ha _ he ih => exact absurd he (heps j a (List.mem_of_getElem? ha))
  | @part k j c sh sp α x hm _ _ _ ih =>
    refine ⟨by simp, ?_, ?_⟩
    · intro w hw
      have hα : α = [] := by cases α <;> simp_all
      subst hα
      obtain ⟨rfl, rfl⟩ := ih.1 rfl
      right
      have : c = w := by simpa using hw
      subst this; rfl
    · intro v w hvw hv hw hpos
      have h2 : c = w := by
        have := congrArg List.getLast? hvw
        simpa using this
      subst h2
      have h3 : α = [v] := by
        have := congrArg List.dropLast hvw
        simpa using this
      rcases ih.2.1 v h3 with ⟨_, a, ha, rfl, _⟩ | rfl
      · have := hpos _ _ ha; omega
      · exact ⟨_, rfl⟩

theorem rep_var {vs : List (List Int)} {c : Int} {e out : List Int} (h : Dec.Spec.Replaced vs (c :: e) out) (hc : c ≤ 0) :
    ∃ v o, vs[(-c).toNat]? = some v ∧ out = v ++ o ∧ Dec.Spec.Replaced vs e o := by
  generalize hl : c :: e = l at h
  cases h with
  | nil => simp at hl
  | word hw _ => simp at hl; omega
  | @var k v e' o hv ho =>
    simp only [List.cons.injEq] at hl
    obtain ⟨rfl, rfl⟩ := hl
    exact ⟨v, o, by simpa using hv, rfl, ho⟩

theorem rep_word {vs : List (List Int)} {c : Int} {e out : List Int} (h : Dec.Spec.Replaced vs (c :: e) out) (hc : 0 < c) :
    ∃ o, out = c :: o ∧ Dec.Spec.Replaced vs e o := by
  generalize hl : c :: e = l at h
  cases h with
  | nil => simp at hl
  | @word w e' o hw ho => simp only [List.cons.injEq] at hl; obtain ⟨rfl, rfl⟩ := hl; exact ⟨o, rfl, ho⟩
  | var hv ho => simp only [List.cons.injEq] at hl; omega

theorem alone_parse (h : Setup val [] stop glue pass lat goalCat dflt kGoal goalRule) (he : ¬ Label lat eps) {u : List Nat}
    (hu : ∀ r ∈ u, r ∈ (env val rfeats lat (allGrammars [] stop glue pass lat) eps goalCat kGoal goalRule).unaries) (t : LTree (Val Nat φ)) :
    ∀ c i j out, Parse (env val rfeats lat (allGrammars [] stop glue pass lat) eps goalCat kGoal goalRule) u c i j t → Yields val t out → LatPath lat i j out := by
  have hlab : ∀ k (a : Arc φ), a ∈ lat.getD k [] → Label lat a.label := by
    intro k a ha
    rw [List.getD_eq_getElem?_getD] at ha
    cases hk : lat[k]? with
    | none => rw [hk] at ha; simp at ha
    | some alts => rw [hk] at ha; exact ⟨alts, List.mem_of_getElem? hk, a, ha, rfl⟩
  have heps : ∀ k (a : Arc φ), a ∈ lat.getD k [] → a.label ≠ eps := fun k a ha e => he (e ▸ hlab k a ha)
  have hneg : ∀ {c i j t}, Parse (env val rfeats lat (allGrammars [] stop glue pass lat) eps goalCat kGoal goalRule) u c i j t → c < 0 := by
    intro c i j t hp
    cases hp with
    | rule => exact h.lhs _
    | unary => exact h.lhs _
  refine LTree.rec (motive_1 := fun t => ∀ c i j out, Parse (env val rfeats lat (allGrammars [] stop glue pass lat) eps goalCat kGoal goalRule) u c i j t → Yields val t out →
      LatPath lat i j out)
    (motive_2 := fun ch => ∀ t ∈ ch, ∀ c i j out, Parse (env val rfeats lat (allGrammars [] stop glue pass lat) eps goalCat kGoal goalRule) u c i j t → Yields val t out →
      LatPath lat i j out) ?_ (by simp) ?_ t
  · intro b ch ih c i j out hp hy
    cases hy with
    | @node _ _ vs _ hvs hrep =>
    cases hp with
    | @rule G _ _ sh sp α x g r _ hG hij hj hhas hm hw hr hch =>
      obtain ⟨gr, hgr, rfl⟩ := mem_env_grams.1 hG
      obtain ⟨h1, h2⟩ := (rules_gram hw).1 hr
      have hM := match_word hm heps
      simp only [allGrammars, List.nil_append, List.mem_append, List.mem_singleton] at hgr
      change Dec.Spec.Replaced vs (val r).e out at hrep
      rcases hgr with rfl | rfl
      · rw [(trie_glue h).1] at h1
        subst h1
        rw [h.glue] at h2 hrep
        obtain ⟨k, rfl⟩ := hM.2.2 _ _ h2.symm h.goal_neg h.dflt_neg (fun k a ha => h.labels _ (hlab k a ha))
        cases hch with
        | @cons _ s1 _ ss hs1 hch =>
        cases hch with
        | @cons _ s2 _ ss hs2 hch =>
        cases hch
        cases hvs with
        | @cons _ v1 _ vv hv1 hvs =>
        cases hvs with
        | @cons _ v2 _ vv hv2 hvs =>
        cases hvs
        obtain ⟨v, o1, e1, rfl, q1⟩ := rep_var hrep (Int.le_refl _)
        obtain ⟨v', o2, e2, rfl, q2⟩ := rep_var q1 (by omega)
        cases q2
        cases e1; cases e2
        rw [List.append_nil]
        exact latPath_trans (ih s1 (by simp) _ _ _ _ hs1 hv1) (ih s2 (by simp) _ _ _ _ hs2 hv2)
      · obtain ⟨w, hlw, rfl⟩ := (trie_pass h).1.1 h1
        rw [h.pass w hlw] at h2 hrep
        have hwp := h.labels w hlw
        rcases hM.2.1 w h2.symm with ⟨rfl, a, ha, hal, rfl⟩ | rfl
        · cases hch
          cases hvs
          obtain ⟨o, rfl, q1⟩ := rep_word hrep hwp
          cases q1
          have := LatPath.snoc (LatPath.nil (lat := lat) (i := i)) ha
          rw [hal] at this
          simpa using this
        · cases hch with
          | @cons _ s1 _ ss hs1 hch =>
          have := hneg hs1
          change w < 0 at this
          omega
    | @unary _ _ r t hr hp =>
      obtain ⟨g, hg, hr1⟩ := mem_env_unaries.1 (hu r hr)
      simp only [allGrammars, List.nil_append, List.mem_append, List.mem_singleton] at hg
      change Dec.Spec.Replaced vs (val r).e out at hrep
      rcases hg with rfl | rfl
      · rw [(trie_glue h).2] at hr1
        subst hr1
        rw [h.stop] at hrep
        cases hvs with
        | @cons _ v1 _ vv hv1 hvs =>
        cases hvs
        obtain ⟨v, o1, e1, rfl, q1⟩ := rep_var hrep (Int.le_refl _)
        cases q1
        cases e1
        rw [List.append_nil]
        exact ih t (by simp) _ _ _ _ hp hv1
      · exact absurd hr1 (trie_pass h).2
  · intro t ch h1 h2 t' ht'
    rcases List.mem_cons.1 ht' with rfl | ht'
    · exact h1
    · exact h2 t' ht'

/-- Every parse by these rules has a translation: the number of parts is the arity of the rule. -/
theorem alone_yield (h : Setup val [] stop glue pass lat goalCat dflt kGoal goalRule) {u : List Nat} (he : ¬ Label lat eps)
    (hu : ∀ r ∈ u, r ∈ (env val rfeats lat (allGrammars [] stop glue pass lat) eps goalCat kGoal goalRule).unaries) (t : LTree (Val Nat φ)) :
    ∀ c i j, Parse (env val rfeats lat (allGrammars [] stop glue pass lat) eps goalCat kGoal goalRule) u c i j t → ∃ out, Yields val t out := by
  have hlab : ∀ k (a : Arc φ), a ∈ lat.getD k [] → Label lat a.label := by
    intro k a ha
    rw [List.getD_eq_getElem?_getD] at ha
    cases hk : lat[k]? with
    | none => rw [hk] at ha; simp at ha
    | some alts => rw [hk] at ha; exact ⟨alts, List.mem_of_getElem? hk, a, ha, rfl⟩
  have heps : ∀ k (a : Arc φ), a ∈ lat.getD k [] → a.label ≠ eps := fun k a ha e => he (e ▸ hlab k a ha)
  have hneg : ∀ {c i j t}, Parse (env val rfeats lat (allGrammars [] stop glue pass lat) eps goalCat kGoal goalRule) u c i j t → c < 0 := by
    intro c i j t hp
    cases hp with
    | rule => exact h.lhs _
    | unary => exact h.lhs _
  refine LTree.rec (motive_1 := fun t => ∀ c i j, Parse (env val rfeats lat (allGrammars [] stop glue pass lat) eps goalCat kGoal goalRule) u c i j t → ∃ out, Yields val t out)
    (motive_2 := fun ch => ∀ t ∈ ch, ∀ c i j, Parse (env val rfeats lat (allGrammars [] stop glue pass lat) eps goalCat kGoal goalRule) u c i j t → ∃ out, Yields val t out)
    ?_ (by simp) ?_ t
  · intro b ch ih c i j hp
    cases hp with
    | @rule G _ _ sh sp α x g r _ hG hij hj hhas hm hw hr hch =>
      obtain ⟨gr, hgr, rfl⟩ := mem_env_grams.1 hG
      obtain ⟨h1, h2⟩ := (rules_gram hw).1 hr
      have hM := match_word hm heps
      simp only [allGrammars, List.nil_append, List.mem_append, List.mem_singleton] at hgr
      rcases hgr with rfl | rfl
      · rw [(trie_glue h).1] at h1
        subst h1
        rw [h.glue] at h2
        obtain ⟨k, rfl⟩ := hM.2.2 _ _ h2.symm h.goal_neg h.dflt_neg (fun k a ha => h.labels _ (hlab k a ha))
        cases hch with
        | @cons _ s1 _ ss hs1 hch =>
        cases hch with
        | @cons _ s2 _ ss hs2 hch =>
        cases hch
        obtain ⟨v1, hv1⟩ := ih s1 (by simp) _ _ _ hs1
        obtain ⟨v2, hv2⟩ := ih s2 (by simp) _ _ _ hs2
        refine ⟨v1 ++ (v2 ++ []), .node (.cons hv1 (.cons hv2 .nil)) ?_⟩
        show Dec.Spec.Replaced _ (val r).e _
        rw [h.glue]
        have q1 : Dec.Spec.Replaced [v1, v2] (-((1 : Nat) : Int) :: []) (v2 ++ []) := .var rfl .nil
        have q2 : Dec.Spec.Replaced [v1, v2] (-((0 : Nat) : Int) :: -((1 : Nat) : Int) :: []) (v1 ++ (v2 ++ [])) := .var rfl q1
        simpa using q2
      · obtain ⟨w, hlw, rfl⟩ := (trie_pass h).1.1 h1
        rw [h.pass w hlw] at h2
        have hwp := h.labels w hlw
        rcases hM.2.1 w h2.symm with ⟨rfl, a, ha, hal, rfl⟩ | rfl
        · cases hch
          refine ⟨[w], .node .nil ?_⟩
          show Dec.Spec.Replaced _ (val (pass w)).e _
          rw [h.pass w hlw]
          exact .word hwp .nil
        · cases hch with
          | @cons _ s1 _ ss hs1 hch =>
          have := hneg hs1
          change w < 0 at this
          omega
    | @unary _ _ r t hr hp =>
      obtain ⟨g, hg, hr1⟩ := mem_env_unaries.1 (hu r hr)
      simp only [allGrammars, List.nil_append, List.mem_append, List.mem_singleton] at hg
      rcases hg with rfl | rfl
      · rw [(trie_glue h).2] at hr1
        subst hr1
        obtain ⟨v1, hv1⟩ := ih t (by simp) _ _ _ hp
        refine ⟨v1 ++ [], .node (.cons hv1 .nil) ?_⟩
        show Dec.Spec.Replaced _ (val r).e _
        rw [h.stop]
        have q1 : Dec.Spec.Replaced [v1] (-((0 : Nat) : Int) :: []) (v1 ++ []) := .var rfl .nil
        simpa using q1
      · exact absurd hr1 (trie_pass h).2
  · intro t ch h1 h2 t' ht'
    rcases List.mem_cons.1 ht' with rfl | ht'
    · exact h1
    · exact h2 t' ht'

omit [Add φ] [Zero φ] in
theorem latPath_labels {i j : Nat} {ws : List Int} (hp : LatPath lat i j ws) : ∀ w ∈ ws, Label lat w := by
  induction hp with
  | nil => simp
  | @snoc k ws a _ ha ih =>
    intro w hw
    rcases List.mem_append.1 hw with hw | hw
    · exact ih w hw
    · obtain rfl : w = a.label := by simpa using hw
      rw [List.getD_eq_getElem?_getD] at ha
      cases hk : lat[k]? with
      | none => rw [hk] at ha; simp at ha
      | some alts => rw [hk] at ha; exact ⟨alts, List.mem_of_getElem? hk, a, ha, rfl⟩

theorem parse_lt {ι R : Type} {p : Env ι R φ} {u : List R} {c : Int} {i j : Nat} {t : LTree (Val R φ)} (h : Parse p u c i j t) : i < j := by
  refine Parse.rec (motive_1 := fun _ i j _ _ => i < j) (motive_2 := fun _ _ _ => True) ?_ ?_ ?_ ?_ h
  · intro G i j sh sp α x g r ch _ h1 _ _ _ _ _ _ _; exact h1
  · intro i j r t _ _ h1; exact h1
  · trivial
  · intros; trivial

/-- With the glue grammar and pass-through rules and no other grammar, on a lattice without arcs labelled `*EPS*`, the translations are exactly the sequences of words on
the paths through the lattice; there is a forest exactly if there is a path.  On a sentence, the only translation is the sentence. -/
theorem C89_identity (h : Setup val [] stop glue pass lat goalCat dflt kGoal goalRule) (hn : 0 < lat.length) (he : ¬ Label lat eps) :
    ∃ b g F, (∀ fuel, F ≤ fuel → translate val rfeats eps goalCat kGoal goalRule (some pass) [glueGrammar stop glue] lat fuel = some (b, g)) ∧
      (b = true ↔ ∃ ws, LatPath lat 0 lat.length ws) ∧ (b = true → ∀ out, Translation val g out ↔ LatPath lat 0 lat.length out) := by
  obtain ⟨u, hu, hsub⟩ := sortUnaries_spec (env val rfeats lat (allGrammars [] stop glue pass lat) eps goalCat kGoal goalRule)
  obtain ⟨b, g, F, h1, h2, h3⟩ := parse_core _ (env_ok (rfeats := rfeats) (eps := eps) h) hu
  have hmem : ∀ r ∈ u, r ∈ (env val rfeats lat (allGrammars [] stop glue pass lat) eps goalCat kGoal goalRule).unaries :=
    fun r hr => List.mem_of_mem_filter (hsub.2.1.subset hr)
  have hto : ∀ ws, LatPath lat 0 lat.length ws → ∃ t, Parse (env val rfeats lat (allGrammars [] stop glue pass lat) eps goalCat kGoal goalRule) u goalCat 0 lat.length t ∧ Yields val t ws :=
    fun ws hp => path_parse h hu hp (fun hm => he (latPath_labels hp eps hm)) hn
  have hgy : ∀ ws, Dec.Spec.Replaced [ws] (val goalRule).e ws := by
    intro ws
    rw [h.goal]
    have h1 : Dec.Spec.Replaced [ws] (-((0 : Nat) : Int) :: []) (ws ++ []) := .var rfl .nil
    simpa using h1
  refine ⟨b, g, F, h1, ⟨fun hb => ?_, fun ⟨ws, hp⟩ => ?_⟩, fun hb out => ⟨?_, ?_⟩⟩
  · obtain ⟨t, ht⟩ := h2.1 hb
    obtain ⟨out, hy⟩ := alone_yield h he hmem t _ _ _ ht
    exact ⟨out, alone_parse h he hmem t _ _ _ _ ht hy⟩
  · obtain ⟨t, ht, _⟩ := hto ws hp
    exact h2.2 ⟨t, ht⟩
  · rintro ⟨T, t, hT, hs, hy⟩
    obtain ⟨t0, ht0, rfl⟩ := ((h3 hb).2.2.1 t).1 ⟨T, hT, hs⟩
    cases hy with
    | @node _ _ vs _ hvs hrep =>
    cases hvs with
    | @cons _ v1 _ vv hv1 hvs =>
    cases hvs
    change Dec.Spec.Replaced _ (val goalRule).e out at hrep
    rw [h.goal] at hrep
    obtain ⟨v, o1, e1, rfl, q1⟩ := rep_var hrep (Int.le_refl _)
    cases q1
    cases e1
    rw [List.append_nil]
    exact alone_parse h he hmem t0 _ _ _ _ ht0 hv1
  · intro hp
    obtain ⟨t, ht, hy⟩ := hto out hp
    obtain ⟨T, hT, hs⟩ := ((h3 hb).2.2.1 _).2 ⟨t, ht, rfl⟩
    exact ⟨T, _, hT, hs, .node (.cons hy .nil) (hgy out)⟩

/-- The empty sentence has no translation, whatever the grammars are. -/
theorem C89_empty_fails (h : Setup val gs stop glue pass ([] : List (List (Arc φ))) goalCat dflt kGoal goalRule) :
    ∃ g F, ∀ fuel, F ≤ fuel → translate val rfeats eps goalCat kGoal goalRule (some pass) (gs ++ [glueGrammar stop glue]) [] fuel = some (false, g) := by
  obtain ⟨u, hu, _⟩ := sortUnaries_spec (env val rfeats [] (allGrammars gs stop glue pass ([] : List (List (Arc φ)))) eps goalCat kGoal goalRule)
  obtain ⟨b, g, F, h1, h2, h3⟩ := parse_core _ (env_ok (rfeats := rfeats) (eps := eps) h) hu
  have hb : b = false := by
    cases b with
    | false => rfl
    | true =>
      obtain ⟨t, ht⟩ := h2.1 rfl
      have := parse_lt ht
      exact absurd this (lt_irrefl _)
  subst hb
  exact ⟨g, F, h1⟩

/-! ## A case -/

/-- Rules: stop, glue, the goal rule, `[X] ||| 1 ||| 7`, and pass-through rules from number 10 on. -/
def exVal : Nat → Rule
  | 0 => ⟨-2, [-1], [0], 1⟩
  | 1 => ⟨-2, [-2, -1], [0, -1], 2⟩
  | 2 => ⟨-3, [-2], [0], 1⟩
  | 3 => ⟨-1, [1], [7], 0⟩
  | r => ⟨-1, [(r : Int) - 10], [(r : Int) - 10], 0⟩

/-- The sentence `1 2`, with an arc for `5` over both words. -/
def exLat : List (List (Arc Nat)) := [[⟨1, 0, 1⟩, ⟨5, 0, 2⟩], [⟨2, 0, 1⟩]]

theorem ex_setup (gs : List Gr) (hgs : gs = [] ∨ gs = [⟨.text 10, [⟨3, 0, 0⟩]⟩]) : Setup exVal gs 0 1 (fun w => 10 + w.toNat) exLat (-2) (-1) (-3) 2 where
  forward := by
    intro k a ha
    match k with
    | 0 => simp [exLat] at ha; rcases ha with rfl | rfl <;> simp [exLat]
    | 1 => simp [exLat] at ha; subst ha; simp [exLat]
    | k + 2 => simp [exLat] at ha
  size := by decide
  labels := by intro w hw; simp [Label, exLat] at hw; omega
  lhs := by intro r; unfold exVal; split <;> simp
  dflt_neg := by decide
  stop := rfl
  glue := rfl
  pass := by
    intro w hw
    simp [Label, exLat] at hw
    rcases hw with (rfl | rfl) | rfl <;> decide
  goal := rfl
  goal_ne := by decide
  dflt_ne := by decide
  rules_ne := by rcases hgs with rfl | rfl <;> decide
  arity := by rcases hgs with rfl | rfl <;> decide

theorem ex_path : LatPath exLat 0 2 [1, 2] ∧ LatPath exLat 0 2 [5] := by
  constructor
  · have h1 : LatPath exLat 0 1 [1] := .snoc (lat := exLat) (k := 0) (ws := []) (a := ⟨1, 0, 1⟩) .nil (by simp [exLat])
    exact .snoc (lat := exLat) (k := 1) (ws := [1]) (a := ⟨2, 0, 1⟩) h1 (by simp [exLat])
  · exact .snoc (lat := exLat) (k := 0) (ws := []) (a := ⟨5, 0, 2⟩) .nil (by simp [exLat])

/-- `C89_translates`, with a grammar that translates `1` by `7`. -/
example : ∃ g F, (∀ fuel, F ≤ fuel → translate exVal (fun _ => (0 : Nat)) 99 (-2) (-3) 2 (some fun w => 10 + w.toNat) [⟨.text 10, [⟨3, 0, 0⟩]⟩, glueGrammar 0 1] exLat fuel = some (true, g)) ∧
    Translation exVal g [1, 2] :=
  C89_translates (ex_setup _ (.inr rfl)) (by decide) [1, 2] ex_path.1 (by decide)

/-- `C89_identity`: `1 2` and `5` are translations, `2` is not. -/
example : ∃ b g F, (∀ fuel, F ≤ fuel → translate exVal (fun _ => (0 : Nat)) 99 (-2) (-3) 2 (some fun w => 10 + w.toNat) [glueGrammar 0 1] exLat fuel = some (b, g)) ∧
    b = true ∧ Translation exVal g [1, 2] ∧ Translation exVal g [5] ∧ ¬ Translation exVal g [2] := by
  obtain ⟨b, g, F, h1, h2, h3⟩ := C89_identity (rfeats := fun _ => (0 : Nat)) (eps := 99) (ex_setup [] (.inl rfl)) (by decide) (by simp [Label, exLat])
  have p1 := ex_path.1
  have p2 := ex_path.2
  have hb : b = true := h2.2 ⟨_, p1⟩
  refine ⟨b, g, F, h1, hb, (h3 hb _).2 p1, (h3 hb _).2 p2, fun ht => ?_⟩
  have hp := (h3 hb _).1 ht
  generalize hj : exLat.length = j at hp
  generalize hw : [(2 : Int)] = w at hp
  cases hp with
  | nil => simp at hw
  | @snoc k ws a hp ha =>
    obtain ⟨hws, hal⟩ : ws = [] ∧ a.label = 2 := by
      cases ws with
      | nil => simp at hw; exact ⟨rfl, hw.symm⟩
      | cons => simp at hw
    cases hp with
    | nil => simp [exLat] at ha; rcases ha with rfl | rfl <;> simp at hal
    | snoc => simp at hws

end Cdec.Dec.Scfg
