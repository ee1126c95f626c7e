import Verif.Decoder.Tree2StringPass
/-!
# C93: translating a tree
-/
namespace Cdec.Dec.T2S
open Cdec.HG Spec
open Cdec.Dec.Parser.Spec (LTree Shows)
variable {R : Type}

/-- The translation of every tree ends.  It succeeds exactly if the tree has a derivation with the rules of the grammar files; then
the trees of the forest are the derivations, under one goal edge, and if no two rules are the same each derivation is there once.
Here a rule is taken to mean what the translator takes it to mean (`Takes`); see below for what that is. -/
theorem C93_translation (cat : String → Int) (catGoal : Int) {files : List (List (List Char × R))} {sets : List (List (Frag × R))} (h : List.Forall₂ Lines files sets)
    {t : Frag} {x : List Char} (hx : Text t x) (hn : t.isNode) (hp : t.Plain) :
    ∃ N res, (∀ fuel, N ≤ fuel → run cat catGoal fuel files x = some res) ∧
      (res.isSome ↔ ∃ d, Deriv (Takes sets.flatten) 0 t d) ∧
      ∀ g, res = some g → WF g ∧ 0 < g.nodes.length ∧ Consistent g ∧
        (∀ d, (∃ T, IsDeriv g g.goal T ∧ Shows g T d) ↔ ∃ d', d = .node .goal [d'] ∧ Deriv (Takes sets.flatten) 0 t d') ∧
        ((sets.flatten.map (·.2)).Nodup → ∀ T T' d, IsDeriv g g.goal T → IsDeriv g g.goal T' → Shows g T d → Shows g T' d → T = T') := by
  obtain ⟨N, res, h1, h2, h3⟩ := run_core cat catGoal h hx hn hp
  exact ⟨N, res, h1, h2, fun g hg => ⟨(h3 g hg).1.wf, (h3 g hg).1.nonempty, (h3 g hg).1.consistent, (h3 g hg).1.lang, (h3 g hg).2⟩⟩

/-- If all source sides are one level deep, the forest stands for the derivations in which each rule is used where its source
side matches.  Missing: grammars with deeper source sides, for which this is false (`C93_brackets_fails`). -/
theorem C93_flat_partial (cat : String → Int) (catGoal : Int) {files : List (List (List Char × R))} {sets : List (List (Frag × R))} (h : List.Forall₂ Lines files sets)
    (hf : ∀ r ∈ sets.flatten, r.1.flat) {t : Frag} {x : List Char} (hx : Text t x) (hn : t.isNode) (hp : t.Plain) :
    ∃ N res, (∀ fuel, N ≤ fuel → run cat catGoal fuel files x = some res) ∧
      (res.isSome ↔ ∃ d, Deriv (Means sets.flatten) 0 t d) ∧
      ∀ g, res = some g → ∀ d, (∃ T, IsDeriv g g.goal T ∧ Shows g T d) ↔ ∃ d', d = .node .goal [d'] ∧ Deriv (Means sets.flatten) 0 t d' := by
  obtain ⟨N, res, h1, h2, h3⟩ := run_core cat catGoal h hx hn hp
  have e : ∀ d, Deriv (Takes sets.flatten) 0 t d ↔ Deriv (Means sets.flatten) 0 t d := fun d => deriv_flat (lines_isNode h) hf
  simp only [e] at h2
  refine ⟨N, res, h1, h2, fun g hg d => ?_⟩
  rw [(h3 g hg).1.lang]
  simp only [e]

/-- The same for deeper source sides, if the label of a node fixes the number of its children, in the grammar and in the tree.
Missing: labels with different numbers of children, for which this is false (`C93_brackets_fails`). -/
theorem C93_ranked_partial (cat : String → Int) (catGoal : Int) (arity : String → Nat) {files : List (List (List Char × R))} {sets : List (List (Frag × R))}
    (h : List.Forall₂ Lines files sets) (hf : ∀ r ∈ sets.flatten, Frag.Ranked arity r.1) {t : Frag} {x : List Char} (hx : Text t x) (hn : t.isNode) (hp : t.Plain)
    (ht : Frag.Ranked arity t) :
    ∃ N res, (∀ fuel, N ≤ fuel → run cat catGoal fuel files x = some res) ∧
      (res.isSome ↔ ∃ d, Deriv (Means sets.flatten) 0 t d) ∧
      ∀ g, res = some g → ∀ d, (∃ T, IsDeriv g g.goal T ∧ Shows g T d) ↔ ∃ d', d = .node .goal [d'] ∧ Deriv (Means sets.flatten) 0 t d' := by
  obtain ⟨N, res, h1, h2, h3⟩ := run_core cat catGoal h hx hn hp
  have e : ∀ d, Deriv (Takes sets.flatten) 0 t d ↔ Deriv (Means sets.flatten) 0 t d := fun d => deriv_ranked hf ht
  simp only [e] at h2
  refine ⟨N, res, h1, h2, fun g hg d => ?_⟩
  rw [(h3 g hg).1.lang]
  simp only [e]

/-- With pass-through rules the translation of every tree succeeds.  The rules that are added copy the nodes of the tree, one
level deep, with the children in order; and one of the translations is the sentence itself.  `tgt` gives the target side of a
rule, `mk` makes a rule. -/
theorem C93_pass_through {tgt : R → Tgt} {mk : Tgt → Prd → R} (htgt : ∀ e p, tgt (mk e p) = e) (cat : String → Int) (catGoal : Int)
    {files : List (List (List Char × R))} {sets : List (List (Frag × R))} (h : List.Forall₂ Lines files sets) {t : Frag} {x : List Char} (hx : Text t x)
    (hn : t.isNode) (hp : t.Plain) :
    ∃ N g pass, (∀ fuel, N ≤ fuel → runPass tgt mk cat catGoal fuel files x = some (some g)) ∧
      (∀ r ∈ pass, ∃ s, Sub s t ∧ s.isNode ∧ r.1 = s.top ∧ tgt r.2 = inOrder 0 s.kids) ∧ WF g ∧ 0 < g.nodes.length ∧ Consistent g ∧
      (∀ d, (∃ T, IsDeriv g g.goal T ∧ Shows g T d) ↔ ∃ d', d = .node .goal [d'] ∧ Deriv (Takes (sets.flatten ++ pass)) 0 t d') ∧
      ∃ T d, IsDeriv g g.goal T ∧ Shows g T d ∧ yield tgt d = t.words := by
  obtain ⟨N, g, pass, h1, h2, h3, d, h4, h5⟩ := pass_core htgt cat catGoal h hx hn hp
  obtain ⟨T, hT, hs⟩ := (h2.lang (.node .goal [d])).2 ⟨d, rfl, h4⟩
  refine ⟨N, g, pass, h1, h3, h2.wf, h2.nonempty, h2.consistent, h2.lang, T, _, hT, hs, ?_⟩
  rw [yield]
  simp [h5]

/-! ### Cases -/

theorem token_of {w : List Char} (h : (!w.isEmpty && w.all plainChar) = true) : Token w := by
  simp only [Bool.and_eq_true, Bool.not_eq_true', List.isEmpty_eq_false_iff, List.all_eq_true] at h
  refine ⟨h.1, fun c hc => ?_⟩
  have := h.2 c hc
  simp [plainChar] at this
  exact ⟨this.1.1, this.1.2, this.2⟩

theorem not_bracketed {w : List Char} (h : (w.head? != some '[') = true) : ¬ Bracketed w := by
  rintro ⟨m, _, rfl⟩
  simp at h

/-- `(S (A a) b)` -/
def deep : Frag := .node "S" [.node "A" [.leaf "a"], .leaf "b"]
/-- `(S (A a b))` -/
def other : Frag := .node "S" [.node "A" [.leaf "a", .leaf "b"]]

theorem deep_text : Text deep "(S (A a) b)".toList :=
  .node 0 0 (token_of (by decide)) (.cons 1 (by simp) (.node 0 0 (token_of (by decide)) (.cons 1 (by simp) (.leaf (token_of (by decide)) (not_bracketed (by decide))) .nil))
    (.cons 1 (by simp) (.leaf (token_of (by decide)) (not_bracketed (by decide))) .nil))

theorem other_text : Text other "(S (A a b))".toList :=
  .node 0 0 (token_of (by decide)) (.cons 1 (by simp) (.node 0 0 (token_of (by decide)) (.cons 1 (by simp) (.leaf (token_of (by decide)) (not_bracketed (by decide)))
    (.cons 1 (by simp) (.leaf (token_of (by decide)) (not_bracketed (by decide))) .nil))) .nil)

/-- `(S [A] b)` -/
def high : Frag := .node "S" [.site "A", .leaf "b"]
/-- `(A a)` -/
def low : Frag := .node "A" [.leaf "a"]

theorem high_text : Text high "(S [A] b)".toList :=
  .node 0 0 (token_of (by decide)) (.cons 1 (by simp) (.site (c := "A") (token_of (by decide))) (.cons 1 (by simp) (.leaf (token_of (by decide)) (not_bracketed (by decide))) .nil))

theorem low_text : Text low "( A  a )".toList :=
  .node 1 1 (token_of (by decide)) (.cons 2 (by simp) (.leaf (token_of (by decide)) (not_bracketed (by decide))) .nil)

theorem deep_plain : deep.Plain := by
  refine .node fun f hf => ?_
  simp only [List.mem_cons, List.not_mem_nil, or_false] at hf
  rcases hf with rfl | rfl
  · refine .node fun f hf => ?_
    simp only [List.mem_cons, List.not_mem_nil, or_false] at hf
    subst hf
    exact .leaf
  · exact .leaf

theorem other_plain : other.Plain := by
  refine .node fun f hf => ?_
  simp only [List.mem_cons, List.not_mem_nil, or_false] at hf
  subst hf
  refine .node fun f hf => ?_
  simp only [List.mem_cons, List.not_mem_nil, or_false] at hf
  rcases hf with rfl | rfl <;> exact .leaf

/-- Two grammar files. -/
theorem files_lines : List.Forall₂ Lines [["(S [A] b)".toList, "(S (A a) b)".toList].zip [0, 1], ["( A  a )".toList].zip [2]] [[(high, 0), (deep, 1)], [(low, 2)]] :=
  .cons (.cons ⟨high_text, trivial, rfl⟩ (.cons ⟨deep_text, trivial, rfl⟩ .nil)) (.cons (.cons ⟨low_text, trivial, rfl⟩ .nil) .nil)

/-- Two derivations of `(S (A a) b)` with them. -/
theorem deep_derivs {uses : Frag → Nat → Prop} (h0 : uses high 0) (h1 : uses deep 1) (h2 : uses low 2) :
    Deriv uses 0 deep (.node (.rule 0 0 2) [.node (.rule 2 0 1) []]) ∧ Deriv uses 0 deep (.node (.rule 1 0 2) []) := by
  have w1 : low.width = 1 := by unfold low; simp [Frag.width]
  have w2 : deep.width = 2 := by
    unfold deep
    simp [Frag.width]
  have c0 : Cut 0 low low [] := .node (.cons (ss := []) .leaf .nil)
  constructor
  · have c1 : Cut 0 high deep [(0, low)] := .node (.cons (ss := [(0, low)]) (ss' := []) .site (.cons (ss := []) .leaf .nil))
    have d1 : Deriv uses 0 low (.node (.rule 2 0 1) []) := by
      have := Deriv.mk (f := low) (i := 0) trivial h2 c0 .nil
      rwa [w1] at this
    have := Deriv.mk (f := high) (i := 0) trivial h0 c1 (.cons d1 .nil)
    rwa [w2] at this
  · have c1 : Cut 0 deep deep [] := .node (.cons (ss := []) (ss' := []) c0 (.cons (ss := []) .leaf .nil))
    have := Deriv.mk (f := deep) (i := 0) trivial h1 c1 .nil
    rwa [w2] at this

example : List.Forall₂ Lines [["(S [A] b)".toList, "(S (A a) b)".toList].zip [0, 1], ["( A  a )".toList].zip [2]] [[(high, 0), (deep, 1)], [(low, 2)]] ∧ Text deep "(S (A a) b)".toList ∧
    deep.isNode ∧ deep.Plain ∧ (([[(high, 0), (deep, 1)], [(low, 2)]] : List (List (Frag × Nat))).flatten.map (·.2)).Nodup ∧
    ∃ d d', d ≠ d' ∧ Deriv (Takes [(high, 0), (deep, 1), (low, 2)]) 0 deep d ∧ Deriv (Takes [(high, 0), (deep, 1), (low, 2)]) 0 deep d' :=
  ⟨files_lines, deep_text, trivial, deep_plain, by decide, _, _, by simp, deep_derivs ⟨high, by simp, trivial, rfl⟩ ⟨deep, by simp, trivial, rfl⟩ ⟨low, by simp, trivial, rfl⟩⟩

example : (∀ r ∈ ([(high, 0), (low, 2)] : List (Frag × Nat)), r.1.flat) ∧ ∃ arity, (∀ r ∈ ([(high, 0), (deep, 1), (low, 2)] : List (Frag × Nat)), Frag.Ranked arity r.1) ∧ Frag.Ranked arity deep := by
  have hlow : Frag.Ranked (fun c => if c = "S" then 2 else 1) low := .node rfl (by
    intro f hf
    simp only [List.mem_cons, List.not_mem_nil, or_false] at hf
    subst hf
    exact .leaf)
  have hdeep : Frag.Ranked (fun c => if c = "S" then 2 else 1) deep := .node rfl (by
    intro f hf
    simp only [List.mem_cons, List.not_mem_nil, or_false] at hf
    rcases hf with rfl | rfl
    · exact hlow
    · exact .leaf)
  have hhigh : Frag.Ranked (fun c => if c = "S" then 2 else 1) high := .node rfl (by
    intro f hf
    simp only [List.mem_cons, List.not_mem_nil, or_false] at hf
    rcases hf with rfl | rfl
    · exact .site
    · exact .leaf)
  refine ⟨?_, fun c => if c = "S" then 2 else 1, ?_, hdeep⟩
  · intro r hr
    simp only [List.mem_cons, List.not_mem_nil, or_false] at hr
    rcases hr with rfl | rfl
    · intro f hf
      simp only [List.mem_cons, List.not_mem_nil, or_false] at hf
      rcases hf with rfl | rfl <;> exact id
    · intro f hf
      simp only [List.mem_cons, List.not_mem_nil, or_false] at hf
      subst hf
      exact id
  · intro r hr
    simp only [List.mem_cons, List.not_mem_nil, or_false] at hr
    rcases hr with rfl | rfl | rfl
    · exact hhigh
    · exact hdeep
    · exact hlow

example : (∀ (e : Tgt) (p : Prd), id ((fun e _ => e : Tgt → Prd → Tgt) e p) = e) ∧ Text deep "(S (A a) b)".toList ∧ deep.Plain ∧ deep.words = ["a", "b"] := by
  refine ⟨fun _ _ => rfl, deep_text, deep_plain, ?_⟩
  unfold deep
  simp [Frag.words]

/-- A rule is also used where its source side does not match: `(S (A a) b)` translates `(S (A a b))`. -/
theorem C93_brackets_fails : ∃ (files : List (List (List Char × Nat))) (sets : List (List (Frag × Nat))) (t : Frag) (x : List Char), List.Forall₂ Lines files sets ∧ Text t x ∧
    t.isNode ∧ t.Plain ∧ (¬ ∃ d, Deriv (Means sets.flatten) 0 t d) ∧ ∃ N g, ∀ fuel, N ≤ fuel → run (fun _ => -1) (-2) fuel files x = some (some g) := by
  have hl : List.Forall₂ Lines [[("(S (A a) b)".toList, 0)]] [[(deep, 0)]] := .cons (.cons ⟨deep_text, trivial, rfl⟩ .nil) .nil
  refine ⟨[[("(S (A a) b)".toList, 0)]], [[(deep, 0)]], other, _, hl, other_text, trivial, other_plain, ?_, ?_⟩
  · rintro ⟨d, hd⟩
    cases hd with
    | mk h1 h2 h3 h4 =>
      unfold Means at h2
      simp only [List.flatten_cons, List.flatten_nil, List.append_nil, List.mem_singleton, Prod.mk.injEq] at h2
      rw [h2.1] at h3
      unfold deep other at h3
      cases h3 with
      | node h =>
        cases h with
        | cons _ h => cases h
  · obtain ⟨N, res, h1, h2, h3⟩ := run_core (fun _ => -1) (-2) hl other_text trivial other_plain
    have : res.isSome := by
      rw [h2]
      have c : Cut 0 other other [] := .node (.cons (ss := []) (ss' := []) (.node (.cons (ss := []) .leaf (.cons (ss := []) .leaf .nil))) .nil)
      refine ⟨_, Deriv.mk (f := other) (r := 0) trivial ⟨deep, by simp, trivial, ?_⟩ c .nil⟩
      unfold Frag.lin deep other
      simp [Frag.syms]
    obtain ⟨g, rfl⟩ := Option.isSome_iff_exists.1 this
    exact ⟨N, g, h1⟩

/-- A tree with an empty label is read, but it has no translation with pass-through rules: the rule for `( (S a))` is written
`( [S])`, which is a node with the label `[S]`. -/
theorem C93_empty_label_fails : parse false "( (S a))".toList = some [⟨"S", [.term "a"], (0, 1)⟩, ⟨"", [.node 0], (0, 1)⟩] ∧
    (runPass (R := Tgt) id (fun e _ => e) (fun _ => -1) (-2) 100 [] "( (S a))".toList).map Option.isSome = some false := by
  constructor <;> decide +kernel

end Cdec.Dec.T2S
