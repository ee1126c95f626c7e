import Verif.Decoder.ParserTextLemmas
/-! # C16: the bottom-up parser finds all parses and only parses -/
namespace Cdec.Dec.Parser
open Cdec.HG Spec
variable {ι R φ : Type} [Add φ] [Zero φ]

/-- The unary rules that are used: they never rewrite the goal category, they have no cycles, none is used twice, and all rules that do not rewrite the goal
category are used if they have no cycles. -/
theorem C16_unaries (p : Env ι R φ) : ∃ u, sortUnaries p = some u ∧ (∃ rank : Int → Nat, ∀ r ∈ u, rank (p.rhs r) < rank (p.lhs r)) ∧
    List.Subperm u (p.unaries.filter fun r => decide (p.rhs r ≠ p.goalCat)) ∧
    ((∃ rank : Int → Nat, ∀ r ∈ p.unaries, p.rhs r ≠ p.goalCat → rank (p.rhs r) < rank (p.lhs r)) → List.Perm u (p.unaries.filter fun r => decide (p.rhs r ≠ p.goalCat))) :=
  sortUnaries_spec p

/-- For every lattice and all grammars: with the unary rules `u` that are used, `Parse` ends; it says yes exactly if the lattice has a parse as the goal
category; and then the derivations of the goal of the forest it returns show exactly these parses, below the goal rule. -/
theorem C16_parses (p : Env ι R φ) (hok : Ok p) (u : List R) (hu : sortUnaries p = some u) :
    ∃ ok g F, (∀ fuel, F ≤ fuel → parse p fuel = some (ok, g)) ∧ (ok = true ↔ ∃ t, Parse p u p.goalCat 0 p.n t) ∧
      (ok = true → WF g ∧ 0 < g.nodes.length ∧ ∀ t, (∃ T, IsDeriv g g.goal T ∧ Shows g T t) ↔ ∃ t0, Parse p u p.goalCat 0 p.n t0 ∧ t = goalTree p t0) := by
  obtain ⟨b, g, F, h1, h2, h3⟩ := parse_core p hok hu
  exact ⟨b, g, F, h1, h2, fun h => ⟨(h3 h).1, (h3 h).2.1, (h3 h).2.2.1⟩⟩

/-- If no rule is there twice, every parse is the reading of one derivation only: no derivation is there twice. -/
theorem C16_once (p : Env ι R φ) (hok : Ok p) (hd : Distinct p) (g : Hypergraph (Val R φ)) (hp : ∃ F, ∀ fuel, F ≤ fuel → parse p fuel = some (true, g)) :
    ∀ T T' t, IsDeriv g g.goal T → IsDeriv g g.goal T' → Shows g T t → Shows g T' t → T = T' := by
  obtain ⟨u, hu, _⟩ := sortUnaries_spec p
  obtain ⟨b, g', F, h1, h2, h3⟩ := parse_core p hok hu
  obtain ⟨F', hF'⟩ := hp
  have e1 := h1 (max F F') (Nat.le_max_left _ _)
  rw [hF' _ (Nat.le_max_right _ _)] at e1
  have e2 := Option.some.inj e1
  rw [Prod.mk.injEq] at e2
  obtain ⟨rfl, rfl⟩ := e2
  exact (h3 rfl).2.2.2 hd

/-! ### Concrete cases -/

/-- A grammar: `[S] → [X] [X] | [X]`, `[X] → a | b | [X] [X]`, with `a = 1`, `b = 2`, `[S] = -1`, `[X] = -2`, `[Goal] = -9`. -/
def exVal : Nat → Rule
  | 0 => ⟨-9, [-1], [], 1⟩
  | 1 => ⟨-1, [-2, -2], [], 2⟩
  | 2 => ⟨-1, [-2], [], 1⟩
  | 3 => ⟨-2, [1], [], 0⟩
  | 4 => ⟨-2, [2], [], 0⟩
  | _ => ⟨-2, [-2, -2], [], 2⟩

def exCalls : List Call := [⟨1, 0, 0⟩, ⟨2, 0, 0⟩, ⟨3, 0, 0⟩, ⟨4, 0, 0⟩, ⟨5, 0, 0⟩]

/-- The hypotheses of the theorems hold for it. -/
theorem ex_ok : TextOk exVal [(10, exCalls)] [1, 2, 1] 7 (-1) (-9) 0 where
  words := by decide
  lhs := by
    intro r
    match r with
    | 0 | 1 | 2 | 3 | 4 => decide
    | n + 5 => show (-2 : Int) < 0; decide
  source := by decide
  arity := by decide
  goal := rfl
  goal_ne := by decide
  rules_ne := by decide

example : UnaryAcyclic exVal [(10, exCalls)] ∧ ∀ g ∈ [(10, exCalls)], ∀ r ∈ added g.2, (exVal r).f ≠ [(-1 : Int)] := by
  refine ⟨⟨fun c => if c = -1 then 1 else 0, ?_⟩, by decide⟩
  intro g hg r hr c hc hneg
  simp only [List.mem_singleton] at hg
  subst hg
  have : r = 1 ∨ r = 2 ∨ r = 3 ∨ r = 4 ∨ r = 5 := by simpa [added, exCalls] using hr
  rcases this with rfl | rfl | rfl | rfl | rfl <;> simp [exVal] at hc ⊢ <;> omega

example : Distinct (textEnv (φ := Int) exVal (fun _ => 1) [(10, exCalls)] [1, 2, 1] 7 (-1) (-9) 0) := text_distinct (by decide)

/-- The sentence `a b a` is parsed, and has more than one parse; with a limit of one word it is not parsed. -/
example : (parse (textEnv (φ := Int) exVal (fun _ => 1) [(10, exCalls)] [1, 2, 1] 7 (-1) (-9) 0) 100).map (fun x => (x.1, x.2.nodes.length, x.2.edges.length)) = some (true, 8, 11) := by
  decide +kernel
example : (parse (textEnv (φ := Int) exVal (fun _ => 1) [(1, exCalls)] [1, 2, 1] 7 (-1) (-9) 0) 100).map Prod.fst = some false := by decide +kernel

/-! ### Text grammars -/

/-- Sentences and text grammars, whose unary rules have no cycles and do not rewrite the goal category: `Parse` says yes exactly if the goal category derives the
sentence.  Missing: grammars with other unary rules, for which the claim is false, as the next two theorems show. -/
theorem C16_language_partial (val : Nat → Rule) (rfeats : Nat → φ) (gs : List (Nat × List Call)) (ws : List Int) (eps goalCat kGoal : Int) (goalRule : Nat)
    (hok : TextOk val gs ws eps goalCat kGoal goalRule) (hac : UnaryAcyclic val gs) (hng : ∀ g ∈ gs, ∀ r ∈ added g.2, (val r).f ≠ [goalCat]) :
    ∃ ok g F, (∀ fuel, F ≤ fuel → parse (textEnv val rfeats gs ws eps goalCat kGoal goalRule) fuel = some (ok, g)) ∧
      (ok = true ↔ Derives val (gs.map fun g => (g.1, added g.2)) goalCat ws) := by
  obtain ⟨u, hu, _, hsub, hperm⟩ := sortUnaries_spec (textEnv val rfeats gs ws eps goalCat kGoal goalRule)
  obtain ⟨b, g, F, h1, h2, _⟩ := parse_core _ hok.ok hu
  refine ⟨b, g, F, h1, h2.trans ?_⟩
  obtain ⟨rank, hrank⟩ := hac
  have hun : ∀ r ∈ (textEnv val rfeats gs ws eps goalCat kGoal goalRule).unaries, ∃ g ∈ gs, r ∈ added g.2 ∧ (val r).f = [(val r).f.headD 0] ∧ (val r).f.headD 0 < 0 := by
    intro r hr
    obtain ⟨g, hg, hr'⟩ := mem_text_unaries.1 hr
    have ha := (mem_added (val := val)).2 (.inr hr')
    exact ⟨g, hg, ha, unary_f (unary_unary hr'), hok.head g hg r ha (unary_unary hr')⟩
  have hall : ∀ r ∈ (textEnv val rfeats gs ws eps goalCat kGoal goalRule).unaries, r ∈ u := by
    intro r hr
    refine (hperm ⟨rank, fun r hr _ => ?_⟩).mem_iff.2 (List.mem_filter.2 ⟨hr, ?_⟩)
    · obtain ⟨g, hg, a1, a2, a3⟩ := hun r hr
      exact hrank g hg r a1 _ a2 a3
    · obtain ⟨g, hg, a1, a2, _⟩ := hun r hr
      simp only [decide_eq_true_eq]
      intro e
      apply hng g hg r a1
      rw [a2]
      congr 1
  have hs : slice ws 0 (textEnv val rfeats gs ws eps goalCat kGoal goalRule).n = ws := by
    rw [text_n]
    simp [slice]
  constructor
  · rintro ⟨t, ht⟩
    have := (parse_derives hok.lhs hok.words (fun r hr => List.mem_of_mem_filter (hsub.subset hr)) t _ _ _ ht).2
    rw [hs] at this
    exact this
  · intro hd
    refine (derives_parse hok.source hok.head hok.words hall hd).2 0 _ (Nat.zero_le _) ?_ hs
    rw [text_n]

omit [Add φ] [Zero φ] in
/-- Saying no does not depend on the bound. -/
theorem parse_false [Add φ] [Zero φ] {p : Env ι R φ} {k : Nat} (h : (parse p k).map Prod.fst = some false) (fuel : Nat) : (parse p fuel).map Prod.fst = some false := by
  unfold parse at h ⊢
  revert h
  cases sortUnaries p with
  | none => exact id
  | some u =>
    simp only []
    cases (List.range' 1 p.n).foldlM (parseLen p u) (start p) with
    | none => exact id
    | some s =>
      simp only [finish]
      cases s.psv.goalIdx with
      | none => exact id
      | some v =>
        intro h
        exfalso
        simp only [Option.map_map] at h
        obtain ⟨g, _, e⟩ := Option.map_eq_some_iff.1 h
        simp at e

/-- `[S] → a | b [X]`, `[X] → [S]`. -/
def exGoal : Nat → Rule
  | 0 => ⟨-9, [-1], [], 1⟩
  | 1 => ⟨-1, [1], [], 0⟩
  | 2 => ⟨-1, [2, -2], [], 1⟩
  | _ => ⟨-2, [-1], [], 1⟩

/-- The claim fails for a grammar with a unary rule that rewrites the goal category: `b a` is derived but not parsed. -/
theorem C16_goal_unary_fails : ∃ (val : Nat → Rule) (gs : List (Nat × List Call)) (ws : List Int) (eps goalCat kGoal : Int) (goalRule : Nat),
    TextOk val gs ws eps goalCat kGoal goalRule ∧ UnaryAcyclic val gs ∧ Derives val (gs.map fun g => (g.1, added g.2)) goalCat ws ∧
      ∀ fuel, (parse (textEnv (φ := Int) val (fun _ => 0) gs ws eps goalCat kGoal goalRule) fuel).map Prod.fst = some false := by
  refine ⟨exGoal, [(10, [⟨1, 0, 0⟩, ⟨2, 0, 0⟩, ⟨3, 0, 0⟩])], [2, 1], 7, -1, -9, 0, ⟨by decide, ?_, by decide, by decide, rfl, by decide, by decide⟩, ?_, ?_, ?_⟩
  · intro r
    match r with
    | 0 | 1 | 2 => decide
    | n + 3 => show (-2 : Int) < 0; decide
  · refine ⟨fun c => if c = -2 then 1 else 0, ?_⟩
    intro g hg r hr c hc hneg
    simp only [List.mem_singleton] at hg
    subst hg
    have : r = 1 ∨ r = 2 ∨ r = 3 := by simpa [added] using hr
    rcases this with rfl | rfl | rfl <;> simp [exGoal] at hc ⊢ <;> omega
  · have s1 : Derives exGoal [(10, [1, 2, 3])] (-1) [1] := .rule (limit := 10) (r := 1) (rs := [1, 2, 3]) (by simp) (by simp) (.word (by decide) .nil) (fun _ => by decide)
    have s2 : Derives exGoal [(10, [1, 2, 3])] (-2) [1] := .rule (limit := 10) (r := 3) (rs := [1, 2, 3]) (by simp) (by simp) (.cat (ws := [1]) (ws' := []) (by decide) s1 .nil) (fun _ => by decide)
    exact .rule (limit := 10) (r := 2) (rs := [1, 2, 3]) (by simp [added]) (by simp) (.word (by decide) (.cat (ws := [1]) (ws' := []) (by decide) s2 .nil)) (fun _ => by decide)
  · intro fuel
    exact parse_false (k := 0) (by decide +kernel) fuel

/-- `[S] → s [A] | t [B]`, `[A] → x | [B]`, `[B] → y | [A]`. -/
def exCycle : Nat → Rule
  | 0 => ⟨-9, [-1], [], 1⟩
  | 1 => ⟨-1, [1, -2], [], 1⟩
  | 2 => ⟨-1, [2, -3], [], 1⟩
  | 3 => ⟨-2, [3], [], 0⟩
  | 4 => ⟨-3, [4], [], 0⟩
  | 5 => ⟨-2, [-3], [], 1⟩
  | _ => ⟨-3, [-2], [], 1⟩

/-- The claim fails for a grammar whose unary rules have a cycle: `t x` is derived but not parsed. -/
theorem C16_unary_cycle_fails : ∃ (val : Nat → Rule) (gs : List (Nat × List Call)) (ws : List Int) (eps goalCat kGoal : Int) (goalRule : Nat),
    TextOk val gs ws eps goalCat kGoal goalRule ∧ (∀ g ∈ gs, ∀ r ∈ added g.2, (val r).f ≠ [goalCat]) ∧ Derives val (gs.map fun g => (g.1, added g.2)) goalCat ws ∧
      ∀ fuel, (parse (textEnv (φ := Int) val (fun _ => 0) gs ws eps goalCat kGoal goalRule) fuel).map Prod.fst = some false := by
  refine ⟨exCycle, [(10, [⟨1, 0, 0⟩, ⟨2, 0, 0⟩, ⟨3, 0, 0⟩, ⟨4, 0, 0⟩, ⟨5, 0, 0⟩, ⟨6, 0, 0⟩])], [2, 3], 7, -1, -9, 0, ⟨by decide, ?_, by decide, by decide, rfl, by decide, by decide⟩, by decide, ?_, ?_⟩
  · intro r
    match r with
    | 0 | 1 | 2 | 3 | 4 | 5 => decide
    | n + 6 => show (-3 : Int) < 0; decide
  · have s1 : Derives exCycle [(10, [1, 2, 3, 4, 5, 6])] (-2) [3] := .rule (limit := 10) (r := 3) (rs := [1, 2, 3, 4, 5, 6]) (by simp) (by simp) (.word (by decide) .nil) (fun _ => by decide)
    have s2 : Derives exCycle [(10, [1, 2, 3, 4, 5, 6])] (-3) [3] := .rule (limit := 10) (r := 6) (rs := [1, 2, 3, 4, 5, 6]) (by simp) (by simp) (.cat (ws := [3]) (ws' := []) (by decide) s1 .nil) (fun _ => by decide)
    exact .rule (limit := 10) (r := 2) (rs := [1, 2, 3, 4, 5, 6]) (by simp [added]) (by simp) (.word (by decide) (.cat (ws := [3]) (ws' := []) (by decide) s2 .nil)) (fun _ => by decide)
  · intro fuel
    exact parse_false (k := 0) (by decide +kernel) fuel

end Cdec.Dec.Parser
