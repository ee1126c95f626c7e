import Verif.Decoder.ParserRsFinal
import Verif.Props.C16
/-! # C104: the other bottom-up parser finds all parses too, but knows no span limits -/
namespace Cdec.Dec.Parser.Rs
open Cdec.HG Spec
variable {ι R φ : Type} [Add φ] [Zero φ]

/-- A grammar without a limit on spans. -/
def freeGram (G : Gram ι R) : Gram ι R := ⟨G.root, G.extend, G.rules, fun _ _ => true⟩

omit [Add φ] [Zero φ] in
/-- The same input with grammars that accept all spans. -/
def free (p : Env ι R φ) : Env ι R φ := ⟨p.lat, p.grams.map freeGram, p.unaries, p.lhs, p.rhs, p.rfeats, p.eps, p.goalCat, p.kGoal, p.goalRule⟩

/-! ### The parser never looks at the limits -/

theorem applyUnary_free (p : Env ι R φ) (u : List R) (i j f : Nat) : applyUnary (free p) u i j f = applyUnary p u i j f := by
  induction f with
  | zero => rfl
  | succ f ih =>
    funext c v q
    rw [applyUnary, applyUnary, ih]
    rfl

theorem addToChart_free (p : Env ι R φ) (u : List R) (G : Gram ι R) (i f : Nat) : addToChart (free p) u (freeGram G) i f = addToChart p u G i f := by
  induction f with
  | zero => rfl
  | succ f ih =>
    funext j it q
    rw [addToChart, addToChart]
    have e : applyRules (free p) u i j ((freeGram G).rules it.g) it q = applyRules p u i j (G.rules it.g) it q := by
      unfold applyRules
      have h : (free p).lhs = p.lhs := rfl
      rw [applyUnary_free, h]
      rfl
    rw [e]
    simp only [ih]
    rfl

theorem parseCell_free (p : Env ι R φ) (u : List R) (i j : Nat) (q : Passive R φ) : parseCell (free p) u i j q = parseCell p u i j q := by
  unfold parseCell
  have h : (free p).grams = p.grams.map freeGram := rfl
  have hn : (free p).n = p.n := rfl
  rw [h, List.foldlM_map]
  simp only [List.foldlM_map, hn, addToChart_free]
  rfl

theorem parse_free (p : Env ι R φ) : parse (free p) = parse p := by
  funext fuel
  unfold parse
  have e : parseRow (free p) = parseRow p := by
    funext u q i
    unfold parseRow
    simp only [parseCell_free]
    rfl
  rw [e]
  rfl

omit [Add φ] [Zero φ] in
theorem walk_free (G : Gram ι R) (g : ι) (α : List Int) : walk (freeGram G) g α = walk G g α := by
  induction α generalizing g with
  | nil => rfl
  | cons c α ih =>
    rw [walk, walk]
    show (G.extend g c).bind _ = _
    congr 1
    funext g'
    exact ih g'

omit [Add φ] [Zero φ] in
theorem mem_free {p : Env ι R φ} {G : Gram ι R} : G ∈ (free p).grams ↔ ∃ H ∈ p.grams, freeGram H = G := List.mem_map

omit [Add φ] [Zero φ] in
theorem ok_free {p : Env ι R φ} (h : Ok p) : Ok (free p) where
  arcs := h.arcs
  goal := h.goal
  goal_ne := h.goal_ne
  rules_ne G hG α g hw r hr := by
    obtain ⟨H, hH, rfl⟩ := mem_free.1 hG
    exact h.rules_ne H hH α g ((walk_free H _ _).symm.trans hw) r hr
  unaries_ne := h.unaries_ne
  single G hG c g hc he := by
    obtain ⟨H, hH, rfl⟩ := mem_free.1 hG
    exact h.single H hH c g hc he

omit [Add φ] [Zero φ] in
theorem distinct_free {p : Env ι R φ} (h : Distinct p) : Distinct (free p) where
  bin G hG α g hw := by
    obtain ⟨H, hH, rfl⟩ := mem_free.1 hG
    exact h.bin H hH α g ((walk_free H _ _).symm.trans hw)
  grams a b G H ha hb α β g h' r hw1 hw2 hr1 hr2 := by
    have e : (free p).grams = p.grams.map freeGram := rfl
    rw [e, List.getElem?_map, Option.map_eq_some_iff] at ha hb
    obtain ⟨G', hG', rfl⟩ := ha
    obtain ⟨H', hH', rfl⟩ := hb
    exact h.grams a b G' H' hG' hH' α β g h' r ((walk_free _ _ _).symm.trans hw1) ((walk_free _ _ _).symm.trans hw2) hr1 hr2
  unaries := h.unaries

/-! ### Parses without limits -/

theorem match_le {p : Env ι R φ} (hok : Ok p) {G : Gram ι R} {i j sh sp α x} (h : Match p G i j sh sp α x) : i ≤ j ∧ j ≤ p.n := by
  induction h with
  | nil h _ => exact ⟨Nat.le_refl _, h⟩
  | eps _ ha _ _ ih =>
    have := hok.arcs _ _ (List.mem_of_getElem? ha)
    omega
  | word _ ha _ _ ih =>
    have := hok.arcs _ _ (List.mem_of_getElem? ha)
    omega
  | part _ h1 h2 _ ih => omega

theorem match_free {p : Env ι R φ} {G : Gram ι R} {i j sh sp α x} (h : Match p G i j sh sp α x) : Match (free p) (freeGram G) i j sh sp α x := by
  induction h with
  | nil h _ => exact .nil h rfl
  | eps _ ha _ he ih => exact .eps ih ha rfl he
  | word _ ha _ he ih => exact .word ih ha rfl he
  | part _ h1 h2 _ ih => exact .part ih h1 h2 rfl

theorem free_match {p : Env ι R φ} (hok : Ok p) {G : Gram ι R} (hG : ∀ i j, i ≤ j → j ≤ p.n → G.has i j = true) {i j sh sp α x}
    (h : Match (free p) (freeGram G) i j sh sp α x) : Match p G i j sh sp α x := by
  induction h with
  | nil h _ => exact .nil h (hG _ _ (Nat.le_refl _) h)
  | eps hm ha _ he ih =>
    have := hok.arcs _ _ (List.mem_of_getElem? ha)
    have := match_le (ok_free hok) hm
    exact .eps ih ha (hG _ _ (by omega) (by omega)) he
  | word hm ha _ he ih =>
    have := hok.arcs _ _ (List.mem_of_getElem? ha)
    have := match_le (ok_free hok) hm
    exact .word ih ha (hG _ _ (by omega) (by omega)) he
  | part hm h1 h2 _ ih =>
    have := match_le (ok_free hok) hm
    exact .part ih h1 h2 (hG _ _ (by omega) h2)

theorem parse_to_free {p : Env ι R φ} {u : List R} (t : LTree (Val R φ)) : ∀ c i j, Parse p u c i j t → Parse (free p) u c i j t := by
  induction t using LTree.rec (motive_2 := fun ts => ∀ sp : List (Int × Nat × Nat), List.Forall₂ (fun (s : Int × Nat × Nat) t => Parse p u s.1 s.2.1 s.2.2 t) sp ts →
      List.Forall₂ (fun (s : Int × Nat × Nat) t => Parse (free p) u s.1 s.2.1 s.2.2 t) sp ts) with
  | node b ts ih =>
    intro c i j h
    cases h with
    | @rule G i j sh sp α x g r ch hG hij hj hh hm hwalk hr hf =>
      exact .rule (p := free p) (G := freeGram G) (mem_free.2 ⟨G, hG, rfl⟩) hij hj rfl (match_free hm) ((walk_free G _ _).trans hwalk) hr (ih _ hf)
    | @unary i j r t hr ht =>
      have := ih [(p.rhs r, i, j)] (.cons ht .nil)
      cases this with
      | cons h1 _ => exact .unary (p := free p) hr h1
  | nil =>
    rename_i h
    cases h
    exact .nil
  | cons t ts ih1 ih2 =>
    rename_i h
    cases h with
    | cons h1 h2 => exact .cons (ih1 _ _ _ h1) (ih2 _ h2)

theorem free_to_parse {p : Env ι R φ} (hok : Ok p) (hh : ∀ G ∈ p.grams, ∀ i j, i ≤ j → j ≤ p.n → G.has i j = true) {u : List R} (t : LTree (Val R φ)) :
    ∀ c i j, Parse (free p) u c i j t → Parse p u c i j t := by
  induction t using LTree.rec (motive_2 := fun ts => ∀ sp : List (Int × Nat × Nat), List.Forall₂ (fun (s : Int × Nat × Nat) t => Parse (free p) u s.1 s.2.1 s.2.2 t) sp ts →
      List.Forall₂ (fun (s : Int × Nat × Nat) t => Parse p u s.1 s.2.1 s.2.2 t) sp ts) with
  | node b ts ih =>
    intro c i j h
    cases h with
    | @rule G i j sh sp α x g r ch hG hij hj hh' hm hwalk hr hf =>
      obtain ⟨H, hH, rfl⟩ := mem_free.1 hG
      exact .rule (p := p) hH hij hj (hh H hH i j (Nat.le_of_lt hij) hj) (free_match hok (hh H hH) hm) ((walk_free H _ _).symm.trans hwalk) hr (ih _ hf)
    | @unary i j r t hr ht =>
      have := ih [(p.rhs r, i, j)] (.cons ht .nil)
      cases this with
      | cons h1 _ => exact .unary (p := p) hr h1
  | nil =>
    rename_i h
    cases h
    exact .nil
  | cons t ts ih1 ih2 =>
    rename_i h
    cases h with
    | cons h1 h2 => exact .cons (ih1 _ _ _ h1) (ih2 _ h2)

/-! ### The theorems -/

/-- For every lattice and all grammars: with the unary rules `u` that are used, `Parse` ends without undefined behaviour; it says yes exactly if the lattice has a
parse as the goal category with the grammars as if they had no limits on spans; and then the derivations of the goal of the forest show exactly these parses, below
the goal rule. -/
theorem C104_parses (p : Env ι R φ) (hok : Ok p) (u : List R) (hu : sortUnaries p = some u) :
    ∃ ok g F, (∀ fuel, F ≤ fuel → parse p fuel = some (ok, g)) ∧ (ok = true ↔ ∃ t, Parse (free p) u p.goalCat 0 p.n t) ∧
      (ok = true → WF g ∧ 0 < g.nodes.length ∧ ∀ t, (∃ T, IsDeriv g g.goal T ∧ Shows g T t) ↔ ∃ t0, Parse (free p) u p.goalCat 0 p.n t0 ∧ t = goalTree p t0) := by
  obtain ⟨b, g, F, h1, h2, h3⟩ := parse_ready (free p) (ok_free hok) (fun G hG i j => by obtain ⟨H, _, rfl⟩ := mem_free.1 hG; rfl) (u := u) hu
  rw [parse_free] at h1
  exact ⟨b, g, F, h1, h2, fun h => ⟨(h3 h).1, (h3 h).2.1, (h3 h).2.2.1⟩⟩

/-- If no rule is there twice, every parse is the reading of one derivation only. -/
theorem C104_once (p : Env ι R φ) (hok : Ok p) (hd : Distinct p) (g : Hypergraph (Val R φ)) (hp : ∃ F, ∀ fuel, F ≤ fuel → parse p fuel = some (true, g)) :
    ∀ T T' t, IsDeriv g g.goal T → IsDeriv g g.goal T' → Shows g T t → Shows g T' t → T = T' := by
  obtain ⟨u, hu, _⟩ := sortUnaries_spec p
  obtain ⟨b, g', F, h1, h2, h3⟩ := parse_ready (free p) (ok_free hok) (fun G hG i j => by obtain ⟨H, _, rfl⟩ := mem_free.1 hG; rfl) (u := u) hu
  rw [parse_free] at h1
  obtain ⟨F', hF'⟩ := hp
  have e1 := h1 (max F F') (Nat.le_max_left _ _)
  rw [hF' _ (Nat.le_max_right _ _)] at e1
  have e2 := Option.some.inj e1
  rw [Prod.mk.injEq] at e2
  obtain ⟨rfl, rfl⟩ := e2
  exact (h3 rfl).2.2.2.1 (distinct_free hd)

/-- If the grammars accept all spans of the lattice, the two parsers agree: both say yes or both say no, and the derivations of the goals of their forests show the
same trees.  For grammars that do limit spans they need not, as `C104_limits_fails` shows. -/
theorem C104_agree (p : Env ι R φ) (hok : Ok p) (hh : ∀ G ∈ p.grams, ∀ i j, i ≤ j → j ≤ p.n → G.has i j = true) :
    ∃ ok g g' F, (∀ fuel, F ≤ fuel → Parser.parse p fuel = some (ok, g) ∧ parse p fuel = some (ok, g')) ∧
      (ok = true → ∀ t, (∃ T, IsDeriv g g.goal T ∧ Shows g T t) ↔ ∃ T, IsDeriv g' g'.goal T ∧ Shows g' T t) := by
  obtain ⟨u, hu, _⟩ := sortUnaries_spec p
  obtain ⟨b, g, F, h1, h2, h3⟩ := C16_parses p hok u hu
  obtain ⟨b', g', F', h1', h2', h3'⟩ := C104_parses p hok u hu
  have hiff : ∀ t, Parse (free p) u p.goalCat 0 p.n t ↔ Parse p u p.goalCat 0 p.n t := fun t => ⟨free_to_parse hok hh t _ _ _, parse_to_free t _ _ _⟩
  simp only [hiff] at h2' h3'
  have hb : b' = b := by
    rw [Bool.eq_iff_iff]
    exact h2'.trans h2.symm
  subst hb
  refine ⟨b', g, g', max F F', fun fuel hf => ⟨h1 fuel (by omega), h1' fuel (by omega)⟩, fun hb t => ?_⟩
  exact ((h3 hb).2.2 t).trans ((h3' hb).2.2 t).symm

/-- Whatever the first parser finds, the other one finds too: if the first one says yes, so does the other, and every tree that a derivation of the first forest
shows is shown by a derivation of the other one. -/
theorem C104_finds_more (p : Env ι R φ) (hok : Ok p) : ∃ ok g ok' g' F, (∀ fuel, F ≤ fuel → Parser.parse p fuel = some (ok, g) ∧ parse p fuel = some (ok', g')) ∧
    (ok = true → ok' = true ∧ ∀ t, (∃ T, IsDeriv g g.goal T ∧ Shows g T t) → ∃ T, IsDeriv g' g'.goal T ∧ Shows g' T t) := by
  obtain ⟨u, hu, _⟩ := sortUnaries_spec p
  obtain ⟨b, g, F, h1, h2, h3⟩ := C16_parses p hok u hu
  obtain ⟨b', g', F', h1', h2', h3'⟩ := C104_parses p hok u hu
  refine ⟨b, g, b', g', max F F', fun fuel hf => ⟨h1 fuel (by omega), h1' fuel (by omega)⟩, fun hb => ?_⟩
  have hb' : b' = true := by
    obtain ⟨t, ht⟩ := h2.1 hb
    exact h2'.2 ⟨t, parse_to_free t _ _ _ ht⟩
  refine ⟨hb', fun t ht => ?_⟩
  obtain ⟨t0, a1, a2⟩ := ((h3 hb).2.2 t).1 ht
  exact ((h3' hb').2.2 t).2 ⟨t0, parse_to_free t0 _ _ _ a1, a2⟩

omit [Add φ] [Zero φ] in
/-- Saying no does not depend on the bound. -/
theorem rs_false [Add φ] [Zero φ] {p : Env ι R φ} {k : Nat} (h : (parse p k).map Prod.fst = some false) (fuel : Nat) : (parse p fuel).map Prod.fst = some false := by
  unfold parse at h ⊢
  revert h
  cases sortUnaries p with
  | none => exact id
  | some u =>
    simp only []
    cases (List.range p.n).reverse.foldlM (parseRow p u) ⟨empty, fun _ _ => [], fun _ _ _ => none, none⟩ with
    | none => exact id
    | some q =>
      simp only []
      cases goalLoop p q with
      | none => exact id
      | some q =>
        simp only [finish]
        cases q.goalIdx with
        | none => exact id
        | some v =>
          intro h
          exfalso
          simp only [Option.map_map] at h
          obtain ⟨g, _, e⟩ := Option.map_eq_some_iff.1 h
          simp at e

/-- With a limit on spans the two parsers do not agree: with a limit of one word the first parser does not parse `a b a`, the other does. -/
theorem C104_limits_fails : ∃ (val : Nat → Rule) (gs : List (Nat × List Call)) (ws : List Int) (eps goalCat kGoal : Int) (goalRule : Nat),
    TextOk val gs ws eps goalCat kGoal goalRule ∧ Ok (textEnv (φ := Int) val (fun _ => 0) gs ws eps goalCat kGoal goalRule) ∧
      (∀ fuel, (Parser.parse (textEnv (φ := Int) val (fun _ => 0) gs ws eps goalCat kGoal goalRule) fuel).map Prod.fst = some false) ∧
      ∃ g F, ∀ fuel, F ≤ fuel → parse (textEnv (φ := Int) val (fun _ => 0) gs ws eps goalCat kGoal goalRule) fuel = some (true, g) := by
  have hok : TextOk exVal [(1, exCalls)] [1, 2, 1] 7 (-1) (-9) 0 := ⟨ex_ok.words, ex_ok.lhs, by decide, by decide, rfl, by decide, by decide⟩
  refine ⟨exVal, [(1, exCalls)], [1, 2, 1], 7, -1, -9, 0, hok, hok.ok, fun fuel => parse_false (k := 0) (by decide +kernel) fuel, ?_⟩
  obtain ⟨u, hu, _⟩ := sortUnaries_spec (textEnv (φ := Int) exVal (fun _ => 0) [(1, exCalls)] [1, 2, 1] 7 (-1) (-9) 0)
  obtain ⟨b, g, F, h1, _⟩ := C104_parses _ hok.ok u hu
  have hb : b = true := by
    have hk : (parse (textEnv (φ := Int) exVal (fun _ => 0) [(1, exCalls)] [1, 2, 1] 7 (-1) (-9) 0) 100).map Prod.fst = some true := by decide +kernel
    cases b with
    | true => rfl
    | false =>
      exfalso
      have := rs_false (k := F) (by rw [h1 F (Nat.le_refl _)]; rfl) 100
      rw [hk] at this
      simp at this
  subst hb
  exact ⟨g, F, h1⟩

/-! ### Concrete cases -/

/-- The hypotheses hold for the grammar of C16, and the sentence `a b a` is parsed into the same number of nodes and edges. -/
example : Ok (textEnv (φ := Int) exVal (fun _ => 1) [(10, exCalls)] [1, 2, 1] 7 (-1) (-9) 0) := ex_ok.ok
example : ∀ G ∈ (textEnv (φ := Int) exVal (fun _ => 1) [(10, exCalls)] [1, 2, 1] 7 (-1) (-9) 0).grams, ∀ i j, i ≤ j → j ≤ 3 → G.has i j = true := by
  intro G hG i j h1 h2
  obtain ⟨g, hg, rfl⟩ := mem_text_grams.1 hG
  simp only [List.mem_singleton] at hg
  subst hg
  simp [textGram]
  omega
example : (parse (textEnv (φ := Int) exVal (fun _ => 1) [(10, exCalls)] [1, 2, 1] 7 (-1) (-9) 0) 100).map (fun x => (x.1, x.2.nodes.length, x.2.edges.length)) = some (true, 8, 11) := by
  decide +kernel

end Cdec.Dec.Parser.Rs
