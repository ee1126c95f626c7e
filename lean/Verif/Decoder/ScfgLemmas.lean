import Verif.Decoder.Scfg
import Verif.Decoder.ParserTextLemmas
import Verif.Props.C18
/-! Lemmas about the SCFG translator. -/
namespace Cdec.Dec.Parser
open Cdec.HG Spec
variable {ι R φ : Type}

/-! ## Unary rules to the goal category are always used -/

/-- The unary rules to the category `c0` whose source has been left are in the list. -/
def GoalIn (us : List R) (lhs rhs : R → Int) (c0 : Int) (t : Topo R) : Prop :=
  t.mark c0 = 2 ∧ ∀ r ∈ us, lhs r = c0 → rhs r ≠ c0 → t.mark (rhs r) = 2 → r ∈ t.u

theorem mem_okRules {P : R → Prop} {rs : List R} {oks : List Bool} (h : List.Forall₂ (fun r ok => P r → ok = true) rs oks) {r : R} (hr : r ∈ rs) (hp : P r) :
    r ∈ okRules rs oks := by
  induction h with
  | nil => simp at hr
  | @cons x ok rs oks h1 _ ih =>
    unfold okRules
    rcases List.mem_cons.1 hr with rfl | hr
    · rw [if_pos (h1 hp)]; simp
    · split
      · exact List.mem_cons_of_mem _ (ih hr)
      · exact ih hr

theorem visitAll_goal {us : List R} {lhs rhs : R → Int} {c0 : Int} {v : Int → Topo R → Option (Bool × Topo R)}
    (hv : ∀ c t ok t', GoalIn us lhs rhs c0 t → v c t = some (ok, t') → GoalIn us lhs rhs c0 t' ∧ (c = c0 → ok = true)) :
    ∀ (rs : List R) (t : Topo R) oks t', GoalIn us lhs rhs c0 t → visitAll lhs v rs t = some (oks, t') →
      GoalIn us lhs rhs c0 t' ∧ List.Forall₂ (fun r ok => lhs r = c0 → ok = true) rs oks := by
  intro rs
  induction rs with
  | nil =>
    intro t oks t' h e
    simp only [visitAll, Option.some.injEq, Prod.mk.injEq] at e
    obtain ⟨rfl, rfl⟩ := e
    exact ⟨h, .nil⟩
  | cons r rs ih =>
    intro t oks t' h e
    rw [visitAll] at e
    cases h1 : v (lhs r) t with
    | none => rw [h1] at e; simp at e
    | some x =>
      obtain ⟨ok, t1⟩ := x
      rw [h1] at e
      simp only at e
      cases h2 : visitAll lhs v rs t1 with
      | none => rw [h2] at e; simp at e
      | some y =>
        obtain ⟨oks', t2⟩ := y
        rw [h2] at e
        simp only [Option.some.injEq, Prod.mk.injEq] at e
        obtain ⟨rfl, rfl⟩ := e
        obtain ⟨a, b⟩ := hv _ _ _ _ h h1
        obtain ⟨c, d⟩ := ih _ _ _ a h2
        exact ⟨c, .cons b d⟩

theorem visit_goal {us : List R} {lhs rhs : R → Int} {c0 : Int} {m : List (Int × List R)} (hm : ∀ c, findKey m c = us.filter fun r => decide (rhs r = c)) :
    ∀ (fuel : Nat) c t ok t', GoalIn us lhs rhs c0 t → visit lhs m fuel c t = some (ok, t') → GoalIn us lhs rhs c0 t' ∧ (c = c0 → ok = true) := by
  intro fuel
  induction fuel with
  | zero => intro c t ok t' _ e; simp [visit] at e
  | succ fuel ih =>
    intro c t ok t' h e
    rw [visit] at e
    split at e
    · rename_i h1
      simp only [Option.some.injEq, Prod.mk.injEq] at e
      obtain ⟨rfl, rfl⟩ := e
      refine ⟨h, ?_⟩
      rintro rfl
      rw [h.1] at h1; omega
    · split at e
      · simp only [Option.some.injEq, Prod.mk.injEq] at e
        obtain ⟨rfl, rfl⟩ := e
        exact ⟨h, fun _ => rfl⟩
      · rename_i h1 h2
        have hc : c ≠ c0 := by rintro rfl; exact h2 h.1
        cases h3 : visitAll lhs (visit lhs m fuel) (findKey m c) (t.setMark c 1) with
        | none => rw [h3] at e; simp at e
        | some x =>
          obtain ⟨oks, t1⟩ := x
          rw [h3] at e
          simp only [Option.some.injEq, Prod.mk.injEq] at e
          obtain ⟨rfl, rfl⟩ := e
          have hs : GoalIn us lhs rhs c0 (t.setMark c 1) := by
            refine ⟨?_, ?_⟩
            · rw [mark_setMark, if_neg (Ne.symm hc)]; exact h.1
            · intro r hr hl hrr hmk
              rw [mark_setMark] at hmk
              split at hmk
              · omega
              · exact h.2 r hr hl hrr hmk
          obtain ⟨a, b⟩ := visitAll_goal ih _ _ _ _ hs h3
          refine ⟨⟨?_, ?_⟩, fun _ => rfl⟩
          · rw [mark_setMark, if_neg (Ne.symm hc)]; exact a.1
          · intro r hr hl hrr hmk
            rw [u_setMark]
            rw [mark_setMark] at hmk
            split at hmk
            · rename_i he
              refine List.mem_append_right _ (mem_okRules b ?_ hl)
              rw [hm]
              exact List.mem_filter.2 ⟨hr, by simpa using he⟩
            · exact List.mem_append_left _ (a.2 r hr hl hrr hmk)

theorem sortLoop_goal {us : List R} {lhs rhs : R → Int} {c0 : Int} {m : List (Int × List R)} (hm : ∀ c, findKey m c = us.filter fun r => decide (rhs r = c)) (fuel : Nat) :
    ∀ (xs : List (Int × List R)) t t', GoalIn us lhs rhs c0 t → sortLoop lhs m fuel xs t = some t' → GoalIn us lhs rhs c0 t' := by
  intro xs
  induction xs with
  | nil => intro t t' h e; simp only [sortLoop, Option.some.injEq] at e; subst e; exact h
  | cons x xs ih =>
    intro t t' h e
    rw [sortLoop] at e
    split at e
    · exact ih _ _ h e
    · cases h1 : visit lhs m fuel x.1 t with
      | none => rw [h1] at e; simp at e
      | some y =>
        obtain ⟨ok, t1⟩ := y
        rw [h1] at e
        exact ih _ _ (visit_goal hm fuel _ _ _ _ h h1).1 e

/-- Unary rules from another category to the goal category are never dropped. -/
theorem goal_unaries {p : Env ι R φ} {u : List R} (hu : sortUnaries p = some u) {r : R} (hr : r ∈ p.unaries) (hl : p.lhs r = p.goalCat) (hrr : p.rhs r ≠ p.goalCat) : r ∈ u := by
  obtain ⟨_, hlen, hm, hkeys⟩ := unaryMap_spec p
  unfold sortUnaries at hu
  obtain ⟨t, ht, rfl⟩ := Option.map_eq_some_iff.1 hu
  have h0 : GoalIn p.unaries p.lhs p.rhs p.goalCat (⟨fun c => if c = p.goalCat then 2 else 0, []⟩ : Topo R) := by
    refine ⟨by simp, ?_⟩
    intro r _ _ hne hmk
    simp only at hmk
    rw [if_neg hne] at hmk; omega
  have hg := sortLoop_goal hm _ _ _ _ h0 ht
  have hv : VInv p.unaries p.lhs p.rhs p.goalCat (⟨fun c => if c = p.goalCat then 2 else 0, []⟩ : Topo R) := by
    refine ⟨⟨?_, fun _ => 0, 1, ?_, ?_⟩, ?_, by simp⟩
    · intro c; simp only; split <;> omega
    · intro _ _; exact Nat.zero_lt_one
    · intro r hr; simp at hr
    · intro r; simp
  obtain ⟨t', e, _, _, _, hall⟩ := sortLoop_spec hm (p.unaries.length + 2) (unaryMap p) _ hv
    (by intro c; simp only; split <;> omega) (by unfold unseen; exact Nat.lt_of_le_of_lt (List.length_filter_le _ _) (by omega))
  rw [ht] at e
  cases e
  obtain ⟨x, hx, hxe⟩ := hkeys r hr
  rw [List.mem_reverse]
  exact hg.2 r hr hl hrr (hxe ▸ hall x hx)

end Cdec.Dec.Parser

namespace Cdec.Dec.Scfg
open Cdec.HG Parser Parser.Spec
variable {φ : Type}

/-! ## The grammars -/

theorem walk_gram (val : Nat → Rule) (lat : List (List (Arc φ))) (G : Gr) : ∀ (α : List Int) (n : Node), walk (gramOf val lat G) n α = n.walk α := by
  intro α
  induction α with
  | nil => intro n; rfl
  | cons a α ih =>
    intro n
    simp only [walk, Node.walk, gramOf]
    cases n.extend a with
    | none => rfl
    | some m => exact ih m

theorem rules_gram {val : Nat → Rule} {lat : List (List (Arc φ))} {G : Gr} {α : List Int} {g : Node}
    (h : walk (gramOf val lat G) (gramOf val lat G).root α = some g) {r : Nat} :
    r ∈ (gramOf val lat G).rules g ↔ r ∈ Dec.Spec.trieRules val G.calls ∧ (val r).f = α := by
  rw [walk_gram] at h
  exact rules_text (limit := 0) (by rw [walk_text]; exact h)

theorem walk_gram_trie {val : Nat → Rule} (lat : List (List (Arc φ))) {G : Gr} {r : Nat} (h : r ∈ Dec.Spec.trieRules val G.calls) :
    ∃ g, walk (gramOf val lat G) (gramOf val lat G).root (val r).f = some g := by
  rw [walk_gram]
  exact (C17_extend val G.calls (val r).f).2 (.inr ⟨r, h, List.prefix_refl _⟩)

theorem mem_env_grams {val : Nat → Rule} {rfeats : Nat → φ} {lat : List (List (Arc φ))} {gs : List Gr} {eps goalCat kGoal : Int} {goalRule : Nat} {G : Gram Node Nat} :
    G ∈ (env val rfeats lat gs eps goalCat kGoal goalRule).grams ↔ ∃ g ∈ gs, gramOf val lat g = G := by
  simp [env]

theorem mem_env_unaries {val : Nat → Rule} {rfeats : Nat → φ} {lat : List (List (Arc φ))} {gs : List Gr} {eps goalCat kGoal : Int} {goalRule : Nat} {r : Nat} :
    r ∈ (env val rfeats lat gs eps goalCat kGoal goalRule).unaries ↔ ∃ g ∈ gs, r ∈ Dec.Spec.unaryRules val g.calls := by
  simp only [env, List.mem_flatMap]
  constructor
  · rintro ⟨g, h1, h2⟩; exact ⟨g, h1, (C17_unaries val g.calls).1 ▸ h2⟩
  · rintro ⟨g, h1, h2⟩; exact ⟨g, h1, (C17_unaries val g.calls).1.symm ▸ h2⟩

/-- A label is in the lattice. -/
def Label (lat : List (List (Arc φ))) (w : Int) : Prop := ∃ alts ∈ lat, ∃ a ∈ alts, a.label = w

theorem passStep_fold (pass : Int → Nat) (ws : List Int) : ∀ s : List Int × List Call, (∀ c, c ∈ s.2 ↔ ∃ w ∈ s.1, c = ⟨pass w, 0, 0⟩) →
    (∀ c, c ∈ (ws.foldl (passStep pass) s).2 ↔ ∃ w ∈ (ws.foldl (passStep pass) s).1, c = ⟨pass w, 0, 0⟩) ∧
    ∀ w, w ∈ (ws.foldl (passStep pass) s).1 ↔ w ∈ s.1 ∨ w ∈ ws := by
  induction ws with
  | nil => intro s h; exact ⟨h, by simp⟩
  | cons x ws ih =>
    intro s h
    rw [List.foldl_cons]
    have hs : (∀ c, c ∈ (passStep pass s x).2 ↔ ∃ w ∈ (passStep pass s x).1, c = ⟨pass w, 0, 0⟩) ∧ ∀ w, w ∈ (passStep pass s x).1 ↔ w ∈ s.1 ∨ w = x := by
      unfold passStep
      split
      · rename_i hx
        refine ⟨h, ?_⟩
        intro w
        constructor
        · exact Or.inl
        · rintro (h | rfl)
          · exact h
          · exact hx
      · refine ⟨?_, ?_⟩
        · intro c
          simp only [List.mem_append, h c, List.mem_cons, List.not_mem_nil, or_false]
          constructor
          · rintro (⟨w, hw, e⟩ | e)
            · exact ⟨w, .inr hw, e⟩
            · exact ⟨x, .inl rfl, e⟩
          · rintro ⟨w, rfl | hw, e⟩
            · exact .inr e
            · exact .inl ⟨w, hw, e⟩
        · intro w
          simp only [List.mem_cons]
          tauto
    obtain ⟨a, b⟩ := ih _ hs.1
    refine ⟨a, ?_⟩
    intro w
    rw [b, hs.2, List.mem_cons]
    tauto

theorem pass_calls (pass : Int → Nat) (lat : List (List (Arc φ))) (c : Call) :
    c ∈ (passGrammar pass lat).calls ↔ ∃ w, Label lat w ∧ c = ⟨pass w, 0, 0⟩ := by
  have gen : ∀ (lat : List (List (Arc φ))) (s : List Int × List Call), (∀ c, c ∈ s.2 ↔ ∃ w ∈ s.1, c = ⟨pass w, 0, 0⟩) →
      (∀ c, c ∈ (lat.foldl (fun s alts => (alts.map Arc.label).foldl (passStep pass) s) s).2 ↔
        ∃ w ∈ (lat.foldl (fun s alts => (alts.map Arc.label).foldl (passStep pass) s) s).1, c = ⟨pass w, 0, 0⟩) ∧
      ∀ w, w ∈ (lat.foldl (fun s alts => (alts.map Arc.label).foldl (passStep pass) s) s).1 ↔ w ∈ s.1 ∨ Label lat w := by
    intro lat
    induction lat with
    | nil => intro s h; exact ⟨h, by simp [Label]⟩
    | cons alts lat ih =>
      intro s h
      rw [List.foldl_cons]
      obtain ⟨a, b⟩ := passStep_fold pass (alts.map Arc.label) s h
      obtain ⟨a', b'⟩ := ih _ a
      refine ⟨a', ?_⟩
      intro w
      rw [b', b]
      simp only [Label, List.mem_map, List.mem_cons, exists_eq_or_imp]
      rw [or_assoc]
  obtain ⟨a, b⟩ := gen lat ([], []) (by simp)
  unfold passGrammar
  rw [a]
  constructor
  · rintro ⟨w, hw, e⟩
    exact ⟨w, by simpa using (b w).1 hw, e⟩
  · rintro ⟨w, hw, e⟩
    exact ⟨w, (b w).2 (.inr hw), e⟩

end Cdec.Dec.Scfg
