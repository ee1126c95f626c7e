import Verif.Extract.RuleSpec
import Verif.Props.C44
import Mathlib.Data.List.Nodup
import Mathlib.Data.List.Range
import Mathlib.Data.List.Forall2
import Mathlib.Data.List.Pairwise
import Mathlib.Tactic.ByContra
import Mathlib.Data.List.Perm.Basic
/-!
# Lemmas about the enumeration of target phrases
-/
namespace Cdec.Extract
open Spec RuleSpec

theorem looseLow_le (tl : List Int) (ok : Nat → Bool) : ∀ x, looseLow tl ok x ≤ x
  | 0 => by simp [looseLow]
  | x + 1 => by
    rw [looseLow]
    split
    · exact Nat.le_succ_of_le (looseLow_le tl ok x)
    · exact Nat.le_refl _

theorem looseLow_le_iff (tl : List Int) (ok : Nat → Bool) : ∀ x y, y ≤ x →
    (looseLow tl ok x ≤ y ↔ ∀ z, y ≤ z → z < x → ok (z + 1) = true ∧ tl.getD z (-1) = -1)
  | 0, y, h => by simp [looseLow]
  | x + 1, y, h => by
    rw [looseLow]
    by_cases hy : y = x + 1
    · subst hy
      constructor
      · intro _ z h1 h2; omega
      · intro _
        split
        · exact Nat.le_succ_of_le (looseLow_le tl ok x)
        · exact Nat.le_refl _
    · have ih := looseLow_le_iff tl ok x y (by omega)
      split
      · rename_i hc
        rw [Bool.and_eq_true, decide_eq_true_eq] at hc
        rw [ih]
        constructor
        · intro h' z h1 h2
          by_cases hz : z = x
          · subst hz; exact hc
          · exact h' z h1 (by omega)
        · intro h' z h1 h2
          exact h' z h1 (by omega)
      · rename_i hc
        rw [Bool.and_eq_true, decide_eq_true_eq] at hc
        constructor
        · intro h'; omega
        · intro h'
          exact absurd (h' x (by omega) (by omega)) hc

theorem le_looseHigh (tl : List Int) (ok : Nat → Bool) : ∀ fuel x, x ≤ looseHigh tl ok fuel x
  | 0, x => Nat.le_refl _
  | fuel + 1, x => by
    rw [looseHigh]
    split
    · exact Nat.le_trans (Nat.le_succ x) (le_looseHigh tl ok fuel (x + 1))
    · exact Nat.le_refl _

theorem le_looseHigh_iff (tl : List Int) (ok : Nat → Bool) : ∀ fuel x y, x ≤ y →
    (y ≤ looseHigh tl ok fuel x ↔ y ≤ x + fuel ∧ ∀ z, x ≤ z → z < y → ok z = true ∧ tl.getD z (-1) = -1)
  | 0, x, y, h => by
    rw [looseHigh]
    constructor
    · intro h'; exact ⟨by omega, fun z h1 h2 => by omega⟩
    · intro h'; omega
  | fuel + 1, x, y, h => by
    rw [looseHigh]
    by_cases hy : y = x
    · subst hy
      constructor
      · intro _; exact ⟨by omega, fun z h1 h2 => by omega⟩
      · intro _
        split
        · exact Nat.le_trans (Nat.le_succ _) (le_looseHigh tl ok fuel _)
        · exact Nat.le_refl _
    · split
      · rename_i hc
        rw [Bool.and_eq_true, decide_eq_true_eq] at hc
        rw [le_looseHigh_iff tl ok fuel (x + 1) y (by omega)]
        constructor
        · rintro ⟨h1, h'⟩
          refine ⟨by omega, fun z h2 h3 => ?_⟩
          by_cases hz : z = x
          · subst hz; exact hc
          · exact h' z (by omega) h3
        · rintro ⟨h1, h'⟩
          exact ⟨by omega, fun z h2 h3 => h' z (by omega) h3⟩
      · rename_i hc
        rw [Bool.and_eq_true, decide_eq_true_eq] at hc
        constructor
        · intro h'; omega
        · rintro ⟨_, h'⟩
          exact absurd (h' x (by omega) (by omega)) hc

theorem mem_upto {a b x : Nat} : x ∈ upto a b ↔ a ≤ x ∧ x ≤ b := by
  unfold upto; rw [List.mem_range'_1]; omega

/-- The bounds of the chunks around gaps `gs`. -/
def flat (gs : List (Nat × Nat)) : List Nat := gs.flatMap fun g => [g.1, g.2]

/-- What `generate` chooses, step by step. -/
def Walk (last : Nat × Nat) (d : Nat) : Nat → (Nat × Nat) → Nat → List ((Nat × Nat) × (Nat × Nat)) → List (Nat × Nat) → Prop
  | prev, r, s, [], [] => prev ≤ s ∧ r.1 ≤ s ∧ s ≤ r.2 ∧ s ≤ d ∧ last.1 ≤ d ∧ d ≤ last.2
  | prev, r, s, g :: gs, g' :: gs' =>
    prev ≤ s ∧ r.1 ≤ s ∧ s ≤ r.2 ∧ s ≤ g'.1 ∧ g.2.1 ≤ g'.1 ∧ g'.1 ≤ g.1.1 ∧ Walk last d g'.1 (g.1.2, g.2.2) g'.2 gs gs'
  | _, _, _, _, _ => False

theorem mem_generate (last : Nat × Nat) : ∀ (gs : List ((Nat × Nat) × (Nat × Nat))) (r : Nat × Nat) (prev : Nat) (b : List Nat),
    b ∈ generate (r :: (gs.flatMap fun g => [(g.2.1, g.1.1), (g.1.2, g.2.2)]) ++ [last]) prev ↔
      ∃ s gs' d, b = s :: flat gs' ++ [d] ∧ Walk last d prev r s gs gs'
  | [], r, prev, b => by
    simp only [List.flatMap_nil, List.cons_append, List.nil_append, generate, List.mem_flatMap, List.map_cons, List.map_nil,
      List.mem_singleton, mem_upto]
    constructor
    · rintro ⟨s, ⟨h1, h2⟩, e, ⟨h3, h4⟩, rfl⟩
      exact ⟨s, [], e, rfl, by simp only [Walk]; omega⟩
    · rintro ⟨s, gs', d, rfl, h⟩
      cases gs' with
      | cons => simp [Walk] at h
      | nil =>
        simp only [Walk] at h
        exact ⟨s, by omega, d, by omega, rfl⟩
  | g :: gs, r, prev, b => by
    simp only [List.flatMap_cons, List.cons_append, List.nil_append, generate, List.mem_flatMap, List.mem_map, mem_upto]
    constructor
    · rintro ⟨s, ⟨h1, h2⟩, e, ⟨h3, h4⟩, b', hb', rfl⟩
      rw [← List.cons_append, mem_generate last gs (g.1.2, g.2.2) e b'] at hb'
      obtain ⟨s', gs', d, rfl, hw⟩ := hb'
      refine ⟨s, (e, s') :: gs', d, by simp [flat], ?_⟩
      simp only [Walk]
      refine ⟨by omega, by omega, by omega, by omega, by omega, by omega, hw⟩
    · rintro ⟨s, gs', d, rfl, h⟩
      cases gs' with
      | nil => simp [Walk] at h
      | cons g' gs' =>
        simp only [Walk] at h
        obtain ⟨h1, h2, h3, h4, h5, h6, hw⟩ := h
        refine ⟨s, by omega, g'.1, by omega, g'.2 :: flat gs' ++ [d], ?_, by simp [flat]⟩
        rw [← List.cons_append, mem_generate last gs (g.1.2, g.2.2) g'.1]
        exact ⟨g'.2, gs', d, rfl, hw⟩

theorem nodup_upto (a b : Nat) : (upto a b).Nodup := List.nodup_range'

theorem generate_nodup : ∀ (rs : List (Nat × Nat)) (prev : Nat), (generate rs prev).Nodup
  | [], prev => by simp [generate]
  | [r], prev => by simp [generate]
  | r1 :: r2 :: rs, prev => by
    rw [generate, List.nodup_flatMap]
    constructor
    · intro s hs
      rw [List.nodup_flatMap]
      constructor
      · intro e he
        refine List.Nodup.map ?_ (generate_nodup rs e)
        intro x y hxy
        simp only [List.cons.injEq, true_and] at hxy
        exact hxy
      · refine (nodup_upto _ _).imp ?_
        intro e e' hne
        simp only [Function.onFun]
        rw [List.disjoint_left]
        intro b h1 h2
        rw [List.mem_map] at h1 h2
        obtain ⟨b1, _, rfl⟩ := h1
        obtain ⟨b2, _, h⟩ := h2
        simp only [List.cons.injEq, true_and] at h
        exact hne h.1.symm
    · refine (nodup_upto _ _).imp ?_
      intro s s' hne
      simp only [Function.onFun]
      rw [List.disjoint_left]
      intro b h1 h2
      rw [List.mem_flatMap] at h1 h2
      obtain ⟨e1, _, h1⟩ := h1
      obtain ⟨e2, _, h2⟩ := h2
      rw [List.mem_map] at h1 h2
      obtain ⟨b1, _, rfl⟩ := h1
      obtain ⟨b2, _, h⟩ := h2
      simp only [List.cons.injEq] at h
      exact hne h.1.symm

/-! ### The two ways to write down one side of a rule -/

/-- `side` for numbered gaps. -/
def sideN (lo hi : Nat) (gs : List ((Nat × Nat) × Nat)) : List Slot :=
  (List.range' lo (hi - lo)).filterMap fun p =>
    match gs.find? fun g => decide (g.1.1 ≤ p ∧ p < g.1.2) with
    | none => some (.word p)
    | some g => if g.1.1 = p then some (.nt g.2) else none

theorem side_eq_sideN (lo hi : Nat) (gaps : List (Nat × Nat)) : side lo hi gaps = sideN lo hi (gaps.zipIdx 1) := rfl

/-- Chunk by chunk, for gaps in order. -/
def fillN (lo hi : Nat) : List ((Nat × Nat) × Nat) → List Slot
  | [] => (List.range' lo (hi - lo)).map .word
  | g :: gs => (List.range' lo (g.1.1 - lo)).map .word ++ .nt g.2 :: fillN g.1.2 hi gs

/-- The gaps are in order. -/
def InOrder (hi : Nat) : Nat → List (Nat × Nat) → Prop
  | lo, [] => lo ≤ hi
  | lo, g :: gs => lo ≤ g.1 ∧ g.1 < g.2 ∧ InOrder hi g.2 gs

theorem InOrder.le {hi : Nat} : ∀ {lo : Nat} {gs : List (Nat × Nat)}, InOrder hi lo gs → lo ≤ hi
  | _, [], h => h
  | _, g :: gs, h => by have := InOrder.le h.2.2; have := h.1; have := h.2.1; omega

theorem InOrder.mem {hi : Nat} : ∀ {lo : Nat} {gs : List (Nat × Nat)}, InOrder hi lo gs → ∀ g ∈ gs, lo ≤ g.1 ∧ g.1 < g.2 ∧ g.2 ≤ hi
  | _, [], _, g, hg => by cases hg
  | lo, g :: gs, h, x, hx => by
    rcases List.mem_cons.1 hx with rfl | hx
    · exact ⟨h.1, h.2.1, h.2.2.le⟩
    · have := InOrder.mem h.2.2 x hx
      have := h.1; have := h.2.1
      omega

theorem InOrder.pairwise {hi : Nat} : ∀ {lo : Nat} {gs : List (Nat × Nat)}, InOrder hi lo gs → gs.Pairwise fun a b => a.2 ≤ b.1
  | _, [], _ => List.Pairwise.nil
  | lo, g :: gs, h => List.Pairwise.cons (fun x hx => (h.2.2.mem x hx).1) h.2.2.pairwise

theorem InOrder.gapsIn {hi lo : Nat} {gs : List (Nat × Nat)} (h : InOrder hi lo gs) : GapsIn lo hi gs :=
  ⟨h.le, h.mem, h.pairwise.imp fun h => Or.inl h⟩

theorem inOrder_iff {hi : Nat} : ∀ {lo : Nat} {gs : List (Nat × Nat)}, lo ≤ hi → (∀ g ∈ gs, lo ≤ g.1 ∧ g.1 < g.2 ∧ g.2 ≤ hi) →
    (gs.Pairwise fun a b => a.2 ≤ b.1) → InOrder hi lo gs
  | _, [], h, _, _ => h
  | lo, g :: gs, h, h1, h2 => by
    have a := h1 g List.mem_cons_self
    refine ⟨a.1, a.2.1, inOrder_iff a.2.2 ?_ (List.pairwise_cons.1 h2).2⟩
    intro x hx
    have b := h1 x (List.mem_cons_of_mem _ hx)
    exact ⟨(List.pairwise_cons.1 h2).1 x hx, b.2⟩

theorem filterMap_eq_map_word (f : Nat → Option Slot) (l : List Nat) (h : ∀ p ∈ l, f p = some (.word p)) : l.filterMap f = l.map .word := by
  induction l with
  | nil => rfl
  | cons p l ih =>
    rw [List.filterMap_cons, h p List.mem_cons_self, List.map_cons, ih fun q hq => h q (List.mem_cons_of_mem _ hq)]

theorem filterMap_none (f : Nat → Option Slot) (l : List Nat) (h : ∀ p ∈ l, f p = none) : l.filterMap f = [] := by
  induction l with
  | nil => rfl
  | cons p l ih => rw [List.filterMap_cons, h p List.mem_cons_self, ih fun q hq => h q (List.mem_cons_of_mem _ hq)]

theorem range'_split (a b c : Nat) (h1 : a ≤ b) (h2 : b ≤ c) : List.range' a (c - a) = List.range' a (b - a) ++ List.range' b (c - b) := by
  have e : c - a = (b - a) + (c - b) := by omega
  rw [e, ← List.range'_append_1]
  congr 2
  omega

theorem sideN_inOrder (hi : Nat) : ∀ (gs : List ((Nat × Nat) × Nat)) (lo : Nat), InOrder hi lo (gs.map (·.1)) → sideN lo hi gs = fillN lo hi gs
  | [], lo, _ => by
    unfold sideN fillN
    exact filterMap_eq_map_word _ _ fun p _ => by simp
  | g :: gs, lo, h => by
    obtain ⟨h1, h2, h3⟩ := h
    beta_reduce at h1 h2 h3
    have h4 := h3.le
    have ih := sideN_inOrder hi gs g.1.2 h3
    rw [fillN, ← ih]
    unfold sideN
    rw [range'_split lo g.1.1 hi h1 (by omega), range'_split g.1.1 g.1.2 hi (by omega) h4, List.filterMap_append, List.filterMap_append]
    congr 1
    · refine filterMap_eq_map_word _ _ ?_
      intro p hp
      rw [List.mem_range'_1] at hp
      have : ((g :: gs).find? fun g => decide (g.1.1 ≤ p ∧ p < g.1.2)) = none := by
        rw [List.find?_eq_none]
        intro x hx
        rw [decide_eq_true_eq]
        rcases List.mem_cons.1 hx with rfl | hx
        · omega
        · have := h3.mem x.1 (List.mem_map_of_mem hx)
          omega
      rw [this]
    · show _ = [Slot.nt g.2] ++ _
      refine congrArg₂ (· ++ ·) ?_ ?_
      · have e : g.1.2 - g.1.1 = (g.1.2 - g.1.1 - 1) + 1 := by omega
        rw [e, List.range'_succ, List.filterMap_cons]
        have : ((g :: gs).find? fun x => decide (x.1.1 ≤ g.1.1 ∧ g.1.1 < x.1.2)) = some g := by
          rw [List.find?_cons_of_pos]
          simp; omega
        rw [this]
        simp only [if_true]
        congr 1
        refine filterMap_none _ _ ?_
        intro p hp
        rw [List.mem_range'_1] at hp
        have : ((g :: gs).find? fun x => decide (x.1.1 ≤ p ∧ p < x.1.2)) = some g := by
          rw [List.find?_cons_of_pos]
          simp; omega
        rw [this]
        simp only []
        rw [if_neg (by omega)]
      · refine List.filterMap_congr ?_
        intro p hp
        rw [List.mem_range'_1] at hp
        rw [List.find?_cons_of_neg]
        simp; omega

theorem find?_perm {α : Type} (P : α → Bool) {l l' : List α} (hp : l.Perm l') (hu : ∀ x ∈ l, ∀ y ∈ l, P x = true → P y = true → x = y) :
    l.find? P = l'.find? P := by
  cases h : l.find? P with
  | none =>
    rw [List.find?_eq_none] at h
    symm
    rw [List.find?_eq_none]
    exact fun x hx => h x (hp.mem_iff.2 hx)
  | some x =>
    have hx := List.find?_some h
    have hm := List.mem_of_find?_eq_some h
    cases h' : l'.find? P with
    | none =>
      rw [List.find?_eq_none] at h'
      exact absurd hx (h' x (hp.mem_iff.1 hm))
    | some y =>
      rw [hu x hm y (hp.mem_iff.2 (List.mem_of_find?_eq_some h')) hx (List.find?_some h')]

theorem sideN_perm (lo hi : Nat) {gs gs' : List ((Nat × Nat) × Nat)} (hp : gs.Perm gs')
    (hu : gs.Pairwise fun a b => Apart a.1 b.1) : sideN lo hi gs = sideN lo hi gs' := by
  unfold sideN
  refine List.filterMap_congr ?_
  intro p _
  rw [find?_perm _ hp]
  intro x hx y hy h1 h2
  rw [decide_eq_true_eq] at h1 h2
  by_contra hne
  have : Std.Symm fun a b : (Nat × Nat) × Nat => Apart a.1 b.1 := ⟨fun a b h => Or.symm h⟩
  have := hu.forall hx hy hne
  unfold Apart at this
  omega

end Cdec.Extract
