import Verif.Extract.TargetPhraseChoice
import Mathlib.Data.List.Perm.Subperm
/-!
# Gaps in a wrong order give no target phrases
-/
namespace Cdec.Extract
open Spec RuleSpec

/-- During the inner loop of `GetGapOrder` for index `i`, after `t` steps: the entries up to `i` are at most `i`. -/
theorem gapInner_bound (gaps : List (Int × Int)) (i : Nat) : ∀ (t : Nat) (order : List Nat), t ≤ i → i < order.length → (∀ j, j < i → order.getD j 0 < i) → (∀ j, i ≤ j → order.getD j 0 = 0) →
    let o := (List.range t).foldl (gapInner gaps i) order
    o.length = order.length ∧ (∀ j, j < t → o.getD j 0 ≤ i) ∧ (∀ j, t ≤ j → j < i → o.getD j 0 < i) ∧ o.getD i 0 ≤ t ∧ ∀ j, i < j → o.getD j 0 = 0
  | 0, order, _, hl, h1, h2 => by
    simp only [List.range_zero, List.foldl_nil]
    refine ⟨trivial, fun j h => by omega, fun j _ h => h1 j h, ?_, fun j h => h2 j (by omega)⟩
    rw [h2 i (Nat.le_refl _)]
  | t + 1, order, ht, hl, h1, h2 => by
    have ih := gapInner_bound gaps i t order (by omega) hl h1 h2
    simp only [] at ih ⊢
    rw [List.range_succ, List.foldl_append, List.foldl_cons, List.foldl_nil]
    generalize (List.range t).foldl (gapInner gaps i) order = o at ih ⊢
    obtain ⟨e, a1, a2, a3, a4⟩ := ih
    have hset : ∀ (k v j : Nat), (o.set k v).getD j 0 = if k = j ∧ j < o.length then v else o.getD j 0 := by
      intro k v j
      rw [List.getD_eq_getElem?_getD, List.getElem?_set]
      by_cases hkj : k = j
      · subst hkj
        by_cases hk : k < o.length
        · simp [hk]
        · simp [hk, List.getD_eq_getElem?_getD]
      · simp [hkj, List.getD_eq_getElem?_getD]
    unfold gapInner
    split
    · refine ⟨by simp [e], ?_, ?_, ?_, ?_⟩
      · intro j hj
        rw [hset, if_neg (by omega)]
        by_cases hjt : j < t
        · exact a1 j hjt
        · have := a2 j (by omega) (by omega); omega
      · intro j hj hji
        rw [hset, if_neg (by omega)]
        exact a2 j (by omega) hji
      · rw [hset]; split <;> omega
      · intro j hj
        rw [hset, if_neg (by omega)]
        exact a4 j hj
    · refine ⟨by simp [e], ?_, ?_, ?_, ?_⟩
      · intro j hj
        rw [hset]
        by_cases hjt : j < t
        · rw [if_neg (by omega)]; exact a1 j hjt
        · have e : j = t := by omega
          subst e
          have := a2 j (by omega) (by omega)
          split <;> omega
      · intro j hj hji
        rw [hset, if_neg (by omega)]
        exact a2 j (by omega) hji
      · rw [hset, if_neg (by omega)]; omega
      · intro j hj
        rw [hset, if_neg (by omega)]
        exact a4 j hj

/-- The entries of the order are indexes of gaps. -/
theorem gapOrder_bound (gaps : List (Int × Int)) : (gapOrder gaps).length = gaps.length ∧ ∀ o ∈ gapOrder gaps, o < gaps.length := by
  have key : ∀ k, k ≤ gaps.length → let o := (List.range k).foldl (gapOuter gaps) (List.replicate gaps.length 0)
      o.length = gaps.length ∧ (∀ j, j < k → o.getD j 0 < k) ∧ ∀ j, k ≤ j → o.getD j 0 = 0 := by
    intro k
    induction k with
    | zero =>
      intro _
      simp only [List.range_zero, List.foldl_nil, List.length_replicate, true_and]
      refine ⟨by omega, ?_⟩
      intro j _
      rw [List.getD_eq_getElem?_getD, List.getElem?_replicate]
      split <;> rfl
    | succ k ih =>
      intro hk
      have ih := ih (by omega)
      simp only [] at ih ⊢
      rw [List.range_succ, List.foldl_append, List.foldl_cons, List.foldl_nil]
      generalize (List.range k).foldl (gapOuter gaps) (List.replicate gaps.length 0) = o at ih ⊢
      obtain ⟨e, a1, a2⟩ := ih
      have := gapInner_bound gaps k k o (Nat.le_refl _) (by omega) a1 a2
      simp only [] at this
      unfold gapOuter
      obtain ⟨b1, b2, b3, b4, b5⟩ := this
      refine ⟨by omega, ?_, fun j hj => b5 j (by omega)⟩
      intro j hj
      by_cases e : j = k
      · subst e; omega
      · have := b2 j (by omega); omega
  obtain ⟨h1, h2, _⟩ := key gaps.length (Nat.le_refl _)
  refine ⟨h1, ?_⟩
  intro o ho
  obtain ⟨j, hj, rfl⟩ := List.mem_iff_getElem.1 ho
  have hj' : j < gaps.length := by unfold gapOrder at hj; omega
  have := h2 j hj'
  rw [List.getD_eq_getElem?_getD, List.getElem?_eq_getElem (by omega), Option.getD_some] at this
  exact this

/-- If there is a choice of chunks, the gaps follow each other. -/
theorem generate_chain : ∀ (gs : List ((Nat × Nat) × (Nat × Nat))) (r1 last : Nat × Nat) (prev : Nat), (∀ g ∈ gs, g.1.1 < g.1.2) →
    generate (r1 :: (gs.flatMap fun g => [(g.2.1, g.1.1), (g.1.2, g.2.2)]) ++ [last]) prev ≠ [] →
    (∀ g ∈ gs, r1.1 ≤ g.1.1) ∧ gs.Pairwise fun a b => a.1.2 ≤ b.1.1
  | [], _, _, _, _, _ => by simp
  | g :: gs, r1, last, prev, hne, h => by
    rw [List.flatMap_cons] at h
    simp only [List.cons_append, List.nil_append, generate] at h
    obtain ⟨x, hx⟩ := List.exists_mem_of_ne_nil _ h
    rw [List.mem_flatMap] at hx
    obtain ⟨s, hs, hx⟩ := hx
    rw [List.mem_flatMap] at hx
    obtain ⟨e, he, hx⟩ := hx
    rw [mem_upto] at hs he
    rw [List.mem_map] at hx
    obtain ⟨y, hy, _⟩ := hx
    obtain ⟨i1, i2⟩ := generate_chain gs (g.1.2, g.2.2) last e (fun g' hg' => hne g' (List.mem_cons_of_mem _ hg')) (List.ne_nil_of_mem hy)
    have hg := hne g List.mem_cons_self
    refine ⟨?_, List.pairwise_cons.2 ⟨i1, i2⟩⟩
    intro g' hg'
    rw [List.mem_cons] at hg'
    rcases hg' with rfl | hg'
    · omega
    · have := i1 g' hg'; omega

/-- If the gaps are not brought into order, no phrases are produced. -/
theorem targetChunks_unsorted {E : XEnv} {gaps : List (Nat × Nat)} {low high : Nat} (hg : GapsIn low high gaps)
    (hs : ¬ SortsGaps (castGaps gaps) (gapOrder (castGaps gaps))) : targetChunks E gaps low high = [] := by
  by_contra hne
  apply hs
  obtain ⟨hl, hb⟩ := gapOrder_bound (castGaps gaps)
  have hcl : (castGaps gaps).length = gaps.length := by simp [castGaps]
  rw [hcl] at hl hb
  unfold targetChunks at hne
  simp only [] at hne
  have ecast : gaps.map (fun g => ((g.1 : Int), (g.2 : Int))) = castGaps gaps := rfl
  rw [ecast] at hne
  generalize gapOrder (castGaps gaps) = order at hl hb hne ⊢
  generalize looseSpan E low high = x at hne
  have hgen : generate (ranges x.1 low high x.2 (order.map fun o => (gaps.getD o (0, 0), looseGap E x.1 x.2 (gaps.getD o (0, 0))))) 0 ≠ [] := by
    intro h0; rw [h0] at hne; exact hne rfl
  have hin : ∀ o, o < gaps.length → (gaps.getD o (0, 0)).1 < (gaps.getD o (0, 0)).2 := by
    intro o h
    rw [List.getD_eq_getElem?_getD, List.getElem?_eq_getElem (by omega), Option.getD_some]
    exact (hg.2.1 _ (List.getElem_mem _)).2.1
  unfold ranges at hgen
  have hpw := (generate_chain _ _ _ _ (by
    intro g hg
    rw [List.mem_map] at hg
    obtain ⟨o, ho, rfl⟩ := hg
    exact hin o (hb o ho)) hgen).2
  rw [List.pairwise_map] at hpw
  have hnd : order.Nodup := by
    refine hpw.imp_of_mem ?_
    intro a b ha hb' h e
    subst e
    have := hin a (hb a ha)
    simp only [] at h
    omega
  have hperm : order.Perm (List.range gaps.length) := by
    have hsub : order.Subperm (List.range gaps.length) := List.subperm_of_subset hnd fun o ho => List.mem_range.2 (hb o ho)
    exact hsub.perm_of_length_le (by rw [List.length_range]; omega)
  refine ⟨by rw [hcl]; exact hperm, ?_⟩
  rw [List.pairwise_map]
  refine hpw.imp_of_mem ?_
  intro a b ha hb' h
  have hc : ∀ o, o < gaps.length → (castGaps gaps).getD o (0, 0) = (((gaps.getD o (0, 0)).1 : Int), ((gaps.getD o (0, 0)).2 : Int)) := by
    intro o h
    simp [castGaps, List.getD_eq_getElem?_getD, h]
  rw [hc a (hb a ha), hc b (hb b hb')]
  have := hin a (hb a ha)
  simp only [gapLt, decide_eq_true_eq]
  simp only [] at h
  omega

theorem extractPhrases_unsorted {E : XEnv} {gaps : List (Nat × Nat)} {low high : Nat} (hg : GapsIn low high gaps)
    (hs : ¬ SortsGaps (castGaps gaps) (gapOrder (castGaps gaps))) (idx : Nat → Option Nat) : extractPhrases E gaps low high idx = some [] := by
  unfold extractPhrases
  simp only []
  rw [targetChunks_unsorted hg hs]
  rfl

end Cdec.Extract
