import Verif.Klm.LmAdjustLemmas
import Verif.Props.C85
namespace Cdec.Klm.Builder
open CountSpec

theorem adjInv_first {order : Nat} (ho : 2 ≤ order) {prune : Nat → Nat} {f : List Nat} {c : Nat} (hf : Padded order f) :
    AdjInv order prune [(f, c)] f ((AdjState.init order).step order prune (f, c)) := by
  obtain ⟨x, xs, rfl⟩ : ∃ x xs, f = x :: xs := by
    cases f with
    | nil => have := hf.len; simp at this; omega
    | cons x xs => exact ⟨x, xs, rfl⟩
  have hx : 1 < x := hf.first x rfl
  have hsame : sameWords (x :: xs) [kBOS] = 0 := by
    have : ¬ x = kBOS := by unfold kBOS; omega
    simp [sameWords, this]
  have hstep : (AdjState.init order).step order prune (x :: xs, c) = ⟨(newValid (x :: xs) c 0 (order - 1)).1,
     (List.range order).map fun _ => c,
     fun i => if i = 0 then firstRecs 0 else [],
     if (newValid (x :: xs) c 0 (order - 1)).2 then [(x :: xs, c)] else []⟩ := by
    unfold AdjState.step
    simp only [AdjState.init, List.getLast?_singleton, Option.getD_some, hsame, bumpValid, if_true, List.take_zero,
      List.nil_append, Nat.zero_le, Nat.sub_zero, Nat.zero_add]
    congr 1
    funext i
    by_cases hi : i = 0
    · subst hi; simp [firstRecs, pruneMark]
    · simp [hi]
  have hnv := newValid_spec hf c (order - 1) 0 (by omega) (by simp)
  have hadj : ∀ i, i + 1 < order → adjR [(x :: xs, c)] ((x :: xs).take (i + 1)) =
      if (x :: xs)[i]? = some kBOS then c else 1 := by
    intro i hi
    have hp : (x :: xs).take (i + 1) <+: (x :: xs) := List.take_prefix _ _
    have e : [(x :: xs, c)] = [] ++ [(x :: xs, c)] := rfl
    unfold adjR
    rw [e, rawR_append, preSet_append, rawR_none (by simp), preSet_none (by simp), pre_take (by rw [hf.len]; omega)]
    simp only [bosEnd_take (show i < (x :: xs).length by rw [hf.len]; omega), hp, if_true, Set.empty_union, Set.ncard_singleton,
      Nat.zero_add]
  rw [hstep, hnv]
  refine ⟨?_, ?_, ?_, ?_, ?_, ?_⟩
  · simp only [Nat.sub_zero]
    rw [← List.range_eq_range']
    apply List.map_congr_left
    intro i hi
    rw [List.mem_range] at hi
    rw [hadj i ((lt_lowerLen hf).1 hi).1]
  · intro i hi
    have e : [(x :: xs, c)] = [] ++ [(x :: xs, c)] := rfl
    rw [e, rawR_append, rawR_none (by simp), if_pos (List.take_prefix _ _)]
    simp [List.getD_eq_getElem?_getD, hi]
  · intro i hi r
    have hno : ¬ (Ends [(x :: xs, c)] i r.words ∧ r.words ≠ (x :: xs).take (i + 1)) := by
      rintro ⟨⟨⟨q, hq, hqw⟩, _⟩, hne⟩
      rw [List.mem_singleton.1 hq] at hqw
      exact hne hqw.symm
    by_cases h0 : i = 0
    · subst h0
      simp only [if_true]
      constructor
      · exact Or.inl
      · rintro (h | ⟨h1, h2, _⟩)
        · exact h
        · exact absurd ⟨h1, h2⟩ hno
    · simp only [h0, if_false, firstRecs, List.not_mem_nil, false_or, false_iff]
      rintro ⟨h1, h2, _⟩
      exact hno ⟨h1, h2⟩
  · intro i _
    by_cases h0 : i = 0
    · subst h0
      simp only [if_true, firstRecs]
      refine List.Pairwise.cons ?_ (by simp)
      intro b hb
      rw [List.mem_singleton.1 hb]
      exact List.cons_lt_cons_iff.2 (Or.inl (by simp [kUNK, kBOS]))
    · simp [h0]
  · intro i _ r hr
    by_cases h0 : i = 0
    · subst h0
      simp only [if_true, firstRecs, List.mem_cons, List.not_mem_nil, or_false] at hr
      rw [List.take_succ_cons, List.take_zero]
      rcases hr with rfl | rfl
      · exact List.cons_lt_cons_iff.2 (Or.inl (by unfold kUNK; omega))
      · exact List.cons_lt_cons_iff.2 (Or.inl (by unfold kBOS; omega))
    · simp [h0] at hr
  · by_cases hb : kBOS ∈ (x :: xs).take (order - 1) <;> simp [hb]

theorem adjInv_run {order : Nat} (ho : 2 ≤ order) {prune : Nat → Nat} : ∀ (l : List (List Nat × Nat)), l ≠ [] →
    (∀ r ∈ l, Padded order r.1) → (l.Pairwise fun a b => a.1 < b.1) →
    ∃ g, (∃ c, (g, c) ∈ l) ∧ (∀ r ∈ l, r.1 ≤ g) ∧
      AdjInv order prune l g (l.foldl (AdjState.step order prune) (AdjState.init order)) := by
  intro l
  induction l using List.reverseRecOn with
  | nil => intro h; exact absurd rfl h
  | append_singleton l f ih =>
    intro _ hp hs
    by_cases hl : l = []
    · subst hl
      exact ⟨f.1, ⟨f.2, by simp⟩, by simp, adjInv_first ho (hp f (by simp))⟩
    · obtain ⟨hs1, _, hs2⟩ := List.pairwise_append.1 hs
      obtain ⟨g, ⟨cg, hg⟩, hle, hi⟩ := ih hl (fun r hr => hp r (by simp [hr])) hs1
      have hgf : g < f.1 := hs2 _ hg f (by simp)
      refine ⟨f.1, ⟨f.2, by simp⟩, ?_, ?_⟩
      · intro r hr
        rcases List.mem_append.1 hr with hr | hr
        · exact le_of_lt (hs2 r hr f (by simp))
        · rw [List.mem_singleton.1 hr]
      · rw [List.foldl_append]
        exact adjInv_step ho hi (fun r hr => ⟨hp r (by simp [hr]), hle r hr⟩) ⟨cg, hg⟩ (hp f (by simp)) hgf

/-- The stream of a lower order: its records, with the mark of those of the last n-gram. -/
theorem finish_spec {order : Nat} {prune : Nat → Nat} {l : List (List Nat × Nat)} {g : List Nat} {s : AdjState}
    (hp : Padded order g) (hgl : ∃ c, (g, c) ∈ l) (h : AdjInv order prune l g s) (i : Nat) (hi : i + 1 < order) :
    ((s.finish prune i).Pairwise fun a b => a.words < b.words) ∧
    ∀ r, r ∈ s.finish prune i ↔ r ∈ firstRecs i ∨ Ends l i r.words ∧ r.count = adjR l r.words ∧
      r.marked = if r.words = g.take (i + 1) then decide (adjR l r.words ≤ prune i) else pruneMark prune i (rawR l r.words) := by
  have hvi : s.valid[i]? = if i < lowerLen order g then some (g.take (i + 1), adjR l (g.take (i + 1))) else none := by
    rw [h.valid, List.getElem?_map]
    split
    · rename_i hi
      rw [List.getElem?_range hi]; rfl
    · rename_i hi
      rw [List.getElem?_eq_none (by simpa using hi)]; rfl
  have hEg : Ends l i (g.take (i + 1)) ↔ i < lowerLen order g := by
    rw [lt_lowerLen hp]
    unfold Ends
    rw [dropLast_take (by rw [hp.len]; omega)]
    obtain ⟨cg, hgl⟩ := hgl
    constructor
    · rintro ⟨_, hb⟩; exact ⟨hi, hb⟩
    · rintro ⟨_, hb⟩; exact ⟨⟨(g, cg), hgl, rfl⟩, hb⟩
  unfold AdjState.finish
  rw [hvi]
  constructor
  · refine List.pairwise_append.2 ⟨h.sorted i hi, ?_, ?_⟩
    · split <;> simp
    · intro a ha b hb
      split at hb
      · simp only [Option.toList_some, List.map_cons, List.map_nil, List.mem_singleton] at hb
        rw [hb]
        exact h.below i hi a ha
      · simp at hb
  · intro r
    rw [List.mem_append, h.mem i hi r, or_assoc]
    refine or_congr_right ?_
    constructor
    · rintro (⟨h1, h2, h3, h4⟩ | h1)
      · exact ⟨h1, h3, by rw [if_neg h2]; exact h4⟩
      · split at h1
        · rename_i hil
          simp only [Option.toList_some, List.map_cons, List.map_nil, List.mem_singleton] at h1
          rw [h1]
          exact ⟨hEg.2 hil, rfl, by simp⟩
        · simp at h1
    · rintro ⟨h1, h2, h3⟩
      by_cases hw : r.words = g.take (i + 1)
      · right
        rw [if_pos (hEg.1 (hw ▸ h1))]
        rw [if_pos hw] at h3
        simp only [Option.toList_some, List.map_cons, List.map_nil, List.mem_singleton]
        rw [← hw, ← h3, ← h2]
      · rw [if_neg hw] at h3
        exact Or.inl ⟨h1, hw, h2, h3⟩

/-! ## The n-grams of a corpus -/

theorem padded_getElem (order : Nat) (ws : List Nat) (k x : Nat) (h : (padded order ws)[k]? = some x) :
    k < order - 1 ∧ x = kBOS ∨ order - 1 ≤ k ∧ 1 < x := by
  unfold padded at h
  rw [List.append_assoc] at h
  by_cases hk : k < order - 1
  · rw [List.getElem?_append_left (by simpa using hk), List.getElem?_replicate, if_pos hk] at h
    exact Or.inl ⟨hk, by simpa using h.symm⟩
  · rw [List.getElem?_append_right (by simp; omega)] at h
    have := List.mem_of_getElem? h
    simp only [List.mem_append, List.mem_filter, List.mem_singleton, decide_eq_true_eq] at this
    right
    refine ⟨by omega, ?_⟩
    rcases this with ⟨_, h⟩ | h
    · omega
    · rw [h]; simp [kEOS]

theorem ngrams_padded {order : Nat} {corpus : List (List Nat)} {g : Gram} (ho : 1 ≤ order)
    (h : g ∈ corpusNgrams order corpus) : Padded order g.reverse := by
  have hlen := length_corpus h
  unfold corpusNgrams at h
  obtain ⟨l, _, hg⟩ := List.mem_flatMap.1 h
  unfold ngrams at hg
  obtain ⟨i, hi, rfl⟩ := List.mem_map.1 hg
  rw [List.mem_range] at hi
  set P := padded order l
  have hget : ∀ j < order, ((P.drop i).take order).reverse[j]? = P[i + (order - 1 - j)]? := by
    intro j hj
    rw [List.getElem?_reverse (by rw [hlen]; exact hj), hlen, List.getElem?_take, if_pos (by omega), List.getElem?_drop]
  refine ⟨by simp [hlen], ?_, ?_⟩
  · intro x hx
    rw [hget 0 (by omega)] at hx
    rcases padded_getElem order l _ _ hx with ⟨h1, _⟩ | ⟨_, h2⟩
    · omega
    · exact h2
  · intro a b hab hb ha
    rw [hget a (by omega)] at ha
    rw [hget b hb]
    have hP : i + (order - 1 - b) < P.length := by omega
    rw [List.getElem?_eq_getElem hP]
    rcases padded_getElem order l _ _ ha with ⟨h1, _⟩ | ⟨_, h2⟩
    · rcases padded_getElem order l _ _ (List.getElem?_eq_getElem hP) with ⟨_, h4⟩ | ⟨h3, _⟩
      · rw [h4]
      · omega
    · simp [kBOS] at h2

/-- The stream of counts, with the words reversed, as the loop of `AdjustCounts` sees it. -/
theorem counts_reversed {order cap : Nat} (ho : 2 ≤ order) {corpus : List (List Nat)} {counts : List (Gram × Nat)}
    (h : CountsTo order cap corpus counts) :
    (∀ r ∈ counts.map (fun r => (r.1.reverse, r.2)), Padded order r.1) ∧
    (counts.map (fun r => (r.1.reverse, r.2))).Pairwise fun a b => a.1 < b.1 := by
  obtain ⟨h1, h2⟩ := C85_count order cap (by omega) corpus counts h
  have hp : ∀ r ∈ counts, Padded order r.1.reverse := by
    intro r hr
    rcases ((h2 r.1 r.2).1 hr).1 with h | ⟨h, _⟩
    · exact ngrams_padded (by omega) h
    · omega
  refine ⟨?_, ?_⟩
  · intro r hr
    obtain ⟨q, hq, rfl⟩ := List.mem_map.1 hr
    exact hp q hq
  · rw [List.pairwise_map]
    refine List.Pairwise.imp_of_mem ?_ h1
    intro a b ha hb hab
    exact (compareWords_eq _ _ (by rw [(hp a ha).len, (hp b hb).len])).1 hab

theorem counts_ne_nil {order cap : Nat} (ho : 2 ≤ order) {corpus : List (List Nat)} {counts : List (Gram × Nat)}
    (h : CountsTo order cap corpus counts) (hc : corpus ≠ []) : counts ≠ [] := by
  obtain ⟨_, h2⟩ := C85_count order cap (by omega) corpus counts h
  cases corpus with
  | nil => exact absurd rfl hc
  | cons l ls =>
    intro e
    subst e
    have hm : ((padded order l).drop 0).take order ∈ corpusNgrams order (l :: ls) := by
      unfold corpusNgrams
      rw [List.flatMap_cons]
      refine List.mem_append_left _ (List.mem_map.2 ⟨0, ?_, rfl⟩)
      rw [List.mem_range]
      unfold padded
      simp; omega
    have := (h2 _ _).2 ⟨Or.inl hm, rfl⟩
    simp at this

end Cdec.Klm.Builder
