import Verif.Klm.LmAdjustRun
import Verif.Klm.LmCollapse
import Mathlib.Algebra.BigOperators.Group.List.Basic
import Mathlib.Data.List.Dedup
/-!
# C86: adjusted counts

Specification: `occurrences` and `precedingWords` speak of the padded corpus only.
-/
namespace Cdec.Klm.Builder
open CountSpec

namespace AdjSpec

/-- How often the words `w`, at most `order` of them, end at a word of the corpus (or at a `</s>`). -/
def occurrences (order : Nat) (corpus : List (List Nat)) (w : Gram) : Nat :=
  (corpusNgrams order corpus).countP fun g => decide (w <:+ g)

/-- The different words before `w`. -/
def precedingWords (order : Nat) (corpus : List (List Nat)) (w : Gram) : Set Nat :=
  {x | 0 < occurrences order corpus (x :: w)}

end AdjSpec

open AdjSpec

theorem take_reverse_eq {g w : Gram} {k : Nat} (hk : k ≤ g.length) :
    g.reverse.take k = w.reverse ↔ w <:+ g ∧ w.length = k := by
  constructor
  · intro h
    have hl := congrArg List.length h
    simp only [List.length_take, List.length_reverse] at hl
    refine ⟨?_, by omega⟩
    rw [← List.reverse_prefix, ← h]
    exact List.take_prefix _ _
  · rintro ⟨h, hl⟩
    rw [← List.reverse_prefix, List.prefix_iff_eq_take, List.length_reverse, hl] at h
    exact h.symm

theorem countP_counts {G : List Gram} {counts : List (Gram × Nat)} (hn : (counts.map (·.1)).Nodup)
    (h : ∀ g c, (g, c) ∈ counts ↔ g ∈ G ∧ c = G.count g) (p : Gram → Bool) :
    ((counts.filter fun r => p r.1).map (·.2)).sum = G.countP p := by
  rw [← List.sum_map_count_dedup_filter_eq_countP]
  have hp : (counts.map (·.1)).Perm G.dedup := by
    refine (List.perm_ext_iff_of_nodup hn (List.nodup_dedup _)).2 fun g => ?_
    rw [List.mem_dedup]
    constructor
    · intro hg
      obtain ⟨r, hr, rfl⟩ := List.mem_map.1 hg
      exact ((h r.1 r.2).1 hr).1
    · intro hg
      exact List.mem_map.2 ⟨(g, G.count g), (h _ _).2 ⟨hg, rfl⟩, rfl⟩
  rw [← ((hp.filter p).map _).sum_nat, List.filter_map, List.map_map]
  congr 1
  apply List.map_congr_left
  intro r hr
  refine ((h r.1 r.2).1 (List.mem_filter.1 hr).1).2.trans ?_
  simp only [Function.comp]
  unfold List.count
  congr 1
  funext x
  rw [Bool.eq_iff_iff]
  simp

/-- What the theorems below need about the stream of counts. -/
structure CountFacts (order : Nat) (corpus : List (List Nat)) (counts : List (Gram × Nat)) : Prop where
  mem : ∀ g c, (g, c) ∈ counts ↔ g ∈ corpusNgrams order corpus ∧ c = (corpusNgrams order corpus).count g
  len : ∀ r ∈ counts, r.1.length = order
  nodup : (counts.map (·.1)).Nodup

theorem countFacts {order cap : Nat} (ho : 2 ≤ order) {corpus : List (List Nat)} {counts : List (Gram × Nat)}
    (h : CountsTo order cap corpus counts) : CountFacts order corpus counts := by
  obtain ⟨h1, h2⟩ := C85_count order cap (by omega) corpus counts h
  have hm : ∀ g c, (g, c) ∈ counts ↔ g ∈ corpusNgrams order corpus ∧ c = (corpusNgrams order corpus).count g := by
    intro g c
    rw [h2 g c]
    refine and_congr_left fun _ => ?_
    constructor
    · rintro (h | ⟨h, _⟩)
      · exact h
      · omega
    · exact Or.inl
  refine ⟨hm, fun r hr => length_corpus ((hm r.1 r.2).1 hr).1, ?_⟩
  have := (counts_reversed ho h).2
  rw [List.pairwise_map] at this
  exact List.pairwise_map.2 (this.imp fun {a b} hab e => by simp [e] at hab)

theorem occ_pos {order : Nat} {corpus : List (List Nat)} {counts : List (Gram × Nat)} (h : CountFacts order corpus counts)
    (w : Gram) : 0 < occurrences order corpus w ↔ ∃ r ∈ counts, w <:+ r.1 := by
  unfold occurrences
  rw [List.countP_pos_iff]
  constructor
  · rintro ⟨g, hg, hw⟩
    exact ⟨(g, _), (h.mem _ _).2 ⟨hg, rfl⟩, by simpa using hw⟩
  · rintro ⟨r, hr, hw⟩
    exact ⟨r.1, ((h.mem r.1 r.2).1 hr).1, by simpa using hw⟩

theorem rawR_occ {order : Nat} {corpus : List (List Nat)} {counts : List (Gram × Nat)} (h : CountFacts order corpus counts)
    (w : Gram) : rawR (counts.map fun r => (r.1.reverse, r.2)) w.reverse = occurrences order corpus w := by
  unfold rawR occurrences
  rw [← countP_counts h.nodup h.mem, List.filter_map, List.map_map]
  congr 2
  apply List.filter_congr
  intro r _
  simp [List.reverse_prefix]

theorem adjR_occ {order : Nat} {corpus : List (List Nat)} {counts : List (Gram × Nat)} (h : CountFacts order corpus counts)
    (w : Gram) : adjR (counts.map fun r => (r.1.reverse, r.2)) w.reverse =
      if w.head? = some kBOS then occurrences order corpus w else (precedingWords order corpus w).ncard := by
  unfold adjR
  rw [rawR_occ h]
  have hb : bosEnd w.reverse ↔ w.head? = some kBOS := by unfold bosEnd; rw [List.getLast?_reverse]
  have hs : preSet (counts.map fun r => (r.1.reverse, r.2)) w.reverse = precedingWords order corpus w := by
    ext x
    unfold preSet precedingWords
    rw [Set.mem_setOf_eq, Set.mem_setOf_eq, occ_pos h]
    constructor
    · rintro ⟨r, hr, hx⟩
      obtain ⟨q, hq, rfl⟩ := List.mem_map.1 hr
      refine ⟨q, hq, ?_⟩
      rw [← List.reverse_prefix]
      simpa using hx
    · rintro ⟨q, hq, hx⟩
      refine ⟨_, List.mem_map.2 ⟨q, hq, rfl⟩, ?_⟩
      rw [← List.reverse_prefix] at hx
      simpa using hx
  rw [hs]
  by_cases hw : w.head? = some kBOS
  · rw [if_pos (hb.2 hw), if_pos hw]
  · rw [if_neg (fun h => hw (hb.1 h)), if_neg hw]

theorem ends_iff {order : Nat} {corpus : List (List Nat)} {counts : List (Gram × Nat)} (h : CountFacts order corpus counts)
    {i : Nat} (hi : i + 1 ≤ order) (w : Gram) : Ends (counts.map fun r => (r.1.reverse, r.2)) i w.reverse ↔
      w.length = i + 1 ∧ 0 < occurrences order corpus w ∧ kBOS ∉ w.tail := by
  unfold Ends
  rw [occ_pos h, List.dropLast_reverse, List.mem_reverse]
  constructor
  · rintro ⟨⟨r, hr, hw⟩, hb⟩
    obtain ⟨q, hq, rfl⟩ := List.mem_map.1 hr
    obtain ⟨h1, h2⟩ := (take_reverse_eq (by rw [h.len q hq]; exact hi)).1 hw
    exact ⟨h2, ⟨q, hq, h1⟩, hb⟩
  · rintro ⟨hl, ⟨q, hq, hw⟩, hb⟩
    exact ⟨⟨_, List.mem_map.2 ⟨q, hq, rfl⟩, (take_reverse_eq (by rw [h.len q hq]; exact hi)).2 ⟨hw, hl⟩⟩, hb⟩

/-- The streams of the orders below the highest: every n-gram that ends somewhere in the corpus and has `<s>` at most as its
first word, once, in suffix order.  Its count is the number of different words before it, or, if it begins with `<s>`, the
number of its occurrences.  The unigrams also have `<unk>` and `<s>`, with count 0. -/
theorem C86_lower (order cap : Nat) (ho : 2 ≤ order) (prune : Nat → Nat) (corpus : List (List Nat)) (hc : corpus ≠ [])
    (counts : List (Gram × Nat)) (h : CountsTo order cap corpus counts) (i : Nat) (hi : i + 1 < order) :
    ((adjustCounts order prune counts i).Pairwise fun a b => compareWords a.words.reverse b.words.reverse = true) ∧
    ∀ w c, (∃ m, ⟨w, c, m⟩ ∈ adjustCounts order prune counts i) ↔
      i = 0 ∧ (w = [kUNK] ∨ w = [kBOS]) ∧ c = 0 ∨
      w.length = i + 1 ∧ 0 < occurrences order corpus w ∧ kBOS ∉ w.tail ∧
        c = if w.head? = some kBOS then occurrences order corpus w else (precedingWords order corpus w).ncard := by
  obtain ⟨hp, hs⟩ := counts_reversed ho h
  have hf := countFacts ho h
  obtain ⟨g, hgl, hle, hinv⟩ := adjInv_run ho (prune := prune) _ (by simpa using counts_ne_nil ho h hc) hp hs
  obtain ⟨f1, f2⟩ := finish_spec (hp _ hgl.choose_spec) hgl hinv i hi
  have hmem : ∀ w c, (∃ m, (⟨w, c, m⟩ : AdjRec) ∈ adjustCounts order prune counts i) ↔
      i = 0 ∧ (w = [kUNK] ∨ w = [kBOS]) ∧ c = 0 ∨
      w.length = i + 1 ∧ 0 < occurrences order corpus w ∧ kBOS ∉ w.tail ∧
        c = if w.head? = some kBOS then occurrences order corpus w else (precedingWords order corpus w).ncard := by
    intro w c
    unfold adjustCounts
    simp only []
    rw [if_pos hi]
    constructor
    · rintro ⟨m, hm⟩
      obtain ⟨q, hq, he⟩ := List.mem_map.1 hm
      obtain ⟨qw, qc, qm⟩ := q
      simp only [AdjRec.mk.injEq] at he
      obtain ⟨rfl, rfl, rfl⟩ := he
      rcases (f2 _).1 hq with hq | ⟨h1, h2, h3⟩
      · left
        unfold firstRecs at hq
        split at hq
        · rename_i h0
          simp only [List.mem_cons, AdjRec.mk.injEq, List.not_mem_nil, or_false] at hq
          rcases hq with ⟨rfl, rfl, _⟩ | ⟨rfl, rfl, _⟩ <;> simp [h0]
        · simp at hq
      · right
        have e := List.reverse_reverse qw
        simp only at h1 h2
        rw [← e] at h1 h2
        rw [ends_iff hf (by omega)] at h1
        rw [adjR_occ hf] at h2
        exact ⟨h1.1, h1.2.1, h1.2.2, h2⟩
    · rintro (⟨rfl, hw, rfl⟩ | ⟨h1, h2, h3, h4⟩)
      · refine ⟨false, List.mem_map.2 ⟨⟨w, 0, false⟩, (f2 _).2 (Or.inl ?_), ?_⟩⟩
        · rcases hw with rfl | rfl <;> simp [firstRecs]
        · rcases hw with rfl | rfl <;> simp
      · obtain ⟨mk, hmk⟩ : ∃ mk : Bool, mk = if w.reverse = g.take (i + 1) then
            decide (adjR (counts.map fun r => (r.1.reverse, r.2)) w.reverse ≤ prune i)
          else pruneMark prune i (rawR (counts.map fun r => (r.1.reverse, r.2)) w.reverse) := ⟨_, rfl⟩
        refine ⟨mk, List.mem_map.2 ⟨⟨w.reverse, c, mk⟩,
          (f2 _).2 (Or.inr ⟨(ends_iff hf (by omega) w).2 ⟨h1, h2, h3⟩, ?_, hmk⟩), ?_⟩⟩
        · simp only
          rw [adjR_occ hf]; exact h4
        · simp
  refine ⟨?_, hmem⟩
  have hlen : ∀ r ∈ adjustCounts order prune counts i, r.words.length = i + 1 := by
    intro r hr
    rcases (hmem r.words r.count).1 ⟨r.marked, hr⟩ with ⟨h0, h | h, _⟩ | ⟨h, _⟩
    · rw [h]; simp [h0]
    · rw [h]; simp [h0]
    · exact h
  have hlt : (adjustCounts order prune counts i).Pairwise fun a b => a.words.reverse < b.words.reverse := by
    unfold adjustCounts
    simp only []
    rw [if_pos hi, List.pairwise_map]
    exact f1.imp fun h => by simpa using h
  refine List.Pairwise.imp_of_mem ?_ hlt
  intro a b ha hb hab
  exact (compareWords_eq _ _ (by simp [hlen a ha, hlen b hb])).2 hab

/-- The highest order: the n-grams of the corpus with `<s>` at most as their first word, with the numbers of their occurrences,
marked if these do not exceed the threshold. -/
theorem C86_highest (order cap : Nat) (ho : 2 ≤ order) (prune : Nat → Nat) (corpus : List (List Nat)) (hc : corpus ≠ [])
    (counts : List (Gram × Nat)) (h : CountsTo order cap corpus counts) (w : Gram) (c : Nat) (m : Bool) :
    ⟨w, c, m⟩ ∈ adjustCounts order prune counts (order - 1) ↔
      w ∈ corpusNgrams order corpus ∧ kBOS ∉ w.tail ∧ c = (corpusNgrams order corpus).count w ∧
        m = decide (c ≤ prune (order - 1)) := by
  obtain ⟨hp, hs⟩ := counts_reversed ho h
  have hf := countFacts ho h
  obtain ⟨g, hgl, hle, hinv⟩ := adjInv_run ho (prune := prune) _ (by simpa using counts_ne_nil ho h hc) hp hs
  unfold adjustCounts
  simp only []
  rw [if_neg (by omega), hinv.full]
  have htail : ∀ q : Gram, q.length = order → (kBOS ∈ q.reverse.take (order - 1) ↔ kBOS ∈ q.tail) := by
    intro q hq
    have : q.reverse.take (order - 1) = q.tail.reverse := by
      rw [← List.dropLast_reverse, List.dropLast_eq_take]
      simp [hq]
    rw [this, List.mem_reverse]
  constructor
  · intro hm
    obtain ⟨q, hq, he⟩ := List.mem_map.1 hm
    obtain ⟨hq1, hq2⟩ := List.mem_filter.1 hq
    obtain ⟨r, hr, rfl⟩ := List.mem_map.1 hq1
    simp only [AdjRec.mk.injEq, List.reverse_reverse] at he
    obtain ⟨rfl, rfl, rfl⟩ := he
    have hr' := (hf.mem r.1 r.2).1 hr
    refine ⟨hr'.1, ?_, hr'.2, rfl⟩
    rw [← htail _ (hf.len r hr)]
    simpa using hq2
  · rintro ⟨h1, h2, h3, h4⟩
    have hr := (hf.mem w c).2 ⟨h1, h3⟩
    refine List.mem_map.2 ⟨(w.reverse, c), List.mem_filter.2 ⟨List.mem_map.2 ⟨(w, c), hr, rfl⟩, ?_⟩, ?_⟩
    · rw [← htail _ (hf.len _ hr)] at h2
      simpa using h2
    · simp [h4]

/-- What `CollapseStream` leaves in each block of the highest order: its n-grams without `<s>` in second place, each as often as
it was there, in some order (the stream is sorted again afterwards). -/
theorem C86_collapse (b : List (Gram × Nat)) : (collapse b).Perm (b.filter fun r => r.1[1]? ≠ some kBOS) := by
  obtain ⟨_, u2, u3, u4⟩ := updateCopyFrom_spec b 0 b.length (Nat.zero_le _) (le_refl _)
  unfold collapse
  have := collapseLoop_spec b.length b 0 _ (by simp) u2 (by intro k hk; omega) u4
  rw [u3, List.take_length] at this
  exact this

/-- For n-grams of a corpus, no `<s>` in second place means none after the first. -/
theorem C86_second (order : Nat) (ho : 2 ≤ order) (corpus : List (List Nat)) (w : Gram) (h : w ∈ corpusNgrams order corpus) :
    w[1]? = some kBOS ↔ kBOS ∈ w.tail := by
  have hp := ngrams_padded (by omega) h
  have hl := length_corpus h
  constructor
  · intro h1
    rw [← List.drop_one, List.mem_iff_getElem?]
    exact ⟨0, by simpa using h1⟩
  · intro hm
    rw [← List.drop_one] at hm
    obtain ⟨j, hj⟩ := List.mem_iff_getElem?.1 hm
    rw [List.getElem?_drop] at hj
    have hjl : 1 + j < w.length := by
      by_contra hc
      rw [List.getElem?_eq_none (by omega)] at hj
      simp at hj
    have := hp.bos (order - 1 - (1 + j)) (order - 2) (by omega) (by omega) (by
      rw [List.getElem?_reverse (by omega), hl, show order - 1 - (order - 1 - (1 + j)) = 1 + j by omega]
      exact hj)
    rw [List.getElem?_reverse (by omega), hl, show order - 1 - (order - 2) = 1 by omega] at this
    exact this

/-- Non-vacuity: a trigram model of two lines.  `4` follows `<s> 3` and `5 3`: two different words come before `3 4`. -/
example : adjustCounts 3 (fun _ => 0)
      [([3, 4, 2], 2), ([1, 1, 3], 1), ([1, 1, 5], 1), ([1, 3, 4], 1), ([5, 3, 4], 1), ([1, 5, 3], 1)] 1 =
    [⟨[4, 2], 1, false⟩, ⟨[1, 3], 1, false⟩, ⟨[1, 5], 1, false⟩, ⟨[3, 4], 2, false⟩, ⟨[5, 3], 1, false⟩] := by decide

example : (corpusNgrams 3 [[3, 4], [5, 3, 4]]).count [3, 4, 2] = 2 ∧ kBOS ∉ [3, 4, 2].tail := by decide

example : collapse [([1, 1, 3], 1), ([1, 3, 4], 1), ([1, 1, 5], 2), ([5, 3, 4], 7)] = [([5, 3, 4], 7), ([1, 3, 4], 1)] := by decide

end Cdec.Klm.Builder
