import Verif.Props.C87
import Verif.Klm.LmModel
/-!
The adjusted counts of a corpus belong together.
-/
namespace Cdec.Klm.Builder
open CountSpec AdjSpec

theorem mem_ngrams {order : Nat} {ws : List Nat} {g : Gram} :
    g ∈ ngrams order ws ↔ g.length = order ∧ ∃ a b, ws = a ++ g ++ b := by
  constructor
  · intro h
    refine ⟨length_ngrams h, ?_⟩
    unfold ngrams at h
    obtain ⟨i, _, rfl⟩ := List.mem_map.1 h
    exact ⟨ws.take i, (ws.drop i).drop order, by rw [List.append_assoc, List.take_append_drop, List.take_append_drop]⟩
  · rintro ⟨hl, a, b, rfl⟩
    unfold ngrams
    refine List.mem_map.2 ⟨a.length, ?_, ?_⟩
    · rw [List.mem_range]; simp; omega
    · rw [List.append_assoc, List.drop_left, ← hl, List.take_left]

/-- Words occur if they stand somewhere in a line and end after the padding. -/
theorem occ_iff {order : Nat} {corpus : List (List Nat)} {w : Gram} (hw : w.length ≤ order) :
    0 < occurrences order corpus w ↔ ∃ l ∈ corpus, ∃ a b, padded order l = a ++ w ++ b ∧ order ≤ a.length + w.length := by
  unfold occurrences
  rw [List.countP_pos_iff]
  constructor
  · rintro ⟨g, hg, hs⟩
    unfold corpusNgrams at hg
    obtain ⟨l, hl, hg⟩ := List.mem_flatMap.1 hg
    obtain ⟨hlen, a, b, he⟩ := mem_ngrams.1 hg
    obtain ⟨t, ht⟩ := of_decide_eq_true hs
    refine ⟨l, hl, a ++ t, b, by rw [he, ← ht]; simp, ?_⟩
    rw [← ht] at hlen
    simp at hlen ⊢
    omega
  · rintro ⟨l, hl, a, b, he, ho⟩
    refine ⟨(a ++ w).drop ((a ++ w).length - order), ?_, ?_⟩
    · unfold corpusNgrams
      refine List.mem_flatMap.2 ⟨l, hl, mem_ngrams.2 ⟨by simp; omega, (a ++ w).take ((a ++ w).length - order), b, ?_⟩⟩
      rw [List.take_append_drop, he]
    · refine decide_eq_true ?_
      rw [List.drop_append_of_le_length (by simp; omega)]
      exact List.suffix_append _ _

theorem mem_corpusNgrams_iff {order : Nat} {corpus : List (List Nat)} {w : Gram} :
    w ∈ corpusNgrams order corpus ↔ w.length = order ∧ 0 < occurrences order corpus w := by
  constructor
  · intro h
    refine ⟨length_corpus h, ?_⟩
    unfold occurrences
    rw [List.countP_pos_iff]
    exact ⟨w, h, by simp⟩
  · rintro ⟨hl, h⟩
    unfold occurrences at h
    rw [List.countP_pos_iff] at h
    obtain ⟨g, hg, hs⟩ := h
    have := (of_decide_eq_true hs : w <:+ g).eq_of_length (by rw [hl, length_corpus hg])
    rw [this]; exact hg

theorem count_eq_occ {order : Nat} {corpus : List (List Nat)} {w : Gram} (hl : w.length = order) :
    (corpusNgrams order corpus).count w = occurrences order corpus w := by
  unfold occurrences List.count
  refine List.countP_congr ?_
  intro g hg
  simp only [beq_iff_eq, decide_eq_true_eq]
  constructor
  · rintro rfl; exact List.suffix_refl _
  · intro h; exact (h.eq_of_length (by rw [hl, length_corpus hg])).symm

/-- The words of a padded line before its last one are neither `<unk>` nor `</s>`. -/
theorem padded_inner {order : Nat} {l : List Nat} {k x : Nat} (h : (padded order l)[k]? = some x)
    (hk : k + 1 < (padded order l).length) : x ≠ kUNK ∧ x ≠ kEOS := by
  have hm : x ∈ (padded order l).dropLast := by
    rw [List.mem_iff_getElem?]
    refine ⟨k, ?_⟩
    rw [List.getElem?_dropLast, if_pos (by omega), h]
  unfold padded at hm
  rw [List.dropLast_concat] at hm
  rcases List.mem_append.1 hm with hm | hm
  · rw [(List.mem_replicate.1 hm).2]; decide
  · have := (List.mem_filter.1 hm).2
    simp only [decide_eq_true_eq] at this
    unfold kUNK kEOS
    omega

theorem padded_last (order : Nat) (l : List Nat) : (padded order l).getLast? = some kEOS := by
  unfold padded; rw [List.getLast?_concat]

theorem padded_length (order : Nat) (ho : 1 ≤ order) (l : List Nat) : order ≤ (padded order l).length := by
  unfold padded; simp; omega

theorem preceding_finite {order cap : Nat} {corpus : List (List Nat)} {counts : List (Gram × Nat)}
    (ho : 2 ≤ order) (h : CountsTo order cap corpus counts) (w : Gram) : (precedingWords order corpus w).Finite := by
  have hf := countFacts ho h
  have := preSet_finite (counts.map fun r => (r.1.reverse, r.2)) w.reverse
  refine this.subset ?_
  intro x hx
  unfold precedingWords at hx
  rw [Set.mem_setOf_eq, occ_pos hf] at hx
  obtain ⟨r, hr, hx⟩ := hx
  refine ⟨_, List.mem_map.2 ⟨r, hr, rfl⟩, ?_⟩
  rw [← List.reverse_prefix] at hx
  simpa using hx

theorem preceding_pos {order cap : Nat} {corpus : List (List Nat)} {counts : List (Gram × Nat)}
    (ho : 2 ≤ order) (h : CountsTo order cap corpus counts) {w : Gram} (hw : w.length < order)
    (hp : 0 < occurrences order corpus w) : 0 < (precedingWords order corpus w).ncard := by
  rw [Set.ncard_pos (preceding_finite ho h w)]
  obtain ⟨l, hl, a, b, he, hle⟩ := (occ_iff (by omega)).1 hp
  have hne : a ≠ [] := by rintro rfl; simp at hle; omega
  refine ⟨a.getLast hne, ?_⟩
  unfold precedingWords
  rw [Set.mem_setOf_eq, occ_iff (by simpa using hw)]
  refine ⟨l, hl, a.dropLast, b, ?_, ?_⟩
  · rw [he]
    conv_lhs => rw [← List.dropLast_append_getLast hne]
    simp
  · have := List.length_pos_of_ne_nil hne
    simp; omega

section
variable {order cap : Nat} {prune : Nat → Nat} {corpus : List (List Nat)} {counts : List (Gram × Nat)}

/-- Which n-grams there are. -/
theorem mem_adj (ho : 2 ≤ order) (hc : corpus ≠ []) (h : CountsTo order cap corpus counts) {i : Nat} (hi : i < order) (w : Gram) :
    (∃ r ∈ adjustCounts order prune counts i, r.words = w) ↔
      i = 0 ∧ (w = [kUNK] ∨ w = [kBOS]) ∨ w.length = i + 1 ∧ 0 < occurrences order corpus w ∧ kBOS ∉ w.tail := by
  by_cases hio : i + 1 < order
  · obtain ⟨_, hm⟩ := C86_lower order cap ho prune corpus hc counts h i hio
    constructor
    · rintro ⟨r, hr, rfl⟩
      rcases (hm r.words r.count).1 ⟨r.marked, hr⟩ with ⟨h1, h2, _⟩ | ⟨h1, h2, h3, _⟩
      · exact Or.inl ⟨h1, h2⟩
      · exact Or.inr ⟨h1, h2, h3⟩
    · rintro (⟨h1, h2⟩ | ⟨h1, h2, h3⟩)
      · obtain ⟨m, hr⟩ := (hm w 0).2 (Or.inl ⟨h1, h2, rfl⟩)
        exact ⟨_, hr, rfl⟩
      · obtain ⟨m, hr⟩ := (hm w _).2 (Or.inr ⟨h1, h2, h3, rfl⟩)
        exact ⟨_, hr, rfl⟩
  · have : i = order - 1 := by omega
    subst this
    constructor
    · rintro ⟨⟨w, c, m⟩, hr, rfl⟩
      obtain ⟨h1, h2, _⟩ := (C86_highest order cap ho prune corpus hc counts h w c m).1 hr
      obtain ⟨h3, h4⟩ := mem_corpusNgrams_iff.1 h1
      exact Or.inr ⟨by simp only; omega, h4, h2⟩
    · rintro (⟨h1, _⟩ | ⟨h1, h2, h3⟩)
      · omega
      · exact ⟨⟨w, _, _⟩, (C86_highest order cap ho prune corpus hc counts h w _ _).2
          ⟨mem_corpusNgrams_iff.2 ⟨by omega, h2⟩, h3, rfl, rfl⟩, rfl⟩

theorem adj_count_pos (ho : 2 ≤ order) (hc : corpus ≠ []) (h : CountsTo order cap corpus counts) {i : Nat} (hi : i < order)
    {r : AdjRec} (hr : r ∈ adjustCounts order prune counts i) (hb : i = 0 → r.words ≠ [kUNK] ∧ r.words ≠ [kBOS]) :
    0 < r.count ∧ r.words.length = i + 1 ∧ 0 < occurrences order corpus r.words ∧ kBOS ∉ r.words.tail := by
  by_cases hio : i + 1 < order
  · obtain ⟨_, hm⟩ := C86_lower order cap ho prune corpus hc counts h i hio
    rcases (hm r.words r.count).1 ⟨r.marked, hr⟩ with ⟨h1, h2, _⟩ | ⟨h1, h2, h3, h4⟩
    · obtain ⟨b1, b2⟩ := hb h1
      exact absurd h2 (by simp [b1, b2])
    · refine ⟨?_, h1, h2, h3⟩
      rw [h4]
      split
      · exact h2
      · exact preceding_pos ho h (by omega) h2
  · have : i = order - 1 := by omega
    subst this
    obtain ⟨w, c, m⟩ := r
    obtain ⟨h1, h2, h3, _⟩ := (C86_highest order cap ho prune corpus hc counts h w c m).1 hr
    obtain ⟨h4, h5⟩ := mem_corpusNgrams_iff.1 h1
    refine ⟨?_, by simp only; omega, h5, h2⟩
    simp only
    rw [h3]
    exact List.count_pos_iff.2 h1

/-- Where there is no threshold nothing is marked. -/
theorem adj_unmarked (ho : 2 ≤ order) (hc : corpus ≠ []) (h : CountsTo order cap corpus counts) {i : Nat} (hi : i < order)
    (hp : prune i = 0) {r : AdjRec} (hr : r ∈ adjustCounts order prune counts i) : r.marked = false := by
  by_cases hio : i + 1 < order
  · have hr0 := hr
    obtain ⟨hpp, hs⟩ := counts_reversed ho h
    obtain ⟨g, hgl, hle, hinv⟩ := adjInv_run ho (prune := prune) _ (by simpa using counts_ne_nil ho h hc) hpp hs
    obtain ⟨f1, f2⟩ := finish_spec (hpp _ hgl.choose_spec) hgl hinv i hio
    unfold adjustCounts at hr
    simp only [] at hr
    rw [if_pos hio] at hr
    obtain ⟨q, hq, rfl⟩ := List.mem_map.1 hr
    rcases (f2 _).1 hq with hq | ⟨h1, h2, h3⟩
    · unfold firstRecs at hq
      split at hq
      · simp only [List.mem_cons, List.not_mem_nil, or_false] at hq
        rcases hq with rfl | rfl <;> rfl
      · simp at hq
    · simp only
      rw [h3, ← h2, hp]
      split
      · by_cases hz : q.count = 0
        · exfalso
          have := adj_count_pos ho hc h hi hr0
          simp only [hz, lt_irrefl, false_and] at this
          apply this
          intro h0
          subst h0
          have e := List.reverse_reverse q.words
          rw [← e, ends_iff (countFacts ho h) (by omega)] at h1
          obtain ⟨e1, e2, _⟩ := h1
          obtain ⟨l, hl, a, b, he, hle'⟩ := (occ_iff (by omega)).1 e2
          constructor
          · intro ew
            rw [ew] at he hle'
            by_cases hbn : a.length + 1 < (padded order l).length
            · have := (padded_inner (k := a.length) (x := kUNK) (l := l) (order := order) (by rw [he]; simp) hbn).1
              exact this rfl
            · have : b = [] := by
                rw [he] at hbn
                simp only [List.length_append, List.length_cons, List.length_nil] at hbn
                exact List.length_eq_zero_iff.1 (by omega)
              have hlast := padded_last order l
              rw [he, this, List.append_nil, List.getLast?_concat] at hlast
              exact absurd hlast (by decide)
          · intro ew
            rw [ew] at he hle'
            have := padded_getElem order l a.length kBOS (by rw [he]; simp)
            simp at hle'
            rcases this with ⟨h', _⟩ | ⟨_, h'⟩
            · omega
            · exact absurd h' (by decide)
        · simp [hz]
      · simp [pruneMark, hp]
  · have : i = order - 1 := by omega
    subst this
    have hpos := (adj_count_pos ho hc h hi hr (by omega)).1
    obtain ⟨w, c, m⟩ := r
    obtain ⟨_, _, _, h4⟩ := (C86_highest order cap ho prune corpus hc counts h w c m).1 hr
    simp only at hpos ⊢
    rw [h4, hp, decide_eq_false_iff_not]
    omega

theorem occ_tail_le (w : Gram) : occurrences order corpus w ≤ occurrences order corpus w.tail := by
  unfold occurrences
  refine List.countP_mono_left ?_
  intro g _ h
  simp only [decide_eq_true_eq] at h ⊢
  exact (List.tail_suffix w).trans h

/-- An n-gram of more than two words, of which only the first may be `<s>`, occurs at most as often as it does without its last. -/
theorem occ_dropLast_le {t : Gram} {y : Nat} (ht : 2 ≤ t.length) (hlen : t.length + 1 ≤ order) (hb : kBOS ∉ (t ++ [y]).tail) :
    occurrences order corpus (t ++ [y]) ≤ occurrences order corpus t := by
  unfold occurrences corpusNgrams
  rw [List.countP_flatMap, List.countP_flatMap]
  refine List.sum_le_sum ?_
  intro l _
  simp only [Function.comp]
  unfold ngrams
  rw [List.countP_map, List.countP_map]
  cases hn : (padded order l).length + 1 - order with
  | zero => simp
  | succ n =>
    rw [List.range_succ_eq_map, List.countP_cons_of_neg, List.countP_map]
    · rw [← List.range_succ_eq_map, List.range_succ, List.countP_append]
      refine le_trans (List.countP_mono_left ?_) (Nat.le_add_right _ _)
      intro i hi
      simp only [Function.comp, decide_eq_true_eq]
      intro hs
      have hin := List.mem_range.1 hi
      -- both are windows of the same line
      obtain ⟨a, ha⟩ := hs
      have hw1 : ((padded order l).drop (i + 1)).take order = a ++ t ++ [y] := by rw [← ha]; simp
      have hal : a.length + t.length + 1 = order := by
        have := congrArg List.length hw1
        simp at this
        omega
      have hpos : i < (padded order l).length := by omega
      have e1 : ((padded order l).drop i).take order = (padded order l)[i] :: ((padded order l).drop (i + 1)).take (order - 1) := by
        obtain ⟨o, rfl⟩ : ∃ o, order = o + 1 := ⟨order - 1, by omega⟩
        rw [List.drop_eq_getElem_cons hpos, List.take_succ_cons, Nat.add_sub_cancel]
      have e2 : ((padded order l).drop (i + 1)).take (order - 1) = a ++ t := by
        have := congrArg (List.take (order - 1)) hw1
        rw [List.take_take, min_eq_left (by omega), List.take_append_of_le_length (by simp; omega)] at this
        rw [this, List.take_of_length_le (by simp; omega)]
      rw [e1, e2]
      exact ⟨(padded order l)[i] :: a, by simp⟩
    · simp only [Function.comp, List.drop_zero, decide_eq_true_eq]
      rintro ⟨a, ha⟩
      -- the first window has only `<s>` before its last word
      have hw1 : (padded order l).take order = a ++ t ++ [y] := by rw [← ha]; simp
      have hal : a.length + t.length + 1 = order := by
        have := congrArg List.length hw1
        simp at this
        omega
      have hx : (padded order l)[a.length + 1]? = t[1]? := by
        have : ((padded order l).take order)[a.length + 1]? = (a ++ t ++ [y])[a.length + 1]? := by rw [hw1]
        rw [List.getElem?_take, if_pos (by omega), List.append_assoc, List.getElem?_append_right (by omega),
          List.getElem?_append_left (by omega)] at this
        rw [this]; congr 1; omega
      rw [List.getElem?_eq_getElem (show 1 < t.length by omega)] at hx
      rcases padded_getElem order l _ _ hx with ⟨_, h'⟩ | ⟨h', _⟩
      · apply hb
        cases t with
        | nil => simp at ht
        | cons z zs =>
          simp only [List.cons_append, List.tail_cons]
          cases zs with
          | nil => simp at ht
          | cons z' zs => simp at h'; simp [h']
      · omega

/-- The marks of the orders between the lowest and the highest are right: an n-gram is marked if it does not occur more often
than the threshold allows. -/
def MarksRight (order : Nat) (prune : Nat → Nat) (corpus : List (List Nat)) (counts : List (Gram × Nat)) : Prop :=
  ∀ i, 1 ≤ i → i + 1 < order → ∀ r ∈ adjustCounts order prune counts i,
    r.marked = decide (prune i ≠ 0 ∧ occurrences order corpus r.words ≤ prune i)

theorem sorted_adj (ho : 2 ≤ order) (hc : corpus ≠ []) (h : CountsTo order cap corpus counts) {i : Nat} (hi : i + 1 < order) :
    (adjustCounts order prune counts i).Pairwise fun a b => a.words.reverse < b.words.reverse := by
  obtain ⟨hs, hm⟩ := C86_lower order cap ho prune corpus hc counts h i hi
  have hlen : ∀ r ∈ adjustCounts order prune counts i, r.words.length = i + 1 := by
    intro r hr
    rcases (hm r.words r.count).1 ⟨r.marked, hr⟩ with ⟨h0, h | h, _⟩ | ⟨h, _⟩
    · rw [h]; simp [h0]
    · rw [h]; simp [h0]
    · exact h
  refine List.Pairwise.imp_of_mem ?_ hs
  intro a b ha hb hab
  exact (compareWords_eq _ _ (by simp [hlen a ha, hlen b hb])).1 hab

theorem nodup_adj (ho : 2 ≤ order) (hc : corpus ≠ []) (h : CountsTo order cap corpus counts) {i : Nat} (hi : i < order) :
    ((adjustCounts order prune counts i).map (·.words)).Nodup := by
  by_cases hio : i + 1 < order
  · rw [List.Nodup, List.pairwise_map]
    exact (sorted_adj ho hc h hio).imp fun hab e => by simp [e] at hab
  · have : i = order - 1 := by omega
    subst this
    obtain ⟨hp, hs⟩ := counts_reversed ho h
    obtain ⟨g, hgl, hle, hinv⟩ := adjInv_run ho (prune := prune) _ (by simpa using counts_ne_nil ho h hc) hp hs
    unfold adjustCounts
    simp only []
    rw [if_neg (by omega), hinv.full, List.map_map, List.Nodup, List.pairwise_map]
    refine List.Pairwise.imp ?_ (hs.filter _)
    intro a b hab e
    simp only [Function.comp, List.reverse_inj] at e
    rw [e] at hab
    exact lt_irrefl _ hab

theorem adjCons (ho : 2 ≤ order) (hc : corpus ≠ []) (h : CountsTo order cap corpus counts) (hp0 : prune 0 = 0)
    (hmono : ∀ i, i + 1 < order → prune i ≤ prune (i + 1)) (hmark : MarksRight order prune corpus counts) :
    AdjCons order prune (adjustCounts order prune counts) := by
  have hspec : ∀ w : Gram, w = [kUNK] ∨ w = [kBOS] → w.length = 1 := by rintro w (rfl | rfl) <;> rfl
  have hmem := fun {i : Nat} (hi : i < order) (w : Gram) => mem_adj (prune := prune) ho hc h hi w
  have hlen : ∀ i < order, ∀ r ∈ adjustCounts order prune counts i, r.words.length = i + 1 := by
    intro i hi r hr
    rcases (hmem hi r.words).1 ⟨r, hr, rfl⟩ with ⟨h0, h1⟩ | ⟨h1, _⟩
    · rw [hspec _ h1, h0]
    · exact h1
  -- unmarked records of an order with a threshold occur more often than it
  have hkeep : ∀ i, 1 ≤ i → i < order → ∀ r ∈ adjustCounts order prune counts i,
      (r.marked = false ↔ prune i = 0 ∨ prune i < occurrences order corpus r.words) := by
    intro i h1 hi r hr
    by_cases hio : i + 1 < order
    · rw [hmark i h1 hio r hr, decide_eq_false_iff_not]
      omega
    · have hie : i = order - 1 := by omega
      have hpos := (adj_count_pos ho hc h hi hr (by omega)).1
      have hl := hlen i hi r hr
      subst hie
      obtain ⟨w, c, m⟩ := r
      obtain ⟨_, _, h3, h4⟩ := (C86_highest order cap ho prune corpus hc counts h w c m).1 hr
      simp only at hpos hl ⊢
      rw [h4, decide_eq_false_iff_not]
      rw [count_eq_occ (by omega)] at h3
      omega
  -- an n-gram that occurs at least as often as a kept longer one is kept
  have hkept : ∀ i, i + 1 < order → ∀ r ∈ adjustCounts order prune counts (i + 1), r.marked = false →
      ∀ q ∈ adjustCounts order prune counts i, (1 ≤ i → occurrences order corpus r.words ≤ occurrences order corpus q.words) →
      q.marked = false := by
    intro i hi r hr hm q hq hle
    rcases Nat.eq_zero_or_pos i with rfl | h1
    · exact adj_unmarked ho hc h (by omega) hp0 hq
    · have := (hkeep (i + 1) (by omega) hi r hr).1 hm
      have hmo := hmono i hi
      have := hle h1
      rw [hkeep i h1 (by omega) q hq]
      omega
  have hnospec : ∀ i, 1 ≤ i → i < order → ∀ r ∈ adjustCounts order prune counts i,
      0 < r.count ∧ r.words.length = i + 1 ∧ 0 < occurrences order corpus r.words ∧ kBOS ∉ r.words.tail :=
    fun i h1 hi r hr => adj_count_pos ho hc h hi hr (by omega)
  have hget : ∀ {i : Nat}, i < order → ∀ {w : Gram},
      (i = 0 ∧ (w = [kUNK] ∨ w = [kBOS]) ∨ w.length = i + 1 ∧ 0 < occurrences order corpus w ∧ kBOS ∉ w.tail) →
      ∃ r ∈ adjustCounts order prune counts i, r.words = w := fun {_} hi {w} => (hmem hi w).2
  refine ⟨hlen, fun i hi => nodup_adj ho hc h hi, sorted_adj ho hc h (by omega), fun r hr => adj_unmarked ho hc h (by omega) hp0 hr,
    fun i h1 hi r hr => (hnospec i h1 hi r hr).1, ?_, ?_, ?_, ?_, ?_, ?_, ?_, ?_, fun i hi hp r hr => adj_unmarked ho hc h hi hp hr⟩
  · -- noBos
    intro i h1 hi r hr hl
    obtain ⟨_, h2, _, h3⟩ := hnospec i h1 hi r hr
    apply h3
    cases hx : r.words with
    | nil => rw [hx] at h2; simp at h2
    | cons x xs =>
      rw [hx] at h2 hl
      cases xs with
      | nil => simp at h2; omega
      | cons y ys =>
        rw [List.getLast?_cons_cons] at hl
        exact List.mem_of_getLast? hl
  · -- bos
    obtain ⟨m, hr⟩ := ((C86_lower order cap ho prune corpus hc counts h 0 (by omega)).2 [kBOS] 0).2 (Or.inl ⟨rfl, Or.inr rfl, rfl⟩)
    have := adj_unmarked ho hc h (by omega) hp0 hr
    simp only at this
    rw [this] at hr
    exact hr
  · -- unk
    obtain ⟨m, hr⟩ := ((C86_lower order cap ho prune corpus hc counts h 0 (by omega)).2 [kUNK] 0).2 (Or.inl ⟨rfl, Or.inl rfl, rfl⟩)
    have hm := adj_unmarked ho hc h (by omega) hp0 hr
    simp only at hm
    rw [hm] at hr
    have hs := sorted_adj (prune := prune) ho hc h (i := 0) (by omega)
    have hl0 := hlen 0 (by omega)
    cases hx : adjustCounts order prune counts 0 with
    | nil => rw [hx] at hr; simp at hr
    | cons q qs =>
      rw [hx] at hr hs hl0
      rcases List.mem_cons.1 hr with e | hr
      · exact ⟨qs, by rw [← e]⟩
      · exfalso
        have := (List.pairwise_cons.1 hs).1 _ hr
        have hl := hl0 q (by simp)
        cases hq : q.words with
        | nil => rw [hq] at hl; simp at hl
        | cons x xs =>
          rw [hq] at hl this
          have : xs = [] := by simpa using hl
          subst this
          simp [kUNK] at this
          rename_i this
          revert this
          rw [List.cons_lt_cons_iff]
          simp
  · -- total
    obtain ⟨l, ls, rfl⟩ := List.exists_cons_of_ne_nil hc
    have hocc : 0 < occurrences order (l :: ls) [kEOS] := by
      rw [occ_iff (by simp; omega)]
      refine ⟨l, by simp, List.replicate (order - 1) kBOS ++ (l.filter fun x => ¬ x ≤ 2), [], by unfold padded; simp, ?_⟩
      simp; omega
    obtain ⟨r, hr, hw⟩ := hget (i := 0) (by omega) (w := [kEOS]) (Or.inr ⟨rfl, hocc, by simp⟩)
    have hpos := (adj_count_pos ho hc h (by omega) hr (fun _ => by rw [hw]; decide)).1
    have : r.count ≤ ((adjustCounts order prune counts 0).map (·.count)).sum := List.le_sum_of_mem (List.mem_map.2 ⟨r, hr, rfl⟩)
    omega
  · -- suffix
    intro i hi r hr hm
    obtain ⟨_, h2, h3, h4⟩ := hnospec (i + 1) (by omega) hi r hr
    have hle := occ_tail_le (order := order) (corpus := corpus) r.words
    obtain ⟨q, hq, hqw⟩ := hget (i := i) (by omega) (w := r.words.tail)
      (Or.inr ⟨by rw [List.length_tail]; omega, by omega, fun hb => h4 (List.mem_of_mem_tail hb)⟩)
    exact ⟨q, hq, hkept i hi r hr hm q hq (fun _ => by rw [hqw]; exact hle), hqw⟩
  · -- prefix
    intro i hi r hr hm
    obtain ⟨_, h2, h3, h4⟩ := hnospec (i + 1) (by omega) hi r hr
    have hne : r.words ≠ [] := by intro e; rw [e] at h2; simp at h2
    obtain ⟨t, y, hw⟩ : ∃ t y, r.words = t ++ [y] := ⟨_, _, (List.dropLast_append_getLast hne).symm⟩
    rw [hw] at h2 h3 h4
    have htl : t.length = i + 1 := by simpa using h2
    have hdl : r.words.dropLast = t := by rw [hw, List.dropLast_concat]
    rw [hdl]
    obtain ⟨l, hl, a, b, he, hle⟩ := (occ_iff (by simp; omega)).1 h3
    have hex : ∃ q ∈ adjustCounts order prune counts i, q.words = t := by
      apply hget (by omega)
      by_cases hend : order ≤ a.length + t.length
      · refine Or.inr ⟨htl, (occ_iff (by omega)).2 ⟨l, hl, a, [y] ++ b, by rw [he]; simp, hend⟩, ?_⟩
        intro hb
        apply h4
        cases t with
        | nil => simp at hb
        | cons z zs => simp at hb ⊢; exact Or.inl hb
      · left
        have htne : t ≠ [] := by rintro rfl; simp at htl
        have hlast : (padded order l)[a.length + t.length - 1]? = some (t.getLast htne) := by
          rw [he, List.append_assoc, List.append_assoc, List.getElem?_append_right (by omega),
            List.getElem?_append_left (by omega), List.getLast_eq_getElem, List.getElem?_eq_getElem (by omega)]
          congr 1
          congr 1
          omega
        rcases padded_getElem order l _ _ hlast with ⟨_, h'⟩ | ⟨h', _⟩
        · have hti : t.length = 1 := by
            by_contra hne1
            apply h4
            cases t with
            | nil => simp at htl
            | cons z zs =>
              cases zs with
              | nil => simp at hne1
              | cons z' zs =>
                rw [List.getLast_cons (by simp)] at h'
                have : kBOS ∈ z' :: zs := h' ▸ List.getLast_mem _
                simp only [List.cons_append, List.tail_cons]
                exact List.mem_append_left _ this
          refine ⟨by omega, Or.inr ?_⟩
          obtain ⟨z, hz⟩ := List.length_eq_one_iff.1 hti
          subst hz
          simp at h'
          rw [h']
        · omega
    obtain ⟨q, hq, hqw⟩ := hex
    refine ⟨q, hq, hkept i hi r hr hm q hq (fun h1 => ?_), hqw⟩
    rw [hqw, hw]
    exact occ_dropLast_le (by omega) (by omega) h4
  · -- ctx
    intro i hi r hr _ hctx
    unfold isContext at hctx
    simp only [decide_eq_true_eq] at hctx
    obtain ⟨_, hu, heos⟩ := hctx
    have hrl := hlen i (by omega) r hr
    have hex : ∃ y, 0 < occurrences order corpus (r.words ++ [y]) ∧ kBOS ∉ (r.words ++ [y]).tail := by
      rcases (hmem (i := i) (by omega) r.words).1 ⟨r, hr, rfl⟩ with ⟨_, h1 | h1⟩ | ⟨h1, h2, h3⟩
      · rw [h1] at hu; simp at hu
      · rw [h1]
        obtain ⟨l, ls, rfl⟩ := List.exists_cons_of_ne_nil hc
        obtain ⟨y, ys, hy⟩ := List.exists_cons_of_ne_nil (l := (l.filter fun x => ¬ x ≤ 2) ++ [kEOS]) (by simp)
        have hpad : padded order l = List.replicate (order - 2) kBOS ++ ([kBOS] ++ [y]) ++ ys := by
          unfold padded
          rw [List.append_assoc, hy, show order - 1 = order - 2 + 1 by omega, List.replicate_succ']
          simp
        refine ⟨y, (occ_iff (by simp; omega)).2 ⟨l, by simp, _, _, hpad, by simp; omega⟩, ?_⟩
        have := padded_getElem order l (order - 1) y (by
          rw [hpad, List.getElem?_append_left (by simp; omega), List.getElem?_append_right (by simp; omega)]
          simp [show order - 1 - (order - 2) = 1 by omega])
        rcases this with ⟨h', _⟩ | ⟨_, h'⟩
        · omega
        · simp [kBOS]; omega
      · obtain ⟨l, hl, a, b, he, hle⟩ := (occ_iff (by omega)).1 h2
        cases b with
        | nil =>
          exfalso
          have := padded_last order l
          rw [he, List.append_nil, List.getLast?_append_of_ne_nil _ (by intro e; rw [e] at hrl; simp at hrl)] at this
          exact heos this
        | cons y b =>
          refine ⟨y, (occ_iff (by simp; omega)).2 ⟨l, hl, a, b, by rw [he]; simp, by simp; omega⟩, ?_⟩
          have := padded_getElem order l (a.length + r.words.length) y (by
            rw [he, List.getElem?_append_right (by simp)]
            simp)
          rcases this with ⟨h', _⟩ | ⟨_, h'⟩
          · omega
          · intro hb
            rw [List.tail_append_of_ne_nil (by intro e; rw [e] at hrl; simp at hrl)] at hb
            rcases List.mem_append.1 hb with hb | hb
            · exact h3 hb
            · simp [kBOS] at hb; omega
    obtain ⟨y, hy1, hy2⟩ := hex
    obtain ⟨q, hq, hqw⟩ := hget (i := i + 1) hi (w := r.words ++ [y]) (Or.inr ⟨by simp [hrl], hy1, hy2⟩)
    exact ⟨q, hq, by unfold AdjRec.context; rw [hqw, List.dropLast_concat]⟩
  · -- ctxOnly
    intro i hi q hq
    obtain ⟨_, h2, h3, h4⟩ := hnospec (i + 1) (by omega) hi q hq
    have hne : q.words ≠ [] := by intro e; rw [e] at h2; simp at h2
    obtain ⟨t, y, hw⟩ : ∃ t y, q.words = t ++ [y] := ⟨_, _, (List.dropLast_append_getLast hne).symm⟩
    have hdl : q.context = t := by unfold AdjRec.context; rw [hw, List.dropLast_concat]
    rw [hdl]
    rw [hw] at h2 h3
    have htl : t.length = i + 1 := by simpa using h2
    obtain ⟨l, hl, a, b, he, hle⟩ := (occ_iff (by simp; omega)).1 h3
    have htne : t ≠ [] := by rintro rfl; simp at htl
    have hlast : (padded order l)[a.length + t.length - 1]? = some (t.getLast htne) := by
      rw [he, List.append_assoc, List.append_assoc, List.getElem?_append_right (by omega),
        List.getElem?_append_left (by omega), List.getLast_eq_getElem, List.getElem?_eq_getElem (by omega)]
      congr 1
      congr 1
      omega
    obtain ⟨h5, h6⟩ := padded_inner hlast (by rw [he]; simp; omega)
    unfold isContext
    rw [List.getLast?_eq_some_getLast htne]
    simp [hi, h5, h6]

end

end Cdec.Klm.Builder
