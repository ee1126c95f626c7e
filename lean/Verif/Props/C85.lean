import Verif.Klm.LmCountLemmas
/-!
# C85: counting n-grams

Specification: `CountSpec.corpusNgrams` lists all n-grams of the padded lines, `List.count` counts; the order of the stream is
that of the words compared from the last to the first.
-/
namespace Cdec.Klm.Builder
open CountSpec

theorem length_ngrams {order : Nat} {ws : List Nat} {g : Gram} (h : g ∈ ngrams order ws) : g.length = order := by
  unfold ngrams at h
  obtain ⟨i, hi, rfl⟩ := List.mem_map.1 h
  rw [List.mem_range] at hi
  simp; omega

theorem length_corpus {order : Nat} {corpus : List (List Nat)} {g : Gram} (h : g ∈ corpusNgrams order corpus) :
    g.length = order := by
  unfold corpusNgrams at h
  obtain ⟨l, _, hg⟩ := List.mem_flatMap.1 h
  exact length_ngrams hg

/-- For every corpus, every block size and every way in which the blocks are sorted, grouped and merged: the stream has every
n-gram of the padded corpus (and, for unigrams, `<unk>` and `<s>`) exactly once, in suffix order, with the number of its
occurrences. -/
theorem C85_count (order cap : Nat) (ho : 1 ≤ order) (corpus : List (List Nat)) (out : List (Gram × Nat))
    (h : CountsTo order cap corpus out) :
    (out.Pairwise fun a b => compareWords a.1.reverse b.1.reverse = true) ∧
    ∀ g c, (g, c) ∈ out ↔
      (g ∈ corpusNgrams order corpus ∨ order = 1 ∧ (g = [kUNK] ∨ g = [kBOS])) ∧ c = (corpusNgrams order corpus).count g := by
  obtain ⟨runs, hr, hs⟩ := h
  have hh := corpus_holds (cap := cap) ho corpus
  set w := corpus.foldl (Writer.line order cap) (Writer.init order cap) with hw
  have hflat : (corpusBlocks order cap corpus).flatten = w.all := by
    simp only [corpusBlocks, ← hw, Writer.all]
    simp
  obtain ⟨h1, h2⟩ := sort_add hr (by
    intro b hb
    simp only [corpusBlocks, ← hw, List.mem_append, List.mem_singleton] at hb
    rcases hb with hb | rfl
    · exact hh.nodup b hb
    · exact hh.nodupCur) hs
  have hmem : ∀ g c, (g, c) ∈ out ↔
      (g ∈ corpusNgrams order corpus ∨ order = 1 ∧ (g = [kUNK] ∨ g = [kBOS])) ∧ c = (corpusNgrams order corpus).count g := by
    intro g c
    rw [h2 g c, hflat, hh.tot g, hh.mem g]
    refine and_congr_left fun _ => ?_
    rw [List.mem_append, or_comm]
    refine or_congr_right ?_
    unfold specials
    split <;> simp_all
  refine ⟨?_, hmem⟩
  have hlen : ∀ r ∈ out, r.1.length = order := by
    intro r hr
    rcases ((hmem r.1 r.2).1 hr).1 with h | ⟨h, h' | h'⟩
    · exact length_corpus h
    · rw [h']; simp [h]
    · rw [h']; simp [h]
  refine List.Pairwise.imp_of_mem ?_ h1
  intro a b ha hb hab
  exact (compareWords_eq _ _ (by simp [hlen a ha, hlen b hb])).2 hab

/-- The stream depends on the corpus only, not on the block size, the memory or the order of merging. -/
theorem C85_independent (order cap cap' : Nat) (ho : 1 ≤ order) (corpus : List (List Nat)) (out out' : List (Gram × Nat))
    (h : CountsTo order cap corpus out) (h' : CountsTo order cap' corpus out') : out = out' := by
  obtain ⟨s1, m1⟩ := C85_count order cap ho corpus out h
  obtain ⟨s2, m2⟩ := C85_count order cap' ho corpus out' h'
  have hlen : ∀ g, (g ∈ corpusNgrams order corpus ∨ order = 1 ∧ (g = [kUNK] ∨ g = [kBOS])) → g.length = order := by
    rintro g (h | ⟨h, rfl | rfl⟩)
    · exact length_corpus h
    · simp [h]
    · simp [h]
  have toLt : ∀ l : List (Gram × Nat), (∀ r ∈ l, r.1.length = order) →
      (l.Pairwise fun a b => compareWords a.1.reverse b.1.reverse = true) → l.Pairwise fun a b => sufKey a < sufKey b := by
    intro l hl hs
    refine List.Pairwise.imp_of_mem ?_ hs
    intro a b ha hb hab
    have e : a.1.reverse.length = b.1.reverse.length := by simp [hl a ha, hl b hb]
    exact (compareWords_eq _ _ e).1 hab
  have t1 := toLt out (fun r hr => hlen _ ((m1 r.1 r.2).1 hr).1) s1
  have t2 := toLt out' (fun r hr => hlen _ ((m2 r.1 r.2).1 hr).1) s2
  have n1 : out.Nodup := t1.imp fun {a b} h e => by rw [e] at h; exact lt_irrefl _ h
  have n2 : out'.Nodup := t2.imp fun {a b} h e => by rw [e] at h; exact lt_irrefl _ h
  have hp : out.Perm out' := (List.perm_ext_iff_of_nodup n1 n2).2 fun r => by
    rw [show r = (r.1, r.2) from rfl, m1, m2]
  exact hp.eq_of_pairwise (fun a b _ _ h h' => absurd h' (lt_asymm h)) t1 t2

/-- Sorting without combining (used for all later streams): a sorted permutation of the records, whatever the blocks are. -/
theorem C85_sort {α κ : Type} [LinearOrder κ] (key : α → κ) (blocks runs : List (List α)) (out : List α)
    (h : Runs key blocks runs) (hs : Sorts key neverCombine runs out) :
    out.Perm blocks.flatten ∧ out.Pairwise fun x y => key x ≤ key y := sort_never h hs

theorem exists_min {α κ : Type} [LinearOrder κ] (key : α → κ) (qs : List (List α)) (hne : qs ≠ []) (hq : ∀ q ∈ qs, q ≠ []) :
    ∃ l r x xs, qs = l ++ (x :: xs) :: r ∧ ∀ q ∈ l ++ r, ∀ y ∈ q.head?, key x ≤ key y := by
  induction qs with
  | nil => exact absurd rfl hne
  | cons q qs ih =>
    cases q with
    | nil => exact absurd rfl (hq [] (by simp))
    | cons z zs =>
      by_cases hqs : qs = []
      · exact ⟨[], [], z, zs, by simp [hqs], by simp⟩
      · obtain ⟨l, r, x, xs, e, hm⟩ := ih hqs fun q h => hq q (by simp [h])
        by_cases hz : key x ≤ key z
        · refine ⟨(z :: zs) :: l, r, x, xs, by simp [e], ?_⟩
          intro q hq' y hy
          rcases List.mem_cons.1 hq' with rfl | hq'
          · simp at hy; exact hy ▸ hz
          · exact hm q hq' y hy
        · refine ⟨[], qs, z, zs, rfl, ?_⟩
          intro q hq' y hy
          simp only [List.nil_append] at hq'
          have hzx := le_of_lt (not_le.1 hz)
          rw [e] at hq'
          rcases List.mem_append.1 hq' with h | h
          · exact hzx.trans (hm q (by simp [h]) y hy)
          · rcases List.mem_cons.1 h with rfl | h
            · simp at hy; exact hy ▸ hzx
            · exact hzx.trans (hm q (by simp [h]) y hy)

theorem exists_pops {α κ : Type} [LinearOrder κ] (key : α → κ) : ∀ (n : Nat) (qs : List (List α)), qs.flatten.length = n →
    (∀ q ∈ qs, q ≠ []) → ∃ out, Pops key qs out := by
  intro n
  induction n with
  | zero =>
    intro qs hn hq
    cases qs with
    | nil => exact ⟨[], .done⟩
    | cons q qs =>
      have := hq q (by simp)
      cases q with
      | nil => exact absurd rfl this
      | cons => simp at hn
  | succ n ih =>
    intro qs hn hq
    have hne : qs ≠ [] := by rintro rfl; simp at hn
    obtain ⟨l, r, x, xs, rfl, hm⟩ := exists_min key qs hne hq
    obtain ⟨out, ho⟩ := ih (l ++ (if xs.isEmpty then [] else [xs]) ++ r) (by
      by_cases hx : xs = [] <;> simp [hx] at hn ⊢ <;> omega) (by
      intro q h
      simp only [List.mem_append] at h
      rcases h with (h | h) | h
      · exact hq q (by simp [h])
      · by_cases hx : xs = [] <;> simp [hx] at h
        exact h ▸ hx
      · exact hq q (by simp [h]))
    exact ⟨x :: out, .pop l r x xs out hm ho⟩

/-- There is a stream for every corpus and every block size. -/
theorem C85_exists (order cap : Nat) (corpus : List (List Nat)) : ∃ out, CountsTo order cap corpus out := by
  set bs := corpusBlocks order cap corpus
  have hruns : ∀ l : List (List (Gram × Nat)), (∀ b ∈ l, b ≠ []) →
      ∃ runs, List.Forall₂ (BlockSorted sufKey) l runs ∧ ∀ q ∈ runs, q ≠ [] := by
    intro l
    induction l with
    | nil => intro _; exact ⟨[], .nil, by simp⟩
    | cons b l ih =>
      intro hb
      obtain ⟨runs, h1, h2⟩ := ih fun b h => hb b (by simp [h])
      have hp := List.mergeSort_perm b (fun x y => decide (sufKey x ≤ sufKey y))
      refine ⟨b.mergeSort (fun x y => decide (sufKey x ≤ sufKey y)) :: runs, .cons ⟨hp, ?_⟩ h1, ?_⟩
      · have := List.pairwise_mergeSort (le := fun x y : Gram × Nat => decide (sufKey x ≤ sufKey y))
          (fun a b c h1 h2 => by simp only [decide_eq_true_eq] at *; exact h1.trans h2)
          (fun a b => by simp only [Bool.or_eq_true, decide_eq_true_eq]; exact le_total _ _) b
        exact this.imp fun h => by simpa using h
      · intro q hq
        rcases List.mem_cons.1 hq with rfl | hq
        · intro e
          exact hb b (by simp) (List.nil_perm.1 (e ▸ hp))
        · exact h2 q hq
  obtain ⟨runs, h1, h2⟩ := hruns (bs.filter fun b => !b.isEmpty) (by
    intro b hb
    have := (List.mem_filter.1 hb).2
    simpa using this)
  obtain ⟨o, ho⟩ := exists_pops (sufKey) _ runs rfl h2
  match runs, h1, h2, o, ho with
  | [], h1, _, _, _ => exact ⟨_, [], h1, .last _ [] .none (by simp)⟩
  | [b], h1, _, _, _ => exact ⟨_, [b], h1, .last _ [b] (.one b) (by simp)⟩
  | a :: b :: rs, h1, h2, [], ho =>
    have := ho.perm
    have ha := h2 a (by simp)
    simp [ha] at this
  | a :: b :: rs, h1, h2, t :: ts, ho =>
    refine ⟨_, _, h1, .last _ [combineAdj addCombine t ts] (.groups _ _ (by simp) ?_) (by simp)⟩
    have := Groups.cons (comb := addCombine) (a :: b :: rs) [] t ts [] (by simp) ho .nil
    simpa using this

/-- Non-vacuity: two lines of a bigram model, with blocks of two records. -/
example : corpusBlocks 2 2 [[5, 6], [5]] =
    [[([1, 5], 1), ([5, 6], 1)], [([6, 2], 1), ([1, 5], 1)], [([5, 2], 1)]] ∧
    corpusNgrams 2 [[5, 6], [5]] = [[1, 5], [5, 6], [6, 2], [1, 5], [5, 2]] := by decide

example : corpusBlocks 1 4 [[5, 0, 5], [6]] = [[([0], 0), ([1], 0), ([5], 2), ([2], 1)], [([6], 1), ([2], 1)]] := by decide

end Cdec.Klm.Builder
