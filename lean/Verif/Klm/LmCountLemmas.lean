import Verif.Klm.LmCount
import Verif.Klm.LmSortLemmas
namespace Cdec.Klm.Builder
open CountSpec

theorem keys_bumpCount (g : Gram) (l : List (Gram × Nat)) : (bumpCount g l).map (·.1) = l.map (·.1) := by
  induction l with
  | nil => rfl
  | cons e es ih =>
    rw [bumpCount]
    split
    · rfl
    · simp [ih]

theorem total_bumpCount {g : Gram} {l : List (Gram × Nat)} (h : g ∈ l.map (·.1)) (x : Gram) :
    total x (bumpCount g l) = total x l + if x = g then 1 else 0 := by
  induction l with
  | nil => simp at h
  | cons e es ih =>
    rw [bumpCount]
    by_cases he : e.1 = g
    · simp only [he, if_true, total_cons]
      by_cases hx : x = g
      · subst hx; simp; omega
      · have : ¬ g = x := fun h => hx h.symm
        simp [hx, this]
    · simp only [he, if_false, total_cons]
      rw [ih (by
        rcases List.mem_cons.1 h with h | h
        · exact absurd h.symm he
        · exact h)]
      omega

/-- The records of a writer. -/
def Writer.all (w : Writer) : List (Gram × Nat) := w.blocks.flatten ++ w.cur

/-- The writer holds the n-grams of `gs`: `extra` are those written without having been counted. -/
structure Writer.Holds (w : Writer) (extra gs : List Gram) : Prop where
  tot : ∀ g, total g w.all = gs.count g
  mem : ∀ g, g ∈ w.all.map (·.1) ↔ g ∈ extra ++ gs
  nodup : ∀ b ∈ w.blocks, (b.map (·.1)).Nodup
  nodupCur : (w.cur.map (·.1)).Nodup

theorem all_flush (cap : Nat) (w : Writer) : (w.flush cap).all = w.all := by
  unfold Writer.flush Writer.all
  split <;> simp

theorem ctx_flush (cap : Nat) (w : Writer) : (w.flush cap).ctx = w.ctx := by
  unfold Writer.flush
  split <;> rfl

theorem Writer.Holds.flush {cap : Nat} {w : Writer} {extra gs : List Gram} (h : w.Holds extra gs) :
    (w.flush cap).Holds extra gs := by
  refine ⟨by simpa [all_flush] using h.tot, by simpa [all_flush] using h.mem, ?_, ?_⟩
  · unfold Writer.flush
    split
    · intro b hb
      rcases List.mem_append.1 hb with hb | hb
      · exact h.nodup b hb
      · rw [List.mem_singleton.1 hb]; exact h.nodupCur
    · exact h.nodup
  · unfold Writer.flush
    split
    · simp
    · exact h.nodupCur

theorem Writer.Holds.append {cap : Nat} {w : Writer} {extra gs : List Gram} (h : w.Holds extra gs) (x : Nat) :
    (w.append cap x).Holds extra (gs ++ [w.ctx ++ [x]]) ∧ (w.append cap x).ctx = (w.ctx ++ [x]).drop 1 := by
  unfold Writer.append
  simp only []
  split
  · rename_i hm
    refine ⟨⟨?_, ?_, h.nodup, ?_⟩, rfl⟩
    · intro g
      have := h.tot g
      simp only [Writer.all, total_append] at this ⊢
      rw [total_bumpCount hm, List.count_append, List.count_singleton]
      by_cases e : g = w.ctx ++ [x]
      · subst e; simp; omega
      · have : ¬ w.ctx ++ [x] = g := fun h => e h.symm
        simp [e, this]; omega
    · intro g
      have := h.mem g
      simp only [Writer.all, List.map_append, List.mem_append, keys_bumpCount, List.mem_singleton] at this ⊢
      constructor
      · intro hg; rcases this.1 hg with h | h <;> tauto
      · rintro (h | h | h)
        · exact this.2 (Or.inl h)
        · exact this.2 (Or.inr h)
        · exact Or.inr (h ▸ hm)
    · simpa only [keys_bumpCount] using h.nodupCur
  · rename_i hm
    refine ⟨Writer.Holds.flush ⟨?_, ?_, h.nodup, ?_⟩, ctx_flush _ _⟩
    · intro g
      have := h.tot g
      simp only [Writer.all, total_append, total_cons, total_nil] at this ⊢
      rw [List.count_append, List.count_singleton]
      by_cases e : w.ctx ++ [x] = g
      · simp [e]; omega
      · simp [e]; omega
    · intro g
      have := h.mem g
      simp only [Writer.all, List.map_append, List.mem_append, List.map_cons, List.map_nil, List.mem_singleton] at this ⊢
      tauto
    · simp only [List.map_append, List.map_cons, List.map_nil]
      refine List.nodup_append.2 ⟨h.nodupCur, by simp, ?_⟩
      intro a ha b hb e
      exact hm (by simpa [List.mem_singleton.1 hb ▸ e] using ha)

/-- The n-grams that arise by appending words to a context. -/
def slide (c : List Nat) : List Nat → List Gram
  | [] => []
  | x :: xs => (c ++ [x]) :: slide ((c ++ [x]).drop 1) xs

theorem ngrams_slide (order : Nat) (ho : 1 ≤ order) (xs : List Nat) : ∀ c : List Nat, c.length = order - 1 →
    ngrams order (c ++ xs) = slide c xs := by
  induction xs with
  | nil =>
    intro c hc
    have : (c ++ []).length + 1 - order = 0 := by simp; omega
    simp [ngrams, slide]; omega
  | cons x xs ih =>
    intro c hc
    rw [slide, ← ih ((c ++ [x]).drop 1) (by simp; omega)]
    unfold ngrams
    have e1 : (c ++ x :: xs).length + 1 - order = ((c ++ [x]).drop 1 ++ xs).length + 1 - order + 1 := by
      simp; omega
    rw [e1, List.range_succ_eq_map, List.map_cons, List.map_map]
    congr 1
    · have : c ++ x :: xs = (c ++ [x]) ++ xs := by simp
      rw [List.drop_zero, this, List.take_append_of_le_length (by simp; omega), List.take_of_length_le (by simp; omega)]
    · apply List.map_congr_left
      intro i _
      have : (c ++ x :: xs).drop 1 = (c ++ [x]).drop 1 ++ xs := by
        have : c ++ x :: xs = (c ++ [x]) ++ xs := by simp
        rw [this, List.drop_append_of_le_length (by simp)]
      simp only [Function.comp]
      rw [← this, List.drop_drop, Nat.add_comm 1 i]

theorem Writer.Holds.appends {cap : Nat} (xs : List Nat) : ∀ {w : Writer} {extra gs : List Gram}, w.Holds extra gs →
    (xs.foldl (Writer.append cap) w).Holds extra (gs ++ slide w.ctx xs) := by
  induction xs with
  | nil => intro w extra gs h; simpa [slide] using h
  | cons x xs ih =>
    intro w extra gs h
    obtain ⟨h1, h2⟩ := h.append (cap := cap) x
    have := ih h1
    rw [List.foldl_cons, slide]
    rw [h2] at this
    simpa using this

theorem Writer.Holds.line {order cap : Nat} (ho : 1 ≤ order) {w : Writer} {extra gs : List Gram} (h : w.Holds extra gs)
    (ws : List Nat) : (w.line order cap ws).Holds extra (gs ++ ngrams order (padded order ws)) := by
  have hs : (w.startSentence order).Holds extra gs := ⟨h.tot, h.mem, h.nodup, h.nodupCur⟩
  have := hs.appends (cap := cap) ((ws.filter fun x => ¬ x ≤ 2) ++ [kEOS])
  rw [List.foldl_append] at this
  unfold padded
  rw [List.append_assoc, ngrams_slide order ho _ _ (by simp)]
  exact this

theorem Writer.Holds.addUnigram {cap : Nat} {w : Writer} {extra : List Gram} (h : w.Holds extra []) (x : Nat)
    (hx : [x] ∉ extra) : (w.addUnigram cap x).Holds (extra ++ [[x]]) [] := by
  unfold Writer.addUnigram
  refine Writer.Holds.flush ⟨?_, ?_, h.nodup, ?_⟩
  · intro g
    have := h.tot g
    simp only [Writer.all, total_append, total_cons, total_nil] at this ⊢
    simpa using this
  · intro g
    have := h.mem g
    simp only [Writer.all, List.map_append, List.mem_append, List.map_cons, List.map_nil, List.mem_singleton] at this ⊢
    tauto
  · simp only [List.map_append, List.map_cons, List.map_nil]
    refine List.nodup_append.2 ⟨h.nodupCur, by simp, ?_⟩
    intro a ha b hb e
    have := (h.mem a).1 (by simp only [Writer.all, List.map_append, List.mem_append]; exact Or.inr ha)
    rw [List.mem_singleton.1 hb] at e
    simp [e] at this
    exact hx this

/-- The n-grams that are in the stream whatever the corpus is. -/
def specials (order : Nat) : List Gram := if order = 1 then [[kUNK], [kBOS]] else []

theorem holds_init (order cap : Nat) : (Writer.init order cap).Holds (specials order) [] := by
  have h0 : (⟨[], [], []⟩ : Writer).Holds [] [] := ⟨by simp [Writer.all, total_nil], by simp [Writer.all], by simp, by simp⟩
  unfold Writer.init specials
  split
  · have h1 := h0.addUnigram (cap := cap) kUNK (by simp)
    have h2 := h1.addUnigram (cap := cap) kBOS (by simp [kUNK, kBOS])
    simpa using h2
  · exact h0

theorem corpus_holds {order cap : Nat} (ho : 1 ≤ order) (corpus : List (List Nat)) :
    (corpus.foldl (Writer.line order cap) (Writer.init order cap)).Holds (specials order) (corpusNgrams order corpus) := by
  have key : ∀ (corpus : List (List Nat)) (w : Writer) (gs : List Gram), w.Holds (specials order) gs →
      (corpus.foldl (Writer.line order cap) w).Holds (specials order) (gs ++ corpusNgrams order corpus) := by
    intro corpus
    induction corpus with
    | nil => intro w gs h; simpa [corpusNgrams] using h
    | cons l ls ih =>
      intro w gs h
      have := ih _ _ (h.line (cap := cap) ho l)
      simpa [corpusNgrams, List.flatMap_cons] using this
  simpa using key corpus _ [] (holds_init order cap)

end Cdec.Klm.Builder
