import Verif.Klm.PhraseTable
/-!
# Reading the phrases
-/
namespace Cdec.Klm.Phrase
open Filter (Txt isSpace)
open PhraseSpec

variable {H : Type} [DecidableEq H]

/-- What was read: whole sentences, phrases of this line, words of this phrase, letters of this word. -/
structure Got where
  done : List (List (List Txt))
  cur : List (List Txt)
  ph : List Txt
  word : Txt

/-- One more item unless it is empty. -/
def addNe {α : Type} (l : List (List α)) (x : List α) : List (List α) := l ++ [x].filter fun l => !l.isEmpty

theorem addNe_nil {α : Type} (l : List (List α)) : addNe l [] = l := by simp [addNe]
theorem addNe_ne {α : Type} (l : List (List α)) {x : List α} (h : x ≠ []) : addNe l x = l ++ [x] := by simp [addNe, h]

/-- The sentences of what was read and of the text `t` after it. -/
def total (s : Got) (t : Txt) : List (List (List Txt)) :=
  match t.splitOnP lineEnd with
  | [] => []
  | l :: ls =>
    match l.splitOnP tab with
    | [] => []
    | p :: ps =>
      match p.splitOnP (· == ' ') with
      | [] => []
      | w :: ws =>
        s.done ++ ((s.cur ++ ((s.ph ++ ((s.word ++ w) :: ws).filter (· ≠ [])) :: ps.map phraseWords).filter (· ≠ [])) ::
          ls.map phrases).filter (· ≠ [])

theorem split_ne {α : Type} (p : α → Bool) (t : List α) : ∃ l ls, t.splitOnP p = l :: ls := by
  cases h : t.splitOnP p with
  | nil => exact absurd h (List.splitOnP_ne_nil _ _)
  | cons l ls => exact ⟨l, ls, rfl⟩

theorem total_start (t : Txt) : total ⟨[], [], [], []⟩ t = sentences t := by
  unfold total sentences
  obtain ⟨l, ls, h1⟩ := split_ne lineEnd t
  obtain ⟨p, ps, h2⟩ := split_ne tab l
  obtain ⟨w, ws, h3⟩ := split_ne (fun c => c == ' ') p
  simp only [h1, h2, h3, List.nil_append, List.map_cons, phrases, phraseWords]

theorem total_char (s : Got) (c : Char) (t : Txt) (hc : isSpace c = false) :
    total s (c :: t) = total ⟨s.done, s.cur, s.ph, s.word ++ [c]⟩ t := by
  have h : ∀ d ∈ [' ', '\t', '\n', '\x0b', '\x0c', '\r'], c ≠ d := by
    intro d hd e
    subst e
    unfold isSpace at hc
    rw [decide_eq_true hd] at hc
    cases hc
  have e1 : lineEnd c = false := by
    unfold lineEnd; simp only [List.mem_cons, List.not_mem_nil, or_false, decide_eq_false_iff_not]
    rintro (rfl | rfl | rfl) <;> exact h _ (by simp) rfl
  have e2 : tab c = false := by
    unfold tab; simp only [List.mem_cons, List.not_mem_nil, or_false, decide_eq_false_iff_not]
    rintro (rfl | rfl) <;> exact h _ (by simp) rfl
  have e3 : (c == ' ') = false := by
    simp only [beq_eq_false_iff_ne]; exact h _ (by simp)
  unfold total
  obtain ⟨l, ls, h1⟩ := split_ne lineEnd t
  obtain ⟨p, ps, h2⟩ := split_ne tab l
  obtain ⟨w, ws, h3⟩ := split_ne (fun c => c == ' ') p
  simp only [List.splitOnP_cons, e1, h1, List.modifyHead_cons, e2, h2, e3, h3, Bool.false_eq_true, if_false,
    List.append_assoc, List.singleton_append]

/-- `phrase.push_back` -/
def Got.endWord (s : Got) : Got := ⟨s.done, s.cur, addNe s.ph s.word, []⟩
def Got.endPhrase (s : Got) : Got := ⟨s.done, addNe s.cur s.ph, [], s.word⟩
def Got.endSentence (s : Got) : Got := ⟨addNe s.done s.cur, [], s.ph, s.word⟩

theorem filter_cons_addNe {α : Type} [DecidableEq α] (l : List (List α)) (x : List α) (r : List (List α)) :
    l ++ (x :: r).filter (· ≠ []) = addNe l x ++ r.filter (· ≠ []) := by
  by_cases h : x = []
  · subst h; simp [addNe]
  · simp [addNe, h]

theorem total_space (s : Got) (t : Txt) : total s (' ' :: t) = total s.endWord t := by
  have e1 : lineEnd ' ' = false := by decide
  have e2 : tab ' ' = false := by decide
  unfold total
  obtain ⟨l, ls, h1⟩ := split_ne lineEnd t
  obtain ⟨p, ps, h2⟩ := split_ne tab l
  obtain ⟨w, ws, h3⟩ := split_ne (fun c => c == ' ') p
  simp only [List.splitOnP_cons, e1, h1, List.modifyHead_cons, e2, h2, h3, Bool.false_eq_true, if_false,
    beq_self_eq_true, if_true, Got.endWord, List.append_nil]
  rw [filter_cons_addNe s.ph s.word]
  rfl

theorem total_tab (s : Got) (c : Char) (hc : tab c = true) (t : Txt) :
    total s (c :: t) = total s.endWord.endPhrase t := by
  have e1 : lineEnd c = false := by
    unfold tab at hc; simp only [List.mem_cons, List.not_mem_nil, or_false, decide_eq_true_eq] at hc
    rcases hc with rfl | rfl <;> decide
  unfold total
  obtain ⟨l, ls, h1⟩ := split_ne lineEnd t
  obtain ⟨p, ps, h2⟩ := split_ne tab l
  obtain ⟨w, ws, h3⟩ := split_ne (fun c => c == ' ') p
  simp only [List.splitOnP_cons, e1, h1, List.modifyHead_cons, hc, h2, h3, Bool.false_eq_true, if_false,
    if_true, Got.endWord, Got.endPhrase, List.append_nil, List.splitOnP_nil, List.map_cons, List.nil_append]
  rw [filter_cons_addNe s.ph s.word, filter_cons_addNe s.cur]
  simp only [List.filter_nil, List.append_nil, phraseWords, h3]

theorem total_line (s : Got) (c : Char) (hc : lineEnd c = true) (t : Txt) :
    total s (c :: t) = total s.endWord.endPhrase.endSentence t := by
  unfold total
  obtain ⟨l, ls, h1⟩ := split_ne lineEnd t
  obtain ⟨p, ps, h2⟩ := split_ne tab l
  obtain ⟨w, ws, h3⟩ := split_ne (fun c => c == ' ') p
  simp only [List.splitOnP_cons, h1, hc, h2, h3, if_true, Got.endWord, Got.endPhrase, Got.endSentence,
    List.append_nil, List.splitOnP_nil, List.map_cons, List.map_nil, List.nil_append]
  rw [filter_cons_addNe s.ph s.word, filter_cons_addNe s.cur, filter_cons_addNe s.done]
  simp only [List.filter_nil, List.append_nil, phrases, phraseWords, h2, h3, List.map_cons]

theorem total_nil (s : Got) : total s [] = s.endWord.endPhrase.endSentence.done := by
  unfold total
  simp only [List.splitOnP_nil, Got.endWord, Got.endPhrase, Got.endSentence, List.append_nil, List.map_nil]
  rw [filter_cons_addNe s.ph s.word, filter_cons_addNe s.cur, filter_cons_addNe s.done]
  simp only [List.filter_nil, List.append_nil]

/-- The phrases that are in the table. -/
def Got.A (s : Got) (x : Nat) (p : List Txt) : Prop :=
  (∃ ps, s.done[x]? = some ps ∧ p ∈ ps) ∨ (x = s.done.length ∧ p ∈ s.cur)

/-- The variables of `ReadMultiple` hold what was read. -/
structure Holds (hw : Txt → H) (mix : H → H → H) (h0 : H) (s : RSt H) (g : Got) : Prop where
  word : s.word = g.word
  phrase : s.phrase = g.ph.map hw
  content : s.content = !g.cur.isEmpty
  id : s.id = g.done.length
  tab : TabInv hw mix h0 s.tab s.id g.A

section
variable {hw : Txt → H} {mix : H → H → H} {h0 : H} {s : RSt H} {g : Got}

theorem holds_word (h : Holds hw mix h0 s g) : Holds hw mix h0 (endWord hw s) g.endWord := by
  unfold endWord
  by_cases hc : s.word = []
  · rw [if_pos hc]
    have hg : g.word = [] := h.word ▸ hc
    exact ⟨hc, by rw [h.phrase, Got.endWord, hg, addNe_nil], h.content, h.id, h.tab⟩
  · rw [if_neg hc]
    have hg : g.word ≠ [] := h.word ▸ hc
    exact ⟨rfl, by simp only [Got.endWord, addNe_ne _ hg, h.phrase, h.word]; simp, h.content, h.id, h.tab⟩

theorem holds_phrase (h : Holds hw mix h0 s g) : Holds hw mix h0 (endPhrase mix h0 s) g.endPhrase := by
  unfold endPhrase
  by_cases hc : s.phrase = []
  · rw [if_pos hc]
    have hg : g.ph = [] := by rw [h.phrase] at hc; simpa using hc
    have he : g.endPhrase = g := by cases g; simp only [Got.endPhrase] at *; subst hg; simp [addNe_nil]
    rw [he]; exact h
  · rw [if_neg hc]
    have hg : g.ph ≠ [] := by rw [h.phrase] at hc; simpa using hc
    refine ⟨h.word, rfl, by simp [Got.endPhrase, addNe_ne _ hg], h.id, ?_⟩
    simp only []
    rw [h.phrase]
    refine (addPhrase_inv h.tab g.ph).congr (fun x p => ?_) (Nat.le_refl _)
    simp only [Got.A, Got.endPhrase, addNe_ne _ hg, List.mem_append, List.mem_singleton, h.id]
    constructor
    · rintro ((h1 | ⟨h1, h2⟩) | ⟨h1, h2⟩)
      · exact Or.inl h1
      · exact Or.inr ⟨h1, Or.inl h2⟩
      · exact Or.inr ⟨h1, Or.inr h2⟩
    · rintro (h1 | ⟨h1, h2 | h2⟩)
      · exact Or.inl (Or.inl h1)
      · exact Or.inl (Or.inr ⟨h1, h2⟩)
      · exact Or.inr ⟨h1, h2⟩

theorem holds_sentence (h : Holds hw mix h0 s g) : Holds hw mix h0 (endSentence s) g.endSentence := by
  unfold endSentence
  by_cases hc : s.content = true
  · rw [if_pos hc]
    have hg : g.cur ≠ [] := by rw [h.content] at hc; simpa using hc
    refine ⟨h.word, h.phrase, rfl, by simp [Got.endSentence, addNe_ne _ hg, h.id], ?_⟩
    refine h.tab.congr (fun x p => ?_) (Nat.le_succ _)
    simp only [Got.A, Got.endSentence, addNe_ne _ hg, List.not_mem_nil, and_false, or_false]
    constructor
    · rintro (⟨ps, h1, h2⟩ | ⟨rfl, h2⟩)
      · have := (List.getElem?_eq_some_iff.mp h1).1
        exact ⟨ps, by rw [List.getElem?_append_left this]; exact h1, h2⟩
      · exact ⟨g.cur, by simp, h2⟩
    · rintro ⟨ps, h1, h2⟩
      by_cases hx : x < g.done.length
      · rw [List.getElem?_append_left hx] at h1; exact Or.inl ⟨ps, h1, h2⟩
      · have := (List.getElem?_eq_some_iff.mp h1).1
        simp only [List.length_append, List.length_singleton] at this
        obtain rfl : x = g.done.length := by omega
        simp at h1
        subst h1
        exact Or.inr ⟨rfl, h2⟩
  · rw [if_neg hc]
    have hg : g.cur = [] := by rw [h.content] at hc; simpa using hc
    have he : g.endSentence = g := by cases g; simp only [Got.endSentence] at *; subst hg; simp [addNe_nil]
    rw [he]; exact h

theorem readLoop_spec (t : Txt) (h : Holds hw mix h0 s g) :
    ∃ g', Holds hw mix h0 (readLoop hw mix h0 t s) g' ∧ g'.cur = [] ∧ g'.done = total g t := by
  induction t generalizing s g with
  | nil =>
    refine ⟨g.endWord.endPhrase.endSentence, ?_, rfl, (total_nil g).symm⟩
    have : readLoop hw mix h0 [] s = endSentence (endPhrase mix h0 (endWord hw s)) := by
      simp [readLoop, sep]
    rw [this]
    exact holds_sentence (holds_phrase (holds_word h))
  | cons c t ih =>
    rw [readLoop]
    by_cases hc : isSpace c = true
    · rw [if_pos hc]
      unfold sep
      simp only []
      have hsp : c = ' ' ∨ tab c = true ∨ lineEnd c = true := by
        unfold isSpace at hc
        simp only [List.mem_cons, List.not_mem_nil, or_false, decide_eq_true_eq] at hc
        rcases hc with rfl | rfl | rfl | rfl | rfl | rfl <;> decide
      rcases hsp with rfl | htab | hline
      · rw [if_pos rfl, total_space]
        exact ih (holds_word h)
      · have h1 : c ≠ ' ' := by rintro rfl; exact absurd htab (by decide)
        have h2 : (c = '\t' || c = '\x0b') = true := by simpa [tab] using htab
        rw [if_neg h1, if_pos h2, total_tab g c htab]
        exact ih (holds_phrase (holds_word h))
      · have h1 : c ≠ ' ' := by rintro rfl; exact absurd hline (by decide)
        have h2 : ¬ (c = '\t' || c = '\x0b') = true := by
          intro h2
          simp only [Bool.or_eq_true, decide_eq_true_eq] at h2
          rcases h2 with rfl | rfl <;> exact absurd hline (by decide)
        rw [if_neg h1, if_neg h2, total_line g c hline]
        exact ih (holds_sentence (holds_phrase (holds_word h)))
    · rw [if_neg hc, total_char g c t (by simpa using hc)]
      exact ih ⟨by simp only [h.word], h.phrase, h.content, h.id, h.tab⟩

end

/-- The phrases of sentence number `x` of a text. -/
def PhraseIn (S : List (List (List Txt))) (x : Nat) (p : List Txt) : Prop := ∃ ps, S[x]? = some ps ∧ p ∈ ps

/-- `ReadMultiple`: the number of sentences, and a table of their phrases. -/
theorem readMultiple_spec (hw : Txt → H) (mix : H → H → H) (h0 : H) (vocab : Txt) :
    (readMultiple hw mix h0 vocab).2 = (sentences vocab).length ∧
      ∃ id, TabInv hw mix h0 (readMultiple hw mix h0 vocab).1 id (PhraseIn (sentences vocab)) := by
  have h0' : Holds hw mix h0 (⟨[], [], false, 0, fun _ => none⟩ : RSt H) ⟨[], [], [], []⟩ :=
    ⟨rfl, rfl, rfl, rfl, (tabInv_empty hw mix h0).congr (fun x p => by simp [Got.A]) (Nat.le_refl _)⟩
  obtain ⟨g, h1, h2, h3⟩ := readLoop_spec vocab h0'
  rw [total_start] at h3
  unfold readMultiple
  simp only []
  refine ⟨by rw [h1.content, h2, h1.id, h3]; rfl, _, h1.tab.congr (fun x p => ?_) (Nat.le_refl _)⟩
  simp [Got.A, h2, h3, PhraseIn]

end Cdec.Klm.Phrase
