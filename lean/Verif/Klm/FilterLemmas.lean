import Verif.Klm.Filter
import Verif.Klm.FilterSpec
import Verif.Props.C52
import Verif.Props.C54
/-!
# Lemmas about reading the vocabulary of the filter
-/
namespace Cdec.Klm.Filter
open FilterSpec (words lines sentences Tag Within looked Kept linesText)

theorem space_eq : FilterSpec.space = isSpace := rfl

theorem words_space {c : Char} (h : isSpace c = true) (s : Txt) : words (c :: s) = words s := by
  unfold words
  rw [space_eq, List.splitOnP_cons_eq_if_modifyHead, if_pos h]
  simp

theorem splitOnP_append {α : Type _} (p : α → Bool) (w s : List α) (h : ∀ c ∈ w, p c = false) :
    (w ++ s).splitOnP p = (s.splitOnP p).modifyHead (w ++ ·) := by
  induction w with
  | nil => rw [List.nil_append]; generalize s.splitOnP p = q; cases q <;> simp
  | cons c w ih =>
    rw [List.cons_append, List.splitOnP_cons_eq_if_modifyHead, if_neg (by simp [h c (by simp)]),
      ih (fun x hx => h x (by simp [hx]))]
    cases s.splitOnP p <;> simp

/-- the text is at its end or before a white space -/
def AtSpace (s : Txt) : Prop := ∀ c t, s = c :: t → isSpace c = true

theorem words_word {w s : Txt} (hw : w ≠ []) (h : ∀ c ∈ w, isSpace c = false) (hs : AtSpace s) :
    words (w ++ s) = w :: words s := by
  unfold words
  rw [space_eq, splitOnP_append _ _ _ h]
  cases s with
  | nil => simp [hw]
  | cons c t =>
    have hc := hs c t rfl
    rw [List.splitOnP_cons_eq_if_modifyHead, if_pos hc]
    simp [hw]

theorem nextWord_none {s : Txt} (h : nextWord s = none) : words s = [] := by
  unfold nextWord at h
  induction s with
  | nil => simp [words]
  | cons c s ih =>
    by_cases hc : isSpace c = true
    · rw [words_space hc]; rw [List.dropWhile_cons_of_pos hc] at h; exact ih h
    · rw [List.dropWhile_cons_of_neg hc] at h; simp at h

theorem nextWord_some {s w s' : Txt} (h : nextWord s = some (w, s')) :
    ∃ sp, s = sp ++ (w ++ s') ∧ (∀ c ∈ sp, isSpace c = true) ∧ w ≠ [] ∧ (∀ c ∈ w, isSpace c = false) ∧
      AtSpace s' ∧ s'.length < s.length := by
  unfold nextWord at h
  induction s with
  | nil => simp at h
  | cons c s ih =>
    by_cases hc : isSpace c = true
    · rw [List.dropWhile_cons_of_pos hc] at h
      obtain ⟨sp, h1, h2, h3, h4, h5, h6⟩ := ih h
      refine ⟨c :: sp, by rw [h1]; rfl, ?_, h3, h4, h5, by simp; omega⟩
      intro x hx
      rcases List.mem_cons.mp hx with rfl | hx
      · exact hc
      · exact h2 x hx
    · rw [List.dropWhile_cons_of_neg hc] at h
      simp only [Option.some.injEq, Prod.mk.injEq] at h
      obtain ⟨rfl, rfl⟩ := h
      refine ⟨[], by simp [List.takeWhile_append_dropWhile], by simp, ?_, ?_, ?_, ?_⟩
      · rw [List.takeWhile_cons_of_pos (by simpa using hc)]; simp
      · intro x hx
        have := List.all_eq_true.mp (List.all_takeWhile (l := c :: s) (p := fun x => !isSpace x)) x hx
        simpa using this
      · intro d t hd
        have h1 : ((c :: s).dropWhile fun x => !isSpace x) ≠ [] := by rw [hd]; simp
        have h2 := List.head_dropWhile_not (fun x => !isSpace x) h1
        have h3 : ((c :: s).dropWhile fun x => !isSpace x).head h1 = d := by simp [hd]
        rw [h3] at h2
        simpa using h2
      · rw [List.dropWhile_cons_of_pos (by simpa using hc)]
        have := (List.dropWhile_sublist (l := s) fun x => !isSpace x).length_le
        simp; omega

theorem words_spaces {sp : Txt} (h : ∀ c ∈ sp, isSpace c = true) (s : Txt) : words (sp ++ s) = words s := by
  induction sp with
  | nil => rfl
  | cons c sp ih =>
    rw [List.cons_append, words_space (h c (by simp)), ih (fun x hx => h x (by simp [hx]))]

theorem readSingle_spec (n : Nat) (s : Txt) (hn : s.length < n) : readSingle n s = some (words s) := by
  induction n generalizing s with
  | zero => omega
  | succ n ih =>
    unfold readSingle
    cases h : nextWord s with
    | none => rw [nextWord_none h]
    | some r =>
      obtain ⟨w, s'⟩ := r
      obtain ⟨sp, h1, h2, h3, h4, h5, h6⟩ := nextWord_some h
      simp only [ih s' (by omega), Option.map_some, Option.some.injEq]
      rw [h1, words_spaces h2, words_word h3 h4 h5]

/-! ## Sentences -/

/-- The sentences of a text that goes on after the words `cur` of a line. -/
def sentsFrom (cur : List Txt) (s : Txt) : List (List Txt) :=
  match lines s with
  | [] => []
  | l :: ls => (((cur ++ words l) :: ls.map words)).filter (· ≠ [])

theorem sentsFrom_nil (s : Txt) : sentsFrom [] s = sentences s := by
  unfold sentsFrom sentences
  have : lines s ≠ [] := List.splitOnP_ne_nil _ _
  cases h : lines s with
  | nil => exact absurd h this
  | cons l ls => rfl

theorem lines_cons (s : Txt) : ∃ l ls, lines s = l :: ls := by
  cases h : lines s with
  | nil => exact absurd h (List.splitOnP_ne_nil _ _)
  | cons l ls => exact ⟨l, ls, rfl⟩

theorem sentsFrom_newline (cur : List Txt) (s : Txt) :
    sentsFrom cur ('\n' :: s) = (if cur = [] then [] else [cur]) ++ sentsFrom [] s := by
  have h : lines ('\n' :: s) = [] :: lines s := by
    unfold lines; rw [List.splitOnP_cons_eq_if_modifyHead]; simp
  obtain ⟨l, ls, hl⟩ := lines_cons s
  unfold sentsFrom
  rw [h, hl]
  have hw : words [] = [] := by simp [words]
  by_cases hc : cur = []
  · simp [hc, hw]
  · simp [hc, hw]

theorem lines_char {c : Char} (hc : c ≠ '\n') {s l : Txt} {ls : List Txt} (h : lines s = l :: ls) :
    lines (c :: s) = (c :: l) :: ls := by
  unfold lines at h ⊢
  rw [List.splitOnP_cons_eq_if_modifyHead, if_neg (by simpa using hc), h]; rfl

theorem sentsFrom_space (cur : List Txt) {c : Char} (hc : c ≠ '\n') (h : isSpace c = true) (s : Txt) :
    sentsFrom cur (c :: s) = sentsFrom cur s := by
  obtain ⟨l, ls, hl⟩ := lines_cons s
  unfold sentsFrom
  rw [lines_char hc hl, hl]
  simp only [words_space h]

theorem sentsFrom_spaces {sp : Txt} (h : ∀ c ∈ sp, isSpace c = true) (s : Txt) :
    sentsFrom [] (sp ++ s) = sentsFrom [] s := by
  induction sp with
  | nil => rfl
  | cons c sp ih =>
    rw [List.cons_append]
    have ih := ih (fun x hx => h x (by simp [hx]))
    by_cases hc : c = '\n'
    · rw [hc, sentsFrom_newline]; simpa using ih
    · rw [sentsFrom_space _ hc (h c (by simp)), ih]

theorem newline_space : isSpace '\n' = true := by decide

theorem sentsFrom_word (cur : List Txt) {w s : Txt} (hw : w ≠ []) (h : ∀ c ∈ w, isSpace c = false)
    (hs : AtSpace s) : sentsFrom cur (w ++ s) = sentsFrom (cur ++ [w]) s := by
  obtain ⟨l, ls, hl⟩ := lines_cons s
  have hnl : ∀ c ∈ w, (c == '\n') = false := by
    intro c hc
    have := h c hc
    by_cases he : c = '\n'
    · rw [he, newline_space] at this; cases this
    · simpa using he
  have h1 : lines (w ++ s) = (w ++ l) :: ls := by
    unfold lines at hl ⊢
    rw [splitOnP_append _ _ _ hnl, hl]; rfl
  have h2 : AtSpace l := by
    intro c t hct
    cases s with
    | nil => simp [lines] at hl; rw [hl.1] at hct; cases hct
    | cons d s' =>
      have hd := hs d s' rfl
      by_cases he : d = '\n'
      · have : lines (d :: s') = [] :: lines s' := by
          unfold lines; rw [List.splitOnP_cons_eq_if_modifyHead]; simp [he]
        rw [this] at hl
        simp only [List.cons.injEq] at hl
        rw [← hl.1] at hct; cases hct
      · obtain ⟨l', ls', hl'⟩ := lines_cons s'
        rw [lines_char he hl'] at hl
        simp only [List.cons.injEq] at hl
        rw [← hl.1] at hct
        simp only [List.cons.injEq] at hct
        rw [← hct.1]; exact hd
  unfold sentsFrom
  rw [h1, hl]
  simp only [words_word hw h h2, List.append_assoc, List.cons_append, List.nil_append]

theorem isLineEnd_spec (cur : List Txt) (hcur : cur ≠ []) (s : Txt) :
    (∃ t, isLineEnd s = (true, t) ∧ sentsFrom cur s = cur :: sentsFrom [] t ∧ t.length ≤ s.length) ∨
    (∃ t, isLineEnd s = (false, t) ∧ sentsFrom cur s = sentsFrom cur t ∧ t.length ≤ s.length ∧
      ∃ c u, t = c :: u ∧ isSpace c = false) := by
  induction s with
  | nil => left; exact ⟨[], rfl, by simp [sentsFrom, lines, words, hcur], le_refl _⟩
  | cons c s ih =>
    unfold isLineEnd
    by_cases hc : c = '\n'
    · left
      refine ⟨s, by rw [if_pos hc], by rw [hc, sentsFrom_newline]; simp [hcur], by simp⟩
    · rw [if_neg hc]
      by_cases hs : isSpace c = true
      · rw [if_pos hs, sentsFrom_space _ hc hs]
        rcases ih with ⟨t, h1, h2, h3⟩ | ⟨t, h1, h2, h3, h4⟩
        · exact Or.inl ⟨t, h1, h2, by simp; omega⟩
        · exact Or.inr ⟨t, h1, h2, by simp; omega, h4⟩
      · rw [if_neg hs]
        exact Or.inr ⟨c :: s, rfl, rfl, le_refl _, c, s, rfl, by simpa using hs⟩

/-- The sentences that have the word, in increasing order. -/
def idx (S : List (List Txt)) (w : Txt) : List Nat :=
  (List.range S.length).filter fun i => decide (w ∈ S.getD i [])

theorem idx_snoc (S : List (List Txt)) (c : List Txt) (w : Txt) :
    idx (S ++ [c]) w = idx S w ++ if w ∈ c then [S.length] else [] := by
  unfold idx
  rw [List.length_append, List.length_singleton, List.range_succ, List.filter_append]
  congr 1
  · apply List.filter_congr
    intro i hi
    rw [List.mem_range] at hi
    rw [List.getD_eq_getElem?_getD, List.getD_eq_getElem?_getD, List.getElem?_append_left hi]
  · by_cases h : w ∈ c <;> simp [h]

theorem idx_lt {S : List (List Txt)} {w : Txt} {i : Nat} (h : i ∈ idx S w) : i < S.length := by
  unfold idx at h; simp at h; exact h.1

def soFar (done : List (List Txt)) (cur : List Txt) : List (List Txt) :=
  if cur = [] then done else done ++ [cur]

theorem addPosting_spec (done : List (List Txt)) (cur : List Txt) (w : Txt) :
    addPosting (idx (soFar done cur)) w done.length = idx (soFar done (cur ++ [w])) := by
  funext v
  unfold addPosting soFar
  rw [if_neg (by simp : ¬ cur ++ [w] = []), idx_snoc]
  by_cases hv : v = w
  · subst hv
    rw [if_pos rfl]
    have hlast : ∀ i, (idx done v).getLast? = some i → i < done.length := fun i hi =>
      idx_lt (List.mem_of_getLast? hi)
    by_cases hc : cur = []
    · rw [if_pos hc, if_pos]
      · simp
      · right
        intro he
        exact absurd (hlast _ he) (lt_irrefl _)
    · rw [if_neg hc, idx_snoc]
      by_cases hm : v ∈ cur
      · simp [hm]
      · simp only [hm, if_false, List.append_nil]
        rw [if_pos]
        · simp
        · right
          intro he
          exact absurd (hlast _ he) (lt_irrefl _)
  · rw [if_neg hv]
    by_cases hc : cur = []
    · simp [hc, hv]
    · rw [if_neg hc, idx_snoc]; simp [hv]

theorem allSpace_of_dropWhile {s : Txt} (h : s.dropWhile isSpace = []) : ∀ c ∈ s, isSpace c = true := by
  induction s with
  | nil => simp
  | cons a s ih =>
    by_cases ha : isSpace a = true
    · rw [List.dropWhile_cons_of_pos ha] at h
      intro c hc
      rcases List.mem_cons.mp hc with rfl | hc
      · exact ha
      · exact ih h c hc
    · rw [List.dropWhile_cons_of_neg ha] at h; cases h

theorem readMultiple_loop (n : Nat) (s : Txt) (done : List (List Txt)) (cur : List Txt) (used : Bool)
    (hn : s.length < n) (h1 : used = false → cur = [])
    (h2 : used = true → cur ≠ [] ∧ ∃ c u, s = c :: u ∧ isSpace c = false) :
    readMultiple n s (idx (soFar done cur)) done.length used =
      some (idx (done ++ sentsFrom cur s), (done ++ sentsFrom cur s).length) := by
  induction n generalizing s done cur used with
  | zero => omega
  | succ n ih =>
    unfold readMultiple
    cases h : nextWord s with
    | none =>
      cases used with
      | true =>
        obtain ⟨_, c, u, rfl, hc⟩ := h2 rfl
        simp [nextWord, List.dropWhile_cons_of_neg, hc] at h
      | false =>
        rw [h1 rfl]
        have hs : sentsFrom [] s = [] := by
          have : ∀ c ∈ s, isSpace c = true := by
            unfold nextWord at h
            intro c hc
            by_contra hcc
            have : s.dropWhile isSpace = [] := by
              cases hd : s.dropWhile isSpace with
              | nil => rfl
              | cons a b => rw [hd] at h; simp at h
            exact hcc (allSpace_of_dropWhile this c hc)
          have h3 := sentsFrom_spaces this []
          rw [List.append_nil] at h3
          rw [h3]; simp [sentsFrom, lines, words]
        simp [hs, soFar]
    | some r =>
      obtain ⟨w, s'⟩ := r
      obtain ⟨sp, e1, e2, e3, e4, e5, e6⟩ := nextWord_some h
      have hstep : sentsFrom cur s = sentsFrom (cur ++ [w]) s' := by
        cases used with
        | false =>
          rw [h1 rfl, e1, sentsFrom_spaces e2, sentsFrom_word _ e3 e4 e5]
        | true =>
          obtain ⟨_, c, u, hcu, hc⟩ := h2 rfl
          have : sp = [] := by
            cases sp with
            | nil => rfl
            | cons a b =>
              have ha := e2 a (by simp)
              rw [hcu] at e1
              simp only [List.cons_append, List.cons.injEq] at e1
              rw [← e1.1, hc] at ha; cases ha
          rw [this] at e1
          rw [e1, List.nil_append, sentsFrom_word _ e3 e4 e5]
      rw [hstep]
      simp only [addPosting_spec]
      rcases isLineEnd_spec (cur ++ [w]) (by simp) s' with ⟨t, f1, f2, f3⟩ | ⟨t, f1, f2, f3, f4⟩
      · rw [f1, f2]
        have hd : soFar done (cur ++ [w]) = soFar (done ++ [cur ++ [w]]) [] := by simp [soFar]
        have hl : done.length + 1 = (done ++ [cur ++ [w]]).length := by simp
        simp only [hd, hl]
        rw [ih t (done ++ [cur ++ [w]]) [] false (by omega) (fun _ => rfl) (by simp)]
        simp
      · rw [f1, f2]
        exact ih t done (cur ++ [w]) true (by omega) (by simp) (fun _ => ⟨by simp, f4⟩)

theorem readMultiple_spec (s : Txt) :
    readMultiple (s.length + 1) s (fun _ => []) 0 false =
      some (idx (sentences s), (sentences s).length) := by
  have h := readMultiple_loop (s.length + 1) s [] [] false (by omega) (fun _ => rfl) (by simp)
  rw [sentsFrom_nil] at h
  simp only [List.nil_append] at h
  rw [← h]
  rfl

end Cdec.Klm.Filter
