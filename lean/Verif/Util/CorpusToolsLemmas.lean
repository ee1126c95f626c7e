import Verif.Util.CorpusTools
import Mathlib.Data.Nat.ModEq
import Mathlib.Data.List.Count
import Mathlib.Tactic.Ring
/-!
# Lemmas about reading corpora
-/
namespace Cdec.Corpus

theorem pushLast_append (w : Nat) (x : List Nat) : ∀ xs : List (List Nat), pushLast w (xs ++ [x]) = xs ++ [x ++ [w]]
  | [] => rfl
  | [y] => rfl
  | y :: z :: xs => by
    have := pushLast_append w x (z :: xs)
    simp only [List.cons_append] at this ⊢
    rw [pushLast, this]
    simp

/-- A line with its bar, before and after it. -/
theorem words_trg (div : Nat) (both skip : Bool) : ∀ (ws x : List Nat) (st : State) (pre : List (List Nat)), div ∉ ws →
    words div both skip ws 1 { st with trg := if skip then pre else pre ++ [x] } =
      some (1, { st with trg := if skip then pre else pre ++ [x ++ ws], trgVocab := ws.reverse ++ st.trgVocab })
  | [], x, st, pre, _ => by simp [words]
  | w :: ws, x, st, pre, h => by
    have hw : ¬ w = div := fun e => h (by simp [e])
    have ih := words_trg div both skip ws (x ++ [w]) { st with trgVocab := w :: st.trgVocab } pre (fun hm => h (by simp [hm]))
    rw [words, if_neg hw, word, if_neg (by decide)]
    cases skip <;> simpa [pushLast_append] using ih

theorem words_src (div : Nat) (both skip : Bool) (rest : List Nat) : ∀ (ws x : List Nat) (st : State) (pre : List (List Nat)), div ∉ ws →
    words div both skip (ws ++ rest) 0 { st with src := if skip then pre else pre ++ [x] } =
      words div both skip rest 0 { st with src := if skip then pre else pre ++ [x ++ ws], srcVocab := ws.reverse ++ st.srcVocab }
  | [], x, st, pre, _ => by simp
  | w :: ws, x, st, pre, h => by
    have hw : ¬ w = div := fun e => h (by simp [e])
    have ih := words_src div both skip rest ws (x ++ [w]) { st with srcVocab := w :: st.srcVocab } pre (fun hm => h (by simp [hm]))
    rw [List.cons_append, words, if_neg hw, word, if_pos rfl]
    cases skip <;> simpa [pushLast_append] using ih

theorem line_pair (div rank size lc : Nat) (s t : List Nat) (hs : div ∉ s) (ht : div ∉ t) (st : State) :
    line div true rank size lc (s ++ div :: t) st =
      some ⟨if lc % size = rank then st.src ++ [s] else st.src, if lc % size = rank then st.trg ++ [t] else st.trg, s.reverse ++ st.srcVocab, t.reverse ++ st.trgVocab⟩ := by
  unfold line
  have h1 := words_src div true (decide (lc % size ≠ rank)) (div :: t) s [] st st.src hs
  simp only [List.nil_append] at h1
  simp only
  rw [h1, words, if_pos rfl, if_neg (by omega), if_neg (by decide)]
  have h2 := words_trg div true (decide (lc % size ≠ rank)) t []
    ⟨if decide (lc % size ≠ rank) then st.src else st.src ++ [s], st.trg, s.reverse ++ st.srcVocab, st.trgVocab⟩ st.trg ht
  simp only [List.nil_append] at h2
  rw [h2]
  by_cases h : lc % size = rank <;> simp [h]

theorem line_mono (div rank size lc : Nat) (s : List Nat) (hs : div ∉ s) (st : State) :
    line div false rank size lc s st = some { st with src := if lc % size = rank then st.src ++ [s] else st.src, srcVocab := s.reverse ++ st.srcVocab } := by
  unfold line
  have h1 := words_src div false (decide (lc % size ≠ rank)) [] s [] st st.src hs
  simp only [List.append_nil, List.nil_append] at h1
  simp only
  rw [h1, words]
  by_cases h : lc % size = rank <;> simp [h]

/-- Every `size`th line from the line in `d` steps. -/
def every {α : Type} (size : Nat) : Nat → List α → List α
  | _, [] => []
  | 0, x :: xs => x :: every size (size - 1) xs
  | d + 1, _ :: xs => every size d xs

theorem every_getElem? {α : Type} {size : Nat} (hs : 0 < size) : ∀ (l : List α) (d q : Nat), (every size d l)[q]? = l[q * size + d]?
  | [], d, q => by simp [every]
  | x :: xs, 0, 0 => by simp [every]
  | x :: xs, 0, q + 1 => by
    rw [every, List.getElem?_cons_succ, every_getElem? hs xs (size - 1) q]
    have : (q + 1) * size + 0 = (q * size + (size - 1)) + 1 := by rw [Nat.add_mul]; omega
    rw [this, List.getElem?_cons_succ]
  | x :: xs, d + 1, q => by
    rw [every, every_getElem? hs xs d q, ← Nat.add_assoc, List.getElem?_cons_succ]

theorem turn {lc d rank size : Nat} (hd : d < size) (h : (lc + d) % size = rank) : lc % size = rank ↔ d = 0 := by
  constructor
  · intro e
    have : lc + d ≡ lc + 0 [MOD size] := by simp [Nat.ModEq, h, e]
    have := Nat.ModEq.add_left_cancel' lc this
    rw [Nat.ModEq, Nat.mod_eq_of_lt hd, Nat.zero_mod] at this
    exact this
  · rintro rfl; simpa using h

theorem lines_pairs (div rank size : Nat) : ∀ (c : List (List Nat × List Nat)) (lc d : Nat) (st : State), d < size → (lc + d) % size = rank →
    (∀ p ∈ c, div ∉ p.1 ∧ div ∉ p.2) →
    ∃ st', lines div true rank size lc (c.map fun p => p.1 ++ div :: p.2) st = some st' ∧
      st'.src = st.src ++ (every size d c).map Prod.fst ∧ st'.trg = st.trg ++ (every size d c).map Prod.snd ∧
      (∀ w, w ∈ st'.srcVocab ↔ w ∈ st.srcVocab ∨ ∃ p ∈ c, w ∈ p.1) ∧ ∀ w, w ∈ st'.trgVocab ↔ w ∈ st.trgVocab ∨ ∃ p ∈ c, w ∈ p.2
  | [], _, _, st, _, _, _ => ⟨st, rfl, by simp [every], by simp [every], by simp, by simp⟩
  | p :: c, lc, d, st, hd, hr, hc => by
    obtain ⟨h1, h2⟩ := hc p (by simp)
    have hc' : ∀ q ∈ c, div ∉ q.1 ∧ div ∉ q.2 := fun q hq => hc q (by simp [hq])
    rw [List.map_cons, lines, line_pair div rank size lc p.1 p.2 h1 h2 st]
    simp only
    cases d with
    | zero =>
      have hl : lc % size = rank := by simpa using hr
      obtain ⟨st', e, a, b, x, y⟩ := lines_pairs div rank size c (lc + 1) (size - 1) ⟨st.src ++ [p.1], st.trg ++ [p.2], p.1.reverse ++ st.srcVocab, p.2.reverse ++ st.trgVocab⟩
        (by omega) (by rw [show lc + 1 + (size - 1) = lc + size by omega]; simpa using hl) hc'
      simp only [hl, if_true]
      refine ⟨st', e, by rw [a]; simp [every], by rw [b]; simp [every], ?_, ?_⟩
      · intro w; rw [x]; simp; tauto
      · intro w; rw [y]; simp; tauto
    | succ d =>
      have hl : ¬ lc % size = rank := fun e => by simpa using (turn hd hr).1 e
      obtain ⟨st', e, a, b, x, y⟩ := lines_pairs div rank size c (lc + 1) d ⟨st.src, st.trg, p.1.reverse ++ st.srcVocab, p.2.reverse ++ st.trgVocab⟩
        (by omega) (by rw [show lc + 1 + d = lc + (d + 1) by omega]; exact hr) hc'
      simp only [hl, if_false]
      refine ⟨st', e, by rw [a]; simp [every], by rw [b]; simp [every], ?_, ?_⟩
      · intro w; rw [x]; simp; tauto
      · intro w; rw [y]; simp; tauto

theorem lines_mono (div rank size : Nat) : ∀ (c : List (List Nat)) (lc d : Nat) (st : State), d < size → (lc + d) % size = rank →
    (∀ p ∈ c, div ∉ p) →
    ∃ st', lines div false rank size lc c st = some st' ∧ st'.src = st.src ++ every size d c ∧ st'.trg = st.trg ∧
      (∀ w, w ∈ st'.srcVocab ↔ w ∈ st.srcVocab ∨ ∃ p ∈ c, w ∈ p) ∧ st'.trgVocab = st.trgVocab
  | [], _, _, st, _, _, _ => ⟨st, rfl, by simp [every], rfl, by simp, rfl⟩
  | p :: c, lc, d, st, hd, hr, hc => by
    have h1 := hc p (by simp)
    have hc' : ∀ q ∈ c, div ∉ q := fun q hq => hc q (by simp [hq])
    rw [lines, line_mono div rank size lc p h1 st]
    simp only
    cases d with
    | zero =>
      have hl : lc % size = rank := by simpa using hr
      obtain ⟨st', e, a, b, x, y⟩ := lines_mono div rank size c (lc + 1) (size - 1) { st with src := st.src ++ [p], srcVocab := p.reverse ++ st.srcVocab }
        (by omega) (by rw [show lc + 1 + (size - 1) = lc + size by omega]; simpa using hl) hc'
      simp only [hl, if_true]
      refine ⟨st', e, by rw [a]; simp [every], b, ?_, y⟩
      intro w; rw [x]; simp; tauto
    | succ d =>
      have hl : ¬ lc % size = rank := fun e => by simpa using (turn hd hr).1 e
      obtain ⟨st', e, a, b, x, y⟩ := lines_mono div rank size c (lc + 1) d { st with srcVocab := p.reverse ++ st.srcVocab }
        (by omega) (by rw [show lc + 1 + d = lc + (d + 1) by omega]; exact hr) hc'
      simp only [hl, if_false]
      refine ⟨st', e, by rw [a]; simp [every], b, ?_, y⟩
      intro w; rw [x]; simp; tauto

/-- The number of bars decides whether a line is read. -/
theorem words_count (div : Nat) (both skip : Bool) : ∀ (ws : List Nat) (s : Nat) (st : State), s ≤ 1 → (both = false → s = 0) →
    ∀ n, (∃ st', words div both skip ws s st = some (n, st')) ↔ (n = s + ws.count div ∧ n ≤ if both then 1 else 0)
  | [], s, st, hs, hb, n => by
    simp only [words, Option.some.injEq, Prod.mk.injEq, List.count_nil, Nat.add_zero]
    constructor
    · rintro ⟨_, rfl, _⟩
      refine ⟨rfl, ?_⟩
      cases both <;> simp_all
    · rintro ⟨rfl, _⟩; exact ⟨st, rfl, rfl⟩
  | w :: ws, s, st, hs, hb, n => by
    rw [words]
    by_cases hw : w = div
    · subst hw
      rw [if_pos rfl]
      by_cases h1 : s + 1 > 1
      · rw [if_pos h1]
        simp only [List.count_cons_self]
        constructor
        · rintro ⟨_, h⟩; cases h
        · rintro ⟨h, h'⟩
          have : (if both then 1 else 0) ≤ 1 := by cases both <;> simp
          omega
      · rw [if_neg h1]
        cases both with
        | false =>
          simp only [if_true, List.count_cons_self]
          constructor
          · rintro ⟨_, h⟩; cases h
          · rintro ⟨h, h'⟩; simp at h'; omega
        | true =>
          rw [if_neg (by decide), words_count w true skip ws (s + 1) _ (by omega) (by simp) n]
          simp only [List.count_cons_self]
          constructor <;> (rintro ⟨h, h'⟩; exact ⟨by omega, h'⟩)
    · rw [if_neg hw, words_count div both skip ws s _ hs hb n, List.count_cons_of_ne hw]

theorem line_some (div : Nat) (both : Bool) (rank size lc : Nat) (l : List Nat) (st : State) :
    (∃ st', line div both rank size lc l st = some st') ↔ l.count div = if both then 1 else 0 := by
  unfold line
  simp only
  have hc := words_count div both (decide (lc % size ≠ rank)) l 0 { st with src := if decide (lc % size ≠ rank) then st.src else st.src ++ [[]] } (by omega) (by simp)
  cases hw : words div both (decide (lc % size ≠ rank)) l 0 { st with src := if decide (lc % size ≠ rank) then st.src else st.src ++ [[]] } with
  | none =>
    simp only [reduceCtorEq, exists_false, false_iff]
    intro e
    obtain ⟨st', h⟩ := (hc (l.count div)).2 ⟨by omega, by omega⟩
    rw [hw] at h; cases h
  | some r =>
    obtain ⟨n, st'⟩ := r
    have := (hc n).1 ⟨st', hw⟩
    by_cases h : (1 + if both then 1 else 0) ≠ n + 1
    · simp only [if_pos h, reduceCtorEq, exists_false, false_iff]
      omega
    · simp only [if_neg h, Option.some.injEq, exists_eq', true_iff]
      omega

theorem lines_some (div : Nat) (both : Bool) (rank size : Nat) : ∀ (ls : List (List Nat)) (lc : Nat) (st : State),
    (∃ st', lines div both rank size lc ls st = some st') ↔ ∀ l ∈ ls, l.count div = if both then 1 else 0
  | [], lc, st => by simp [lines]
  | l :: ls, lc, st => by
    rw [lines]
    have h := line_some div both rank size lc l st
    cases hl : line div both rank size lc l st with
    | none =>
      rw [hl] at h
      simp only [reduceCtorEq, exists_false, false_iff] at h ⊢
      intro hall
      exact h (hall l (by simp))
    | some st' =>
      rw [hl] at h
      have h' := h.1 ⟨st', rfl⟩
      simp only
      rw [lines_some div both rank size ls (lc + 1) st']
      simp [h']

theorem readLine_pair (div : Nat) (t : List Nat) : ∀ s : List Nat, div ∉ s → readLine div (s ++ div :: t) = (s, t)
  | [], _ => by simp [readLine]
  | w :: s, h => by
    have hw : w ≠ div := fun e => h (by simp [e])
    rw [List.cons_append, readLine, if_pos hw, readLine_pair div t s fun hm => h (by simp [hm])]

theorem readLine_mono (div : Nat) : ∀ s : List Nat, div ∉ s → readLine div s = (s, [])
  | [], _ => rfl
  | w :: s, h => by
    have hw : w ≠ div := fun e => h (by simp [e])
    rw [readLine, if_pos hw, readLine_mono div s fun hm => h (by simp [hm])]

end Cdec.Corpus
