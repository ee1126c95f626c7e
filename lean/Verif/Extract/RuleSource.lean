import Verif.Extract.TargetPhraseChoice
import Mathlib.Data.List.Infix
/-!
# Lemmas about the source side of extracted rules
-/
namespace Cdec.Extract
open Spec RuleSpec

theorem mem_side {lo hi : Nat} {gaps : List (Nat × Nat)} {p : Nat} :
    Slot.word p ∈ side lo hi gaps ↔ lo ≤ p ∧ p < hi ∧ ∀ g ∈ gaps, ¬ (g.1 ≤ p ∧ p < g.2) := by
  unfold side
  rw [List.mem_filterMap]
  constructor
  · rintro ⟨q, hq, h⟩
    rw [List.mem_range'_1] at hq
    split at h
    · rename_i hf
      simp only [Option.some.injEq, Slot.word.injEq] at h
      subst h
      refine ⟨by omega, by omega, ?_⟩
      intro g hg
      rw [List.find?_eq_none] at hf
      obtain ⟨k, hk, e⟩ := List.mem_iff_getElem.1 hg
      have := hf (g, 1 + k) (by
        rw [List.mem_iff_getElem]
        exact ⟨k, by simpa using hk, by simp [e]⟩)
      simpa using this
    · split at h <;> cases h
  · rintro ⟨h1, h2, h3⟩
    refine ⟨p, by rw [List.mem_range'_1]; omega, ?_⟩
    have : (gaps.zipIdx 1).find? (fun g => decide (g.1.1 ≤ p ∧ p < g.1.2)) = none := by
      rw [List.find?_eq_none]
      intro x hx
      rw [decide_eq_true_eq]
      exact h3 x.1 (List.fst_mem_of_mem_zipIdx hx)
    rw [this]

theorem side_nodup (lo hi : Nat) (gaps : List (Nat × Nat)) : (side lo hi gaps).Nodup := by
  unfold side
  refine List.Nodup.filterMap ?_ List.nodup_range'
  intro p q b hp hq
  rw [Option.mem_def] at hp hq
  split at hp
  · cases hp
    split at hq
    · cases hq; rfl
    · split at hq <;> cases hq
  · rename_i g hg
    split at hp
    · rename_i e
      cases hp
      split at hq
      · cases hq
      · rename_i g' hg'
        split at hq
        · rename_i e'
          simp only [Option.some.injEq, Slot.nt.injEq] at hq
          have h1 := List.mem_of_find?_eq_some hg
          have h2 := List.mem_of_find?_eq_some hg'
          rw [List.mem_iff_getElem] at h1 h2
          obtain ⟨i, hi, rfl⟩ := h1
          obtain ⟨j, hj, rfl⟩ := h2
          simp at hq e e'
          subst hq
          omega
        · cases hq
    · cases hp

/-! ### Chunks of a phrase -/

theorem varPos_cons (s : Int) (ss : List Int) : varPos (s :: ss) = (if s < 0 then [0] else []) ++ (varPos ss).map (· + 1) := by
  unfold varPos
  rw [List.length_cons, List.range_succ_eq_map, List.filter_cons, List.filter_map]
  have : (List.range ss.length).filter ((fun i => decide ((s :: ss).getD i 0 < 0)) ∘ Nat.succ) = (List.range ss.length).filter fun i => decide (ss.getD i 0 < 0) := by
    refine List.filter_congr fun i _ => ?_
    simp [Function.comp]
  rw [this]
  by_cases h : s < 0 <;> simp [h]

theorem varPos_words (w r : List Int) (h : ∀ s ∈ w, 0 ≤ s) : varPos (w ++ r) = (varPos r).map (· + w.length) := by
  induction w with
  | nil => simp
  | cons s w ih =>
    have hs := h s List.mem_cons_self
    rw [List.cons_append, varPos_cons, ih fun x hx => h x (List.mem_cons_of_mem _ hx), if_neg (by omega), List.nil_append, List.map_map]
    refine List.map_congr_left fun i _ => ?_
    simp [Function.comp]; omega

theorem varPos_gap (w : List Int) (x : Int) (rest : List Int) (h : ∀ s ∈ w, 0 ≤ s) (hx : x < 0) :
    varPos (w ++ x :: rest) = w.length :: (varPos rest).map (· + (w.length + 1)) := by
  rw [varPos_words w _ h, varPos_cons, if_pos hx, List.map_append, List.map_map]
  simp only [List.map_cons, List.map_nil, List.cons_append, List.nil_append, Nat.zero_add]
  congr 1
  refine List.map_congr_left fun i _ => ?_
  simp [Function.comp]; omega

theorem varPos_none (w : List Int) (h : ∀ s ∈ w, 0 ≤ s) : varPos w = [] := by
  have := varPos_words w [] h
  rw [List.append_nil] at this
  rw [this]; rfl

theorem chunkLen_succ (w : List Int) (x : Int) (rest : List Int) (h : ∀ s ∈ w, 0 ≤ s) (hx : x < 0) (i : Nat) (hi : i ≤ (varPos rest).length) :
    chunkLen (w ++ x :: rest) (i + 1) = chunkLen rest i := by
  unfold chunkLen
  simp only [varPos_gap w x rest h hx]
  rw [List.length_cons, List.length_map, if_neg (by omega), if_neg (by omega)]
  cases hv : varPos rest with
  | nil =>
    rw [hv, List.length_nil] at hi
    have : i = 0 := by omega
    subst this
    simp
  | cons v vs =>
    rw [hv] at hi
    rw [if_neg (show ¬ (v :: vs).length = 0 by simp)]
    by_cases h0 : i = 0
    · subst h0
      simp; omega
    · rw [if_neg h0]
      by_cases h1 : i = (v :: vs).length
      · rw [if_pos (by omega), if_pos h1]
        rw [List.getLastD_eq_getLast?, List.getLastD_eq_getLast?, List.getLast?_cons, List.getLast?_map]
        cases hl : (v :: vs).getLast? with
        | none => simp at hl
        | some y => simp; omega
      · rw [if_neg (by omega), if_neg h1]
        obtain ⟨j, rfl⟩ : ∃ j, i = j + 1 := ⟨i - 1, by omega⟩
        have hj : j + 1 < (v :: vs).length := by omega
        simp only [Nat.add_sub_cancel, List.getD_cons_succ]
        have g1 : ((v :: vs).map (· + (w.length + 1))).getD (j + 1) 0 = (v :: vs).getD (j + 1) 0 + (w.length + 1) := by
          rw [List.getD_eq_getElem?_getD, List.getD_eq_getElem?_getD, List.getElem?_map, List.getElem?_eq_getElem hj]; rfl
        have g2 : ((v :: vs).map (· + (w.length + 1))).getD j 0 = (v :: vs).getD j 0 + (w.length + 1) := by
          rw [List.getD_eq_getElem?_getD, List.getD_eq_getElem?_getD, List.getElem?_map, List.getElem?_eq_getElem (by omega)]; rfl
        rw [g1, g2, List.getD_cons_succ]
        omega

theorem occurs_lens {src : List Int} {mg : Int} {phrase : List Int} {ms : List (Nat × Nat)} (h : Occurs src mg phrase ms) :
    ms.length = (varPos phrase).length + 1 ∧ ms.map (·.2) = (List.range ms.length).map (chunkLen phrase) := by
  induction h with
  | last m w h1 h2 h3 =>
    have := varPos_none w h2
    rw [this]
    refine ⟨rfl, ?_⟩
    simp [chunkLen, this]
  | cons m w x rest m' c' ms h1 h2 h3 h4 h5 h6 h7 ih =>
    have hv := varPos_gap w x rest h2 h4
    refine ⟨?_, ?_⟩
    · rw [hv, List.length_cons, ih.1]; simp
    · rw [List.map_cons, ih.2]
      conv => rhs; rw [List.length_cons, List.range_succ_eq_map, List.map_cons, List.map_map]
      refine List.cons_eq_cons.2 ⟨?_, ?_⟩
      · simp [chunkLen, hv]
      · refine List.map_congr_left fun i hi => ?_
        rw [List.mem_range, ih.1] at hi
        simp only [Function.comp, Nat.succ_eq_add_one]
        rw [chunkLen_succ w x rest h2 h4 i (by omega)]

theorem occurs_zip {src : List Int} {mg : Int} {phrase : List Int} {ms : List (Nat × Nat)} (h : Occurs src mg phrase ms) :
    (ms.map (·.1)).zip ((List.range (ms.map (·.1)).length).map (chunkLen phrase)) = ms := by
  rw [List.length_map, ← (occurs_lens h).2, List.zip_map']
  simp

/-- The gaps between chunks. -/
def natGaps : List (Nat × Nat) → List (Nat × Nat)
  | (m, c) :: (m', c') :: rest => (m + c, m') :: natGaps ((m', c') :: rest)
  | _ => []

theorem innerGaps_eq : ∀ ms : List (Nat × Nat), innerGaps 0 ms = castGaps (natGaps ms)
  | [] => rfl
  | [_] => rfl
  | (m, c) :: (m', c') :: rest => by
    have ih := innerGaps_eq ((m', c') :: rest)
    rw [innerGaps, natGaps, ih]
    simp [castGaps]

/-- The end of the last chunk. -/
def chunksEnd (ms : List (Nat × Nat)) : Nat := (ms.getLastD (0, 0)).1 + (ms.getLastD (0, 0)).2

/-- The slots of the chunks with nonterminals numbered from `k + 1` between them, and after them if `R`. -/
def srcSlots (R : Bool) : List (Nat × Nat) → Nat → List Slot
  | [], _ => []
  | [(m, c)], k => (List.range' m c).map .word ++ if R then [.nt (k + 1)] else []
  | (m, c) :: (m', c') :: ms, k => (List.range' m c).map .word ++ .nt (k + 1) :: srcSlots R ((m', c') :: ms) (k + 1)

/-- Chunks in order, non-empty and apart. -/
def Chain : List (Nat × Nat) → Prop
  | (m, c) :: (m', c') :: ms => 0 < c ∧ m + c < m' ∧ Chain ((m', c') :: ms)
  | [(_, c)] => 0 < c
  | [] => False

theorem occurs_chain {src : List Int} {mg : Int} {phrase : List Int} {ms : List (Nat × Nat)} (h : Occurs src mg phrase ms) : Chain ms := by
  induction h with
  | last m w h1 h2 h3 => exact List.length_pos_iff.2 h1
  | cons m w x rest m' c' ms h1 h2 h3 h4 h5 h6 h7 ih => exact ⟨List.length_pos_iff.2 h1, h5, ih⟩

theorem occurs_end {src : List Int} {mg : Int} {phrase : List Int} {ms : List (Nat × Nat)} (h : Occurs src mg phrase ms) : chunksEnd ms ≤ src.length := by
  induction h with
  | last m w h1 h2 h3 =>
    have h0 := List.length_pos_iff.2 h1
    have := congrArg List.length h3
    rw [List.length_take, List.length_drop] at this
    simp only [chunksEnd, List.getLastD_cons, List.getLastD_nil]
    omega
  | cons m w x rest m' c' ms h1 h2 h3 h4 h5 h6 h7 ih =>
    simpa [chunksEnd] using ih

theorem chunksEnd_cons (x y : Nat × Nat) (ms : List (Nat × Nat)) : chunksEnd (x :: y :: ms) = chunksEnd (y :: ms) := by
  simp [chunksEnd]

theorem natGaps_inOrder (tail : List (Nat × Nat)) (b : Nat) : ∀ (m c : Nat) (ms : List (Nat × Nat)) (a : Nat), Chain ((m, c) :: ms) → a ≤ m →
    InOrder b (chunksEnd ((m, c) :: ms)) tail → InOrder b a (natGaps ((m, c) :: ms) ++ tail)
  | m, c, [], a, h, ha, ht => by
    simp only [natGaps, List.nil_append]
    simp only [chunksEnd, List.getLastD_cons, List.getLastD_nil] at ht
    cases tail with
    | nil => simp only [InOrder] at ht ⊢; omega
    | cons g gs => simp only [InOrder] at ht ⊢; exact ⟨by omega, ht.2⟩
  | m, c, (m', c') :: ms, a, h, ha, ht => by
    obtain ⟨h1, h2, h3⟩ := h
    rw [chunksEnd_cons] at ht
    have := natGaps_inOrder tail b m' c' ms m' h3 (Nat.le_refl _) ht
    rw [natGaps, List.cons_append]
    exact ⟨by simp only []; omega, by simp only []; omega, this⟩

theorem fillN_srcSlots (R : Bool) (b : Nat) : ∀ (m c : Nat) (ms : List (Nat × Nat)) (k : Nat), Chain ((m, c) :: ms) →
    (if R then chunksEnd ((m, c) :: ms) < b else b = chunksEnd ((m, c) :: ms)) →
    fillN m b ((natGaps ((m, c) :: ms) ++ if R then [(chunksEnd ((m, c) :: ms), b)] else []).zipIdx (k + 1)) = srcSlots R ((m, c) :: ms) k
  | m, c, [], k, h, hb => by
    simp only [natGaps, List.nil_append, srcSlots]
    have e : chunksEnd [(m, c)] = m + c := by simp [chunksEnd]
    rw [e] at hb ⊢
    cases R with
    | false =>
      simp only [Bool.false_eq_true, if_false] at hb ⊢
      subst hb
      simp [fillN]
    | true =>
      simp only [if_true] at hb ⊢
      simp [fillN]
  | m, c, (m', c') :: ms, k, h, hb => by
    obtain ⟨h1, h2, h3⟩ := h
    rw [chunksEnd_cons] at hb ⊢
    have ih := fillN_srcSlots R b m' c' ms (k + 1) h3 hb
    rw [natGaps, List.cons_append, List.zipIdx_cons, fillN, srcSlots]
    simp only []
    rw [ih]
    congr 2
    rw [Nat.add_sub_cancel_left]

/-- The source side with or without a nonterminal at either end. -/
theorem side_source (L R : Bool) (a b m c : Nat) (ms : List (Nat × Nat)) (h : Chain ((m, c) :: ms))
    (ha : if L then a < m else a = m) (hb : if R then chunksEnd ((m, c) :: ms) < b else b = chunksEnd ((m, c) :: ms)) :
    InOrder b a ((if L then [(a, m)] else []) ++ natGaps ((m, c) :: ms) ++ if R then [(chunksEnd ((m, c) :: ms), b)] else []) ∧
    side a b ((if L then [(a, m)] else []) ++ natGaps ((m, c) :: ms) ++ if R then [(chunksEnd ((m, c) :: ms), b)] else []) =
      (if L then [.nt 1] else []) ++ srcSlots R ((m, c) :: ms) (if L then 1 else 0) := by
  have hord : InOrder b m (natGaps ((m, c) :: ms) ++ if R then [(chunksEnd ((m, c) :: ms), b)] else []) := by
    refine natGaps_inOrder _ _ _ _ _ _ h (Nat.le_refl _) ?_
    cases R with
    | false => simp only [Bool.false_eq_true, if_false] at hb ⊢; simp only [InOrder]; omega
    | true => simp only [if_true] at hb ⊢; simp only [InOrder]; omega
  have hall : InOrder b a ((if L then [(a, m)] else []) ++ natGaps ((m, c) :: ms) ++ if R then [(chunksEnd ((m, c) :: ms), b)] else []) := by
    rw [List.append_assoc]
    cases L with
    | false =>
      simp only [Bool.false_eq_true, if_false] at ha ⊢
      subst ha
      exact hord
    | true =>
      simp only [if_true] at ha ⊢
      exact ⟨Nat.le_refl _, ha, hord⟩
  refine ⟨hall, ?_⟩
  rw [side_eq_sideN, sideN_inOrder]
  · rw [List.append_assoc]
    cases L with
    | false =>
      simp only [Bool.false_eq_true, if_false, List.nil_append] at ha ⊢
      subst ha
      exact fillN_srcSlots R b a c ms 0 h hb
    | true =>
      simp only [if_true] at ha ⊢
      rw [List.cons_append, List.nil_append, List.zipIdx_cons, fillN]
      simp only [Nat.sub_self, List.range'_zero, List.map_nil, List.nil_append, List.cons_append]
      rw [fillN_srcSlots R b m c ms 1 h hb]
  · rw [List.zipIdx_map_fst]; exact hall

theorem renumber_words (w r : List Int) (k : Nat) (h : ∀ s ∈ w, 0 ≤ s) : renumber k (w ++ r) = w ++ renumber k r := by
  induction w with
  | nil => rfl
  | cons s w ih =>
    have hs := h s List.mem_cons_self
    rw [List.cons_append, renumber, if_neg (by omega), ih fun x hx => h x (List.mem_cons_of_mem _ hx), List.cons_append]

theorem countP_words (w : List Int) (h : ∀ s ∈ w, 0 ≤ s) : w.countP (fun s => decide (s < 0)) = 0 := by
  rw [List.countP_eq_zero]
  intro s hs
  have := h s hs
  simp; omega

theorem map_sym_words (src : List Int) (m : Nat) (w : List Int) (h : (src.drop m).take w.length = w) :
    ((List.range' m w.length).map Slot.word).map (Slot.sym src) = w := by
  apply List.ext_getElem
  · simp
  · intro i h1 h2
    have : w[i] = src.getD (m + i) 0 := by
      have e : (w[i]? : Option Int) = ((src.drop m).take w.length)[i]? := by rw [h]
      rw [List.getElem?_take, if_pos h2, List.getElem?_drop, List.getElem?_eq_getElem h2] at e
      rw [List.getD_eq_getElem?_getD, ← e]; rfl
    simp [Slot.sym, this]

theorem srcSlots_syms {src : List Int} {mg : Int} {phrase : List Int} {ms : List (Nat × Nat)} (h : Occurs src mg phrase ms) (R : Bool) : ∀ k,
    (srcSlots R ms k).map (Slot.sym src) =
      renumber k phrase ++ if R then [-((k + phrase.countP fun s => decide (s < 0) : Nat) + 1 : Int)] else [] := by
  induction h with
  | last m w h1 h2 h3 =>
    intro k
    have := renumber_words w [] k h2
    rw [List.append_nil, renumber, List.append_nil] at this
    rw [srcSlots, List.map_append, map_sym_words src m w h3, this, countP_words w h2]
    cases R <;> simp [Slot.sym]
  | cons m w x rest m' c' ms h1 h2 h3 h4 h5 h6 h7 ih =>
    intro k
    rw [srcSlots, List.map_append, map_sym_words src m w h3, List.map_cons, ih (k + 1), renumber_words w _ k h2, renumber, if_pos h4,
      List.append_assoc, List.cons_append, List.countP_append, countP_words w h2, List.countP_cons_of_pos (by simpa using h4)]
    simp only [Slot.sym]
    have e : k + (0 + (rest.countP (fun s => decide (s < 0)) + 1)) = k + 1 + rest.countP fun s => decide (s < 0) := by omega
    rw [e]
    simp

/-- The symbols of the source side are the extended phrase. -/
theorem source_syms {src : List Int} {mg : Int} {phrase : List Int} {ms : List (Nat × Nat)} (h : Occurs src mg phrase ms) (L R : Bool) :
    ((if L then [Slot.nt 1] else []) ++ srcSlots R ms (if L then 1 else 0)).map (Slot.sym src) = extendPhrase phrase L R := by
  rw [List.map_append, srcSlots_syms h, extendPhrase, ← List.append_assoc]
  cases L <;> simp [Slot.sym]

theorem occurs_head {src : List Int} {mg : Int} {phrase : List Int} {ms : List (Nat × Nat)} (h : Occurs src mg phrase ms) :
    ∃ s ss, phrase = s :: ss ∧ 0 ≤ s := by
  induction h with
  | last m w h1 h2 h3 =>
    cases w with
    | nil => exact absurd rfl h1
    | cons s w => exact ⟨s, w, rfl, h2 s List.mem_cons_self⟩
  | cons m w x rest m' c' ms h1 h2 h3 h4 h5 h6 h7 _ =>
    cases w with
    | nil => exact absurd rfl h1
    | cons s w => exact ⟨s, _, rfl, h2 s List.mem_cons_self⟩

theorem renumber_length (k : Nat) (l : List Int) : (renumber k l).length = l.length := by
  induction l generalizing k with
  | nil => rfl
  | cons s l ih => rw [renumber]; split <;> simp [ih]

theorem renumber_append (k : Nat) (l r : List Int) : renumber k (l ++ r) = renumber k l ++ renumber (k + l.countP fun s => decide (s < 0)) r := by
  induction l generalizing k with
  | nil => simp [renumber]
  | cons s l ih =>
    rw [List.cons_append, renumber, renumber]
    by_cases hs : s < 0
    · rw [if_pos hs, if_pos hs, ih, List.countP_cons_of_pos (by simpa using hs), List.cons_append]
      congr 3; omega
    · rw [if_neg hs, if_neg hs, ih, List.countP_cons_of_neg (by simpa using hs), List.cons_append]

theorem renumber_renumber (j k : Nat) (l : List Int) : renumber k (renumber j l) = renumber k l := by
  induction l generalizing j k with
  | nil => rfl
  | cons s l ih =>
    by_cases hs : s < 0
    · simp only [renumber, if_pos hs]
      rw [if_pos (by omega), ih]
    · simp only [renumber, if_neg hs]
      rw [ih]

theorem renumber_countP (k : Nat) (l : List Int) : (renumber k l).countP (fun s => decide (s < 0)) = l.countP fun s => decide (s < 0) := by
  induction l generalizing k with
  | nil => rfl
  | cons s l ih =>
    by_cases hs : s < 0
    · rw [renumber, if_pos hs, List.countP_cons_of_pos (by simp; omega), List.countP_cons_of_pos (by simpa using hs), ih]
    · rw [renumber, if_neg hs, List.countP_cons_of_neg (by simpa using hs), List.countP_cons_of_neg (by simpa using hs), ih]

/-- Extending twice. -/
theorem extend_extend (phrase : List Int) (l r l' r' : Bool) (hl : l' = true → l = false) (hr : r' = true → r = false) :
    extendPhrase (extendPhrase phrase l r) l' r' = extendPhrase phrase (l || l') (r || r') := by
  unfold extendPhrase
  cases l <;> cases l' <;> cases r <;> cases r' <;>
    simp_all [renumber_append, renumber_renumber, renumber_countP, renumber, add_comm]
  omega

end Cdec.Extract
