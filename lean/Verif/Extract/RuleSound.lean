import Verif.Extract.RuleSource
import Verif.Props.C73
/-!
# Extracted rules are consistent with the alignment
-/
namespace Cdec.Extract
open Spec RuleSpec

theorem sourceIndexes_or : ∀ (ms : List (Nat × Nat)) (k : Nat) (f : Nat → Option Nat) (p : Nat),
    sourceIndexes ms k f p = (sourceIndexes ms k (fun _ => none) p).or (f p)
  | [], k, f, p => by simp [sourceIndexes]
  | (m, c) :: rest, k, f, p => by
    rw [sourceIndexes, sourceIndexes, sourceIndexes_or rest _ (fun p => if m ≤ p ∧ p < m + c then some (k + (p - m)) else f p),
      sourceIndexes_or rest _ (fun p => if m ≤ p ∧ p < m + c then some (k + (p - m)) else none), Option.or_assoc]
    congr 1
    split <;> simp

theorem sourceIndexes_ge : ∀ (ms : List (Nat × Nat)) (m c k p : Nat), Chain ((m, c) :: ms) → ∀ i, sourceIndexes ((m, c) :: ms) k (fun _ => none) p = some i → m ≤ p ∧ k ≤ i
  | [], m, c, k, p, _, i, hi => by
    simp only [sourceIndexes] at hi
    split at hi
    · simp only [Option.some.injEq] at hi
      omega
    · cases hi
  | (m', c') :: ms, m, c, k, p, h, i, hi => by
    rw [sourceIndexes, sourceIndexes_or] at hi
    cases hr : sourceIndexes ((m', c') :: ms) (k + c + 1) (fun _ => none) p with
    | none =>
      rw [hr, Option.none_or] at hi
      split at hi
      · simp only [Option.some.injEq] at hi
        omega
      · cases hi
    | some j =>
      rw [hr, Option.some_or] at hi
      cases hi
      have := sourceIndexes_ge ms m' c' (k + c + 1) p h.2.2 i hr
      have := h.2.1
      omega

theorem getElem?_words (m c i p : Nat) : ((List.range' m c).map Slot.word)[i]? = some (.word p) ↔ i < c ∧ p = m + i := by
  rw [List.getElem?_map]
  by_cases h : i < c
  · rw [List.getElem?_range' h]
    simp
    omega
  · rw [List.getElem?_eq_none (by simpa using h)]
    simp; omega

theorem srcIndex (R : Bool) : ∀ (ms : List (Nat × Nat)) (m c n k p i : Nat), Chain ((m, c) :: ms) →
    ((srcSlots R ((m, c) :: ms) n)[i]? = some (.word p) ↔ sourceIndexes ((m, c) :: ms) k (fun _ => none) p = some (k + i))
  | [], m, c, n, k, p, i, _ => by
    simp only [srcSlots, sourceIndexes]
    have hl : ((List.range' m c).map Slot.word).length = c := by simp
    rw [List.getElem?_append]
    split
    · rename_i hi
      rw [getElem?_words]
      split
      · simp only [Option.some.injEq]; omega
      · constructor
        · intro h; omega
        · intro h; cases h
    · rename_i hi
      rw [hl] at hi ⊢
      constructor
      · intro h
        cases R with
        | false => simp at h
        | true =>
          simp only [if_true] at h
          cases hj : i - c with
          | zero => rw [hj] at h; simp at h
          | succ j => rw [hj] at h; simp at h
      · intro h
        split at h
        · simp only [Option.some.injEq] at h; omega
        · cases h
  | (m', c') :: ms, m, c, n, k, p, i, hc => by
    obtain ⟨h1, h2, h3⟩ := hc
    rw [srcSlots, sourceIndexes, sourceIndexes_or]
    have hl : ((List.range' m c).map Slot.word).length = c := by simp
    have ih := fun i => srcIndex R ms m' c' (n + 1) (k + c + 1) p i h3
    have hge := sourceIndexes_ge ms m' c' (k + c + 1) p h3
    rw [List.getElem?_append]
    split
    · rename_i hi
      rw [hl] at hi
      rw [getElem?_words]
      cases hr : sourceIndexes ((m', c') :: ms) (k + c + 1) (fun _ => none) p with
      | some j =>
        rw [Option.some_or]
        have := hge j hr
        simp only [Option.some.injEq]
        omega
      | none =>
        rw [Option.none_or]
        split
        · simp only [Option.some.injEq]; omega
        · constructor
          · intro h; omega
          · intro h; cases h
    · rename_i hi
      rw [hl] at hi ⊢
      cases hj : i - c with
      | zero =>
        simp only [List.getElem?_cons_zero, Option.some.injEq, reduceCtorEq, false_iff]
        intro h
        cases hr : sourceIndexes ((m', c') :: ms) (k + c + 1) (fun _ => none) p with
        | some j =>
          rw [hr, Option.some_or, Option.some.injEq] at h
          have := hge j hr
          omega
        | none =>
          rw [hr, Option.none_or] at h
          split at h
          · simp only [Option.some.injEq] at h; omega
          · cases h
      | succ j =>
        rw [List.getElem?_cons_succ, ih j, show k + c + 1 + j = k + i by omega]
        cases hr : sourceIndexes ((m', c') :: ms) (k + c + 1) (fun _ => none) p with
        | some j' => rw [Option.some_or]
        | none =>
          rw [Option.none_or]
          constructor
          · intro h; cases h
          · intro h
            split at h
            · simp only [Option.some.injEq] at h; omega
            · cases h

/-- Indices of the words of the whole source side. -/
theorem sourceIndex_side (L R : Bool) (m c : Nat) (ms : List (Nat × Nat)) (h : Chain ((m, c) :: ms)) (p i : Nat) :
    ((if L then [Slot.nt 1] else []) ++ srcSlots R ((m, c) :: ms) (if L then 1 else 0))[i]? = some (.word p) ↔
      sourceIndexes ((m, c) :: ms) (if L then 1 else 0) (fun _ => none) p = some i := by
  cases L with
  | false =>
    simp only [Bool.false_eq_true, if_false, List.nil_append]
    rw [srcIndex R ms m c 0 0 p i h, Nat.zero_add]
  | true =>
    simp only [if_true, List.cons_append, List.nil_append]
    cases i with
    | zero =>
      simp only [List.getElem?_cons_zero, Option.some.injEq, reduceCtorEq, false_iff]
      intro h'
      have := sourceIndexes_ge ms m c 1 p h 0 h'
      omega
    | succ i => rw [List.getElem?_cons_succ, srcIndex R ms m c 1 1 p i h, Nat.add_comm]

/-- Source words of the occurrence. -/
theorem srcSlots_mem (R : Bool) : ∀ (ms : List (Nat × Nat)) (n p : Nat), Slot.word p ∈ srcSlots R ms n ↔ ∃ m ∈ ms, m.1 ≤ p ∧ p < m.1 + m.2
  | [], n, p => by simp [srcSlots]
  | [(m, c)], n, p => by
    cases R <;> simp [srcSlots]
  | (m, c) :: (m', c') :: ms, n, p => by
    rw [srcSlots, List.mem_append, List.mem_cons, srcSlots_mem R ((m', c') :: ms) (n + 1) p]
    simp

/-- The alignment of a phrase pair. -/
theorem mem_phraseLinks {links : List (Nat × Nat)} {idx : Nat → Option Nat} {slots : List Slot} {al : List (Nat × Nat)} (h : phraseLinks links idx slots = some al)
    (hn : slots.Nodup) (i j : Nat) :
    (i, j) ∈ al ↔ ∃ l ∈ links, idx l.1 = some i ∧ slots[j]? = some (.word l.2) := by
  have hidx : ∀ q : Nat, ∀ j : Nat, (Slot.word q ∈ slots ∧ slots.idxOf (.word q) = j) ↔ slots[j]? = some (.word q) := by
    intro q j
    constructor
    · rintro ⟨h1, rfl⟩
      rw [List.getElem?_eq_getElem (List.idxOf_lt_length_iff.2 h1), List.getElem_idxOf]
    · intro h
      obtain ⟨hj, e⟩ := List.getElem?_eq_some_iff.1 h
      refine ⟨e ▸ List.getElem_mem hj, ?_⟩
      rw [← e]
      exact hn.idxOf_getElem j hj
  unfold phraseLinks at h
  obtain ⟨hlen, hk⟩ := mapM_some_mem _ _ _ h
  constructor
  · intro hm
    obtain ⟨k, hk', e⟩ := List.mem_iff_getElem.1 hm
    have hk'' := hlen ▸ hk'
    have := hk k _ _ (List.getElem?_eq_getElem hk'') (List.getElem?_eq_getElem hk')
    have hml := List.getElem_mem hk''
    rw [List.mem_filter, decide_eq_true_eq] at hml
    rw [e] at this
    rw [Option.map_eq_some_iff] at this
    obtain ⟨i', h1, h2⟩ := this
    cases h2
    exact ⟨_, hml.1, h1, (hidx _ _).1 ⟨hml.2, rfl⟩⟩
  · rintro ⟨l, hl, h1, h2⟩
    obtain ⟨h3, h4⟩ := (hidx _ _).2 h2
    have hml : l ∈ links.filter fun l => decide (Slot.word l.2 ∈ slots) := by
      rw [List.mem_filter, decide_eq_true_eq]; exact ⟨hl, h3⟩
    obtain ⟨k, hk', e⟩ := List.mem_iff_getElem.1 hml
    have hk'' := hlen ▸ hk'
    have := hk k _ _ (List.getElem?_eq_getElem hk') (List.getElem?_eq_getElem hk'')
    rw [e, h1, h4] at this
    simp only [Option.map_some, Option.some.injEq] at this
    rw [this]
    exact List.getElem_mem hk''

/-- A source span with the target span found for it. -/
structure Found (E : XEnv) (s t : Nat × Nat) : Prop where
  consistent : Consistent E.links s.1 s.2 t.1 t.2
  edges : EdgesLinked E.links s.1 s.2 t.1 t.2
  range : t.1 < t.2 ∧ t.2 ≤ E.tgt.length
  tight : E.tight = true → SrcAligned E s.1 ∧ SrcAligned E (s.2 - 1)

theorem free_consistent {E : XEnv} {s t t' : Nat × Nat} (h : Consistent E.links s.1 s.2 t.1 t.2) (h1 : t'.1 ≤ t.1) (h2 : t.2 ≤ t'.2)
    (f1 : Free E t'.1 t.1) (f2 : Free E t.2 t'.2) : Consistent E.links s.1 s.2 t'.1 t'.2 := by
  intro l hl
  rw [h l hl]
  constructor
  · rintro ⟨a, b⟩; omega
  · rintro ⟨a, b⟩
    constructor
    · by_contra hc
      exact (f1 l.2 (by omega) (by omega)).2 l hl rfl
    · by_contra hc
      exact (f2 l.2 (by omega) (by omega)).2 l hl rfl

theorem Found.pair {E : XEnv} {s t t' : Nat × Nat} (h : Found E s t) (h1 : t'.1 ≤ t.1) (h2 : t.2 ≤ t'.2) (f1 : Free E t'.1 t.1) (f2 : Free E t.2 t'.2) :
    Pair E s t' := by
  obtain ⟨⟨l, hl, e1, e2, e3⟩, ⟨r, hr, e4, e5, e6⟩⟩ := h.edges
  refine ⟨free_consistent h.consistent h1 h2 f1 f2, ⟨l, hl, by omega, by omega⟩, ?_⟩
  intro ht
  have none : ∀ a b, Free E a b → b ≤ a := by
    intro a b hf
    by_contra hc
    have := (hf a (Nat.le_refl _) (by omega)).1
    rw [ht] at this
    cases this
  have g1 := none _ _ f1
  have g2 := none _ _ f2
  have g3 := h.range
  obtain ⟨t1, t2⟩ := h.tight ht
  exact ⟨t1, t2, ⟨l, hl, by omega⟩, ⟨r, hr, by omega⟩⟩

/-- Target gaps lie inside the target span and apart. -/
theorem gapsIn_target {E : XEnv} {s t : Nat × Nat} (h : Found E s t) {sg tg : List (Nat × Nat)} (hs : GapsIn s.1 s.2 sg) (hlen : sg.length = tg.length)
    (hg : ∀ (k : Nat) g u, sg[k]? = some g → tg[k]? = some u → Found E g u) : GapsIn t.1 t.2 tg := by
  have inside : ∀ g u, g ∈ sg → Found E g u → t.1 ≤ u.1 ∧ u.1 < u.2 ∧ u.2 ≤ t.2 := by
    intro g u hgm hf
    obtain ⟨⟨l, hl, e1, e2, e3⟩, ⟨r, hr, e4, e5, e6⟩⟩ := hf.edges
    have b := hs.2.1 g hgm
    have c1 := (h.consistent l hl).1 ⟨by omega, by omega⟩
    have c2 := (h.consistent r hr).1 ⟨by omega, by omega⟩
    have := hf.range
    omega
  refine ⟨by have := h.range; omega, ?_, ?_⟩
  · intro u hu
    obtain ⟨k, hk, rfl⟩ := List.mem_iff_getElem.1 hu
    have hk' : k < sg.length := by omega
    exact inside _ _ (List.getElem_mem hk') (hg k _ _ (List.getElem?_eq_getElem hk') (List.getElem?_eq_getElem hk))
  · rw [List.pairwise_iff_getElem]
    intro i j hi hj hij
    have hi' : i < sg.length := by omega
    have hj' : j < sg.length := by omega
    have fi := hg i _ _ (List.getElem?_eq_getElem hi') (List.getElem?_eq_getElem hi)
    have fj := hg j _ _ (List.getElem?_eq_getElem hj') (List.getElem?_eq_getElem hj)
    have ap : Apart sg[i] sg[j] := List.pairwise_iff_getElem.1 hs.2.2 i j hi' hj' hij
    by_contra hc
    unfold Apart at hc ap
    have ri := fi.range
    have rj := fj.range
    obtain ⟨⟨l, hl, e1, e2, e3⟩, _⟩ := fi.edges
    obtain ⟨⟨r, hr, e4, e5, e6⟩, _⟩ := fj.edges
    by_cases hle : (tg[i]).1 ≤ (tg[j]).1
    · have := (fi.consistent r hr).2 ⟨by omega, by omega⟩
      omega
    · have := (fj.consistent l hl).2 ⟨by omega, by omega⟩
      omega

theorem word_iff {E : XEnv} {s t : Nat × Nat} {sg tg : List (Nat × Nat)} (h : Consistent E.links s.1 s.2 t.1 t.2) (hlen : sg.length = tg.length)
    (hg : ∀ (k : Nat) g u, sg[k]? = some g → tg[k]? = some u → Consistent E.links g.1 g.2 u.1 u.2) {l : Nat × Nat} (hl : l ∈ E.links) :
    Slot.word l.1 ∈ side s.1 s.2 sg ↔ Slot.word l.2 ∈ side t.1 t.2 tg := by
  rw [mem_side, mem_side]
  have h0 := h l hl
  have hk : (∀ g ∈ sg, ¬ (g.1 ≤ l.1 ∧ l.1 < g.2)) ↔ ∀ u ∈ tg, ¬ (u.1 ≤ l.2 ∧ l.2 < u.2) := by
    constructor
    · intro hs u hu
      obtain ⟨k, hk, rfl⟩ := List.mem_iff_getElem.1 hu
      have hk' : k < sg.length := by omega
      have := hg k _ _ (List.getElem?_eq_getElem hk') (List.getElem?_eq_getElem hk) l hl
      have := hs _ (List.getElem_mem hk')
      omega
    · intro hs u hu
      obtain ⟨k, hk, rfl⟩ := List.mem_iff_getElem.1 hu
      have hk' : k < tg.length := by omega
      have := hg k _ _ (List.getElem?_eq_getElem hk) (List.getElem?_eq_getElem hk') l hl
      have := hs _ (List.getElem_mem hk')
      omega
  rw [hk]
  constructor
  · rintro ⟨a, b, c⟩
    have := h0.1 ⟨by omega, by omega⟩
    exact ⟨by omega, by omega, c⟩
  · rintro ⟨a, b, c⟩
    have := h0.2 ⟨by omega, by omega⟩
    exact ⟨by omega, by omega, c⟩

theorem castGaps_toNat (tg : List (Nat × Nat)) : (castGaps tg).map (fun g => (g.1.toNat, g.2.toNat)) = tg := by
  unfold castGaps
  rw [List.map_map]
  conv => rhs; rw [← List.map_id tg]
  refine List.map_congr_left fun g _ => ?_
  simp

/-- What is known of the extracts for one source span with gaps. -/
structure Batch (E : XEnv) (source : List Int) (s t : Nat × Nat) (sg tg : List (Nat × Nat)) (xs : List Extracted) : Prop where
  source : ∀ x ∈ xs, x.source = source
  count : ∀ x ∈ xs, x.count = 1 / (xs.length : Rat)
  rule : ∀ x ∈ xs, ∃ ch, IsChoice E tg t.1 t.2 ch ∧ IsRule E x.source x.target x.alignment s (ch.lo, ch.hi) sg ch.gaps
  complete : ∀ ch, IsChoice E tg t.1 t.2 ch → ∃ x ∈ xs, x.target = (side ch.lo ch.hi ch.gaps).map (Slot.sym E.tgt) ∧
    IsRule E x.source x.target x.alignment s (ch.lo, ch.hi) sg ch.gaps
  ne : xs ≠ []
  tight : E.tight = true → xs.length = 1

/-- The core: what `AddExtracts` adds. -/
theorem addExtracts_sorted {E : XEnv} (hE : LinksOK E) {phrase : List Int} {m c : Nat} {ms : List (Nat × Nat)} (hocc : Occurs E.src E.minGap phrase ((m, c) :: ms))
    (L R : Bool) (a b : Nat) (ha : if L then a < m else a = m) (hb : if R then chunksEnd ((m, c) :: ms) < b else b = chunksEnd ((m, c) :: ms)) (hbl : b ≤ E.src.length)
    (sg tg : List (Nat × Nat))
    (hsg : sg = (if L then [(a, m)] else []) ++ natGaps ((m, c) :: ms) ++ if R then [(chunksEnd ((m, c) :: ms), b)] else [])
    (hlen : sg.length = tg.length) (t : Nat × Nat) (hsort : SortsGaps (castGaps tg) (gapOrder (castGaps tg))) (hf : Found E (a, b) t)
    (hg : ∀ (k : Nat) g u, sg[k]? = some g → tg[k]? = some u → Found E g u)
    (hsp : (b : Int) - a ≤ E.maxSpan) (htp : (t.2 : Int) - t.1 ≤ E.maxSpan) (hnt : sg.length ≤ E.maxNT) (hsy : (extendPhrase phrase L R).length ≤ E.maxSymbols)
    (hmg : ∀ g ∈ sg, E.minGap ≤ (g.2 : Int) - g.1) :
    ∃ xs, addExtracts E (extendPhrase phrase L R) (sourceIndexes ((m, c) :: ms) (if L then 1 else 0) fun _ => none) (castGaps tg) t.1 t.2 = some xs ∧
      Batch E (extendPhrase phrase L R) (a, b) t sg tg xs := by
  have hchain := occurs_chain hocc
  obtain ⟨hord, hside⟩ := side_source L R a b m c ms hchain ha hb
  rw [← hsg] at hord hside
  have hgs : GapsIn a b sg := hord.gapsIn
  have hgt := gapsIn_target hf hgs hlen hg
  have hsyms : (side a b sg).map (Slot.sym E.src) = extendPhrase phrase L R := by rw [hside]; exact source_syms hocc L R
  have hidx : ∀ p i, (side a b sg)[i]? = some (.word p) ↔ sourceIndexes ((m, c) :: ms) (if L then 1 else 0) (fun _ => none) p = some i := by
    intro p i; rw [hside]; exact sourceIndex_side L R m c ms hchain p i
  generalize hix : (sourceIndexes ((m, c) :: ms) (if L then 1 else 0) fun _ => none) = idx at hidx ⊢
  obtain ⟨choices, hnd, hmem, heq⟩ := extractPhrases_eq hE hgt hf.range.2 hsort
  have heq := heq idx
  -- facts about a choice
  have hch : ∀ ch, IsChoice E tg t.1 t.2 ch → Consistent E.links a b ch.lo ch.hi ∧
      (∀ (k : Nat) g u, sg[k]? = some g → ch.gaps[k]? = some u → Pair E g u) ∧ Pair E (a, b) (ch.lo, ch.hi) := by
    intro ch hc
    have p := hf.pair (t' := (ch.lo, ch.hi)) hc.span.1 hc.span.2.1 hc.free.1 hc.free.2
    refine ⟨p.consistent, ?_, p⟩
    intro k g u h1 h2
    have hk : k < tg.length := by rw [← hlen]; exact (List.getElem?_eq_some_iff.1 h1).1
    have h3 := List.getElem?_eq_getElem hk
    obtain ⟨b1, b2, b3, b4⟩ := hc.gaps k _ _ h3 h2
    exact (hg k _ _ h1 h3).pair b1 b2 b3 b4
  have hlinks : ∀ ch ∈ choices, ∃ al, phraseLinks E.links idx (side ch.lo ch.hi ch.gaps) = some al := by
    intro ch hc
    obtain ⟨c1, c2, _⟩ := hch ch ((hmem ch).1 hc)
    rw [phraseLinks, mapM_isSome]
    intro l hl
    rw [List.mem_filter, decide_eq_true_eq] at hl
    rw [Option.isSome_map]
    have := (word_iff (s := (a, b)) (t := (ch.lo, ch.hi)) c1 (hlen.trans ((hmem ch).1 hc).length.symm) (fun k g u h1 h2 => (c2 k g u h1 h2).consistent) hl.1).2 hl.2
    obtain ⟨i, hi, e⟩ := List.mem_iff_getElem.1 this
    rw [(hidx l.1 i).1 (by rw [List.getElem?_eq_getElem hi, e])]
    rfl
  have hsome : ∃ ts, extractPhrases E tg t.1 t.2 idx = some ts := by
    rw [heq, mapM_isSome]
    intro ch hc
    obtain ⟨al, h⟩ := hlinks ch hc
    rw [h]; rfl
  obtain ⟨ts, hts⟩ := hsome
  have hadd : addExtracts E (extendPhrase phrase L R) idx (castGaps tg) t.1 t.2 = some (ts.map fun u => ⟨extendPhrase phrase L R, u.1, 1 / (ts.length : Rat), u.2⟩) := by
    rw [addExtracts, castGaps_toNat, Int.toNat_natCast, Int.toNat_natCast, hts]; rfl
  refine ⟨_, hadd, ?_⟩
  have hts' := hts
  rw [heq] at hts
  obtain ⟨hl1, hl2⟩ := mapM_some_mem _ _ _ hts
  have mk : ∀ ch al, IsChoice E tg t.1 t.2 ch → phraseLinks E.links idx (side ch.lo ch.hi ch.gaps) = some al →
      IsRule E (extendPhrase phrase L R) ((side ch.lo ch.hi ch.gaps).map (Slot.sym E.tgt)) al (a, b) (ch.lo, ch.hi) sg ch.gaps := by
    intro ch al hc hal
    obtain ⟨c1, c2, c3⟩ := hch ch hc
    refine ⟨⟨hgs, hbl, hord.pairwise⟩, ⟨hc.inside, hc.span.2.2.1⟩, hlen.trans hc.length.symm, c3, c2, hsyms.symm, rfl, ?_, ⟨hsp, hc.span.2.2.2⟩, hnt, hsy, hmg⟩
    intro i j
    rw [mem_phraseLinks hal (side_nodup _ _ _)]
    simp only [hidx]
  refine ⟨?_, ?_, ?_, ?_, ?_, ?_⟩
  · intro x hx
    rw [List.mem_map] at hx
    obtain ⟨u, _, rfl⟩ := hx
    rfl
  · intro x hx
    rw [List.mem_map] at hx
    obtain ⟨u, _, rfl⟩ := hx
    simp
  · intro x hx
    rw [List.mem_map] at hx
    obtain ⟨u, hu, rfl⟩ := hx
    obtain ⟨k, hk, rfl⟩ := List.mem_iff_getElem.1 hu
    have hk' : k < choices.length := by omega
    have e := hl2 k _ _ (List.getElem?_eq_getElem hk') (List.getElem?_eq_getElem hk)
    rw [Option.map_eq_some_iff] at e
    obtain ⟨al, h1, h2⟩ := e
    have hc := (hmem _).1 (List.getElem_mem hk')
    refine ⟨_, hc, ?_⟩
    rw [← h2]
    exact mk _ al hc h1
  · intro ch hc
    obtain ⟨k, hk, rfl⟩ := List.mem_iff_getElem.1 ((hmem ch).2 hc)
    have hk' : k < ts.length := by omega
    have e := hl2 k _ _ (List.getElem?_eq_getElem hk) (List.getElem?_eq_getElem hk')
    rw [Option.map_eq_some_iff] at e
    obtain ⟨al, h1, h2⟩ := e
    refine ⟨_, List.mem_map_of_mem (List.getElem_mem hk'), ?_⟩
    rw [← h2]
    exact ⟨rfl, mk _ al hc h1⟩
  · intro h0
    have hmin : (⟨t.1, t.2, tg⟩ : Choice) ∈ choices := by
      rw [hmem]
      have free : ∀ a, Free E a a := fun a p h1 h2 => by omega
      refine ⟨⟨Nat.le_refl _, Nat.le_refl _, hf.range.2, htp⟩, ⟨free _, free _⟩, rfl, ?_, hgt⟩
      intro k g g' e e'
      rw [e] at e'
      cases e'
      exact ⟨Nat.le_refl _, Nat.le_refl _, free _, free _⟩
    have : ts = [] := by simpa using h0
    rw [this] at hl1
    rw [List.length_eq_zero_iff.1 hl1] at hmin
    cases hmin
  · intro ht
    have := choices_tight E tg t.1 t.2 hgt hf.range.2 ht htp choices hnd hmem
    rw [this] at hl1
    rw [List.length_map, ← hl1]
    rfl

/-- Without assumptions on the number of gaps. -/
theorem addExtracts_any {E : XEnv} (hE : LinksOK E) {phrase : List Int} {m c : Nat} {ms : List (Nat × Nat)} (hocc : Occurs E.src E.minGap phrase ((m, c) :: ms))
    (L R : Bool) (a b : Nat) (ha : if L then a < m else a = m) (hb : if R then chunksEnd ((m, c) :: ms) < b else b = chunksEnd ((m, c) :: ms)) (hbl : b ≤ E.src.length)
    (sg tg : List (Nat × Nat))
    (hsg : sg = (if L then [(a, m)] else []) ++ natGaps ((m, c) :: ms) ++ if R then [(chunksEnd ((m, c) :: ms), b)] else [])
    (hlen : sg.length = tg.length) (t : Nat × Nat) (hf : Found E (a, b) t)
    (hg : ∀ (k : Nat) g u, sg[k]? = some g → tg[k]? = some u → Found E g u)
    (hsp : (b : Int) - a ≤ E.maxSpan) (htp : (t.2 : Int) - t.1 ≤ E.maxSpan) (hnt : sg.length ≤ E.maxNT) (hsy : (extendPhrase phrase L R).length ≤ E.maxSymbols)
    (hmg : ∀ g ∈ sg, E.minGap ≤ (g.2 : Int) - g.1) :
    ∃ xs, addExtracts E (extendPhrase phrase L R) (sourceIndexes ((m, c) :: ms) (if L then 1 else 0) fun _ => none) (castGaps tg) t.1 t.2 = some xs ∧
      (xs = [] ∨ Batch E (extendPhrase phrase L R) (a, b) t sg tg xs) := by
  by_cases hs : SortsGaps (castGaps tg) (gapOrder (castGaps tg))
  · obtain ⟨xs, h1, h2⟩ := addExtracts_sorted hE hocc L R a b ha hb hbl sg tg hsg hlen t hs hf hg hsp htp hnt hsy hmg
    exact ⟨xs, h1, Or.inr h2⟩
  · obtain ⟨hord, _⟩ := side_source L R a b m c ms (occurs_chain hocc) ha hb
    rw [← hsg] at hord
    have hgt := gapsIn_target hf hord.gapsIn hlen hg
    refine ⟨[], ?_, Or.inl rfl⟩
    rw [addExtracts, castGaps_toNat, Int.toNat_natCast, Int.toNat_natCast, extractPhrases_unsorted hgt hs]
    rfl

/-- With up to two gaps. -/
theorem addExtracts_batch {E : XEnv} (hE : LinksOK E) {phrase : List Int} {m c : Nat} {ms : List (Nat × Nat)} (hocc : Occurs E.src E.minGap phrase ((m, c) :: ms))
    (L R : Bool) (a b : Nat) (ha : if L then a < m else a = m) (hb : if R then chunksEnd ((m, c) :: ms) < b else b = chunksEnd ((m, c) :: ms)) (hbl : b ≤ E.src.length)
    (sg tg : List (Nat × Nat))
    (hsg : sg = (if L then [(a, m)] else []) ++ natGaps ((m, c) :: ms) ++ if R then [(chunksEnd ((m, c) :: ms), b)] else [])
    (hlen : sg.length = tg.length) (htwo : sg.length ≤ 2) (t : Nat × Nat) (hf : Found E (a, b) t)
    (hg : ∀ (k : Nat) g u, sg[k]? = some g → tg[k]? = some u → Found E g u)
    (hsp : (b : Int) - a ≤ E.maxSpan) (htp : (t.2 : Int) - t.1 ≤ E.maxSpan) (hnt : sg.length ≤ E.maxNT) (hsy : (extendPhrase phrase L R).length ≤ E.maxSymbols)
    (hmg : ∀ g ∈ sg, E.minGap ≤ (g.2 : Int) - g.1) :
    ∃ xs, addExtracts E (extendPhrase phrase L R) (sourceIndexes ((m, c) :: ms) (if L then 1 else 0) fun _ => none) (castGaps tg) t.1 t.2 = some xs ∧
      Batch E (extendPhrase phrase L R) (a, b) t sg tg xs := by
  obtain ⟨hord, _⟩ := side_source L R a b m c ms (occurs_chain hocc) ha hb
  rw [← hsg] at hord
  exact addExtracts_sorted hE hocc L R a b ha hb hbl sg tg hsg hlen t (sortsGaps_two (gapsIn_target hf hord.gapsIn hlen hg) (by omega)) hf hg hsp htp hnt hsy hmg

end Cdec.Extract
