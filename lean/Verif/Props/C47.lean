import Verif.Extract.TransTable
import Mathlib.Algebra.BigOperators.Field
import Mathlib.Algebra.CharZero.Defs
import Mathlib.Algebra.Order.BigOperators.Group.Finset
import Mathlib.Data.Nat.Cast.Basic
import Mathlib.Tactic.ByContra
import Mathlib.Data.Rat.Defs
/-! # C47: lexical translation tables are normalised -/
namespace Cdec.Extract
open Finset

/-- Marginals agree: for any finite set of words outside which there are no links. -/
structure Balanced (S T : Finset Nat) (c : Counts) : Prop where
  src : ∀ s, c.src s = ∑ t ∈ T, c.links (s, t)
  trg : ∀ t, c.trg t = ∑ s ∈ S, c.links (s, t)

theorem Balanced.inc {S T : Finset Nat} {c : Counts} (h : Balanced S T c) {s t : Nat} (hs : s ∈ S) (ht : t ∈ T) :
    Balanced S T (c.inc s t) := by
  constructor
  · intro x
    simp only [Counts.inc, h.src x, Prod.mk.injEq]
    by_cases hx : x = s
    · subst hx
      simp only [if_true, true_and]
      have : ∀ t' ∈ T, (if t' = t then c.links (x, t') + 1 else c.links (x, t')) =
          c.links (x, t') + if t' = t then 1 else 0 := by
        intro t' _; split <;> rfl
      rw [sum_congr rfl this, sum_add_distrib, sum_ite_eq' T t, if_pos ht]
    · simp [hx]
  · intro x
    simp only [Counts.inc, h.trg x, Prod.mk.injEq]
    by_cases hx : x = t
    · subst hx
      simp only [if_true, and_true]
      have : ∀ s' ∈ S, (if s' = s then c.links (s', x) + 1 else c.links (s', x)) =
          c.links (s', x) + if s' = s then 1 else 0 := by
        intro s' _; split <;> rfl
      rw [sum_congr rfl this, sum_add_distrib, sum_ite_eq' S s, if_pos hs]
    · simp [hx]

/-- Counts never decrease. -/
def Le (c d : Counts) : Prop := (∀ x, c.src x ≤ d.src x) ∧ ∀ x, c.trg x ≤ d.trg x

theorem Le.refl (c : Counts) : Le c c := ⟨fun _ => Nat.le_refl _, fun _ => Nat.le_refl _⟩
theorem Le.trans {a b c : Counts} (h : Le a b) (h' : Le b c) : Le a c :=
  ⟨fun x => (h.1 x).trans (h'.1 x), fun x => (h.2 x).trans (h'.2 x)⟩
theorem le_inc (c : Counts) (s t : Nat) : Le c (c.inc s t) := by
  constructor <;> intro x <;> simp only [Counts.inc] <;> split <;> omega

theorem unlinked_spec {S T : Finset Nat} (inc : Counts → Nat → Counts) (ws : List Nat) (linked : List Bool)
    (hb : ∀ c w, w ∈ ws → Balanced S T c → Balanced S T (inc c w)) (hle : ∀ c w, Le c (inc c w)) (c : Counts)
    (h : Balanced S T c) :
    Balanced S T (countUnlinked inc ws linked c) ∧ Le c (countUnlinked inc ws linked c) ∧
    ∀ (i w : Nat), ws[i]? = some w → linked[i]? = some false → ∃ d, Le (inc d w) (countUnlinked inc ws linked c) := by
  unfold countUnlinked
  induction ws generalizing linked c with
  | nil => exact ⟨h, Le.refl _, fun i w hi => by simp at hi⟩
  | cons w ws ih =>
    cases linked with
    | nil => exact ⟨h, Le.refl _, fun i w _ hi => by simp at hi⟩
    | cons b linked =>
      simp only [List.zip_cons_cons, List.foldl_cons]
      have h1 : Balanced S T (if b = true then c else inc c w) := by
        split
        · exact h
        · exact hb c w (by simp) h
      have h2 : Le c (if b = true then c else inc c w) := by
        split
        · exact Le.refl _
        · exact hle c w
      obtain ⟨r1, r2, r3⟩ := ih linked (fun c' w' hw => hb c' w' (by simp [hw])) _ h1
      refine ⟨r1, h2.trans r2, fun i w' hi hl => ?_⟩
      cases i with
      | zero =>
        simp only [List.getElem?_cons_zero, Option.some.injEq] at hi hl
        subst hi; subst hl
        exact ⟨c, r2⟩
      | succ i => exact r3 i w' (by simpa using hi) (by simpa using hl)

theorem links_spec {S T : Finset Nat} (sp : SentPair) (hS : ∀ w ∈ sp.src, w ∈ S) (hT : ∀ w ∈ sp.trg, w ∈ T)
    (ls : List (Nat × Nat)) : ∀ (c : Counts) (sl tl : List Bool) (r : Counts × List Bool × List Bool),
    Balanced S T c → sl.length = sp.src.length → tl.length = sp.trg.length →
    (∀ (i w : Nat), sp.src[i]? = some w → sl[i]? = some true → 0 < c.src w) →
    (∀ (i w : Nat), sp.trg[i]? = some w → tl[i]? = some true → 0 < c.trg w) →
    countLinks sp ls (c, sl, tl) = some r →
    Balanced S T r.1 ∧ Le c r.1 ∧ r.2.1.length = sp.src.length ∧ r.2.2.length = sp.trg.length ∧
    (∀ (i w : Nat), sp.src[i]? = some w → r.2.1[i]? = some true → 0 < r.1.src w) ∧
    (∀ (i w : Nat), sp.trg[i]? = some w → r.2.2[i]? = some true → 0 < r.1.trg w) := by
  induction ls with
  | nil =>
    intro c sl tl r hb h1 h2 h3 h4 hr
    simp only [countLinks, Option.some.injEq] at hr
    subst hr
    exact ⟨hb, Le.refl _, h1, h2, h3, h4⟩
  | cons l ls ih =>
    intro c sl tl r hb h1 h2 h3 h4 hr
    obtain ⟨i, j⟩ := l
    simp only [countLinks] at hr
    split at hr
    · rename_i s t hs ht
      have hle := le_inc c s t
      have r := ih (c.inc s t) (sl.set i true) (tl.set j true) r
        (hb.inc (hS s (List.mem_of_getElem? hs)) (hT t (List.mem_of_getElem? ht)))
        (by simpa using h1) (by simpa using h2) ?_ ?_ hr
      · exact ⟨r.1, hle.trans r.2.1, r.2.2⟩
      · intro k w hk hl
        by_cases hki : i = k
        · subst hki
          rw [hs, Option.some.injEq] at hk
          subst hk; simp [Counts.inc]
        · rw [List.getElem?_set_ne hki] at hl
          exact (h3 k w hk hl).trans_le (hle.1 w)
      · intro k w hk hl
        by_cases hki : j = k
        · subst hki
          rw [ht, Option.some.injEq] at hk
          subst hk; simp [Counts.inc]
        · rw [List.getElem?_set_ne hki] at hl
          exact (h4 k w hk hl).trans_le (hle.2 w)
    · simp at hr

theorem pair_spec {S T : Finset Nat} (h0S : nullWord ∈ S) (h0T : nullWord ∈ T) (sp : SentPair)
    (hS : ∀ w ∈ sp.src, w ∈ S) (hT : ∀ w ∈ sp.trg, w ∈ T) (c d : Counts) (hb : Balanced S T c)
    (h : countPair c sp = some d) :
    Balanced S T d ∧ Le c d ∧ (∀ w ∈ sp.src, 0 < d.src w) ∧ (∀ w ∈ sp.trg, 0 < d.trg w) := by
  unfold countPair at h
  simp only [Option.map_eq_some_iff] at h
  obtain ⟨⟨c1, sl, tl⟩, hr, hd⟩ := h
  obtain ⟨a1, a2, a3, a4, a5, a6⟩ := links_spec sp hS hT sp.links c _ _ _ hb (by simp) (by simp)
    (by intro i w _ hl; rw [List.getElem?_replicate] at hl; split at hl <;> simp at hl)
    (by intro i w _ hl; rw [List.getElem?_replicate] at hl; split at hl <;> simp at hl) hr
  simp only at a1 a2 a3 a4 a5 a6 hd
  obtain ⟨b1, b2, b3⟩ := unlinked_spec (S := S) (T := T) (fun c w => c.inc w nullWord) sp.src sl
    (fun c w hw hc => hc.inc (hS w hw) h0T) (fun c w => le_inc c w nullWord) c1 a1
  obtain ⟨e1, e2, e3⟩ := unlinked_spec (S := S) (T := T) (fun c w => c.inc nullWord w) sp.trg tl
    (fun c w hw hc => hc.inc h0S (hT w hw)) (fun c w => le_inc c nullWord w) _ b1
  rw [hd] at e1 e2 e3
  refine ⟨e1, a2.trans (b2.trans e2), ?_, ?_⟩
  · intro w hw
    obtain ⟨i, hi, rfl⟩ := List.mem_iff_getElem.1 hw
    have hi' : sp.src[i]? = some sp.src[i] := List.getElem?_eq_getElem hi
    have hil : i < sl.length := by omega
    cases hb : sl[i] with
    | true =>
      have := a5 i _ hi' (by rw [List.getElem?_eq_getElem hil, hb])
      exact this.trans_le ((b2.trans e2).1 _)
    | false =>
      obtain ⟨x, hx⟩ := b3 i _ hi' (by rw [List.getElem?_eq_getElem hil, hb])
      have := (hx.trans e2).1 sp.src[i]
      simp [Counts.inc] at this
      omega
  · intro w hw
    obtain ⟨i, hi, rfl⟩ := List.mem_iff_getElem.1 hw
    have hi' : sp.trg[i]? = some sp.trg[i] := List.getElem?_eq_getElem hi
    have hil : i < tl.length := by omega
    cases hb : tl[i] with
    | true =>
      have := a6 i _ hi' (by rw [List.getElem?_eq_getElem hil, hb])
      exact this.trans_le ((b2.trans e2).2 _)
    | false =>
      obtain ⟨x, hx⟩ := e3 i _ hi' (by rw [List.getElem?_eq_getElem hil, hb])
      have := hx.2 sp.trg[i]
      simp [Counts.inc] at this
      omega

theorem corpus_spec {S T : Finset Nat} (h0S : nullWord ∈ S) (h0T : nullWord ∈ T) (corpus : List SentPair)
    (hS : ∀ sp ∈ corpus, ∀ w ∈ sp.src, w ∈ S) (hT : ∀ sp ∈ corpus, ∀ w ∈ sp.trg, w ∈ T) :
    ∀ (c d : Counts), Balanced S T c → corpus.foldlM countPair c = some d →
    Balanced S T d ∧ Le c d ∧ (∀ sp ∈ corpus, ∀ w ∈ sp.src, 0 < d.src w) ∧
      (∀ sp ∈ corpus, ∀ w ∈ sp.trg, 0 < d.trg w) := by
  induction corpus with
  | nil =>
    intro c d hb h
    have : c = d := by simpa using h
    subst this
    exact ⟨hb, Le.refl _, by simp, by simp⟩
  | cons sp corpus ih =>
    intro c d hb h
    rw [List.foldlM_cons] at h
    obtain ⟨c1, h1, h2⟩ := Option.bind_eq_some_iff.1 h
    obtain ⟨a1, a2, a3, a4⟩ := pair_spec h0S h0T sp (hS sp (by simp)) (hT sp (by simp)) c c1 hb h1
    obtain ⟨b1, b2, b3, b4⟩ := ih (fun sp' hm => hS sp' (by simp [hm])) (fun sp' hm => hT sp' (by simp [hm])) c1 d a1 h2
    refine ⟨b1, a2.trans b2, ?_, ?_⟩
    · intro sp' hm w hw
      rcases List.mem_cons.1 hm with rfl | hm
      · exact (a3 w hw).trans_le (b2.1 w)
      · exact b3 sp' hm w hw
    · intro sp' hm w hw
      rcases List.mem_cons.1 hm with rfl | hm
      · exact (a4 w hw).trans_le (b2.2 w)
      · exact b4 sp' hm w hw

variable {K : Type} [Field K] [CharZero K]

/-- C47.  For every corpus whose links are in range, let `S`, `T` be any finite sets of words that contain NULL and
the words of the source resp. target side.  Every source word `s` of the corpus has scores p(t|s) that sum to one
over `T`, every target word `t` has scores p(s|t) that sum to one over `S`; NULL too, if it has any link. -/
theorem C47_normalised (corpus : List SentPair) (c : Counts) (hc : countCorpus corpus = some c)
    (S T : Finset Nat) (h0S : nullWord ∈ S) (h0T : nullWord ∈ T)
    (hS : ∀ sp ∈ corpus, ∀ w ∈ sp.src, w ∈ S) (hT : ∀ sp ∈ corpus, ∀ w ∈ sp.trg, w ∈ T) :
    (∀ s, (∃ sp ∈ corpus, s ∈ sp.src) ∨ (∃ t, c.links (s, t) ≠ 0) → ∑ t ∈ T, targetGivenSource (K := K) c s t = 1) ∧
    (∀ t, (∃ sp ∈ corpus, t ∈ sp.trg) ∨ (∃ s, c.links (s, t) ≠ 0) → ∑ s ∈ S, sourceGivenTarget (K := K) c s t = 1) := by
  have hb0 : Balanced S T {} := ⟨fun s => by simp, fun t => by simp⟩
  obtain ⟨h1, _, h3, h4⟩ := corpus_spec h0S h0T corpus hS hT {} c hb0 hc
  -- a link to a word outside the sets is impossible: take the larger sets
  have hbig : ∀ s t, c.links (s, t) ≠ 0 → 0 < c.src s ∧ 0 < c.trg t := by
    intro s t hne
    have hbS : Balanced (insert s S) (insert t T) c :=
      (corpus_spec (S := insert s S) (T := insert t T) (by simp [h0S]) (by simp [h0T]) corpus
        (fun sp hm w hw => by simp [hS sp hm w hw]) (fun sp hm w hw => by simp [hT sp hm w hw]) {} c
        ⟨fun s => by simp, fun t => by simp⟩ hc).1
    constructor
    · rw [hbS.src s]
      exact (Nat.pos_of_ne_zero hne).trans_le (single_le_sum (f := fun t => c.links (s, t)) (fun _ _ => Nat.zero_le _) (by simp))
    · rw [hbS.trg t]
      exact (Nat.pos_of_ne_zero hne).trans_le (single_le_sum (f := fun s => c.links (s, t)) (fun _ _ => Nat.zero_le _) (by simp))
  constructor
  · intro s hs
    have hpos : 0 < c.src s := by
      rcases hs with ⟨sp, hm, hw⟩ | ⟨t, ht⟩
      · exact h3 sp hm s hw
      · exact (hbig s t ht).1
    have : ∀ t ∈ T, targetGivenSource (K := K) c s t = (c.links (s, t) : K) / (c.src s : K) := by
      intro t _
      unfold targetGivenSource
      split
      · rename_i h; rw [h]; simp
      · rfl
    rw [sum_congr rfl this, ← sum_div, ← Nat.cast_sum, ← h1.src s]
    exact div_self (by exact_mod_cast hpos.ne')
  · intro t ht
    have hpos : 0 < c.trg t := by
      rcases ht with ⟨sp, hm, hw⟩ | ⟨s, hs⟩
      · exact h4 sp hm t hw
      · exact (hbig s t hs).2
    have : ∀ s ∈ S, sourceGivenTarget (K := K) c s t = (c.links (s, t) : K) / (c.trg t : K) := by
      intro s _
      unfold sourceGivenTarget
      split
      · rename_i h; rw [h]; simp
      · rfl
    rw [sum_congr rfl this, ← sum_div, ← Nat.cast_sum, ← h1.trg t]
    exact div_self (by exact_mod_cast hpos.ne')

/-- Counting is defined whenever the links are in range. -/
theorem C47_defined (corpus : List SentPair)
    (hl : ∀ sp ∈ corpus, ∀ l ∈ sp.links, l.1 < sp.src.length ∧ l.2 < sp.trg.length) :
    ∃ c, countCorpus corpus = some c := by
  have hlinks : ∀ (sp : SentPair) (ls : List (Nat × Nat)) (st : Counts × List Bool × List Bool),
      (∀ l ∈ ls, l.1 < sp.src.length ∧ l.2 < sp.trg.length) → ∃ r, countLinks sp ls st = some r := by
    intro sp ls
    induction ls with
    | nil => intro st _; exact ⟨st, rfl⟩
    | cons l ls ih =>
      intro st h
      obtain ⟨i, j⟩ := l
      obtain ⟨c, sl, tl⟩ := st
      have hij := h (i, j) (by simp)
      simp only [countLinks, List.getElem?_eq_getElem hij.1, List.getElem?_eq_getElem hij.2]
      exact ih _ fun l hm => h l (by simp [hm])
  unfold countCorpus
  have : ∀ c0 : Counts, ∃ c, corpus.foldlM countPair c0 = some c := by
    induction corpus with
    | nil => intro c0; exact ⟨c0, rfl⟩
    | cons sp corpus ih =>
      intro c0
      obtain ⟨r, hr⟩ := hlinks sp sp.links (c0, _, _) (hl sp (by simp))
      rw [List.foldlM_cons]
      unfold countPair
      rw [hr]
      exact ih (fun sp' hm => hl sp' (by simp [hm])) _
  exact this {}

/-- The number of links between the words `s` and `t` in a sentence pair. -/
def linkedTimes (sp : SentPair) (s t : Nat) : Nat :=
  sp.links.countP fun l => decide (sp.src[l.1]? = some s ∧ sp.trg[l.2]? = some t)

/-- The number of positions `i` with word `w` that are not in `used`. -/
def unlinkedTimes (ws : List Nat) (used : List Nat) (w : Nat) : Nat :=
  (List.range ws.length).countP fun i => decide (ws[i]? = some w ∧ i ∉ used)

/-- What one sentence pair contributes to the count of (s, t). -/
def contribution (sp : SentPair) (s t : Nat) : Nat :=
  linkedTimes sp s t + (if t = nullWord then unlinkedTimes sp.src (sp.links.map Prod.fst) s else 0) +
    (if s = nullWord then unlinkedTimes sp.trg (sp.links.map Prod.snd) t else 0)

theorem countLinks_links (sp : SentPair) (ls : List (Nat × Nat)) : ∀ (c : Counts) (sl tl : List Bool)
    (r : Counts × List Bool × List Bool), countLinks sp ls (c, sl, tl) = some r →
    (∀ s t, r.1.links (s, t) = c.links (s, t) +
      ls.countP fun l => decide (sp.src[l.1]? = some s ∧ sp.trg[l.2]? = some t)) ∧
    r.2.1.length = sl.length ∧ r.2.2.length = tl.length ∧
    (∀ i : Nat, i < sl.length → r.2.1[i]? = if i ∈ ls.map Prod.fst then some true else sl[i]?) ∧
    (∀ i : Nat, i < tl.length → r.2.2[i]? = if i ∈ ls.map Prod.snd then some true else tl[i]?) := by
  induction ls with
  | nil =>
    intro c sl tl r hr
    simp only [countLinks, Option.some.injEq] at hr
    subst hr; simp
  | cons l ls ih =>
    intro c sl tl r hr
    obtain ⟨i, j⟩ := l
    simp only [countLinks] at hr
    split at hr
    · rename_i s t hs ht
      obtain ⟨a1, a2, a3, a4, a5⟩ := ih _ _ _ _ hr
      refine ⟨fun s' t' => ?_, by simpa using a2, by simpa using a3, fun k hk => ?_, fun k hk => ?_⟩
      · rw [a1, List.countP_cons]
        simp only [Counts.inc, Prod.mk.injEq, hs, ht, Option.some.injEq, decide_eq_true_eq]
        by_cases h : s' = s ∧ t' = t
        · rw [if_pos h, if_pos ⟨h.1.symm, h.2.symm⟩]; omega
        · rw [if_neg h, if_neg fun h' => h ⟨h'.1.symm, h'.2.symm⟩]; omega
      · rw [a4 k (by simpa using hk)]
        simp only [List.map_cons, List.mem_cons]
        by_cases h : k ∈ ls.map Prod.fst
        · simp [h]
        · by_cases hki : k = i
          · subst hki; simp [h, hk]
          · simp only [h, hki, or_self, if_false]
            rw [List.getElem?_set_ne (Ne.symm hki)]
      · rw [a5 k (by simpa using hk)]
        simp only [List.map_cons, List.mem_cons]
        by_cases h : k ∈ ls.map Prod.snd
        · simp [h]
        · by_cases hki : k = j
          · subst hki; simp [h, hk]
          · simp only [h, hki, or_self, if_false]
            rw [List.getElem?_set_ne (Ne.symm hki)]
    · simp at hr

theorem countUnlinked_links (g : Nat → Nat × Nat) (ws : List Nat) (linked : List Bool) (hl : linked.length = ws.length) :
    ∀ (c : Counts) (x : Nat × Nat),
    (countUnlinked (fun c w => c.inc (g w).1 (g w).2) ws linked c).links x =
      c.links x + (ws.zip linked).countP fun p => decide (p.2 = false ∧ g p.1 = x) := by
  unfold countUnlinked
  clear hl
  induction ws generalizing linked with
  | nil => simp
  | cons w ws ih =>
    cases linked with
    | nil => simp
    | cons b linked =>
      intro c x
      simp only [List.zip_cons_cons, List.foldl_cons]
      rw [ih, List.countP_cons]
      cases b with
      | true => simp
      | false =>
        simp only [Counts.inc, Bool.false_eq_true, if_false, true_and, decide_eq_true_eq, eq_comm (a := x)]
        split <;> omega

theorem zip_count (ws : List Nat) (linked : List Bool) (hl : linked.length = ws.length) (used : List Nat)
    (hu : ∀ i, i < ws.length → linked[i]? = if i ∈ used then some true else some false) (w : Nat) :
    (ws.zip linked).countP (fun p => decide (p.2 = false ∧ p.1 = w)) = unlinkedTimes ws used w := by
  unfold unlinkedTimes
  have e : ws.zip linked = (List.range ws.length).map fun i => (ws.getD i 0, linked.getD i false) := by
    apply List.ext_getElem
    · simp [hl]
    · intro i h1 h2
      simp at h1 h2
      simp [List.getD_eq_getElem?_getD, h1]
  rw [e, List.countP_map]
  apply List.countP_congr
  intro i hi
  have hi' := List.mem_range.1 hi
  have h1 := hu i hi'
  simp only [Function.comp, decide_eq_true_eq, List.getD_eq_getElem?_getD, h1, List.getElem?_eq_getElem hi', Option.getD_some,
    Option.some.injEq]
  by_cases hm : i ∈ used <;> simp [hm]

theorem pair_counts (c d : Counts) (sp : SentPair) (h : countPair c sp = some d) (s t : Nat) :
    d.links (s, t) = c.links (s, t) + contribution sp s t := by
  unfold countPair at h
  simp only [Option.map_eq_some_iff] at h
  obtain ⟨⟨c1, sl, tl⟩, hr, hd⟩ := h
  obtain ⟨a1, a2, a3, a4, a5⟩ := countLinks_links sp sp.links _ _ _ _ hr
  simp only [List.length_replicate] at a1 a2 a3 a4 a5 hd
  rw [← hd, countUnlinked_links (fun w => (nullWord, w)) sp.trg tl a3,
    countUnlinked_links (fun w => (w, nullWord)) sp.src sl a2, a1]
  have z1 := fun w => zip_count sp.src sl a2 (sp.links.map Prod.fst)
    (fun i hi => by rw [a4 i hi, List.getElem?_replicate, if_pos hi]) w
  have z2 := fun w => zip_count sp.trg tl a3 (sp.links.map Prod.snd)
    (fun i hi => by rw [a5 i hi, List.getElem?_replicate, if_pos hi]) w
  unfold contribution linkedTimes
  simp only [Prod.mk.injEq]
  have e1 : (sp.src.zip sl).countP (fun p => decide (p.2 = false ∧ p.1 = s ∧ nullWord = t)) =
      if t = nullWord then unlinkedTimes sp.src (sp.links.map Prod.fst) s else 0 := by
    by_cases ht : t = nullWord
    · simp only [ht, and_true, if_true, z1]
    · simp [ht, Ne.symm ht]
  have e2 : (sp.trg.zip tl).countP (fun p => decide (p.2 = false ∧ nullWord = s ∧ p.1 = t)) =
      if s = nullWord then unlinkedTimes sp.trg (sp.links.map Prod.snd) t else 0 := by
    by_cases hs : s = nullWord
    · simp only [hs, true_and, if_true, z2]
    · simp [hs, Ne.symm hs]
  rw [e1, e2]
  omega

/-- C47, what is counted: the count of (s, t) is the number of links between occurrences of the two words, plus,
for `t = NULL`, the number of occurrences of `s` without a link, and likewise for `s = NULL`. -/
theorem C47_counts (corpus : List SentPair) (c : Counts) (hc : countCorpus corpus = some c) (s t : Nat) :
    c.links (s, t) = (corpus.map fun sp => contribution sp s t).sum := by
  have key : ∀ c0 : Counts, corpus.foldlM countPair c0 = some c →
      c.links (s, t) = c0.links (s, t) + (corpus.map fun sp => contribution sp s t).sum := by
    clear hc
    induction corpus with
    | nil =>
      intro c0 h
      have : c0 = c := by simpa using h
      subst this; simp
    | cons sp corpus ih =>
      intro c0 h
      rw [List.foldlM_cons] at h
      obtain ⟨c1, h1, h2⟩ := Option.bind_eq_some_iff.1 h
      rw [ih c1 h2, pair_counts c0 c1 sp h1]
      simp; omega
  have := key {} hc
  simpa using this

/-- Non-vacuity: two sentence pairs; word 2 is linked to 5 and to 6 once each, word 3 is unlinked. -/
example : ∃ c, countCorpus [⟨[2, 3], [5], [(0, 0)]⟩, ⟨[2], [6, 7], [(0, 0)]⟩] = some c ∧
    targetGivenSource (K := ℚ) c 2 5 = 1 / 2 ∧ targetGivenSource (K := ℚ) c 3 nullWord = 1 ∧
    sourceGivenTarget (K := ℚ) c nullWord 7 = 1 :=
  ⟨_, rfl, by decide +kernel, by decide +kernel, by decide +kernel⟩

end Cdec.Extract
