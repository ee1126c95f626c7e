import Verif.Klm.TrieBuilt
import Verif.Props.C51
import Mathlib.Data.List.Sort
/-!
# Finding n-grams in the trie
-/
namespace Cdec.Klm

/-- `C51_bounded_find` when only the range searched is sorted. -/
theorem bounded_find_range (M N : Nat) (piv : Nat → Nat → Nat → Nat) (hc : PivotOk M N piv)
    (a : List Nat) (lo hi : Nat) (hs : ∀ (i j x y : Nat), lo < i → i ≤ j → j < hi → a[i]? = some x → a[j]? = some y → x ≤ y) (key : Nat)
    (bi bv ai av : Nat) (hlo : lo ≤ bi) (hhi : ai ≤ hi) (ha : ai ≤ a.length) (hb : bv ≤ key) (hk : key ≤ av)
    (hr : ∀ (p x : Nat), bi < p → p < ai → a[p]? = some x → bv ≤ x ∧ x ≤ av)
    (hM : av ≤ M) (hN : ai - bi - 1 ≤ N) :
    ∃ r, boundedFind piv a key bi bv ai av = some r ∧ answer a (bi + 1) ai key r := by
  fun_induction boundedFind piv a key bi bv ai av with
  | case1 bi bv ai av hw pivot hp hn =>
    exfalso
    rw [List.getElem?_eq_getElem (by omega)] at hn; cases hn
  | case2 bi bv ai av hw pivot hp mid hm hlt ih =>
    have hbp : bi < pivot := by simp only [pivot]; omega
    obtain ⟨r, hr', hans⟩ := ih (by omega) hhi ha (by omega) hk
      (fun p x h1 h2 hx => ⟨hs _ _ _ _ (by omega) (by omega) (by omega) hm hx, (hr p x (by simp only [pivot] at h1; omega) h2 hx).2⟩) hM
      (by simp only [pivot]; omega)
    refine ⟨r, hr', ?_⟩
    cases r with
    | some p => simp only [answer, pivot] at hans ⊢; exact ⟨by omega, hans.2⟩
    | none =>
      intro p h1 h2 hpk
      by_cases hpp : p ≤ pivot
      · exact absurd (hs _ _ _ _ (by omega) hpp (by omega) hpk hm) (not_le.mpr hlt)
      · exact hans p (by omega) h2 hpk
  | case3 bi bv ai av hw pivot hp mid hm hnlt hgt ih =>
    have hbp : bi < pivot := by simp only [pivot]; omega
    have hmid := hr pivot mid (by simp only [pivot]; omega) hp hm
    obtain ⟨r, hr', hans⟩ := ih hlo (by omega) (by omega) hb (by omega)
      (fun p x h1 h2 hx => ⟨(hr p x h1 (by omega) hx).1, hs _ _ _ _ (by omega) (by omega) (by omega) hx hm⟩) (by omega) (by omega)
    refine ⟨r, hr', ?_⟩
    cases r with
    | some p => simp only [answer] at hans ⊢; exact ⟨hans.1, by omega, hans.2.2⟩
    | none =>
      intro p h1 h2 hpk
      by_cases hpp : pivot ≤ p
      · exact absurd (hs _ _ _ _ (by omega) hpp (by omega) hm hpk) (not_le.mpr hgt)
      · exact hans p h1 (by omega) hpk
  | case4 bi bv ai av hw pivot hp mid hm hnlt hngt =>
    refine ⟨some pivot, rfl, ?_, hp, ?_⟩
    · simp only [pivot]; omega
    · rw [hm]; congr 1; omega
  | case5 bi bv ai av hw pivot hp =>
    exfalso
    apply hp
    have := hc (key - bv) (av - bv) (ai - bi - 1) (by omega) (by omega) (by omega) (by omega)
    simp only [pivot]; omega
  | case6 bi bv ai av hw =>
    exact ⟨none, rfl, fun p h1 h2 => by omega⟩

namespace LM
variable {K : Type}

theorem findSlot_le {vocab : Nat} {tab : List (Slot K)} {w : Nat} {b e : Nat} (hsz : (vocab + 1) * tab.length < 2 ^ 64) (hv : vocab + 1 < 2 ^ 64) (he : e ≤ tab.length) (hw : w ≤ vocab)
    (hr : ∀ (i : Nat) (s : Slot K), b ≤ i → i < e → tab[i]? = some s → s.word ≤ vocab)
    (hs : ∀ (i j : Nat) (s s' : Slot K), b ≤ i → i < j → j < e → tab[i]? = some s → tab[j]? = some s' → s.word < s'.word) (i : Nat) :
    findSlot vocab tab w b e = some i ↔ b ≤ i ∧ i < e ∧ ∃ s, tab[i]? = some s ∧ s.word = w := by
  have hget : ∀ (p x : Nat), b < p → p < e + 1 → (0 :: tab.map (·.word))[p]? = some x → ∃ s, tab[p - 1]? = some s ∧ s.word = x := by
    intro p x h1 h2 hx
    obtain ⟨q, rfl⟩ : ∃ q, p = q + 1 := ⟨p - 1, by omega⟩
    rw [List.getElem?_cons_succ, List.getElem?_map, Option.map_eq_some_iff] at hx
    simpa using hx
  obtain ⟨r, h1, h2⟩ := bounded_find_range vocab tab.length pivot32 ((C51_pivots_in_range vocab tab.length).1 hsz hv) (0 :: tab.map (·.word)) b (e + 1) (by
      intro i j x y hi hij hj hx hy
      rcases Nat.lt_or_eq_of_le hij with h | h
      · obtain ⟨s, e1, e2⟩ := hget i x hi (by omega) hx
        obtain ⟨s', e3, e4⟩ := hget j y (by omega) hj hy
        have := hs (i - 1) (j - 1) s s' (by omega) (by omega) (by omega) e1 e3
        rw [e2, e4] at this
        exact le_of_lt this
      · subst h
        rw [hx] at hy
        cases hy
        exact le_refl _) w b 0 (e + 1) vocab (le_refl _) (le_refl _) (by simp; omega) (Nat.zero_le _) hw (by
      intro p x hp1 hp2 hx
      obtain ⟨s, e1, e2⟩ := hget p x hp1 hp2 hx
      exact ⟨Nat.zero_le _, e2 ▸ hr (p - 1) s (by omega) (by omega) e1⟩) (le_refl _) (by omega)
  unfold findSlot
  rw [h1]
  have key : (0 :: tab.map (·.word))[i + 1]? = some w ↔ ∃ s, tab[i]? = some s ∧ s.word = w := by
    rw [List.getElem?_cons_succ, List.getElem?_map, Option.map_eq_some_iff]
  cases r with
  | none =>
    simp only [reduceCtorEq, false_iff]
    rintro ⟨h3, h4, h5⟩
    exact h2 (i + 1) (by omega) (by omega) (key.2 h5)
  | some p =>
    obtain ⟨h3, h4, h5⟩ := h2
    obtain ⟨s, e1, e2⟩ := hget p w (by omega) h4 h5
    simp only [Option.some.injEq]
    constructor
    · rintro rfl
      exact ⟨by omega, by omega, s, e1, e2⟩
    · rintro ⟨h6, h7, s', e3, e4⟩
      rcases Nat.lt_trichotomy (p - 1) i with h | h | h
      · have := hs (p - 1) i s s' (by omega) h h7 e1 e3
        rw [e2, e4] at this
        exact absurd this (lt_irrefl _)
      · exact h
      · have := hs i (p - 1) s' s h6 h (by omega) e3 e1
        rw [e2, e4] at this
        exact absurd this (lt_irrefl _)

theorem boundedFind_sound (piv : Nat → Nat → Nat → Nat) (a : List Nat) (key bi bv ai av : Nat) {p : Nat} (h : boundedFind piv a key bi bv ai av = some (some p)) :
    bi < p ∧ p < ai ∧ a[p]? = some key := by
  fun_induction boundedFind piv a key bi bv ai av with
  | case1 => cases h
  | case2 bi bv ai av hw pivot hp mid hm hlt ih =>
    obtain ⟨h1, h2, h3⟩ := ih h
    exact ⟨by simp only [pivot] at h1; omega, h2, h3⟩
  | case3 bi bv ai av hw pivot hp mid hm hnlt hgt ih =>
    obtain ⟨h1, h2, h3⟩ := ih h
    exact ⟨h1, by omega, h3⟩
  | case4 bi bv ai av hw pivot hp mid hm hnlt hngt =>
    have e : pivot = p := by simpa using h
    rw [← e]
    refine ⟨by simp only [pivot]; omega, hp, ?_⟩
    rw [hm]; congr 1; omega
  | case5 => cases h
  | case6 => cases h

/-- A word that is not in the vocabulary is not found. -/
theorem findSlot_spec {vocab : Nat} {tab : List (Slot K)} {w : Nat} {b e : Nat} (hsz : (vocab + 1) * tab.length < 2 ^ 64) (hv : vocab + 1 < 2 ^ 64) (he : e ≤ tab.length)
    (hr : ∀ (i : Nat) (s : Slot K), b ≤ i → i < e → tab[i]? = some s → s.word ≤ vocab)
    (hs : ∀ (i j : Nat) (s s' : Slot K), b ≤ i → i < j → j < e → tab[i]? = some s → tab[j]? = some s' → s.word < s'.word) (i : Nat) :
    findSlot vocab tab w b e = some i ↔ b ≤ i ∧ i < e ∧ ∃ s, tab[i]? = some s ∧ s.word = w := by
  by_cases hw : w ≤ vocab
  · exact findSlot_le hsz hv he hw hr hs i
  · constructor
    · intro h
      exfalso
      unfold findSlot at h
      split at h
      · rename_i p hp
        obtain ⟨h1, h2, h3⟩ := boundedFind_sound _ _ _ _ _ _ _ hp
        obtain ⟨q, rfl⟩ : ∃ q, p = q + 1 := ⟨p - 1, by omega⟩
        rw [List.getElem?_cons_succ, List.getElem?_map, Option.map_eq_some_iff] at h3
        obtain ⟨s, e1, e2⟩ := h3
        exact hw (e2 ▸ hr q s (by omega) (by omega) e1)
      · cases h
    · rintro ⟨h1, h2, s, h3, rfl⟩
      exact absurd (hr i s h1 h2 h3) hw

/-! ## Ranges -/

/-- The next pointer of the `j`-th n-gram of an order. -/
def nextOf (C : List (Call K)) (n j : Nat) : Nat :=
  match (gramsOf C n)[j]? with
  | some p => before C (n + 1) p
  | none => (gramsOf C (n + 1)).length

theorem count_lt {E : List (List Word)} (hs : E.Pairwise (· < ·)) (p : List Word) : ∀ (i : Nat) (q : List Word), E[i]? = some q → (i < E.countP (fun x => decide (x < p)) ↔ q < p) := by
  induction E with
  | nil => intro i q h; simp at h
  | cons x E ih =>
    obtain ⟨h1, h2⟩ := List.pairwise_cons.1 hs
    intro i q h
    by_cases hx : x < p
    · rw [List.countP_cons_of_pos (by simpa using hx)]
      cases i with
      | zero => simp at h; subst h; simp [hx]
      | succ i =>
        rw [List.getElem?_cons_succ] at h
        rw [Nat.add_lt_add_iff_right]
        exact ih h2 i q h
    · have h0 : (x :: E).countP (fun x => decide (x < p)) = 0 := by
        rw [List.countP_eq_zero]
        intro y hy
        simp only [decide_eq_true_eq]
        rcases List.mem_cons.1 hy with rfl | hy
        · exact hx
        · exact fun h => hx (lt_trans (h1 y hy) h)
      rw [h0]
      refine ⟨fun h => absurd h (by omega), fun hq => ?_⟩
      have hm := List.mem_of_getElem? h
      rcases List.mem_cons.1 hm with rfl | hm
      · exact absurd hq hx
      · exact absurd (lt_trans (h1 q hm) hq) hx

theorem gramsOf_sorted {C : List (Call K)} (hs : (C.map Call.gram).Pairwise (· < ·)) (n : Nat) : (gramsOf C n).Pairwise (· < ·) := hs.filter _

theorem mem_gramsOf {C : List (Call K)} {n : Nat} {g : List Word} : g ∈ gramsOf C n ↔ g ∈ C.map Call.gram ∧ g.length = n := by
  unfold gramsOf
  rw [List.mem_filter]
  simp

theorem range_spec {C : List (Call K)} (hs : (C.map Call.gram).Pairwise (· < ·)) (hcl : ∀ c ∈ C, ∀ n, 1 ≤ n → n < c.gram.length → c.gram.take n ∈ C.map Call.gram) {n j : Nat} (hn : 1 ≤ n) {p : List Word}
    (hp : (gramsOf C n)[j]? = some p) (i : Nat) (q : List Word) (hq : (gramsOf C (n + 1))[i]? = some q) : (nextOf C n j ≤ i ∧ i < nextOf C n (j + 1)) ↔ q.take n = p := by
  have hsn := gramsOf_sorted hs n
  have hsn1 := gramsOf_sorted hs (n + 1)
  obtain ⟨hq1, hq2⟩ := mem_gramsOf.1 (List.mem_of_getElem? hq)
  obtain ⟨hp1, hp2⟩ := mem_gramsOf.1 (List.mem_of_getElem? hp)
  have hlo : nextOf C n j ≤ i ↔ p ≤ q := by
    have := count_lt hsn1 p i q hq
    unfold nextOf
    rw [hp]
    simp only [before]
    rw [← not_lt, this, not_lt]
  obtain ⟨c, hc, rfl⟩ := List.mem_map.1 hq1
  have hpre : c.gram.take n ∈ gramsOf C n := mem_gramsOf.2 ⟨hcl c hc n hn (by omega), by rw [List.length_take]; omega⟩
  have hpl : (c.gram.take n).length = n := (mem_gramsOf.1 hpre).2
  have hpq : c.gram.take n <+: c.gram := List.take_prefix _ _
  have hplt : c.gram.take n < c.gram := take_lt_self (by omega)
  rw [hlo]
  cases hp' : (gramsOf C n)[j + 1]? with
  | none =>
    have hhi : i < nextOf C n (j + 1) := by
      unfold nextOf
      rw [hp']
      exact (List.getElem?_eq_some_iff.1 hq).1
    refine ⟨fun h => ?_, fun h => ⟨h ▸ le_of_lt hplt, hhi⟩⟩
    obtain ⟨k, hk⟩ := List.getElem?_of_mem hpre
    have hkj : k ≤ j := by
      have := (List.getElem?_eq_some_iff.1 hk).1
      rw [List.getElem?_eq_none_iff] at hp'
      omega
    have hle : c.gram.take n ≤ p := sorted_get (hsn.imp fun h => le_of_lt h) hk hp hkj
    have hpr := between _ _ p hpq hle (lt_of_le_of_ne h.1 (by intro e; rw [e] at hp2; omega))
    exact hpr.eq_of_length (by omega)
  | some p' =>
    have hp'2 := (mem_gramsOf.1 (List.mem_of_getElem? hp')).2
    have hhi : i < nextOf C n (j + 1) ↔ c.gram < p' := by
      unfold nextOf
      rw [hp']
      exact count_lt hsn1 p' i _ hq
    rw [hhi]
    have hpp' : p < p' := by
      obtain ⟨h1, rfl⟩ := List.getElem?_eq_some_iff.1 hp
      obtain ⟨h2, rfl⟩ := List.getElem?_eq_some_iff.1 hp'
      exact List.pairwise_iff_getElem.1 hsn _ _ h1 h2 (by omega)
    constructor
    · rintro ⟨h1, h2⟩
      obtain ⟨k, hk⟩ := List.getElem?_of_mem hpre
      have hkj : k ≤ j := by
        by_contra hkj
        have := sorted_get (hsn.imp fun h => le_of_lt h) hp' hk (by omega)
        exact absurd (lt_of_le_of_lt this hplt) (lt_asymm h2)
      have hle : c.gram.take n ≤ p := sorted_get (hsn.imp fun h => le_of_lt h) hk hp hkj
      have hpr := between _ _ p hpq hle (lt_of_le_of_ne h1 (by intro e; rw [e] at hp2; omega))
      exact hpr.eq_of_length (by omega)
    · intro h
      refine ⟨h ▸ le_of_lt hplt, ?_⟩
      by_contra hn'
      have h3 : p' < c.gram := lt_of_le_of_ne (not_lt.1 hn') (by intro e; rw [← e] at hq2; omega)
      have hpr := between _ _ p' (h ▸ hpq) (le_of_lt hpp') h3
      have := hpr.eq_of_length (by omega)
      exact lt_irrefl _ (this ▸ hpp')

theorem nextOf_le (C : List (Call K)) (n j : Nat) : nextOf C n j ≤ (gramsOf C (n + 1)).length := by
  unfold nextOf
  split
  · exact List.countP_le_length
  · exact le_refl _

/-! ## Descending -/

variable [AddCommGroup K] [DecidableEq K]

omit [AddCommGroup K] [DecidableEq K] in
theorem Calls.gram_eq_one {a : Spec.Arpa K} {vocab : Nat} {C : List (Call K)} [AddCommGroup K] [DecidableEq K] (hr : a.Regular) (h : Calls a vocab C) : gramsOf C 1 = (List.range vocab).map fun w => [w] := by
  have h1 := gramsOf_sorted h.sorted 1
  have h2 : ((List.range vocab).map fun w => [w]).Pairwise (· < ·) := List.Pairwise.map _ (fun x y (hxy : x < y) => List.cons_lt_cons_iff.2 (.inl hxy)) List.pairwise_lt_range
  have hp : (gramsOf C 1).Perm ((List.range vocab).map fun w => [w]) := by
    refine (List.perm_ext_iff_of_nodup (h1.imp fun h => ne_of_lt h) (h2.imp fun h => ne_of_lt h)).2 fun g => ?_
    rw [mem_gramsOf]
    constructor
    · rintro ⟨hg, hl⟩
      obtain ⟨c, hc, rfl⟩ := List.mem_map.1 hg
      cases c with
      | unigram w => exact List.mem_map.2 ⟨w, List.mem_range.2 ((h.uni w).1 hc), rfl⟩
      | blank g l q => exact absurd (h.blank g l q hc).1 (by simp only [Call.gram] at hl; omega)
      | middle r => exact absurd (h.middle r hc).1 (by simp only [Call.gram] at hl; omega)
      | longest r =>
        have := (h.longest r hc).1
        have := hr.two
        simp only [Call.gram] at hl
        omega
    · intro hg
      obtain ⟨w, hw, rfl⟩ := List.mem_map.1 hg
      exact ⟨List.mem_map.2 ⟨_, (h.uni w).2 (List.mem_range.1 hw), rfl⟩, rfl⟩
  exact hp.eq_of_pairwise' (r := (· ≤ ·)) (h1.imp fun h => le_of_lt h) (h2.imp fun h => le_of_lt h)

theorem forall₂_get {α β : Type} {R : α → β → Prop} {A : List α} {B : List β} (h : List.Forall₂ R A B) (i : Nat) :
    (∀ x, A[i]? = some x → ∃ y, B[i]? = some y ∧ R x y) ∧ (∀ y, B[i]? = some y → ∃ x, A[i]? = some x ∧ R x y) := by
  induction h generalizing i with
  | nil => simp
  | cons ha _ ih =>
    cases i with
    | zero => simpa using ha
    | succ i => simpa using ih i

variable {a : Spec.Arpa K} {vocab : Nat} {C : List (Call K)} {t : Trie K}

theorem Built.length (h : Built a vocab C t) {n : Nat} (hn : 2 ≤ n) : (t.tab n).length = (gramsOf C n).length := by
  rw [gramsOf_eq, List.length_map]
  exact (List.Forall₂.length_eq (h.tab n hn)).symm

theorem Built.word (h : Built a vocab C t) {n : Nat} (hn : 2 ≤ n) {i : Nat} {s : Slot K} (hs : (t.tab n)[i]? = some s) : ∃ g, (gramsOf C n)[i]? = some g ∧ s.word = g.getLastD 0 := by
  obtain ⟨c, h1, h2⟩ := (forall₂_get (h.tab n hn) i).2 s hs
  refine ⟨c.gram, ?_, h2.1⟩
  rw [gramsOf_eq, List.getElem?_map, h1]
  rfl

theorem Built.next_eq (h : Built a vocab C t) {n : Nat} (hn : 2 ≤ n) (ho : n < a.order) (i : Nat) : t.next n i = nextOf C n i := by
  unfold Trie.next nextOf
  cases hs : (t.tab n)[i]? with
  | none =>
    have : (gramsOf C n)[i]? = none := by
      rw [List.getElem?_eq_none_iff, ← h.length hn]
      exact List.getElem?_eq_none_iff.1 hs
    rw [this]
    exact h.length (by omega)
  | some s =>
    obtain ⟨c, h1, h2⟩ := (forall₂_get (h.tab n hn) i).2 s hs
    have h3 : (gramsOf C n)[i]? = some c.gram := by rw [gramsOf_eq, List.getElem?_map, h1]; rfl
    rw [h3]
    simp only
    have hm := List.mem_filter.1 (List.mem_of_getElem? h1)
    have hl : c.gram.length = n := by simpa using hm.2
    obtain ⟨_, h2⟩ := h2
    cases c with
    | unigram w => exact h2.elim
    | blank g l q => rw [h2.2.2]; simp only [Call.gram] at hl ⊢; rw [hl]
    | middle r => rw [h2.2.2.2]; simp only [Call.gram] at hl ⊢; rw [hl]
    | longest r => exact absurd (h.calls.longest r hm.1).1 (by simp only [Call.gram] at hl; omega)

theorem Built.uniRange_eq (hr : a.Regular) (h : Built a vocab C t) {w : Word} (hw : w < vocab) : (gramsOf C 1)[w]? = some [w] ∧ t.uniRange w = (nextOf C 1 w, nextOf C 1 (w + 1)) := by
  have h1 := h.calls.gram_eq_one hr
  have hget : ∀ i, i < vocab → (gramsOf C 1)[i]? = some [i] := by
    intro i hi
    rw [h1, List.getElem?_map, List.getElem?_range hi]
    rfl
  have hlen : (gramsOf C 1).length = vocab := by rw [h1]; simp
  have hU : ∀ i, i ≤ vocab → t.uniNext.getD i 0 = nextOf C 1 i := by
    intro i hi
    rw [h.uniNext, List.getD_eq_getElem?_getD]
    unfold nextOf
    rcases Nat.lt_or_eq_of_le hi with hi | hi
    · rw [List.getElem?_append_left (by simp [hlen, hi]), List.getElem?_map, hget i hi]
      rfl
    · rw [List.getElem?_append_right (by simp [hlen, hi])]
      have : (gramsOf C 1)[i]? = none := List.getElem?_eq_none (by omega)
      rw [this]
      simp [hlen, hi, h.length]
  refine ⟨hget w hw, ?_⟩
  unfold Trie.uniRange
  have hw' : (w : Nat) + 1 ≤ vocab := hw
  rw [hU w (le_of_lt hw), hU (w + 1) hw']

/-- The sizes for which the interpolation search does not overflow. -/
def Sizes (t : Trie K) : Prop := t.vocab + 1 < 2 ^ 64 ∧ ∀ n, 2 ≤ n → n ≤ t.order → (t.vocab + 1) * (t.tab n).length < 2 ^ 64

theorem concat_of_take {q p : List Word} {n : Nat} (hq : q.length = n + 1) (h : q.take n = p) : q = p ++ [q.getLastD 0] := by
  cases q using List.reverseRecOn with
  | nil => simp at hq
  | append_singleton q x =>
    have : q.length = n := by simpa using hq
    subst this
    simp at h
    simp [h]

theorem Built.findChild (h : Built a vocab C t) (hz : Sizes t) {n j : Nat} (hn : 1 ≤ n) (ho : n + 1 ≤ a.order) {p : List Word} (hp : (gramsOf C n)[j]? = some p) {w : Word} (i : Nat) :
    findSlot t.vocab (t.tab (n + 1)) w (nextOf C n j) (nextOf C n (j + 1)) = some i ↔ (gramsOf C (n + 1))[i]? = some (p ++ [w]) := by
  have hrange := range_spec h.calls.sorted h.calls.closed hn hp
  have hin : ∀ (i : Nat) (s : Slot K), nextOf C n j ≤ i → i < nextOf C n (j + 1) → (t.tab (n + 1))[i]? = some s → (gramsOf C (n + 1))[i]? = some (p ++ [s.word]) := by
    intro i s h1 h2 hs
    obtain ⟨g, h3, h4⟩ := h.word (by omega) hs
    have h5 := (hrange i g h3).1 ⟨h1, h2⟩
    have h6 := concat_of_take (mem_gramsOf.1 (List.mem_of_getElem? h3)).2 h5
    rw [← h4] at h6
    rw [h3, ← h6]
  rw [findSlot_spec (hz.2 _ (by omega) (by rw [h.order]; exact ho)) hz.1 (by rw [h.length (by omega)]; exact nextOf_le C n (j + 1))]
  · constructor
    · rintro ⟨h1, h2, s, h3, rfl⟩
      exact hin i s h1 h2 h3
    · intro hg
      have h1 := (hrange i _ hg).2 (by
        have := (mem_gramsOf.1 (List.mem_of_getElem? hp)).2
        rw [List.take_append_of_le_length (by omega), List.take_of_length_le (by omega)])
      refine ⟨h1.1, h1.2, ?_⟩
      have hi := (List.getElem?_eq_some_iff.1 hg).1
      rw [← h.length (by omega)] at hi
      refine ⟨(t.tab (n + 1))[i], List.getElem?_eq_getElem hi, ?_⟩
      have := hin i _ h1.1 h1.2 (List.getElem?_eq_getElem hi)
      rw [hg] at this
      simpa using this.symm
  · intro i s h1 h2 hs
    have := List.mem_of_getElem? (hin i s h1 h2 hs)
    obtain ⟨c, hc, e⟩ := List.mem_map.1 (mem_gramsOf.1 this).1
    rw [h.size]
    exact le_of_lt (h.calls.below c hc s.word (by rw [e]; simp))
  · intro i k s s' h1 h2 h3 hs hs'
    have e1 := hin i s h1 (by omega) hs
    have e2 := hin k s' (by omega) h3 hs'
    obtain ⟨hi, e1⟩ := List.getElem?_eq_some_iff.1 e1
    obtain ⟨hk, e2⟩ := List.getElem?_eq_some_iff.1 e2
    have := List.pairwise_iff_getElem.1 (gramsOf_sorted h.calls.sorted (n + 1)) i k hi hk h2
    rw [e1, e2] at this
    by_contra hn'
    rcases Nat.lt_or_eq_of_le (Nat.le_of_not_lt hn') with h | h
    · exact lt_asymm this (List.append_left_lt (List.cons_lt_cons_iff.2 (.inl h)))
    · rw [h] at this
      exact lt_irrefl _ this

theorem Built.descend_spec (h : Built a vocab C t) (hz : Sizes t) : ∀ (ws : List Word) (n j : Nat) (p : List Word), 1 ≤ n → (gramsOf C n)[j]? = some p → ws ≠ [] →
    n + ws.length ≤ a.order → ∀ i, t.descend (n + 1) (nextOf C n j, nextOf C n (j + 1)) ws = some i ↔ (gramsOf C (n + ws.length))[i]? = some (p ++ ws) := by
  intro ws
  induction ws with
  | nil => intro n j p _ _ h; exact absurd rfl h
  | cons w ws ih =>
    intro n j p hn hp _ ho i
    cases ws with
    | nil =>
      unfold Trie.descend
      exact h.findChild hz hn (by simp at ho; omega) hp i
    | cons x ws =>
      unfold Trie.descend
      have hf := h.findChild hz (w := w) hn (by simp at ho; omega) hp
      have happ : p ++ w :: x :: ws = (p ++ [w]) ++ x :: ws := by simp
      have hlen : n + (w :: x :: ws).length = n + 1 + (x :: ws).length := by simp only [List.length_cons]; omega
      cases hs : findSlot t.vocab (t.tab (n + 1)) w (nextOf C n j) (nextOf C n (j + 1)) with
      | none =>
        simp only [reduceCtorEq, false_iff]
        intro hg
        rw [happ] at hg
        have hg' := (mem_gramsOf.1 (List.mem_of_getElem? hg)).1
        obtain ⟨c, hc, e⟩ := List.mem_map.1 hg'
        have hpl := (mem_gramsOf.1 (List.mem_of_getElem? hp)).2
        have h2 := h.calls.closed c hc (n + 1) (by omega) (by rw [e]; simp; omega)
        rw [e, List.take_append_of_le_length (by simp; omega), List.take_of_length_le (by simp; omega)] at h2
        obtain ⟨k, hk⟩ := List.getElem?_of_mem (mem_gramsOf.2 ⟨h2, (by simp [hpl] : (p ++ [w]).length = n + 1)⟩)
        rw [(hf k).2 hk] at hs
        cases hs
      | some k =>
        have hk := (hf k).1 hs
        simp only
        simp only [List.length_cons] at ho
        rw [h.next_eq (by omega) (by omega), h.next_eq (by omega) (by omega), hlen, happ]
        exact ih (n + 1) k (p ++ [w]) (by omega) hk (by simp) (by simp only [List.length_cons]; omega) i

/-- An n-gram is found exactly where it has been written. -/
theorem Built.locate_spec (hr : a.Regular) (h : Built a vocab C t) (hz : Sizes t) {g : List Word} (h2 : 2 ≤ g.length) (ho : g.length ≤ a.order) (i : Nat) :
    t.locate g = some i ↔ (gramsOf C g.length)[i]? = some g := by
  cases g with
  | nil => simp at h2
  | cons w ws =>
    have e : t.locate (w :: ws) = t.descend 2 (t.uniRange w) ws := rfl
    have hne : ws ≠ [] := by rintro rfl; simp at h2
    rw [e]
    by_cases hw : w < vocab
    · obtain ⟨h3, h4⟩ := h.uniRange_eq hr hw
      rw [h4]
      have := h.descend_spec hz ws 1 w [w] (le_refl _) h3 hne (by simp only [List.length_cons] at ho; omega) i
      rw [show (w :: ws).length = 1 + ws.length by simp; omega]
      exact this
    · have hR : (gramsOf C (w :: ws).length)[i]? ≠ some (w :: ws) := by
        intro hg
        obtain ⟨c, hc, e⟩ := List.mem_map.1 (mem_gramsOf.1 (List.mem_of_getElem? hg)).1
        exact hw (h.calls.below c hc w (by rw [e]; simp))
      have hL : t.descend 2 (t.uniRange w) ws = none := by
        have hlen : t.uniNext.length = vocab + 1 := by
          rw [h.uniNext, h.calls.gram_eq_one hr]
          simp
        have h0 : t.uniNext.getD (w + 1) 0 = 0 := by
          rw [List.getD_eq_getElem?_getD, List.getElem?_eq_none]
          · rfl
          · rw [hlen]; exact Nat.succ_le_succ (Nat.le_of_not_lt hw)
        have hf : ∀ x, findSlot t.vocab (t.tab 2) x (t.uniRange w).1 (t.uniRange w).2 = none := by
          intro x
          have : (t.uniRange w).2 = 0 := h0
          rw [this]
          unfold findSlot boundedFind
          simp
        match ws, hne with
        | [x], _ => unfold Trie.descend; exact hf x
        | x :: y :: ws, _ => unfold Trie.descend; rw [hf x]
      rw [hL]
      simp only [reduceCtorEq, false_iff]
      exact hR

end LM
end Cdec.Klm
