import Verif.Decoder.Cube
import Mathlib.Data.List.Nodup
import Mathlib.Data.List.Perm.Basic
import Mathlib.Algebra.BigOperators.Group.List.Basic
/-!
# C14: cube pruning visits every combination of antecedents exactly once
-/
namespace Cdec.Dec.Cube

namespace Spec

/-- `(e, j)` is a combination: an in-edge and one index below every bound. -/
def Valid (bounds : Nat → List Nat) (inEdges : List Nat) (c : Cand) : Prop :=
  c.1 ∈ inEdges ∧ List.Forall₂ (· < ·) c.2 (bounds c.1)

/-- `a` is one step before `c`: it is `c` with one index decreased by one. -/
def Before (a c : Cand) : Prop :=
  a.1 = c.1 ∧ a.2.length = c.2.length ∧ ∃ i, i < c.2.length ∧ c.2.getD i 0 = a.2.getD i 0 + 1 ∧ ∀ k, k ≠ i → a.2.getD k 0 = c.2.getD k 0

end Spec
open Spec

theorem bump_length (j : List Nat) (i : Nat) : (bump j i).length = j.length := by simp [bump]

theorem bump_getD (j : List Nat) (i k : Nat) (hi : i < j.length) : (bump j i).getD k 0 = if k = i then j.getD k 0 + 1 else j.getD k 0 := by
  simp only [bump, List.getD_eq_getElem?_getD, List.getElem?_modify]
  by_cases h : k = i
  · subst h; simp [hi]
  · have : ¬ i = k := fun e => h e.symm
    simp [h, this]

theorem ext_getD {a b : List Nat} (hl : a.length = b.length) (h : ∀ k, a.getD k 0 = b.getD k 0) : a = b := by
  apply List.ext_getElem hl
  intro k h1 h2
  have := h k
  simpa [List.getD_eq_getElem?_getD, h1, h2] using this

theorem before_iff {a c : Cand} : Before a c ↔ ∃ i, i < a.2.length ∧ c = (a.1, bump a.2 i) := by
  constructor
  · rintro ⟨h1, h2, i, hi, h3, h4⟩
    refine ⟨i, by omega, ?_⟩
    have : c.2 = bump a.2 i := by
      refine ext_getD (by rw [bump_length, h2]) fun k => ?_
      rw [bump_getD _ _ _ (by omega)]
      by_cases hk : k = i
      · rw [if_pos hk, hk, h3]
      · rw [if_neg hk, h4 k hk]
    rw [← this, h1]
  · rintro ⟨i, hi, rfl⟩
    refine ⟨rfl, by simp [bump_length], i, by simpa [bump_length] using hi, ?_, ?_⟩
    · simp only []
      rw [bump_getD _ _ _ hi, if_pos rfl]
    · intro k hk
      simp only []
      rw [bump_getD _ _ _ hi, if_neg hk]

theorem bump_inj {j : List Nat} {i k : Nat} (hi : i < j.length) (hk : k < j.length) (h : bump j i = bump j k) : i = k := by
  by_contra hne
  have := congrArg (fun l => l.getD i 0) h
  beta_reduce at this
  rw [bump_getD _ _ _ hi, bump_getD _ _ _ hk, if_pos rfl, if_neg hne] at this
  omega

theorem valid_iff {bounds : Nat → List Nat} {es : List Nat} {c : Cand} :
    Valid bounds es c ↔ c.1 ∈ es ∧ c.2.length = (bounds c.1).length ∧ ∀ k, k < c.2.length → c.2.getD k 0 < (bounds c.1).getD k 0 := by
  unfold Valid
  rw [List.forall₂_iff_get]
  constructor
  · rintro ⟨h1, h2, h3⟩
    refine ⟨h1, h2, fun k hk => ?_⟩
    have := h3 k hk (h2 ▸ hk)
    simpa [List.getD_eq_getElem?_getD, hk, h2 ▸ hk] using this
  · rintro ⟨h1, h2, h3⟩
    refine ⟨h1, h2, fun k hk hk' => ?_⟩
    have := h3 k hk
    simpa [List.getD_eq_getElem?_getD, hk, hk'] using this

theorem valid_bump {bounds : Nat → List Nat} {es : List Nat} {c : Cand} (hc : Valid bounds es c) {i : Nat} (hi : i < c.2.length) :
    Valid bounds es (c.1, bump c.2 i) ↔ c.2.getD i 0 + 1 < (bounds c.1).getD i 0 := by
  obtain ⟨h1, h2, h3⟩ := valid_iff.1 hc
  rw [valid_iff]
  simp only [bump_length]
  constructor
  · rintro ⟨_, _, h⟩
    have := h i hi
    rwa [bump_getD _ _ _ hi, if_pos rfl] at this
  · intro h
    refine ⟨h1, h2, fun k hk => ?_⟩
    rw [bump_getD _ _ _ hi]
    by_cases hk' : k = i
    · rw [if_pos hk', hk']; exact h
    · rw [if_neg hk']; exact h3 k hk

theorem valid_before {bounds : Nat → List Nat} {es : List Nat} {a c : Cand} (hc : Valid bounds es c) (h : Before a c) : Valid bounds es a := by
  obtain ⟨h1, h2, h3⟩ := valid_iff.1 hc
  obtain ⟨b1, b2, i, hi, b3, b4⟩ := h
  refine valid_iff.2 ⟨b1 ▸ h1, by rw [b2, h2, b1], fun k hk => ?_⟩
  have := h3 k (by omega)
  rw [b1]
  by_cases hk' : k = i
  · subst hk'; omega
  · rw [b4 k hk']; exact this

theorem sum_bump (j : List Nat) (i : Nat) (hi : i < j.length) : (bump j i).sum = j.sum + 1 := by
  induction j generalizing i with
  | nil => simp at hi
  | cons a j ih =>
    cases i with
    | zero => simp [bump]; omega
    | succ i =>
      have := ih i (by simpa using hi)
      simp only [bump, List.modify_succ_cons, List.sum_cons] at this ⊢
      omega

theorem sum_before {a c : Cand} (h : Before a c) : c.2.sum = a.2.sum + 1 := by
  obtain ⟨i, hi, rfl⟩ := before_iff.1 h
  exact sum_bump _ _ hi

/-- A vector that is not all zero has a first position that is not zero, and a predecessor there. -/
theorem exists_before {c : Cand} (h : c.2 ≠ List.replicate c.2.length 0) :
    ∃ (i : Nat) (a : Cand), i < a.2.length ∧ c = (a.1, bump a.2 i) ∧ ∀ k < i, a.2.getD k 0 = 0 := by
  obtain ⟨e, j⟩ := c
  simp only [] at h ⊢
  induction j with
  | nil => simp at h
  | cons x j ih =>
    by_cases hx : x = 0
    · subst hx
      obtain ⟨i, a, h1, h2, h3⟩ := ih (fun hj => h (by rw [List.length_cons, List.replicate_succ, ← hj]))
      refine ⟨i + 1, (a.1, 0 :: a.2), by simpa using h1, ?_, ?_⟩
      · rw [Prod.mk.injEq] at h2
        refine Prod.ext h2.1 ?_
        simp only []
        rw [h2.2]
        simp [bump]
      · intro k hk
        cases k with
        | zero => simp
        | succ k => simpa using h3 k (by omega)
    · refine ⟨0, (e, (x - 1) :: j), by simp, ?_, by simp⟩
      simp [bump]
      omega

theorem valid_zero {bounds : Nat → List Nat} {es : List Nat} (hb : ∀ e ∈ es, ∀ b ∈ bounds e, 0 < b) {e : Nat} (he : e ∈ es) :
    Valid bounds es (e, List.replicate (bounds e).length 0) := by
  refine valid_iff.2 ⟨he, by simp, fun k hk => ?_⟩
  have hk' : k < (bounds e).length := by simpa using hk
  have : 0 < (bounds e)[k] := hb e he _ (List.getElem_mem _)
  simpa [List.getD_eq_getElem?_getD, hk'] using this

/-! ## The general argument -/

/-- What the three strategies have in common at every moment. -/
structure Good (bounds : Nat → List Nat) (es : List Nat) (s : St) : Prop where
  nodup : (s.popped ++ s.heap).Nodup
  valid : ∀ c ∈ s.popped ++ s.heap, Valid bounds es c

/-- With an empty heap nothing is left out, if successors are generated. -/
theorem complete_of {bounds : Nat → List Nat} {es : List Nat} {s : St} (h : ∀ e ∈ es, (e, List.replicate (bounds e).length 0) ∈ s.popped ++ s.heap)
    (hemp : s.heap = []) (hs : ∀ c, Valid bounds es c → c.2 ≠ List.replicate c.2.length 0 →
      (∀ a, Before a c → a ∈ s.popped) → c ∈ s.popped ++ s.heap) : ∀ c, Valid bounds es c → c ∈ s.popped := by
  have key : ∀ n c, c.2.sum = n → Valid bounds es c → c ∈ s.popped := by
    intro n
    induction n using Nat.strongRecOn with
    | ind n ih =>
      intro c hn hc
      by_cases hz : c.2 = List.replicate c.2.length 0
      · have := h c.1 hc.1
        rw [hemp, List.append_nil] at this
        rw [← (valid_iff.1 hc).2.1, ← hz] at this
        exact this
      · have := hs c hc hz fun a ha => ih a.2.sum (by have := sum_before ha; omega) a rfl (valid_before hc ha)
        rwa [hemp, List.append_nil] at this
  exact fun c hc => key _ c rfl hc

theorem perm_eraseIdx {l : List Cand} {k : Nat} {c : Cand} (h : l[k]? = some c) : l.Perm (c :: l.eraseIdx k) := by
  obtain ⟨hk, hc⟩ := List.getElem?_eq_some_iff.1 h
  rw [← hc]
  exact (List.getElem_cons_eraseIdx_perm hk).symm

/-- The members of the state after a pop. -/
theorem mem_after {l p new : List Cand} {k : Nat} {c : Cand} (h : l[k]? = some c) (d : Cand) :
    d ∈ (p ++ [c]) ++ (l.eraseIdx k ++ new) ↔ d ∈ p ++ l ∨ d ∈ new := by
  have hp := (perm_eraseIdx h).mem_iff (a := d)
  simp only [List.mem_append, List.mem_singleton, List.mem_cons] at hp ⊢
  tauto

theorem perm_after {l p new : List Cand} {k : Nat} {c : Cand} (h : l[k]? = some c) :
    ((p ++ [c]) ++ (l.eraseIdx k ++ new)).Perm ((p ++ l) ++ new) := by
  rw [List.append_assoc, List.append_assoc]
  refine List.Perm.append_left p ?_
  rw [← List.append_assoc]
  refine List.Perm.append_right new ?_
  exact (perm_eraseIdx h).symm

/-! ## `PushSuccFast` -/

theorem mem_succFastLoop (b j : List Nat) (n m : Nat) (c : List Nat) :
    c ∈ succFastLoop b j (List.range' n m) ↔ ∃ i, n ≤ i ∧ i < n + m ∧ c = bump j i ∧ j.getD i 0 + 1 < b.getD i 0 ∧ ∀ k, n ≤ k → k < i → j.getD k 0 = 0 := by
  induction m generalizing n with
  | zero => simp [succFastLoop]; omega
  | succ m ih =>
    rw [List.range'_succ, succFastLoop, List.mem_append]
    constructor
    · rintro (h | h)
      · split at h
        · rename_i hb
          exact ⟨n, Nat.le_refl _, by omega, by simpa using h, hb, fun k h1 h2 => by omega⟩
        · simp at h
      · split at h
        · simp at h
        · rename_i hz
          obtain ⟨i, h1, h2, h3, h4, h5⟩ := (ih (n + 1)).1 h
          refine ⟨i, by omega, by omega, h3, h4, fun k hk1 hk2 => ?_⟩
          by_cases hkn : k = n
          · subst hkn; exact Decidable.not_not.1 hz
          · exact h5 k (by omega) hk2
    · rintro ⟨i, h1, h2, h3, h4, h5⟩
      by_cases hin : i = n
      · subst hin
        left
        rw [if_pos h4]
        simp [h3]
      · right
        rw [if_neg (by rw [h5 n (Nat.le_refl _) (by omega)]; simp)]
        exact (ih (n + 1)).2 ⟨i, by omega, by omega, h3, h4, fun k hk1 hk2 => h5 k (by omega) hk2⟩

theorem nodup_succFastLoop (b j : List Nat) (n m : Nat) (h : n + m ≤ j.length) : (succFastLoop b j (List.range' n m)).Nodup := by
  induction m generalizing n with
  | zero => simp [succFastLoop]
  | succ m ih =>
    rw [List.range'_succ, succFastLoop]
    have e1 : (if j.getD n 0 + 1 < b.getD n 0 then [bump j n] else []).Nodup := by split <;> simp
    have e2 : (if j.getD n 0 ≠ 0 then [] else succFastLoop b j (List.range' (n + 1) m)).Nodup := by
      split
      · simp
      · exact ih (n + 1) (by omega)
    refine List.Nodup.append e1 e2 ?_
    intro x hx hy
    split at hx
    · have hx' : x = bump j n := by simpa using hx
      split at hy
      · simp at hy
      · obtain ⟨i, h1, h2, h3, _⟩ := (mem_succFastLoop b j (n + 1) m x).1 hy
        have := bump_inj (by omega) (by omega) (hx'.symm.trans h3)
        omega
    · simp at hx

theorem mem_pushSuccFast {bounds : Nat → List Nat} {c d : Cand} : d ∈ pushSuccFast bounds c ↔
    ∃ i, i < c.2.length ∧ d = (c.1, bump c.2 i) ∧ c.2.getD i 0 + 1 < (bounds c.1).getD i 0 ∧ ∀ k < i, c.2.getD k 0 = 0 := by
  unfold pushSuccFast
  rw [List.mem_map, List.range_eq_range']
  constructor
  · rintro ⟨j, hj, rfl⟩
    obtain ⟨i, _, h2, h3, h4, h5⟩ := (mem_succFastLoop _ _ _ _ _).1 hj
    exact ⟨i, by omega, by rw [h3], h4, fun k hk => h5 k (Nat.zero_le _) hk⟩
  · rintro ⟨i, h1, rfl, h3, h4⟩
    exact ⟨bump c.2 i, (mem_succFastLoop _ _ _ _ _).2 ⟨i, Nat.zero_le _, by omega, rfl, h3, fun k _ hk => h4 k hk⟩, rfl⟩

theorem nodup_pushSuccFast (bounds : Nat → List Nat) (c : Cand) : (pushSuccFast bounds c).Nodup := by
  unfold pushSuccFast
  rw [List.range_eq_range']
  exact (nodup_succFastLoop _ _ 0 _ (by omega)).map (fun a b h => by simpa using h)

/-- The fast rule gives every candidate one parent. -/
theorem parent_unique {a a' : Cand} {i i' : Nat} (hi : i < a.2.length) (hi' : i' < a'.2.length) (h : (a.1, bump a.2 i) = (a'.1, bump a'.2 i'))
    (hz : ∀ k < i, a.2.getD k 0 = 0) (hz' : ∀ k < i', a'.2.getD k 0 = 0) : a = a' := by
  rw [Prod.mk.injEq] at h
  obtain ⟨h1, h2⟩ := h
  have hg : ∀ k, (bump a.2 i).getD k 0 = (bump a'.2 i').getD k 0 := fun k => by rw [h2]
  have hii : i = i' := by
    rcases Nat.lt_trichotomy i i' with hlt | heq | hgt
    · have := hg i
      rw [bump_getD _ _ _ hi, bump_getD _ _ _ hi', if_pos rfl, if_neg (by omega), hz' i hlt] at this
      omega
    · exact heq
    · have := hg i'
      rw [bump_getD _ _ _ hi, bump_getD _ _ _ hi', if_pos rfl, if_neg (by omega), hz i' hgt] at this
      omega
  subst hii
  have hl : a.2.length = a'.2.length := by
    have := congrArg List.length h2
    simpa [bump_length] using this
  have : a.2 = a'.2 := by
    refine ext_getD hl fun k => ?_
    have := hg k
    rw [bump_getD _ _ _ hi, bump_getD _ _ _ hi'] at this
    split at this <;> omega
  exact Prod.ext h1 this

/-- Every candidate but the first ones was pushed when its parent was popped, and every popped one has pushed its children. -/
structure FastInv (bounds : Nat → List Nat) (es : List Nat) (s : St) : Prop extends Good bounds es s where
  first : ∀ e ∈ es, (e, List.replicate (bounds e).length 0) ∈ s.popped ++ s.heap
  parent : ∀ c ∈ s.popped ++ s.heap, ∀ i a, i < a.2.length → c = (a.1, bump a.2 i) → (∀ k < i, a.2.getD k 0 = 0) → a ∈ s.popped
  children : ∀ c ∈ s.popped, ∀ d ∈ pushSuccFast bounds c, d ∈ s.popped ++ s.heap

theorem start_nodup {bounds : Nat → List Nat} {es : List Nat} (h : es.Nodup) : (start bounds es).Nodup := by
  unfold start
  exact h.map (fun a b h => by simpa using congrArg Prod.fst h)

theorem start_valid {bounds : Nat → List Nat} {es : List Nat} (hb : ∀ e ∈ es, ∀ b ∈ bounds e, 0 < b) : ∀ c ∈ start bounds es, Valid bounds es c := by
  intro c hc
  obtain ⟨e, he, rfl⟩ := List.mem_map.1 hc
  exact valid_zero hb he

theorem zero_not_bump {n : Nat} {j : List Nat} {i : Nat} (hi : i < j.length) : List.replicate n 0 ≠ bump j i := by
  intro h
  have := congrArg (fun l => l.getD i 0) h
  beta_reduce at this
  rw [bump_getD _ _ _ hi, if_pos rfl] at this
  have h0 : (List.replicate n 0).getD i 0 = 0 := by
    simp only [List.getD_eq_getElem?_getD, List.getElem?_replicate]
    split <;> rfl
  omega

theorem fast_start {bounds : Nat → List Nat} {es : List Nat} (hnd : es.Nodup) (hb : ∀ e ∈ es, ∀ b ∈ bounds e, 0 < b) :
    FastInv bounds es ⟨start bounds es, []⟩ := by
  refine ⟨⟨by simpa using start_nodup hnd, by simpa using start_valid hb⟩, ?_, ?_, by simp⟩
  · intro e he
    simp only [List.nil_append]
    exact List.mem_map.2 ⟨e, he, rfl⟩
  · intro c hc i a hi hca _
    simp only [List.nil_append] at hc
    obtain ⟨e, he, rfl⟩ := List.mem_map.1 hc
    rw [Prod.mk.injEq] at hca
    exact absurd hca.2 (zero_not_bump hi)

theorem fast_step {bounds : Nat → List Nat} {es : List Nat} {s : St} (h : FastInv bounds es s) (k : Nat) : FastInv bounds es (stepFast bounds s k) := by
  unfold stepFast
  rcases hk : s.heap[k % s.heap.length]? with _ | c
  · exact h
  · simp only []
    have hmem := fun d => mem_after (p := s.popped) (new := pushSuccFast bounds c) hk d
    have hc : c ∈ s.heap := List.mem_of_getElem? hk
    have hcv := h.valid c (by simp [hc])
    have hcp : c ∉ s.popped := fun hp => (List.nodup_append.1 h.nodup).2.2 c hp c hc rfl
    refine ⟨⟨?_, ?_⟩, ?_, ?_, ?_⟩
    · rw [(perm_after hk).nodup_iff]
      refine List.Nodup.append h.nodup (nodup_pushSuccFast bounds c) ?_
      intro d hd hd'
      obtain ⟨i, hi, rfl, _, hz⟩ := mem_pushSuccFast.1 hd'
      exact hcp (h.parent _ hd i c hi rfl hz)
    · intro d hd
      rcases (hmem d).1 hd with hd | hd
      · exact h.valid d hd
      · obtain ⟨i, hi, rfl, hlt, _⟩ := mem_pushSuccFast.1 hd
        exact (valid_bump hcv hi).2 hlt
    · exact fun e he => (hmem _).2 (.inl (h.first e he))
    · intro d hd i a hi hda hz
      rw [List.mem_append, List.mem_singleton]
      rcases (hmem d).1 hd with hd | hd
      · exact .inl (h.parent d hd i a hi hda hz)
      · obtain ⟨i', hi', he, _, hz'⟩ := mem_pushSuccFast.1 hd
        exact .inr (parent_unique hi hi' (hda.symm.trans he) hz hz')
    · intro d hd e he
      rw [hmem]
      rcases List.mem_append.1 hd with hd | hd
      · exact .inl (h.children d hd e he)
      · rw [List.mem_singleton] at hd
        subst hd
        exact .inr he

theorem fast_inv {bounds : Nat → List Nat} {es : List Nat} (hnd : es.Nodup) (hb : ∀ e ∈ es, ∀ b ∈ bounds e, 0 < b) (sched : List Nat) :
    FastInv bounds es (runFast bounds es sched) := by
  unfold runFast
  have h0 := fast_start hnd hb
  generalize (⟨start bounds es, []⟩ : St) = s at h0
  induction sched generalizing s with
  | nil => exact h0
  | cons k ks ih => exact ih _ (fast_step h0 k)

/-- Faster cube pruning (algorithm 2): whatever the order of the pops, every combination is generated at most once, only combinations are
generated, and when the heap runs empty all have been popped. -/
theorem C14_fast (bounds : Nat → List Nat) (inEdges : List Nat) (hnd : inEdges.Nodup) (hb : ∀ e ∈ inEdges, ∀ b ∈ bounds e, 0 < b) (sched : List Nat) :
    let s := runFast bounds inEdges sched
    (s.popped ++ s.heap).Nodup ∧ (∀ c ∈ s.popped ++ s.heap, Valid bounds inEdges c) ∧
      (s.heap = [] → ∀ c, c ∈ s.popped ↔ Valid bounds inEdges c) := by
  intro s
  have h := fast_inv hnd hb sched
  refine ⟨h.nodup, h.valid, fun hemp c => ⟨fun hc => h.valid c (List.mem_append.2 (.inl hc)), fun hc => ?_⟩⟩
  refine complete_of (bounds := bounds) (es := inEdges) h.first hemp (fun c hc hnz hall => ?_) c hc
  obtain ⟨i, a, hi, rfl, hz⟩ := exists_before hnz
  have hb' : Before a (a.1, bump a.2 i) := before_iff.2 ⟨i, hi, rfl⟩
  refine h.children a (hall a hb') _ (mem_pushSuccFast.2 ⟨i, hi, rfl, ?_, hz⟩)
  exact (valid_bump (valid_before hc hb') hi).1 hc

/-! ## `PushSucc` -/

structure NormalInv (bounds : Nat → List Nat) (es : List Nat) (s : St × List Cand) : Prop extends Good bounds es s.1 where
  first : ∀ e ∈ es, (e, List.replicate (bounds e).length 0) ∈ s.1.popped ++ s.1.heap
  set : ∀ c, c ∈ s.2 ↔ c ∈ s.1.popped ++ s.1.heap
  children : ∀ c ∈ s.1.popped, ∀ d, Before c d → Valid bounds es d → d ∈ s.1.popped ++ s.1.heap

theorem pushSucc_spec (bounds : Nat → List Nat) (c : Cand) (l : List Cand) (s : List Cand) : ∀ n, n ≤ c.2.length →
    ∃ new : List Cand, (List.range n).foldl (pushSuccStep bounds c) (l, s) = (l ++ new, s ++ new) ∧ new.Nodup ∧ (∀ d ∈ new, d ∉ s) ∧
      (∀ d ∈ new, ∃ i < n, d = (c.1, bump c.2 i) ∧ c.2.getD i 0 + 1 < (bounds c.1).getD i 0) ∧
      ∀ i < n, c.2.getD i 0 + 1 < (bounds c.1).getD i 0 → (c.1, bump c.2 i) ∈ s ++ new := by
  intro n
  induction n with
  | zero => intro _; exact ⟨[], by simp⟩
  | succ n ih =>
    intro hn
    obtain ⟨new, h1, h2, h3, h4, h5⟩ := ih (by omega)
    rw [List.range_succ, List.foldl_append, h1, List.foldl_cons, List.foldl_nil]
    unfold pushSuccStep
    by_cases hb : c.2.getD n 0 + 1 < (bounds c.1).getD n 0
    · rw [if_pos hb]
      by_cases hcs : (s ++ new).contains (c.1, bump c.2 n) = true
      · rw [if_pos hcs]
        refine ⟨new, rfl, h2, h3, fun d hd => ?_, fun i hi hbi => ?_⟩
        · obtain ⟨i, hi, h⟩ := h4 d hd
          exact ⟨i, by omega, h⟩
        · by_cases hin : i = n
          · subst hin; simpa using hcs
          · exact h5 i (by omega) hbi
      · rw [if_neg hcs]
        have hns : (c.1, bump c.2 n) ∉ s ++ new := by simpa using hcs
        refine ⟨new ++ [(c.1, bump c.2 n)], by simp, ?_, ?_, ?_, ?_⟩
        · refine List.Nodup.append h2 (by simp) ?_
          intro d hd hd'
          rw [List.mem_singleton] at hd'
          subst hd'
          exact hns (List.mem_append.2 (.inr hd))
        · intro d hd
          rcases List.mem_append.1 hd with hd | hd
          · exact h3 d hd
          · rw [List.mem_singleton] at hd
            subst hd
            exact fun hs => hns (List.mem_append.2 (.inl hs))
        · intro d hd
          rcases List.mem_append.1 hd with hd | hd
          · obtain ⟨i, hi, h⟩ := h4 d hd
            exact ⟨i, by omega, h⟩
          · rw [List.mem_singleton] at hd
            exact ⟨n, by omega, hd, hb⟩
        · intro i hi hbi
          by_cases hin : i = n
          · subst hin; simp
          · have := h5 i (by omega) hbi
            rw [← List.append_assoc]
            exact List.mem_append.2 (.inl this)
    · rw [if_neg hb]
      refine ⟨new, rfl, h2, h3, fun d hd => ?_, fun i hi hbi => ?_⟩
      · obtain ⟨i, hi, h⟩ := h4 d hd
        exact ⟨i, by omega, h⟩
      · by_cases hin : i = n
        · subst hin; exact absurd hbi hb
        · exact h5 i (by omega) hbi

theorem normal_step {bounds : Nat → List Nat} {es : List Nat} {s : St × List Cand} (h : NormalInv bounds es s) (k : Nat) :
    NormalInv bounds es (stepNormal bounds s k) := by
  unfold stepNormal
  rcases hk : s.1.heap[k % s.1.heap.length]? with _ | c
  · exact h
  · simp only []
    obtain ⟨new, h1, h2, h3, h4, h5⟩ := pushSucc_spec bounds c (s.1.heap.eraseIdx (k % s.1.heap.length)) s.2 c.2.length (Nat.le_refl _)
    have e : pushSucc bounds c (s.1.heap.eraseIdx (k % s.1.heap.length), s.2) = (s.1.heap.eraseIdx (k % s.1.heap.length) ++ new, s.2 ++ new) := h1
    rw [e]
    have hmem := fun d => mem_after (p := s.1.popped) (new := new) hk d
    have hc : c ∈ s.1.heap := List.mem_of_getElem? hk
    have hcv := h.valid c (by simp [hc])
    refine ⟨⟨?_, ?_⟩, ?_, ?_, ?_⟩
    · simp only []
      rw [(perm_after hk).nodup_iff]
      refine List.Nodup.append h.nodup h2 ?_
      intro d hd hd'
      exact h3 d hd' ((h.set d).2 hd)
    · intro d hd
      rcases (hmem d).1 hd with hd | hd
      · exact h.valid d hd
      · obtain ⟨i, hi, rfl, hlt⟩ := h4 d hd
        exact (valid_bump hcv hi).2 hlt
    · exact fun e he => (hmem _).2 (.inl (h.first e he))
    · intro d
      simp only []
      rw [hmem, List.mem_append, h.set]
    · intro d hd d' hd' hv
      simp only [] at hd ⊢
      rw [hmem]
      rcases List.mem_append.1 hd with hd | hd
      · exact .inl (h.children d hd d' hd' hv)
      · rw [List.mem_singleton] at hd
        subst hd
        obtain ⟨i, hi, rfl⟩ := before_iff.1 hd'
        rcases List.mem_append.1 (h5 i hi ((valid_bump hcv hi).1 hv)) with hm | hm
        · exact .inl ((h.set _).1 hm)
        · exact .inr hm

/-- Cube pruning (algorithm 1, with a set of the candidates seen): the same. -/
theorem C14_normal (bounds : Nat → List Nat) (inEdges : List Nat) (hnd : inEdges.Nodup) (hb : ∀ e ∈ inEdges, ∀ b ∈ bounds e, 0 < b) (sched : List Nat) :
    let s := runNormal bounds inEdges sched
    (s.popped ++ s.heap).Nodup ∧ (∀ c ∈ s.popped ++ s.heap, Valid bounds inEdges c) ∧
      (s.heap = [] → ∀ c, c ∈ s.popped ↔ Valid bounds inEdges c) := by
  intro s
  have h : NormalInv bounds inEdges (sched.foldl (stepNormal bounds) (⟨start bounds inEdges, []⟩, start bounds inEdges)) := by
    have h0 : NormalInv bounds inEdges (⟨start bounds inEdges, []⟩, start bounds inEdges) := by
      refine ⟨⟨by simpa using start_nodup hnd, by simpa using start_valid hb⟩, ?_, by simp, by simp⟩
      intro e he
      simp only [List.nil_append]
      exact List.mem_map.2 ⟨e, he, rfl⟩
    generalize ((⟨start bounds inEdges, []⟩, start bounds inEdges) : St × List Cand) = s0 at h0
    clear s
    induction sched generalizing s0 with
    | nil => exact h0
    | cons k ks ih => exact ih _ (normal_step h0 k)
  refine ⟨h.nodup, h.valid, fun hemp c => ⟨fun hc => h.valid c (List.mem_append.2 (.inl hc)), fun hc => ?_⟩⟩
  refine complete_of (bounds := bounds) (es := inEdges) h.first hemp (fun c hc hnz hall => ?_) c hc
  obtain ⟨i, a, hi, rfl, hz⟩ := exists_before hnz
  have hb' : Before a (a.1, bump a.2 i) := before_iff.2 ⟨i, hi, rfl⟩
  exact h.children a (hall a hb') _ hb' hc

/-! ## `PushSuccFast2` -/

theorem hasAllAncestors_iff (ps : List Cand) (c : Cand) : hasAllAncestors ps c = true ↔ ∀ a, Before a c → a ∈ ps := by
  unfold hasAllAncestors
  rw [List.all_eq_true]
  constructor
  · rintro h a ha
    obtain ⟨i, hi, rfl⟩ := before_iff.1 ha
    have := h i (by simpa [bump_length] using hi)
    have hne : ((bump a.2 i).getD i 0 == 0) = false := by
      rw [bump_getD _ _ _ hi, if_pos rfl]
      simp
    simp only [] at this
    rw [hne, Bool.false_or] at this
    have hback : (bump a.2 i).modify i (· - 1) = a.2 := by
      apply List.ext_getElem?
      intro k
      simp only [bump, List.getElem?_modify]
      by_cases hk : i = k
      · simp only [hk, if_true]; rcases a.2[k]? with _ | x <;> simp
      · simp [hk]
    rw [hback] at this
    simpa using this
  · intro h i hi
    have hi' : i < c.2.length := by simpa using hi
    by_cases hz : c.2.getD i 0 = 0
    · rw [hz]; rfl
    · have hb : Before (c.1, c.2.modify i (· - 1)) c := by
        refine ⟨rfl, by simp, i, hi', ?_, ?_⟩
        · simp only [List.getD_eq_getElem?_getD, List.getElem?_modify, if_true] at hz ⊢
          rw [List.getElem?_eq_getElem hi'] at hz ⊢
          simp at hz ⊢
          omega
        · intro k hk
          have : ¬ i = k := fun e => hk e.symm
          simp [List.getD_eq_getElem?_getD, List.getElem?_modify, this]
      have := h _ hb
      simp only [Bool.or_eq_true]
      right
      simpa using this

/-- Exactly the combinations whose predecessors have all been popped have been generated. -/
structure Fast2Inv (bounds : Nat → List Nat) (es : List Nat) (s : St) : Prop extends Good bounds es s where
  gen : ∀ c, c ∈ s.popped ++ s.heap ↔ Valid bounds es c ∧ ∀ a, Before a c → a ∈ s.popped

theorem mem_pushSuccFast2 {bounds : Nat → List Nat} {ps : List Cand} {c d : Cand} : d ∈ pushSuccFast2 bounds ps c ↔
    ∃ i, i < c.2.length ∧ d = (c.1, bump c.2 i) ∧ c.2.getD i 0 + 1 < (bounds c.1).getD i 0 ∧ ∀ a, Before a d → a ∈ ps := by
  unfold pushSuccFast2
  rw [List.mem_flatMap]
  constructor
  · rintro ⟨i, hi, h⟩
    split at h
    · split at h
      · rename_i h1 h2
        rw [List.mem_singleton] at h
        subst h
        exact ⟨i, by simpa using hi, rfl, h1, (hasAllAncestors_iff _ _).1 h2⟩
      · simp at h
    · simp at h
  · rintro ⟨i, hi, rfl, h1, h2⟩
    refine ⟨i, by simpa using hi, ?_⟩
    rw [if_pos h1, if_pos ((hasAllAncestors_iff _ _).2 h2)]
    simp

theorem nodup_pushSuccFast2 (bounds : Nat → List Nat) (ps : List Cand) (c : Cand) : (pushSuccFast2 bounds ps c).Nodup := by
  unfold pushSuccFast2
  rw [List.nodup_flatMap]
  refine ⟨fun i _ => by split <;> (try split) <;> simp, ?_⟩
  refine List.Pairwise.imp_of_mem (R := (· ≠ ·)) ?_ List.nodup_range
  intro i k hi hk hne
  have hi' : i < c.2.length := by simpa using hi
  have hk' : k < c.2.length := by simpa using hk
  intro x hx hy
  beta_reduce at hx hy
  have ex : x = (c.1, bump c.2 i) := by
    split at hx
    · split at hx
      · simpa using hx
      · simp at hx
    · simp at hx
  have ey : x = (c.1, bump c.2 k) := by
    split at hy
    · split at hy
      · simpa using hy
      · simp at hy
    · simp at hy
  rw [ex, Prod.mk.injEq] at ey
  exact hne (bump_inj hi' hk' ey.2)

theorem fast2_step {bounds : Nat → List Nat} {es : List Nat} {s : St} (h : Fast2Inv bounds es s) (k : Nat) : Fast2Inv bounds es (stepFast2 bounds s k) := by
  unfold stepFast2
  rcases hk : s.heap[k % s.heap.length]? with _ | c
  · exact h
  · simp only []
    have hmem := fun d => mem_after (p := s.popped) (new := pushSuccFast2 bounds (s.popped ++ [c]) c) hk d
    have hc : c ∈ s.heap := List.mem_of_getElem? hk
    have hcv := h.valid c (by simp [hc])
    have hcp : c ∉ s.popped := fun hp => (List.nodup_append.1 h.nodup).2.2 c hp c hc rfl
    have hnew : ∀ d ∈ pushSuccFast2 bounds (s.popped ++ [c]) c, d ∉ s.popped ++ s.heap := by
      intro d hd hd'
      obtain ⟨i, hi, rfl, _, _⟩ := mem_pushSuccFast2.1 hd
      exact hcp (((h.gen _).1 hd').2 c (before_iff.2 ⟨i, hi, rfl⟩))
    have hgen : ∀ d, d ∈ (s.popped ++ [c]) ++ (s.heap.eraseIdx (k % s.heap.length) ++ pushSuccFast2 bounds (s.popped ++ [c]) c) ↔
        Valid bounds es d ∧ ∀ a, Before a d → a ∈ s.popped ++ [c] := by
      intro d
      rw [hmem]
      constructor
      · rintro (hd | hd)
        · obtain ⟨h1, h2⟩ := (h.gen d).1 hd
          exact ⟨h1, fun a ha => List.mem_append.2 (.inl (h2 a ha))⟩
        · obtain ⟨i, hi, rfl, h1, h2⟩ := mem_pushSuccFast2.1 hd
          exact ⟨(valid_bump hcv hi).2 h1, h2⟩
      · rintro ⟨h1, h2⟩
        by_cases hb : Before c d
        · right
          obtain ⟨i, hi, rfl⟩ := before_iff.1 hb
          exact mem_pushSuccFast2.2 ⟨i, hi, rfl, (valid_bump hcv hi).1 h1, h2⟩
        · left
          refine (h.gen d).2 ⟨h1, fun a ha => ?_⟩
          rcases List.mem_append.1 (h2 a ha) with hm | hm
          · exact hm
          · rw [List.mem_singleton] at hm
            subst hm
            exact absurd ha hb
    refine ⟨⟨?_, fun d hd => ((hgen d).1 hd).1⟩, hgen⟩
    rw [(perm_after hk).nodup_iff]
    exact List.Nodup.append h.nodup (nodup_pushSuccFast2 _ _ _) fun d hd hd' => hnew d hd' hd

/-- Faster cube pruning (algorithm 3): the same, and at every moment exactly the combinations whose predecessors have all been popped have been
generated. -/
theorem C14_fast2 (bounds : Nat → List Nat) (inEdges : List Nat) (hnd : inEdges.Nodup) (hb : ∀ e ∈ inEdges, ∀ b ∈ bounds e, 0 < b) (sched : List Nat) :
    let s := runFast2 bounds inEdges sched
    (s.popped ++ s.heap).Nodup ∧ (∀ c, c ∈ s.popped ++ s.heap ↔ Valid bounds inEdges c ∧ ∀ a, Before a c → a ∈ s.popped) ∧
      (s.heap = [] → ∀ c, c ∈ s.popped ↔ Valid bounds inEdges c) := by
  intro s
  have h : Fast2Inv bounds inEdges (runFast2 bounds inEdges sched) := by
    unfold runFast2
    have h0 : Fast2Inv bounds inEdges ⟨start bounds inEdges, []⟩ := by
      refine ⟨⟨by simpa using start_nodup hnd, by simpa using start_valid hb⟩, ?_⟩
      intro c
      simp only [List.nil_append]
      constructor
      · intro hc
        refine ⟨start_valid hb c hc, fun a ha => ?_⟩
        obtain ⟨e, he, rfl⟩ := List.mem_map.1 hc
        obtain ⟨i, hi, h'⟩ := before_iff.1 ha
        rw [Prod.mk.injEq] at h'
        exact absurd h'.2 (zero_not_bump hi)
      · rintro ⟨hv, hall⟩
        by_cases hz : c.2 = List.replicate c.2.length 0
        · refine List.mem_map.2 ⟨c.1, hv.1, ?_⟩
          rw [← (valid_iff.1 hv).2.1, ← hz]
        · obtain ⟨i, a, hi, rfl, _⟩ := exists_before hz
          exact absurd (hall a (before_iff.2 ⟨i, hi, rfl⟩)) (by simp)
    clear s
    generalize (⟨start bounds inEdges, []⟩ : St) = s0 at h0
    induction sched generalizing s0 with
    | nil => exact h0
    | cons k ks ih => exact ih _ (fast2_step h0 k)
  refine ⟨h.nodup, h.gen, fun hemp c => ⟨fun hc => h.valid c (List.mem_append.2 (.inl hc)), fun hc => ?_⟩⟩
  refine complete_of (bounds := bounds) (es := inEdges) (fun e he => (h.gen _).2 ⟨valid_zero hb he, fun a ha => ?_⟩) hemp (fun c hc _ hall => (h.gen c).2 ⟨hc, hall⟩) c hc
  obtain ⟨i, hi, h'⟩ := before_iff.1 ha
  rw [Prod.mk.injEq] at h'
  exact absurd h'.2 (zero_not_bump hi)

/-! ## The number of pops -/

/-- All vectors below the bounds. -/
def vectors : List Nat → List (List Nat)
  | [] => [[]]
  | b :: bs => (List.range b).flatMap fun i => (vectors bs).map (i :: ·)

theorem mem_vectors {b j : List Nat} : j ∈ vectors b ↔ List.Forall₂ (· < ·) j b := by
  induction b generalizing j with
  | nil => simp [vectors]
  | cons b bs ih =>
    simp only [vectors, List.mem_flatMap, List.mem_range, List.mem_map]
    constructor
    · rintro ⟨i, hi, r, hr, rfl⟩
      exact .cons hi (ih.1 hr)
    · intro h
      cases h with
      | cons h1 h2 => exact ⟨_, h1, _, ih.2 h2, rfl⟩

theorem length_vectors (b : List Nat) : (vectors b).length = b.prod := by
  induction b with
  | nil => rfl
  | cons b bs ih => simp [vectors, List.length_flatMap, ih]

theorem length_le {bounds : Nat → List Nat} {es : List Nat} {l : List Cand} (hnd : l.Nodup) (hv : ∀ c ∈ l, Valid bounds es c) :
    l.length ≤ (es.map fun e => (bounds e).prod).sum := by
  have hsub : l ⊆ es.flatMap fun e => (vectors (bounds e)).map fun j => (e, j) := by
    intro c hc
    obtain ⟨h1, h2⟩ := hv c hc
    exact List.mem_flatMap.2 ⟨c.1, h1, List.mem_map.2 ⟨c.2, mem_vectors.2 h2, rfl⟩⟩
  have := (List.subperm_of_subset hnd hsub).length_le
  simpa [List.length_flatMap, length_vectors] using this

/-- There are never more candidates than combinations, so that without a limit the loop ends, after at most this number of pops. -/
theorem C14_pops (bounds : Nat → List Nat) (inEdges : List Nat) (hnd : inEdges.Nodup) (hb : ∀ e ∈ inEdges, ∀ b ∈ bounds e, 0 < b) (sched : List Nat) :
    (runFast bounds inEdges sched).popped.length ≤ (inEdges.map fun e => (bounds e).prod).sum ∧
    (runNormal bounds inEdges sched).popped.length ≤ (inEdges.map fun e => (bounds e).prod).sum ∧
    (runFast2 bounds inEdges sched).popped.length ≤ (inEdges.map fun e => (bounds e).prod).sum := by
  have key : ∀ s : St, (s.popped ++ s.heap).Nodup → (∀ c ∈ s.popped ++ s.heap, Valid bounds inEdges c) →
      s.popped.length ≤ (inEdges.map fun e => (bounds e).prod).sum := by
    intro s h1 h2
    have := length_le h1 h2
    rw [List.length_append] at this
    omega
  obtain ⟨a1, a2, _⟩ := C14_fast bounds inEdges hnd hb sched
  obtain ⟨b1, b2, _⟩ := C14_normal bounds inEdges hnd hb sched
  obtain ⟨c1, c2, _⟩ := C14_fast2 bounds inEdges hnd hb sched
  exact ⟨key _ a1 a2, key _ b1 b2, key _ c1 fun c hc => ((c2 c).1 hc).1⟩

theorem foldl_popped_le {T : Type} (f : T → Nat → T) (pop : T → Nat) (h : ∀ s k, pop (f s k) ≤ pop s + 1) (sched : List Nat) (s : T) :
    pop (sched.foldl f s) ≤ pop s + sched.length := by
  induction sched generalizing s with
  | nil => simp
  | cons k ks ih =>
    rw [List.foldl_cons, List.length_cons]
    have h1 := ih (f s k)
    have h2 := h s k
    omega

/-- The pop limit is kept: a schedule has one entry per round of the loop. -/
theorem C14_limit (bounds : Nat → List Nat) (inEdges : List Nat) (sched : List Nat) :
    (runFast bounds inEdges sched).popped.length ≤ sched.length ∧ (runNormal bounds inEdges sched).popped.length ≤ sched.length ∧
    (runFast2 bounds inEdges sched).popped.length ≤ sched.length := by
  refine ⟨?_, ?_, ?_⟩
  · have := foldl_popped_le (stepFast bounds) (fun s => s.popped.length) (fun s k => by unfold stepFast; split <;> simp) sched ⟨start bounds inEdges, []⟩
    simpa [runFast] using this
  · have := foldl_popped_le (stepNormal bounds) (fun s => s.1.popped.length) (fun s k => by unfold stepNormal; split <;> simp) sched (⟨start bounds inEdges, []⟩, start bounds inEdges)
    simpa [runNormal] using this
  · have := foldl_popped_le (stepFast2 bounds) (fun s => s.popped.length) (fun s k => by unfold stepFast2; split <;> simp) sched ⟨start bounds inEdges, []⟩
    simpa [runFast2] using this

/-! The hypotheses are met: two edges, one with two tails that have 2 and 3 items and one without tails. -/

def exBounds : Nat → List Nat
  | 0 => [2, 3]
  | _ => []

example : [0, 1].Nodup ∧ ∀ e ∈ [0, 1], ∀ b ∈ exBounds e, 0 < b := by decide

example : (runFast exBounds [0, 1] [1, 0, 1, 0, 0, 0, 0]).heap = [] ∧ (runFast exBounds [0, 1] [1, 0, 1, 0, 0, 0, 0]).popped =
    [(1, []), (0, [0, 0]), (0, [0, 1]), (0, [1, 0]), (0, [1, 1]), (0, [0, 2]), (0, [1, 2])] ∧
    (runNormal exBounds [0, 1] [1, 0, 1, 0, 0, 0, 0]).heap = [] ∧ (runFast2 exBounds [0, 1] [1, 0, 1, 0, 0, 0, 0]).heap = [] := by decide

end Cdec.Dec.Cube
