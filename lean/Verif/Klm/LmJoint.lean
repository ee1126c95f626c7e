import Verif.Klm.LmInterp
import Verif.Klm.LmAdjustLemmas
import Mathlib.Algebra.Order.BigOperators.Group.Finset
/-!
Lemmas about `JointOrder` with the interpolation callback.
-/
namespace Cdec.Klm.Builder

/-- The streams that are interpolated: sorted, with the suffixes of all n-grams, and the back-offs of their contexts. -/
structure JointInput (N : Nat) (hashed : Nat → Bool) (S : Nat → List UnRec) (Cs : Nat → List (Gram × Rat)) : Prop where
  len : ∀ i < N, ∀ r ∈ S i, r.words.length = i + 1
  sorted : ∀ i < N, (S i).Pairwise fun a b => a.words.reverse < b.words.reverse
  suffix : ∀ i, i + 1 < N → ∀ r ∈ S (i + 1), ∃ q ∈ S i, q.words = r.words.tail
  csSorted : ∀ i, i + 1 < N → (Cs i).Pairwise fun a b => a.1.reverse < b.1.reverse
  csMem : ∀ i, i + 1 < N → ∀ r ∈ S i, isContext N i r.words = true → r.words ∈ (Cs i).map (·.1)
  csSeq : ∀ i, i + 1 < N → hashed (i + 1) = false → (Cs i).map (·.1) = ((S i).filter fun r => isContext N i r.words).map (·.words)

/-- The interpolated probability of an n-gram. -/
def interpProb (S : Nat → List UnRec) (u : Rat) : Gram → Rat
  | [] => u
  | x :: w =>
    match (S w.length).find? fun r => r.words = x :: w with
    | some r => r.prob + r.gamma * interpProb S u w
    | none => 0

/-- The back-off of an n-gram of order `i + 1`. -/
def backoffOf (N : Nat) (Cs : Nat → List (Gram × Rat)) (i : Nat) (g : Gram) : Rat :=
  if isContext N i g then (findBackoff g (Cs i)).1 else 1

/-- What is to be written for an n-gram. -/
def outOf (N : Nat) (S : Nat → List UnRec) (Cs : Nat → List (Gram × Rat)) (u : Rat) (i : Nat) (r : UnRec) : OutRec :=
  ⟨r.words, min 1 (interpProb S u r.words), backoffOf N Cs i r.words⟩

/-- The records of a stream that have not been entered when the heads of the first `e` streams have. -/
def unent (e : Nat) (streams : Nat → List UnRec) (i : Nat) : List UnRec := if i < e then (streams i).tail else streams i

structure JInv (N : Nat) (hashed : Nat → Bool) (S : Nat → List UnRec) (Cs : Nat → List (Gram × Rat)) (u : Rat)
    (streams : Nat → List UnRec) (order e : Nat) (cb : CbState) : Prop where
  eo : e ≤ order
  oN : order ≤ N
  part : ∀ i, ∃ D, S i = D ++ unent e streams i ∧ cb.out i = D.map (outOf N S Cs u i)
  suf : ∀ i, streams i <:+ S i
  bSorted : ∀ i, i + 1 < N → (cb.backoffs i).Pairwise fun a b => a.1.reverse < b.1.reverse
  bFind : ∀ i, i + 1 < N → ∀ r ∈ unent e streams i, isContext N i r.words = true →
    r.words ∈ (cb.backoffs i).map (·.1) ∧ (findBackoff r.words (cb.backoffs i)).1 = (findBackoff r.words (Cs i)).1
  bSeq : ∀ i, i + 1 < N → hashed (i + 1) = false →
    (cb.backoffs i).map (·.1) = ((unent e streams i).filter fun r => isContext N i r.words).map (·.words)
  p0 : cb.probs 0 = u
  probs : ∀ i, i < e → ∀ r ∈ (streams i).head?, cb.probs (i + 1) = interpProb S u r.words
  empty : ∀ i, order ≤ i → i < N → streams i = []
  nonempty : ∀ i, i < order → streams i ≠ []
  dom : ∀ i, i + 1 < order → ∀ a ∈ (streams i).head?, ∀ b ∈ (streams (i + 1)).head?, a.words.reverse ≤ b.words.tail.reverse

theorem mem_of_head? {α : Type} {l : List α} {a : α} (h : a ∈ l.head?) : a ∈ l := by
  cases l with
  | nil => simp at h
  | cons x xs => simp at h; simp [h]

theorem find_unique {l : List UnRec} (hs : l.Pairwise fun a b => a.words.reverse < b.words.reverse) {r : UnRec} (h : r ∈ l) :
    l.find? (fun q => decide (q.words = r.words)) = some r := by
  induction l with
  | nil => simp at h
  | cons x xs ih =>
    obtain ⟨h1, h2⟩ := List.pairwise_cons.1 hs
    rcases List.mem_cons.1 h with rfl | h
    · simp
    · rw [List.find?_cons_of_neg, ih h2 h]
      simp only [decide_eq_true_eq]
      intro e
      have := h1 r h
      rw [e] at this
      exact lt_irrefl _ this

theorem interpProb_eq {N : Nat} {hashed : Nat → Bool} {S : Nat → List UnRec} {Cs : Nat → List (Gram × Rat)}
    (hI : JointInput N hashed S Cs) (u : Rat) {i : Nat} (hi : i < N) {r : UnRec} (h : r ∈ S i) :
    interpProb S u r.words = r.prob + r.gamma * interpProb S u r.words.tail := by
  have hl := hI.len i hi r h
  have hf := find_unique (hI.sorted i hi) h
  cases hw : r.words with
  | nil => rw [hw] at hl; simp at hl
  | cons x w =>
    rw [hw] at hl hf
    have : w.length = i := by simpa using hl
    rw [interpProb, this, hf]
    rfl

theorem findBackoff_split {g : Gram} {bs : List (Gram × Rat)} (h : g ∈ bs.map (·.1)) :
    ∃ pre b rest, bs = pre ++ (g, b) :: rest ∧ findBackoff g bs = (b, rest) ∧ g ∉ pre.map (·.1) := by
  induction bs with
  | nil => simp at h
  | cons x xs ih =>
    by_cases hx : x.1 = g
    · refine ⟨[], x.2, xs, ?_, ?_, by simp⟩
      · subst hx; rfl
      · simp [findBackoff, hx]
    · obtain ⟨pre, b, rest, h1, h2, h3⟩ := ih (by
        rcases List.mem_cons.1 h with h | h
        · exact absurd h.symm hx
        · exact h)
      refine ⟨x :: pre, b, rest, by simp [h1], ?_, ?_⟩
      · rw [findBackoff, if_neg hx, h2]
      · simp only [List.map_cons, List.mem_cons, not_or]
        exact ⟨fun e => hx e.symm, h3⟩

theorem findBackoff_skip {g : Gram} {pre rest : List (Gram × Rat)} (h : g ∉ pre.map (·.1)) :
    findBackoff g (pre ++ rest) = findBackoff g rest := by
  induction pre with
  | nil => rfl
  | cons x xs ih =>
    simp only [List.map_cons, List.mem_cons, not_or] at h
    rw [List.cons_append, findBackoff, if_neg (fun e => h.1 e.symm), ih h.2]

/-- Taking the back-off of the next n-gram. -/
theorem takeBackoff_spec {N : Nat} {hashed : Bool} {i : Nat} {r : UnRec} {un : List UnRec} {bs Cs : List (Gram × Rat)}
    (hun : (r :: un).Pairwise fun a b => a.words.reverse < b.words.reverse)
    (hb : bs.Pairwise fun a b => a.1.reverse < b.1.reverse)
    (hf : ∀ q ∈ r :: un, isContext N i q.words = true →
      q.words ∈ bs.map (·.1) ∧ (findBackoff q.words bs).1 = (findBackoff q.words Cs).1)
    (hq : hashed = false → bs.map (·.1) = ((r :: un).filter fun q => isContext N i q.words).map (·.words))
    (hc : isContext N i r.words = true) :
    ∃ rest, takeBackoff hashed r.words bs = some ((findBackoff r.words Cs).1, rest) ∧
      (rest.Pairwise fun a b => a.1.reverse < b.1.reverse) ∧
      (∀ q ∈ un, isContext N i q.words = true →
        q.words ∈ rest.map (·.1) ∧ (findBackoff q.words rest).1 = (findBackoff q.words Cs).1) ∧
      (hashed = false → rest.map (·.1) = (un.filter fun q => isContext N i q.words).map (·.words)) := by
  obtain ⟨hm, hv⟩ := hf r (by simp) hc
  obtain ⟨pre, b, rest, h1, h2, h3⟩ := findBackoff_split hm
  rw [h2] at hv
  simp only at hv
  have hseq : hashed = false → pre = [] ∧ rest.map (·.1) = (un.filter fun q => isContext N i q.words).map (·.words) := by
    intro h
    have := hq h
    rw [List.filter_cons_of_pos (by simpa using hc), List.map_cons, h1] at this
    cases pre with
    | nil => exact ⟨rfl, by simpa using this⟩
    | cons p ps =>
      exfalso
      simp only [List.cons_append, List.map_cons, List.cons.injEq] at this
      apply h3
      simp [this.1]
  refine ⟨rest, ?_, ?_, ?_, fun h => (hseq h).2⟩
  · unfold takeBackoff
    cases hashed with
    | true => simp [h2, hv]
    | false =>
      obtain ⟨rfl, _⟩ := hseq rfl
      rw [h1]
      simp [hv]
  · rw [h1] at hb
    exact (List.pairwise_cons.1 (List.pairwise_append.1 hb).2.1).2
  · intro q hqm hqc
    obtain ⟨m1, m2⟩ := hf q (List.mem_cons_of_mem _ hqm) hqc
    have hlt := (List.pairwise_cons.1 hun).1 q hqm
    have hnot : q.words ∉ (pre ++ [(r.words, b)]).map (·.1) := by
      intro hp
      rw [List.map_append, List.mem_append] at hp
      rcases hp with hp | hp
      · obtain ⟨x, hx, hxe⟩ := List.mem_map.1 hp
        rw [h1] at hb
        have := (List.pairwise_append.1 hb).2.2 x hx (r.words, b) (by simp)
        rw [hxe] at this
        exact lt_asymm this hlt
      · simp only [List.map_cons, List.map_nil, List.mem_singleton] at hp
        rw [hp] at hlt
        exact lt_irrefl _ hlt
    have he : bs = (pre ++ [(r.words, b)]) ++ rest := by rw [h1]; simp
    rw [he] at m1 m2
    rw [findBackoff_skip hnot] at m2
    refine ⟨?_, m2⟩
    rw [List.map_append, List.mem_append] at m1
    exact m1.resolve_left hnot

theorem setAt_same {α : Type} (f : Nat → α) (i : Nat) (x : α) : setAt f i x i = x := by simp [setAt]
theorem setAt_ne {α : Type} (f : Nat → α) {i j : Nat} (x : α) (h : j ≠ i) : setAt f i x j = f j := by simp [setAt, h]

theorem unent_succ_ne {e : Nat} {streams : Nat → List UnRec} {i : Nat} (h : i ≠ e) :
    unent (e + 1) streams i = unent e streams i := by
  unfold unent
  by_cases hi : i < e
  · rw [if_pos hi, if_pos (by omega)]
  · rw [if_neg hi, if_neg (by omega)]

/-- Entering the head of a stream. -/
theorem jinv_enter {N : Nat} {hashed : Nat → Bool} {S : Nat → List UnRec} {Cs : Nat → List (Gram × Rat)} {u : Rat}
    (hI : JointInput N hashed S Cs) {streams : Nat → List UnRec} {order c : Nat} {cb : CbState}
    (h : JInv N hashed S Cs u streams order c cb) (hc : c < order) (hm : suffixMatches streams c = true) {r : UnRec}
    (hr : (streams c).head? = some r) :
    ∃ cb', cb.enter N hashed c r = some cb' ∧ JInv N hashed S Cs u streams order (c + 1) cb' := by
  obtain ⟨un, hst⟩ : ∃ un, streams c = r :: un := by
    cases hs : streams c with
    | nil => rw [hs] at hr; simp at hr
    | cons x xs => rw [hs] at hr; simp at hr; exact ⟨xs, by rw [hr]⟩
  have hrS : r ∈ S c := (h.suf c).subset (by simp [hst])
  have hp : r.prob + r.gamma * cb.probs c = interpProb S u r.words := by
    rw [interpProb_eq hI u (by have := h.oN; omega) hrS]
    congr 2
    cases c with
    | zero =>
      have := hI.len 0 (by have := h.oN; omega) r hrS
      have : r.words.tail = [] := by
        cases hw : r.words with
        | nil => rfl
        | cons x w => rw [hw] at this; simp at this; simp [this]
      rw [this, h.p0]; rfl
    | succ c =>
      unfold suffixMatches at hm
      simp only [Nat.add_sub_cancel, decide_eq_true_eq, hst] at hm
      rcases hm with hm | hm
      · omega
      · cases hq : (streams c).head? with
        | none => rw [hq] at hm; simp at hm
        | some q =>
          rw [hq] at hm
          simp at hm
          rw [h.probs c (by omega) q (by simp [hq]), hm]
  have hu0 : unent c streams c = r :: un := by unfold unent; rw [if_neg (by omega), hst]
  have hu1 : unent (c + 1) streams c = un := by unfold unent; rw [if_pos (by omega), hst]; rfl
  have hsorted : (r :: un).Pairwise fun a b => a.words.reverse < b.words.reverse := by
    rw [← hst]; exact (hI.sorted c (by have := h.oN; omega)).sublist (h.suf c).sublist
  -- the two branches differ in the back-offs only
  have main : ∀ (bks : Nat → List (Gram × Rat)),
      (∀ i, i ≠ c → bks i = cb.backoffs i) →
      (c + 1 < N → (bks c).Pairwise fun a b => a.1.reverse < b.1.reverse) →
      (c + 1 < N → ∀ q ∈ un, isContext N c q.words = true →
        q.words ∈ (bks c).map (·.1) ∧ (findBackoff q.words (bks c)).1 = (findBackoff q.words (Cs c)).1) →
      (c + 1 < N → hashed (c + 1) = false → (bks c).map (·.1) = (un.filter fun q => isContext N c q.words).map (·.words)) →
      JInv N hashed S Cs u streams order (c + 1) ⟨setAt cb.probs (c + 1) (r.prob + r.gamma * cb.probs c), bks,
        setAt cb.out c (cb.out c ++ [outOf N S Cs u c r])⟩ := by
    intro bks b0 b1 b2 b3
    refine ⟨by omega, h.oN, ?_, h.suf, ?_, ?_, ?_, ?_, ?_, h.empty, h.nonempty, h.dom⟩
    · intro i
      obtain ⟨D, hD1, hD2⟩ := h.part i
      by_cases hi : i = c
      · subst hi
        rw [hu0] at hD1
        refine ⟨D ++ [r], by rw [hu1, hD1]; simp, ?_⟩
        show setAt cb.out i _ i = _
        rw [setAt_same, hD2]; simp
      · refine ⟨D, by rw [unent_succ_ne hi]; exact hD1, ?_⟩
        show setAt cb.out c _ i = _
        rw [setAt_ne _ _ hi, hD2]
    · intro i hi
      show (bks i).Pairwise _
      by_cases hic : i = c
      · subst hic; exact b1 hi
      · rw [b0 i hic]; exact h.bSorted i hi
    · intro i hi q hq hqc
      show q.words ∈ (bks i).map _ ∧ _
      by_cases hic : i = c
      · subst hic; rw [hu1] at hq; exact b2 hi q hq hqc
      · rw [unent_succ_ne hic] at hq
        have := h.bFind i hi q hq hqc
        rw [← b0 i hic] at this
        exact this
    · intro i hi hh
      show (bks i).map _ = _
      by_cases hic : i = c
      · subst hic; rw [hu1]; exact b3 hi hh
      · rw [unent_succ_ne hic, b0 i hic]; exact h.bSeq i hi hh
    · show setAt cb.probs (c + 1) (r.prob + r.gamma * cb.probs c) 0 = u
      rw [setAt_ne _ _ (by omega), h.p0]
    · intro i hi q hq
      show setAt cb.probs (c + 1) _ (i + 1) = _
      by_cases hic : i = c
      · subst hic
        rw [setAt_same, hp]
        rw [hr] at hq
        simp at hq
        rw [hq]
      · rw [setAt_ne _ _ (by omega)]
        exact h.probs i (by omega) q hq
  unfold CbState.enter
  simp only []
  by_cases hctx : isContext N c r.words = true
  · have hcN : c + 1 < N := by
      unfold isContext at hctx
      simp only [decide_eq_true_eq] at hctx
      exact hctx.1
    have hB := h.bFind c hcN
    rw [hu0] at hB
    have hQ := h.bSeq c hcN
    rw [hu0] at hQ
    obtain ⟨rest, t1, t2, t3, t4⟩ := takeBackoff_spec hsorted (h.bSorted c hcN) hB hQ hctx
    rw [if_pos hctx, t1]
    refine ⟨_, rfl, ?_⟩
    have hout : (⟨r.words, min 1 (r.prob + r.gamma * cb.probs c), (findBackoff r.words (Cs c)).1⟩ : OutRec) = outOf N S Cs u c r := by
      unfold outOf backoffOf
      rw [if_pos hctx, hp]
    rw [hout]
    refine main (setAt cb.backoffs c rest) (fun i hi => setAt_ne _ _ hi) ?_ ?_ ?_
    · rw [setAt_same]; exact fun _ => t2
    · rw [setAt_same]; exact fun _ => t3
    · rw [setAt_same]; exact fun _ => t4
  · rw [if_neg hctx]
    refine ⟨_, rfl, ?_⟩
    have hout : (⟨r.words, min 1 (r.prob + r.gamma * cb.probs c), 1⟩ : OutRec) = outOf N S Cs u c r := by
      unfold outOf backoffOf
      rw [if_neg hctx, hp]
    rw [hout]
    refine main cb.backoffs (fun i _ => rfl) (h.bSorted c) ?_ ?_
    · intro hN q hq
      exact h.bFind c hN q (by rw [hu0]; simp [hq])
    · intro hN hh
      rw [h.bSeq c hN hh, hu0, List.filter_cons_of_neg (by simpa using hctx)]

/-- How much is left to do. -/
def leftOver (N : Nat) (streams : Nat → List UnRec) (e : Nat) : Nat :=
  ∑ i ∈ Finset.range N, ((streams i).length + (unent e streams i).length)

theorem leftOver_lt {N : Nat} {s s' : Nat → List UnRec} {e e' : Nat}
    (h : ∀ i < N, (s' i).length + (unent e' s' i).length ≤ (s i).length + (unent e s i).length)
    (hs : ∃ i < N, (s' i).length + (unent e' s' i).length < (s i).length + (unent e s i).length) :
    leftOver N s' e' < leftOver N s e := by
  obtain ⟨i, hi, hlt⟩ := hs
  exact Finset.sum_lt_sum (fun j hj => h j (Finset.mem_range.1 hj)) ⟨i, Finset.mem_range.2 hi, hlt⟩

/-- What a run has to end with. -/
structure JDone (N : Nat) (hashed : Nat → Bool) (S : Nat → List UnRec) (Cs : Nat → List (Gram × Rat)) (u : Rat)
    (cb : CbState) : Prop where
  out : ∀ i < N, cb.out i = (S i).map (outOf N S Cs u i)
  seq : ∀ i, i + 1 < N → hashed (i + 1) = false → cb.backoffs i = []

/-- Leaving the head of stream `c`. -/
theorem jinv_tail {N : Nat} {hashed : Nat → Bool} {S : Nat → List UnRec} {Cs : Nat → List (Gram × Rat)} {u : Rat}
    (hI : JointInput N hashed S Cs) {streams : Nat → List UnRec} {order c : Nat} {cb : CbState}
    (h : JInv N hashed S Cs u streams order (c + 1) cb)
    (hl : c + 1 < order → ∀ a ∈ (streams c).head?, ∀ b ∈ (streams (c + 1)).head?, a.words.reverse < b.words.tail.reverse)
    {order' : Nat} (ho : order' = if (streams c).tail = [] then c else order)
    (hx : (streams c).tail = [] → order = c + 1) :
    JInv N hashed S Cs u (setAt streams c (streams c).tail) order' c cb := by
  have hco : c < order := h.eo
  obtain ⟨a, rest, hst⟩ : ∃ a rest, streams c = a :: rest := by
    cases hs : streams c with
    | nil => exact absurd hs (h.nonempty c hco)
    | cons a rest => exact ⟨a, rest, rfl⟩
  have hrest : (streams c).tail = rest := by rw [hst]; rfl
  rw [hrest] at ho hx ⊢
  have hun : ∀ i, unent c (setAt streams c rest) i = unent (c + 1) streams i := by
    intro i
    unfold unent
    by_cases h1 : i < c
    · rw [if_pos h1, if_pos (by omega), setAt_ne _ _ (by omega)]
    · by_cases h2 : i = c
      · subst h2; rw [if_neg (by omega), if_pos (by omega), setAt_same, hrest]
      · rw [if_neg h1, if_neg (by omega), setAt_ne _ _ h2]
  have hS := hI.sorted c (by have := h.oN; omega)
  have hsort : (a :: rest).Pairwise fun x y => x.words.reverse < y.words.reverse := by
    rw [← hst]; exact hS.sublist (h.suf c).sublist
  have hle : order' ≤ order := by rw [ho]; split <;> omega
  refine ⟨?_, hle.trans h.oN, ?_, ?_, h.bSorted, ?_, ?_, h.p0, ?_, ?_, ?_, ?_⟩
  · rw [ho]; split <;> omega
  · intro i; rw [hun i]; exact h.part i
  · intro i
    by_cases hi : i = c
    · subst hi
      rw [setAt_same]
      exact (List.suffix_cons a rest).trans (hst ▸ h.suf i)
    · rw [setAt_ne _ _ hi]; exact h.suf i
  · intro i hi q hq; rw [hun i] at hq; exact h.bFind i hi q hq
  · intro i hi hh; rw [hun i]; exact h.bSeq i hi hh
  · intro i hi q hq
    rw [setAt_ne _ _ (by omega)] at hq
    exact h.probs i (by omega) q hq
  · intro i hi hiN
    by_cases hic : i = c
    · subst hic
      rw [setAt_same]
      by_contra hne
      rw [if_neg hne] at ho
      omega
    · rw [setAt_ne _ _ hic]
      by_cases hre : rest = []
      · rw [if_pos hre] at ho
        have := hx hre
        exact h.empty i (by omega) hiN
      · rw [if_neg hre] at ho
        exact h.empty i (by omega) hiN
  · intro i hi
    by_cases hic : i = c
    · subst hic
      rw [setAt_same]
      rintro rfl
      rw [if_pos rfl] at ho
      omega
    · rw [setAt_ne _ _ hic]; exact h.nonempty i (by omega)
  · intro i hi x hx' y hy
    by_cases hic : i = c
    · subst hic
      rw [setAt_same] at hx'
      rw [setAt_ne _ _ (by omega)] at hy
      -- the suffix of the next longer n-gram is still to come
      have hlt := hl (by omega) a (by simp [hst]) y hy
      have hyS : y ∈ S (i + 1) := (h.suf (i + 1)).subset (mem_of_head? hy)
      obtain ⟨q, hq, hqw⟩ := hI.suffix i (by have := h.oN; omega) y hyS
      rw [← hqw] at hlt ⊢
      obtain ⟨D, hD⟩ := h.suf i
      rw [hst] at hD
      rw [← hD] at hq hS
      have hqr : q ∈ rest := by
        rcases List.mem_append.1 hq with hq | hq
        · exact absurd ((List.pairwise_append.1 hS).2.2 q hq a (by simp)) (lt_asymm hlt)
        · rcases List.mem_cons.1 hq with rfl | hq
          · exact absurd hlt (lt_irrefl _)
          · exact hq
      have hrs := (List.pairwise_cons.1 hsort).2
      cases rest with
      | nil => simp at hqr
      | cons z zs =>
        simp at hx'
        subst hx'
        rcases List.mem_cons.1 hqr with rfl | hqr
        · exact le_refl _
        · exact le_of_lt ((List.pairwise_cons.1 hrs).1 q hqr)
    · rw [setAt_ne _ _ hic] at hx'
      by_cases hi1 : i + 1 = c
      · subst hi1
        rw [setAt_same] at hy
        have h1 := h.dom i (by omega) x hx' a (by simp [hst])
        have hay : a.words.reverse < y.words.reverse := (List.pairwise_cons.1 hsort).1 y (mem_of_head? hy)
        refine h1.trans ?_
        have la : a.words.length = i + 1 + 1 := hI.len _ (by have := h.oN; omega) a ((h.suf _).subset (by simp [hst]))
        have ly : y.words.length = i + 1 + 1 := hI.len _ (by have := h.oN; omega) y ((h.suf _).subset (by rw [hst]; exact List.mem_cons_of_mem _ (mem_of_head? hy)))
        have ea : a.words.tail.reverse = a.words.reverse.take (i + 1) := by
          rw [← List.dropLast_reverse, List.dropLast_eq_take]; simp [la]
        have ey : y.words.tail.reverse = y.words.reverse.take (i + 1) := by
          rw [← List.dropLast_reverse, List.dropLast_eq_take]; simp [ly]
        rw [ea, ey]
        exact take_le_take _ _ _ (le_of_lt hay)
      · rw [setAt_ne _ _ hi1] at hy
        exact h.dom i (by omega) x hx' y hy

theorem unent_le (e : Nat) (s : Nat → List UnRec) (i : Nat) : (unent e s i).length ≤ (s i).length := by
  unfold unent; split <;> simp

theorem jointLeave_spec {N : Nat} {hashed : Nat → Bool} {S : Nat → List UnRec} {Cs : Nat → List (Gram × Rat)} {u : Rat}
    (hI : JointInput N hashed S Cs) : ∀ (c : Nat) (streams : Nat → List UnRec) (order : Nat) (cb : CbState), 1 ≤ c →
    JInv N hashed S Cs u streams order c cb →
    (c < order → ∀ a ∈ (streams (c - 1)).head?, ∀ b ∈ (streams c).head?, a.words.reverse < b.words.tail.reverse) →
    (∃ s', jointLeave streams order cb c = .next s' ∧ JInv N hashed S Cs u s'.streams s'.order s'.current s'.cb ∧
      s'.current < s'.order ∧ leftOver N s'.streams s'.current < leftOver N streams c) ∨
    (∃ cb', jointLeave streams order cb c = .done cb' ∧ JDone N hashed S Cs u cb') := by
  intro c
  induction c with
  | zero => intro _ _ _ h; omega
  | succ c ih =>
    intro streams order cb _ h hl
    rw [Nat.add_sub_cancel] at hl
    have hco : c < order := h.eo
    have hlt : leftOver N (setAt streams c (streams c).tail) c < leftOver N streams (c + 1) := by
      have hne := h.nonempty c hco
      refine leftOver_lt ?_ ⟨c, by have := h.oN; omega, ?_⟩
      · intro i _
        by_cases hi : i = c
        · subst hi
          unfold unent
          rw [setAt_same, if_neg (by omega), if_pos (by omega)]
          have := List.length_tail (l := streams i)
          omega
        · unfold unent
          rw [setAt_ne _ _ hi]
          by_cases h1 : i < c
          · rw [if_pos h1, if_pos (by omega)]
          · rw [if_neg h1, if_neg (by omega)]
      · unfold unent
        rw [setAt_same, if_neg (by omega), if_pos (by omega)]
        have : 0 < (streams c).length := List.length_pos_iff.2 hne
        simp; omega
    unfold jointLeave
    simp only []
    by_cases hr : (streams c).tail = []
    · have hox : order = c + 1 := by
        by_contra hne
        have hc1 : c + 1 < order := by omega
        obtain ⟨a, rest, hst⟩ : ∃ a rest, streams c = a :: rest := by
          cases hs : streams c with
          | nil => exact absurd hs (h.nonempty c hco)
          | cons a rest => exact ⟨a, rest, rfl⟩
        have hrn : rest = [] := by rw [hst] at hr; exact hr
        obtain ⟨y, ys, hsy⟩ : ∃ y ys, streams (c + 1) = y :: ys := by
          cases hs : streams (c + 1) with
          | nil => exact absurd hs (h.nonempty (c + 1) hc1)
          | cons a rest => exact ⟨a, rest, rfl⟩
        have hlt := hl hc1 a (by simp [hst]) y (by simp [hsy])
        obtain ⟨q, hq, hqw⟩ := hI.suffix c (by have := h.oN; omega) y ((h.suf _).subset (by simp [hsy]))
        rw [← hqw] at hlt
        have hS := hI.sorted c (by have := h.oN; omega)
        obtain ⟨D, hD⟩ := h.suf c
        rw [hst, hrn] at hD
        rw [← hD] at hq hS
        rcases List.mem_append.1 hq with hq | hq
        · exact absurd ((List.pairwise_append.1 hS).2.2 q hq a (by simp)) (lt_asymm hlt)
        · rw [List.mem_singleton.1 hq] at hlt
          exact absurd hlt (lt_irrefl _)
      have hinv := jinv_tail hI h hl (order' := c) (by rw [if_pos hr]) (fun _ => hox)
      rw [if_neg (by simpa using hr), if_neg (by simpa using hox)]
      by_cases hc0 : c = 0
      · rw [if_pos hc0]
        subst hc0
        right
        refine ⟨cb, rfl, ?_, ?_⟩
        · intro i hi
          obtain ⟨D, hD1, hD2⟩ := hinv.part i
          have : unent 0 (setAt streams 0 (streams 0).tail) i = [] := by
            unfold unent
            rw [if_neg (by omega)]
            exact hinv.empty i (by omega) hi
          rw [this, List.append_nil] at hD1
          rw [hD1, hD2]
        · intro i hi hh
          have := hinv.bSeq i hi hh
          have hu : unent 0 (setAt streams 0 (streams 0).tail) i = [] := by
            unfold unent
            rw [if_neg (by omega)]
            exact hinv.empty i (by omega) (by omega)
          rw [hu] at this
          simpa using this
      · rw [if_neg hc0]
        rcases ih _ _ cb (by omega) hinv (fun h => absurd h (lt_irrefl _)) with ⟨s', e1, e2, e3, e4⟩ | ⟨cb', e1, e2⟩
        · exact Or.inl ⟨s', e1, e2, e3, e4.trans hlt⟩
        · exact Or.inr ⟨cb', e1, e2⟩
    · have hinv := jinv_tail hI h hl (order' := order) (by rw [if_neg hr]) (fun h => absurd h hr)
      rw [if_pos (by simpa using hr)]
      exact Or.inl ⟨_, rfl, hinv, hco, hlt⟩

/-- One turn of the loop. -/
theorem jointStep_spec {N : Nat} {hashed : Nat → Bool} {S : Nat → List UnRec} {Cs : Nat → List (Gram × Rat)} {u : Rat}
    (hI : JointInput N hashed S Cs) (s : JState) (h : JInv N hashed S Cs u s.streams s.order s.current s.cb)
    (hc : s.current < s.order) :
    (∃ s', jointStep N hashed s = .next s' ∧ JInv N hashed S Cs u s'.streams s'.order s'.current s'.cb ∧
      s'.current < s'.order ∧ leftOver N s'.streams s'.current < leftOver N s.streams s.current) ∨
    (∃ cb', jointStep N hashed s = .done cb' ∧ JDone N hashed S Cs u cb') := by
  obtain ⟨streams, order, c, cb⟩ := s
  simp only at h hc ⊢
  obtain ⟨r, un, hst⟩ : ∃ a rest, streams c = a :: rest := by
    cases hs : streams c with
    | nil => exact absurd hs (h.nonempty c hc)
    | cons a rest => exact ⟨a, rest, rfl⟩
  unfold jointStep
  simp only []
  by_cases hm : suffixMatches streams c = true
  · obtain ⟨cb', he, hinv⟩ := jinv_enter hI h hc hm (r := r) (by simp [hst])
    have hlt : leftOver N streams (c + 1) < leftOver N streams c := by
      refine leftOver_lt ?_ ⟨c, by have := h.oN; omega, ?_⟩
      · intro i _
        by_cases hi : i = c
        · subst hi
          unfold unent
          rw [if_pos (by omega), if_neg (by omega)]
          have := List.length_tail (l := streams i)
          omega
        · rw [unent_succ_ne hi]
      · unfold unent
        rw [if_pos (by omega), if_neg (by omega), hst]
        simp
    rw [if_pos hm, hst]
    simp only [List.head?_cons, he]
    by_cases hco : c + 1 < order
    · rw [if_pos hco]
      exact Or.inl ⟨_, rfl, hinv, hco, hlt⟩
    · rw [if_neg hco]
      rcases jointLeave_spec hI (c + 1) streams order cb' (by omega) hinv (fun h => absurd h hco) with
        ⟨s', e1, e2, e3, e4⟩ | ⟨cb'', e1, e2⟩
      · exact Or.inl ⟨s', e1, e2, e3, e4.trans hlt⟩
      · exact Or.inr ⟨cb'', e1, e2⟩
  · rw [if_neg hm]
    have hc1 : 1 ≤ c := by
      by_contra h0
      exact hm (by unfold suffixMatches; simp; omega)
    obtain ⟨a, rest, hsa⟩ : ∃ a rest, streams (c - 1) = a :: rest := by
      cases hs : streams (c - 1) with
      | nil => exact absurd hs (h.nonempty (c - 1) (by omega))
      | cons a rest => exact ⟨a, rest, rfl⟩
    refine jointLeave_spec hI c streams order cb hc1 h ?_
    intro _ x hx y hy
    rw [hsa] at hx
    rw [hst] at hy
    simp at hx hy
    subst hx; subst hy
    have hle := h.dom (c - 1) (by omega) a (by simp [hsa]) r (by rw [show c - 1 + 1 = c by omega]; simp [hst])
    refine lt_of_le_of_ne hle ?_
    intro e
    apply hm
    unfold suffixMatches
    simp only [hsa, hst, List.head?_cons, Option.map_some, Option.some.injEq, decide_eq_true_eq]
    exact Or.inr (List.reverse_injective e)

theorem jointRun_spec {N : Nat} {hashed : Nat → Bool} {S : Nat → List UnRec} {Cs : Nat → List (Gram × Rat)} {u : Rat}
    (hI : JointInput N hashed S Cs) : ∀ (n : Nat) (s : JState), leftOver N s.streams s.current < n →
    JInv N hashed S Cs u s.streams s.order s.current s.cb → s.current < s.order →
    ∃ cb, (∀ m, n ≤ m → jointRun N hashed m s = some cb) ∧ JDone N hashed S Cs u cb := by
  intro n
  induction n with
  | zero => intro s h; omega
  | succ n ih =>
    intro s hn h hc
    rcases jointStep_spec hI s h hc with ⟨s', e1, e2, e3, e4⟩ | ⟨cb', e1, e2⟩
    · obtain ⟨cb, h1, h2⟩ := ih s' (by omega) e2 e3
      refine ⟨cb, ?_, h2⟩
      intro m hm
      obtain ⟨m, rfl⟩ : ∃ k, m = k + 1 := ⟨m - 1, by omega⟩
      rw [jointRun, e1]
      exact h1 m (by omega)
    · refine ⟨cb', ?_, e2⟩
      intro m hm
      obtain ⟨m, rfl⟩ : ∃ k, m = k + 1 := ⟨m - 1, by omega⟩
      rw [jointRun, e1]

theorem jointRun_mono {N : Nat} {hashed : Nat → Bool} : ∀ (n : Nat) (s : JState) (cb : CbState),
    jointRun N hashed n s = some cb → ∀ m, n ≤ m → jointRun N hashed m s = some cb := by
  intro n
  induction n with
  | zero => intro s cb h; simp [jointRun] at h
  | succ n ih =>
    intro s cb h m hm
    obtain ⟨m, rfl⟩ : ∃ k, m = k + 1 := ⟨m - 1, by omega⟩
    rw [jointRun] at h ⊢
    cases hs : jointStep N hashed s with
    | next s' => rw [hs] at h; exact ih s' cb h m (by omega)
    | done c => rw [hs] at h; exact h
    | fail => rw [hs] at h; simp at h

/-- The interpolation of consistent streams: it ends, and writes for every n-gram its interpolated probability and its back-off. -/
theorem interpolate_spec {N : Nat} (hN : 1 ≤ N) {hashed : Nat → Bool} {S : Nat → List UnRec} {Cs : Nat → List (Gram × Rat)} {u : Rat}
    (hI : JointInput N hashed S Cs) (h0 : S 0 ≠ []) :
    ∃ n out, (∀ m, n ≤ m → interpolate N hashed u Cs S m = some out) ∧ ∀ i < N, out i = (S i).map (outOf N S Cs u i) := by
  set order := ((List.range N).takeWhile fun i => S i ≠ []).length with ho
  have hmono : ∀ i, i < N → ∀ j, j ≤ i → S i ≠ [] → S j ≠ [] := by
    intro i
    induction i with
    | zero => intro _ j hj h; rw [show j = 0 by omega]; exact h
    | succ i ih =>
      intro hi j hj h
      by_cases hji : j = i + 1
      · rw [hji]; exact h
      · refine ih (by omega) j (by omega) ?_
        cases hS : S (i + 1) with
        | nil => exact absurd hS h
        | cons r rs =>
          obtain ⟨q, hq, _⟩ := hI.suffix i hi r (by simp [hS])
          intro e; rw [e] at hq; simp at hq
  have hoN : order ≤ N := by
    have := (List.takeWhile_sublist (fun i => decide (S i ≠ [])) (l := List.range N)).length_le
    rw [List.length_range] at this
    exact this
  have htw : ∀ i, i < order → S i ≠ [] := by
    intro i hi
    have hp : ((List.range N).takeWhile fun i => decide (S i ≠ [])) <+: List.range N := List.takeWhile_prefix _
    have hg : ((List.range N).takeWhile fun i => decide (S i ≠ []))[i]'hi = i := by
      rw [hp.getElem]; simp
    have := List.all_takeWhile (p := fun i => decide (S i ≠ [])) (l := List.range N)
    have := List.all_eq_true.1 this _ (List.getElem_mem hi)
    rw [hg] at this
    simpa using this
  have hdrop : ∀ i, order ≤ i → i < N → S i = [] := by
    intro i hi hiN
    by_contra hne
    have hall : ∀ j ∈ (List.range N).take (i + 1), decide (S j ≠ []) = true := by
      intro j hj
      have : j < i + 1 := by
        rw [List.take_range] at hj
        have := List.mem_range.1 hj
        omega
      simpa using hmono i hiN j (by omega) hne
    have : (List.range N).takeWhile (fun i => decide (S i ≠ [])) =
        (List.range N).take (i + 1) ++ ((List.range N).drop (i + 1)).takeWhile (fun i => decide (S i ≠ [])) := by
      conv_lhs => rw [← List.take_append_drop (i + 1) (List.range N)]
      exact List.takeWhile_append_of_pos hall
    have hl := congrArg List.length this
    rw [← ho] at hl
    simp at hl
    omega
  have hopos : 0 < order := by
    by_contra h
    exact h0 (hdrop 0 (by omega) (by omega))
  have hinit : JInv N hashed S Cs u S order 0 ⟨fun _ => u, Cs, fun _ => []⟩ := by
    have hun : ∀ i, unent 0 S i = S i := fun i => by unfold unent; simp
    refine ⟨by omega, hoN, ?_, fun i => List.suffix_refl _, hI.csSorted, ?_, ?_, rfl, by intro i hi; omega, hdrop, htw, ?_⟩
    · intro i; exact ⟨[], by rw [hun]; rfl, rfl⟩
    · intro i hi r hr hc
      rw [hun] at hr
      exact ⟨hI.csMem i hi r hr hc, rfl⟩
    · intro i hi hh; rw [hun]; exact hI.csSeq i hi hh
    · intro i hi a ha b hb
      obtain ⟨q, hq, hqw⟩ := hI.suffix i (by omega) b (mem_of_head? hb)
      rw [← hqw]
      have hs := hI.sorted i (by omega)
      cases hS : S i with
      | nil => rw [hS] at hq; simp at hq
      | cons x xs =>
        rw [hS] at ha hq hs
        simp at ha
        subst ha
        rcases List.mem_cons.1 hq with rfl | hq
        · exact le_refl _
        · exact le_of_lt ((List.pairwise_cons.1 hs).1 q hq)
  obtain ⟨cb, hr, hd⟩ := jointRun_spec hI (leftOver N S 0 + 1) ⟨S, order, 0, ⟨fun _ => u, Cs, fun _ => []⟩⟩
    (Nat.lt_succ_self _) hinit hopos
  refine ⟨leftOver N S 0 + 1, cb.out, fun m hm => ?_, hd.out⟩
  unfold interpolate
  rw [← ho, hr m hm]
  refine if_pos ?_
  intro i hi
  cases hh : hashed (i + 1) with
  | true => exact Or.inl rfl
  | false => exact Or.inr (hd.seq i (by omega) hh)

theorem interpolate_det {N : Nat} {hashed : Nat → Bool} {u : Rat} {Cs : Nat → List (Gram × Rat)} {S : Nat → List UnRec} {n m : Nat}
    {o o' : Nat → List OutRec} (h : interpolate N hashed u Cs S n = some o) (h' : interpolate N hashed u Cs S m = some o') :
    o = o' := by
  unfold interpolate at h h'
  set s0 : JState := ⟨S, ((List.range N).takeWhile fun i => S i ≠ []).length, 0, ⟨fun _ => u, Cs, fun _ => []⟩⟩
  cases h1 : jointRun N hashed n s0 with
  | none => rw [h1] at h; simp at h
  | some cb =>
    cases h2 : jointRun N hashed m s0 with
    | none => rw [h2] at h'; simp at h'
    | some cb' =>
      have e1 := jointRun_mono n s0 cb h1 (max n m) (le_max_left _ _)
      have e2 := jointRun_mono m s0 cb' h2 (max n m) (le_max_right _ _)
      rw [e1] at e2
      cases e2
      rw [h1] at h
      rw [h2] at h'
      rw [h] at h'
      exact Option.some.inj h'

end Cdec.Klm.Builder
