import Verif.Decoder.PhraseBasedSpec
import Mathlib.Data.List.Nodup
import Mathlib.Tactic.ByContra
/-! Coverages. -/
namespace Cdec.Dec.PB
open Cdec.HG Spec

/-- Position `p` is covered. -/
abbrev bit (b : List Bool) (p : Nat) : Bool := b.getD p false

/-- No position from `i` to `j` is covered. -/
def Free (b : List Bool) (i j : Nat) : Prop := ∀ p, i ≤ p → p < j → bit b p = false

/-- `g` is the first position that is not covered. -/
structure IsGap (b : List Bool) (g : Nat) : Prop where
  lo : ∀ p < g, bit b p = true
  le : g ≤ b.length
  hi : bit b g = false

theorem bit_oob {b : List Bool} {p : Nat} (h : b.length ≤ p) : bit b p = false := by
  simp [bit, List.getD_eq_getElem?_getD, List.getElem?_eq_none h]

theorem bit_lt {b : List Bool} {p : Nat} (h : bit b p = true) : p < b.length := by
  by_contra hc
  rw [bit_oob (by omega)] at h
  simp at h

theorem IsGap.unique {b : List Bool} {g g' : Nat} (h : IsGap b g) (h' : IsGap b g') : g = g' := by
  rcases Nat.lt_trichotomy g g' with hl | hl | hl
  · have := h'.lo g hl; rw [h.hi] at this; simp at this
  · exact hl
  · have := h.lo g' hl; rw [h'.hi] at this; simp at this

theorem ext_bits {b b' : List Bool} (hl : b.length = b'.length) (h : ∀ p, bit b p = bit b' p) : b = b' := by
  apply List.ext_getElem hl
  intro p h1 h2
  have := h p
  simpa [bit, List.getD_eq_getElem?_getD, List.getElem?_eq_getElem h1, List.getElem?_eq_getElem h2] using this

theorem setBits_succ (b : List Bool) (i j : Nat) (h : i ≤ j) : setBits b i (j + 1) = (setBits b i j).set j true := by
  unfold setBits
  rw [show j + 1 - i = (j - i) + 1 by omega, List.range'_concat, List.foldl_append]
  simp only [List.foldl_cons, List.foldl_nil]
  rw [show i + 1 * (j - i) = j by omega]

theorem setBits_self (b : List Bool) (i : Nat) : setBits b i i = b := by simp [setBits]

theorem bit_set (b : List Bool) (j p : Nat) : bit (b.set j true) p = (bit b p || decide (p = j ∧ p < b.length)) := by
  simp only [bit, List.getD_eq_getElem?_getD, List.getElem?_set]
  by_cases h : j = p
  · subst h
    by_cases hl : j < b.length
    · simp [hl]
    · simp [hl]
  · rw [if_neg h]
    simp [Ne.symm h]

theorem setBits_length (b : List Bool) (i j : Nat) : (setBits b i j).length = b.length := by
  unfold setBits
  generalize List.range' i (j - i) = l
  induction l generalizing b with
  | nil => rfl
  | cons x l ih => rw [List.foldl_cons, ih]; simp

theorem bit_setBits (b : List Bool) (i j p : Nat) (h : i ≤ j) : bit (setBits b i j) p = (bit b p || decide (i ≤ p ∧ p < j ∧ p < b.length)) := by
  induction j, h using Nat.le_induction with
  | base => rw [setBits_self]; simp; omega
  | succ j hj ih =>
    rw [setBits_succ b i j hj, bit_set, ih, setBits_length, Bool.or_assoc]
    congr 1
    rw [Bool.eq_iff_iff]
    simp only [Bool.or_eq_true, decide_eq_true_eq]
    omega

theorem count_setBits (b : List Bool) (i j : Nat) (h : i ≤ j) (hj : j ≤ b.length) (hf : Free b i j) : (setBits b i j).count true = b.count true + (j - i) := by
  induction j, h using Nat.le_induction with
  | base => rw [setBits_self]; omega
  | succ j hij ih =>
    rw [setBits_succ b i j hij]
    have hl : j < (setBits b i j).length := by rw [setBits_length]; omega
    have hb : (setBits b i j)[j] = false := by
      have h1 : bit (setBits b i j) j = false := by
        rw [bit_setBits b i j j hij, hf j hij (by omega)]
        simp
      simpa [bit, List.getD_eq_getElem?_getD, List.getElem?_eq_getElem hl] using h1
    rw [List.count_set hl, hb, ih (by omega) (fun p h1 h2 => hf p h1 (by omega))]
    simp
    omega

theorem runLen_spec (b : List Bool) : (∀ p < runLen b, bit b p = true) ∧ bit b (runLen b) = false ∧ runLen b ≤ b.length := by
  induction b with
  | nil => simp [runLen, bit]
  | cons x b ih =>
    cases x with
    | false => simp [runLen, bit]
    | true =>
      simp only [runLen]
      refine ⟨?_, by simpa [bit] using ih.2.1, by simpa using ih.2.2⟩
      intro p hp
      cases p with
      | zero => rfl
      | succ p => simpa [bit] using ih.1 p (by omega)

theorem cover_gap {c : Coverage} {i j : Nat} (hg : IsGap c.bits c.gap) (hf : Free c.bits i j) (hij : i < j) (hj : j ≤ c.bits.length) :
    IsGap (c.cover i j).bits (c.cover i j).gap := by
  have hgi : c.gap ≤ i := by
    by_contra hc
    have := hg.lo i (by omega)
    rw [hf i (Nat.le_refl _) hij] at this
    simp at this
  unfold Coverage.cover
  simp only []
  by_cases h : c.gap = i
  · rw [if_pos h]
    obtain ⟨r1, r2, r3⟩ := runLen_spec ((setBits c.bits i j).drop j)
    have hd : ∀ p, bit ((setBits c.bits i j).drop j) p = bit (setBits c.bits i j) (j + p) := by
      intro p
      simp [bit, List.getD_eq_getElem?_getD, List.getElem?_drop]
    refine ⟨?_, ?_, ?_⟩
    · intro p hp
      by_cases h1 : p < i
      · rw [bit_setBits _ _ _ _ (by omega), hg.lo p (by omega)]; rfl
      · by_cases h2 : p < j
        · rw [bit_setBits _ _ _ _ (by omega)]
          simp; right; omega
        · have := r1 (p - j) (by omega)
          rw [hd, show j + (p - j) = p by omega] at this
          exact this
    · simp only [List.length_drop, setBits_length] at r3 ⊢; omega
    · rw [← hd]; exact r2
  · rw [if_neg h]
    refine ⟨?_, by rw [setBits_length]; exact hg.le, ?_⟩
    · intro p hp
      rw [bit_setBits _ _ _ _ (by omega), hg.lo p hp]; rfl
    · rw [bit_setBits _ _ _ _ (by omega), hg.hi]
      simp; omega

theorem collides_iff (c : Coverage) (i j : Nat) : c.collides i j = false ↔ Free c.bits i j := by
  unfold Coverage.collides Free
  rw [List.any_eq_false]
  simp only [List.mem_range'_1]
  constructor
  · intro h p h1 h2
    have := h p ⟨h1, by omega⟩
    simpa using this
  · intro h p hp
    have := h p hp.1 (by omega)
    simpa using this

theorem bit_replicate_false (n p : Nat) : bit (List.replicate n false) p = false := by
  simp only [bit, List.getD_eq_getElem?_getD, List.getElem?_replicate]
  split <;> rfl

theorem bit_replicate_true (n p : Nat) : bit (List.replicate n true) p = decide (p < n) := by
  simp only [bit, List.getD_eq_getElem?_getD, List.getElem?_replicate]
  split <;> simp [*]

theorem count_pos_of_ne {b : List Bool} {n : Nat} (hl : b.length = n) (h : b ≠ List.replicate n false) : 0 < b.count true := by
  rw [List.count_pos_iff]
  by_contra hc
  apply h
  rw [List.eq_replicate_iff]
  refine ⟨hl, fun x hx => ?_⟩
  cases x with
  | true => exact absurd hx hc
  | false => rfl

theorem setBits_ne_empty {b : List Bool} {i j n : Nat} (h : i < j) (hj : j ≤ b.length) : setBits b i j ≠ List.replicate n false := by
  intro he
  have h1 : bit (setBits b i j) i = true := by
    rw [bit_setBits _ _ _ _ (by omega)]
    simp; right; omega
  rw [he, bit_replicate_false] at h1
  simp at h1

theorem setBits_empty_inj {n i j i' j' : Nat} (h : i < j) (hj : j ≤ n) (h' : i' < j') (hj' : j' ≤ n)
    (he : setBits (List.replicate n false) i j = setBits (List.replicate n false) i' j') : i = i' ∧ j = j' := by
  have hb : ∀ p, (i ≤ p ∧ p < j ∧ p < n) ↔ (i' ≤ p ∧ p < j' ∧ p < n) := by
    intro p
    have := congrArg (fun b => bit b p) he
    simp only [bit_setBits _ _ _ _ (Nat.le_of_lt h), bit_setBits _ _ _ _ (Nat.le_of_lt h'), bit_replicate_false, Bool.false_or, List.length_replicate,
      decide_eq_decide] at this
    exact this
  have h1 := (hb i).1 ⟨Nat.le_refl _, h, by omega⟩
  have h2 := (hb i').2 ⟨Nat.le_refl _, h', by omega⟩
  have h3 := (hb (j - 1)).1 ⟨by omega, by omega, by omega⟩
  have h4 := (hb (j' - 1)).2 ⟨by omega, by omega, by omega⟩
  omega

/-- All coverages. -/
def allBits : Nat → List (List Bool)
  | 0 => [[]]
  | n + 1 => (allBits n).flatMap fun b => [true :: b, false :: b]

theorem mem_allBits (b : List Bool) : b ∈ allBits b.length := by
  induction b with
  | nil => simp [allBits]
  | cons x b ih =>
    simp only [allBits, List.length_cons, List.mem_flatMap]
    exact ⟨b, ih, by cases x <;> simp⟩

end Cdec.Dec.PB
