import Verif.Extract.GapOrder
import Mathlib.Data.List.Perm.Basic
import Mathlib.Data.List.Nodup
import Mathlib.Data.List.Range
/-! # C44: GetGapOrder -/
namespace Cdec.Extract

/-- The claim: `o` lists every index once, and following it visits the gaps in increasing order
(extractor/target_phrase_extractor.cc:61-63 uses it as `gaps[i] = target_gaps[gap_order[i]]`). -/
def SortsGaps (gaps : List (Int × Int)) (o : List Nat) : Prop :=
  o.Perm (List.range gaps.length) ∧ (o.map fun i => gaps.getD i (0, 0)).Pairwise fun a b => gapLt a b = true

theorem gapInner_length (gaps) (i : Nat) (o : List Nat) (j : Nat) : (gapInner gaps i o j).length = o.length := by
  unfold gapInner; split <;> simp

theorem inner_inc (gaps : List (Int × Int)) (i : Nat) (o : List Nat) (js : List Nat)
    (ho : ∀ j ∈ js, j < i → gapLt (gaps.getD (o.getD j 0) (0, 0)) (gaps.getD i (0, 0)) = true)
    (hj : ∀ j ∈ js, j < i) (hi : i < o.length) :
    js.foldl (gapInner gaps i) o = o.set i (o.getD i 0 + js.length) := by
  induction js generalizing o with
  | nil =>
    simp only [List.foldl_nil, List.length_nil, Nat.add_zero]
    rw [List.getD_eq_getElem?_getD, List.getElem?_eq_getElem hi, Option.getD_some, List.set_getElem_self]
  | cons j js ih =>
    rw [List.foldl_cons]
    have h1 : gapInner gaps i o j = o.set i (o.getD i 0 + 1) := by
      unfold gapInner
      rw [if_pos (ho j (by simp) (hj j (by simp)))]
    rw [h1, ih]
    · simp only [List.set_set, List.length_cons]
      congr 1
      rw [List.getD_eq_getElem?_getD, List.getElem?_set_self hi]
      simp; omega
    · intro j' hj' hlt
      have hne : i ≠ j' := by omega
      have e : (o.set i (o.getD i 0 + 1)).getD j' 0 = o.getD j' 0 := by
        rw [List.getD_eq_getElem?_getD, List.getElem?_set_ne hne, ← List.getD_eq_getElem?_getD]
      rw [e]
      exact ho j' (by simp [hj']) hlt
    · exact fun j' hj' => hj j' (by simp [hj'])
    · simpa using hi

theorem gapLt_of_pairwise {gaps : List (Int × Int)} (h : gaps.Pairwise fun a b => gapLt a b = true) {i j : Nat}
    (hij : i < j) (hj : j < gaps.length) : gapLt (gaps.getD i (0, 0)) (gaps.getD j (0, 0)) = true := by
  have := List.pairwise_iff_getElem.1 h i j (by omega) hj hij
  rw [List.getD_eq_getElem?_getD, List.getElem?_eq_getElem (show i < gaps.length by omega),
    List.getD_eq_getElem?_getD, List.getElem?_eq_getElem hj]
  exact this

/-- Gaps that are already in target order: the result is the identity, for any number of gaps. -/
theorem gapOrder_sorted (gaps : List (Int × Int)) (h : gaps.Pairwise fun a b => gapLt a b = true) :
    gapOrder gaps = List.range gaps.length := by
  have key : ∀ k, k ≤ gaps.length → (List.range k).foldl (gapOuter gaps) (List.replicate gaps.length 0) =
      List.range k ++ List.replicate (gaps.length - k) 0 := by
    intro k
    induction k with
    | zero => intro _; simp
    | succ k ih =>
      intro hk
      rw [List.range_succ, List.foldl_append, List.foldl_cons, List.foldl_nil, ih (by omega), gapOuter, inner_inc]
      · have hr : List.replicate (gaps.length - k) 0 = 0 :: List.replicate (gaps.length - (k + 1)) 0 := by
          rw [← List.replicate_succ]; congr 1; omega
        rw [hr]
        have hl : (List.range k).length = k := List.length_range
        rw [List.getD_eq_getElem?_getD, List.getElem?_append_right (by simp)]
        simp only [hl, Nat.sub_self, List.getElem?_cons_zero, Option.getD_some, Nat.zero_add]
        rw [List.set_append_right _ _ (by simp)]
        simp
      · intro j hj hlt
        have e : (List.range k ++ List.replicate (gaps.length - k) 0).getD j 0 = j := by
          rw [List.getD_eq_getElem?_getD, List.getElem?_append_left (by simpa using hlt)]
          simp only [List.getElem?_range hlt, Option.getD_some]
        rw [e]
        exact gapLt_of_pairwise h hlt (by omega)
      · intro j hj; simpa using hj
      · simp; omega
  have := key gaps.length (Nat.le_refl _)
  rw [gapOrder]
  simpa using this

/-- C44 (partial).  For any number of gaps whose target order is their source order, GetGapOrder returns the
permutation that sorts them.  Missing: three or more gaps in another order, where the claim is false
(`C44_three_gaps_fails`); two gaps are `C44_two_gaps_partial`. -/
theorem C44_monotone_partial (gaps : List (Int × Int)) (h : gaps.Pairwise fun a b => gapLt a b = true) :
    SortsGaps gaps (gapOrder gaps) := by
  rw [gapOrder_sorted gaps h]
  refine ⟨List.Perm.refl _, ?_⟩
  have : ((List.range gaps.length).map fun i => gaps.getD i (0, 0)) = gaps := by
    apply List.ext_getElem
    · simp
    · intro i h1 h2
      simp [List.getD_eq_getElem?_getD, h2]
  rw [this]; exact h

theorem gapLt_total {a b : Int × Int} (h : a ≠ b) (hn : gapLt a b = false) : gapLt b a = true := by
  obtain ⟨a1, a2⟩ := a
  obtain ⟨b1, b2⟩ := b
  simp only [gapLt, decide_eq_false_iff_not, decide_eq_true_eq, not_or, not_and] at *
  by_cases h1 : a1 = b1
  · subst h1
    right
    refine ⟨rfl, ?_⟩
    have : a2 ≠ b2 := fun h2 => h (by rw [h2])
    have := hn.2 rfl
    omega
  · left; omega

/-- C44 (partial).  For at most two distinct gaps (the decoder's usual limit on nonterminals), in either order,
GetGapOrder returns the permutation that sorts them. -/
theorem C44_two_gaps_partial (gaps : List (Int × Int)) (h : gaps.Nodup) (h2 : gaps.length ≤ 2) :
    SortsGaps gaps (gapOrder gaps) := by
  match gaps, h, h2 with
  | [], _, _ => exact ⟨List.Perm.refl _, by simp [gapOrder]⟩
  | [a], _, _ => exact ⟨List.Perm.refl _, by simp [gapOrder, gapOuter]⟩
  | [a, b], h, _ =>
    cases hab : gapLt a b with
    | true => exact C44_monotone_partial [a, b] (by simp [hab])
    | false =>
      have hba := gapLt_total (a := a) (b := b) (by simpa using h) hab
      have : gapOrder [a, b] = [1, 0] := by
        simp [gapOrder, gapOuter, gapInner, List.range_succ, hab]
      rw [this]
      exact ⟨by change [1, 0].Perm (List.range 2); decide, by simp [hba]⟩
  | a :: b :: c :: l, _, h2 => simp at h2

/-- C44 fails for three gaps: with target gaps (5,5), (1,1), (3,3) the result is [1, 1, 1], which is not a
permutation. -/
theorem C44_three_gaps_fails :
    gapOrder [(5, 5), (1, 1), (3, 3)] = [1, 1, 1] ∧ ¬ SortsGaps [(5, 5), (1, 1), (3, 3)] (gapOrder [(5, 5), (1, 1), (3, 3)]) := by
  have h : gapOrder [(5, 5), (1, 1), (3, 3)] = [1, 1, 1] := by decide
  refine ⟨h, ?_⟩
  rw [h]
  rintro ⟨hp, _⟩
  have := hp.nodup_iff.2 List.nodup_range
  simp at this

/-- Non-vacuity. -/
example : SortsGaps [(4, 5), (1, 2)] (gapOrder [(4, 5), (1, 2)]) := C44_two_gaps_partial _ (by decide) (by decide)
example : gapOrder [(1, 1), (2, 3), (5, 5), (6, 9)] = [0, 1, 2, 3] := by decide

end Cdec.Extract
