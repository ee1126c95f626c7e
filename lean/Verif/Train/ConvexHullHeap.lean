import Verif.Train.ConvexHull
import Mathlib.Data.List.Nodup
/-! # Sorting a hull through pointers -/
namespace Cdec.Mert
variable {K : Type} [Field K] [LinearOrder K]

/-- The stack `points[j-1], ..., points[0]` in the heap. -/
def stk (H : Nat → Pt K) (points : List Nat) (j : Nat) : List (Pt K) := ((points.take j).map H).reverse

theorem getD_eq' (l : List Nat) (d : Nat) {k : Nat} (h : k < l.length) : l.getD k d = l[k] := by
  simp [List.getD_eq_getElem?_getD, h]

theorem stk_succ (H : Nat → Pt K) {points : List Nat} {j : Nat} (h : j < points.length) :
    stk H points (j + 1) = H (points.getD j 0) :: stk H points j := by
  unfold stk
  rw [List.take_succ_eq_append_getElem h, List.map_append, List.reverse_append, getD_eq' _ _ h]
  rfl

theorem stk_congr {H H' : Nat → Pt K} {points : List Nat} {j : Nat} (hj : j ≤ points.length)
    (h : ∀ k, k < j → H (points.getD k 0) = H' (points.getD k 0)) : stk H points j = stk H' points j := by
  induction j with
  | zero => rfl
  | succ j ih => rw [stk_succ H hj, stk_succ H' hj, ih (by omega) (fun k hk => h k (by omega)), h j (by omega)]

theorem popWhile_setx (l : Pt K) (v : WithBot K) (st : List (Pt K)) (d : WithBot K) :
    popWhile { l with x := v } st d = popWhile l st d := by
  induction st generalizing d with
  | nil => rfl
  | cons t st ih =>
    simp only [popWhile]
    rw [ih]

theorem heapPop_eq (H : Nat → Pt K) (points : List Nat) (l : Pt K) (j : Nat) (d : WithBot K) (hj : j ≤ points.length) :
    (heapPop H points l j d).1 ≤ j ∧ (heapPop H points l j d).2 = (popWhile l (stk H points j) d).2 ∧
      stk H points (heapPop H points l j d).1 = (popWhile l (stk H points j) d).1 := by
  induction j generalizing d with
  | zero => exact ⟨le_refl _, rfl, rfl⟩
  | succ j ih =>
    rw [stk_succ H hj]
    simp only [heapPop, popWhile]
    split
    · exact ⟨le_refl _, rfl, stk_succ H hj⟩
    · have := ih (((l.b - (H (points.getD j 0)).b) / ((H (points.getD j 0)).m - l.m) : K) : WithBot K) (by omega)
      exact ⟨by omega, this.2⟩

/-- Writing the new point into the slot on top of the stack. -/
theorem stk_push (H : Nat → Pt K) {points : List Nat} (hnd : points.Nodup) {j : Nat} (hj : j < points.length) (v : Pt K) :
    stk (heapSet H (points.getD j 0) v) points (j + 1) = v :: stk H points j := by
  rw [stk_succ _ hj]
  congr 1
  · simp [heapSet]
  · apply stk_congr (by omega)
    intro k hk
    unfold heapSet
    rw [if_neg]
    rw [getD_eq' _ _ hj, getD_eq' _ _ (by omega)]
    intro e
    have := (List.Nodup.getElem_inj_iff hnd).1 e
    omega

/-- The state after `i` points. -/
structure HeapInv (H : Nat → Pt K) (points : List Nat) (i : Nat) (s : (Nat → Pt K) × Nat) : Prop where
  le : s.2 ≤ i
  stack : stk s.1 points s.2 = ((points.take i).map H).foldl sortStep []
  rest : ∀ k, i ≤ k → k < points.length → s.1 (points.getD k 0) = H (points.getD k 0)
  other : ∀ a, a ∉ points → s.1 a = H a

theorem getD_ne {points : List Nat} (hnd : points.Nodup) {j k : Nat} (hj : j < points.length) (hk : k < points.length) (h : k ≠ j) :
    points.getD k 0 ≠ points.getD j 0 := by
  rw [getD_eq' _ _ hj, getD_eq' _ _ hk]
  intro e
  exact h ((List.Nodup.getElem_inj_iff hnd).1 e)

theorem HeapInv.write {H : Nat → Pt K} {points : List Nat} (hnd : points.Nodup) {i : Nat} (hi : i < points.length)
    {s : (Nat → Pt K) × Nat} (h : HeapInv H points i s) {j : Nat} (hj : j ≤ i) (v : Pt K)
    (he : v :: stk s.1 points j = ((points.take (i + 1)).map H).foldl sortStep []) :
    HeapInv H points (i + 1) (heapSet s.1 (points.getD j 0) v, j + 1) := by
  refine ⟨by simp only []; omega, ?_, ?_, ?_⟩
  · simp only []
    rw [stk_push s.1 hnd (by omega) v, he]
  · intro k hk hk'
    simp only [heapSet]
    rw [if_neg (getD_ne hnd (by omega) hk' (by omega))]
    exact h.rest k (by omega) hk'
  · intro a ha
    simp only [heapSet]
    rw [if_neg]
    · exact h.other a ha
    · rintro rfl
      apply ha
      rw [getD_eq' _ _ (by omega : j < points.length)]
      exact List.getElem_mem _

theorem heapStep_inv {H : Nat → Pt K} {points : List Nat} (hnd : points.Nodup) {i : Nat} (hi : i < points.length)
    {s : (Nat → Pt K) × Nat} (h : HeapInv H points i s) : HeapInv H points (i + 1) (heapStep points s i) := by
  have hl : s.1 (points.getD i 0) = H (points.getD i 0) := h.rest i (le_refl _) hi
  have hfold : ((points.take (i + 1)).map H).foldl sortStep [] =
      sortStep (stk s.1 points s.2) (H (points.getD i 0)) := by
    rw [h.stack, List.take_succ_eq_append_getElem hi, List.map_append, List.foldl_append, getD_eq' _ _ hi]
    rfl
  have hle := h.le
  unfold heapStep
  rw [hl]
  simp only []
  by_cases h0 : s.2 = 0
  · rw [if_pos h0]
    refine h.write hnd hi (Nat.zero_le i) _ ?_
    rw [hfold, h0]
    rfl
  · rw [if_neg h0]
    obtain ⟨j, hj⟩ : ∃ j, s.2 = j + 1 := ⟨s.2 - 1, by omega⟩
    rw [hj] at hfold hle
    simp only [hj, Nat.add_sub_cancel]
    rw [stk_succ _ (by omega)] at hfold
    simp only [sortStep] at hfold
    by_cases hm : (s.1 (points.getD j 0)).m = (H (points.getD i 0)).m
    · rw [if_pos hm] at hfold
      by_cases hb : (H (points.getD i 0)).b ≤ (s.1 (points.getD j 0)).b
      · rw [if_pos ⟨hm, hb⟩]
        rw [if_pos hb] at hfold
        refine ⟨by omega, ?_, fun k hk hk' => h.rest k (by omega) hk', h.other⟩
        rw [hfold, hj, stk_succ _ (by omega)]
      · rw [if_neg (fun x => hb x.2)]
        rw [if_neg hb] at hfold
        rw [if_pos hm]
        have hp := heapPop_eq s.1 points { H (points.getD i 0) with x := ⊥ } j ⊥ (by omega)
        refine h.write hnd hi (j := (heapPop s.1 points _ j ⊥).1) (le_trans hp.1 (by omega)) _ ?_
        rw [hfold, hp.2.1, hp.2.2, popWhile_setx]
    · rw [if_neg (fun x => hm x.1)]
      rw [if_neg hm] at hfold
      rw [if_neg hm]
      have hp := heapPop_eq s.1 points { H (points.getD i 0) with x := ⊥ } (j + 1) ⊥ (by omega)
      refine h.write hnd hi (j := (heapPop s.1 points _ (j + 1) ⊥).1) (le_trans hp.1 hle) _ ?_
      rw [hfold, hp.2.1, hp.2.2, popWhile_setx, stk_succ _ (by omega)]

theorem heapLoop_inv (H : Nat → Pt K) {points : List Nat} (hnd : points.Nodup) (n : Nat) (hn : n ≤ points.length) :
    HeapInv H points n ((List.range n).foldl (heapStep points) (H, 0)) := by
  induction n with
  | zero => exact ⟨le_refl _, rfl, fun _ _ _ => rfl, fun _ _ => rfl⟩
  | succ n ih =>
    rw [List.range_succ, List.foldl_append]
    exact heapStep_inv hnd (by omega) (ih (by omega))

theorem sortHeap_spec (H : Nat → Pt K) {points : List Nat} (hnd : points.Nodup) :
    (sortHeap H points).2.map (sortHeap H points).1 = envelope (points.map H) ∧
      (∀ a, a ∉ points → (sortHeap H points).1 a = H a) ∧ (sortHeap H points).2 <+: points := by
  have h := heapLoop_inv H hnd points.length (le_refl _)
  refine ⟨?_, h.other, List.take_prefix _ _⟩
  have := h.stack
  rw [List.take_length] at this
  unfold envelope
  rw [← this, stk, List.reverse_reverse]
  rfl

end Cdec.Mert
