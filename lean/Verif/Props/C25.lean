import Verif.Sparse.Lemmas
/-! # C25: FastSparseVector::erase -/
namespace Cdec.Sparse
variable {T : Type} [Zero T]

theorem shift_fold (l2 : List (Nat × T)) : ∀ (l1 : List (Nat × T)) (c : Nat × T),
    (List.range' (l1.length + 1) l2.length).foldl (fun a j => a.set (j - 1) (a.getD j (0, 0))) (l1 ++ c :: l2) =
      l1 ++ l2 ++ [l2.getLastD c] := by
  induction l2 with
  | nil => intro l1 c; simp
  | cons d l2 ih =>
    intro l1 c
    rw [List.length_cons, List.range'_succ, List.foldl_cons]
    have h1 : (l1 ++ c :: d :: l2).getD (l1.length + 1) (0, 0) = d := by
      rw [List.getD_eq_getElem?_getD, List.getElem?_append_right (by omega)]
      simp
    have h2 : (l1 ++ c :: d :: l2).set (l1.length + 1 - 1) d = (l1 ++ [d]) ++ d :: l2 := by
      rw [List.set_append_right _ _ (by omega)]
      simp
    rw [h1, h2]
    have := ih (l1 ++ [d]) d
    simp only [List.length_append, List.length_cons, List.length_nil, Nat.zero_add] at this
    rw [this, List.getLastD_cons]
    simp only [List.append_assoc, List.cons_append, List.nil_append]

theorem shiftDown_eq (l1 l2 : List (Nat × T)) (c : Nat × T) :
    shiftDown l1.length (l1 ++ c :: l2) = l1 ++ l2 ++ [l2.getLastD c] := by
  rw [← shift_fold l2 l1 c, shiftDown]
  congr 2
  simp only [List.length_append, List.length_cons]; omega

theorem shiftDown_length (i : Nat) (a : List (Nat × T)) : (shiftDown i a).length = a.length := by
  unfold shiftDown
  generalize List.range' (i + 1) (a.length - (i + 1)) = js
  induction js generalizing a with
  | nil => rfl
  | cons j js ih2 => rw [List.foldl_cons, ih2]; simp

theorem foldl_no_match (k : Nat) (a : List (Nat × T)) (is : List Nat)
    (h : ∀ i ∈ is, (a.getD i (0, 0)).1 ≠ k) :
    is.foldl (fun a i => if (a.getD i (0, 0)).1 = k then shiftDown i a else a) a = a := by
  induction is with
  | nil => rfl
  | cons i is ih =>
    rw [List.foldl_cons, if_neg (h i (by simp))]
    exact ih fun j hj => h j (by simp [hj])

theorem erase_loop_absent (k : Nat) (l : List (Nat × T)) (h : k ∉ l.map Prod.fst) :
    (List.range l.length).foldl (fun a i => if (a.getD i (0, 0)).1 = k then shiftDown i a else a) l = l := by
  apply foldl_no_match
  intro i hi hc
  have hi' := List.mem_range.1 hi
  apply h
  rw [List.getD_eq_getElem?_getD, List.getElem?_eq_getElem hi'] at hc
  exact List.mem_map.2 ⟨l[i], List.getElem_mem _, hc⟩

theorem erase_loop_present (k : Nat) (x : T) (l1 l2 : List (Nat × T))
    (h1 : k ∉ l1.map Prod.fst) (h2 : k ∉ l2.map Prod.fst) :
    ((List.range (l1 ++ (k, x) :: l2).length).foldl
      (fun a i => if (a.getD i (0, 0)).1 = k then shiftDown i a else a) (l1 ++ (k, x) :: l2)).dropLast =
      l1 ++ l2 := by
  have hr : List.range (l1 ++ (k, x) :: l2).length =
      List.range l1.length ++ l1.length :: List.range' (l1.length + 1) l2.length := by
    rw [List.length_append, List.length_cons, List.range_eq_range', List.range_eq_range',
      show l1.length + (l2.length + 1) = l1.length + (l2.length + 1) from rfl,
      ← List.range'_append_1 (s := 0) (m := l1.length) (n := l2.length + 1), Nat.zero_add, List.range'_succ]
  rw [hr, List.foldl_append, foldl_no_match k _ (List.range l1.length), List.foldl_cons]
  · have hm : ((l1 ++ (k, x) :: l2).getD l1.length (0, 0)).1 = k := by
      rw [List.getD_eq_getElem?_getD, List.getElem?_append_right (Nat.le_refl _)]; simp
    rw [if_pos hm, shiftDown_eq, foldl_no_match]
    · simp
    · intro i hi hc
      rw [List.mem_range'_1] at hi
      have hl2 : l2 ≠ [] := by intro hn; simp [hn] at hi; omega
      have hlen : i < (l1 ++ l2 ++ [l2.getLastD (k, x)]).length := by simp; omega
      rw [List.getD_eq_getElem?_getD, List.getElem?_eq_getElem hlen, Option.getD_some] at hc
      have hmem : (l1 ++ l2 ++ [l2.getLastD (k, x)])[i] ∈ l2 := by
        rw [List.getElem_append]
        split
        · rw [List.getElem_append]
          split
          · omega
          · exact List.getElem_mem _
        · rw [List.getElem_singleton, List.getLastD_eq_getLast?, List.getLast?_eq_some_getLast hl2]
          exact List.getLast_mem hl2
      exact h2 (List.mem_map.2 ⟨_, hmem, hc⟩)
  · intro i hi hc
    have hi' := List.mem_range.1 hi
    rw [List.getD_eq_getElem?_getD, List.getElem?_append_left hi', List.getElem?_eq_getElem hi'] at hc
    exact h1 (List.mem_map.2 ⟨l1[i], List.getElem_mem _, hc⟩)

theorem lookup_app (l1 l2 : List (Nat × T)) (k : Nat) :
    lookup (l1 ++ l2) k = (lookup l1 k).or (lookup l2 k) := by
  induction l1 with
  | nil => simp [lookup]
  | cons p l1 ih =>
    simp only [List.cons_append, lookup, ih]
    split <;> simp

/-- C25 (partial).  If the key is stored in the vector, or the vector has spilled to its map, `erase(k)`
makes the value at `k` zero and leaves all other values unchanged.  Missing: a key that is absent from a
vector in local representation, see `C25_erase_absent_fails`. -/
theorem C25_erase_partial (v : FSV T) (hv : v.Inv) (k : Nat)
    (h : k ∈ v.entries.map Prod.fst ∨ ∃ m, v = .rem m) :
    ∃ v', v.erase k = some v' ∧ v'.Inv ∧ ∀ i, v'.value i = if i = k then 0 else v.value i := by
  cases v with
  | rem m =>
    refine ⟨_, rfl, hv.sublist (List.filter_sublist.map _), fun i => ?_⟩
    simp only [FSV.value, FSV.entries]
    have : ∀ m : List (Nat × T), lookup (m.filter fun p => p.1 != k) i = if i = k then none else lookup m i := by
      intro m
      induction m with
      | nil => simp [lookup]
      | cons p m ih =>
        obtain ⟨a, x⟩ := p
        by_cases ha : a = k
        · subst ha
          simp only [bne_self_eq_false, Bool.false_eq_true, not_false_eq_true, List.filter_cons_of_neg, ih, lookup]
          by_cases hi : i = a
          · simp [hi]
          · simp [hi, Ne.symm hi]
        · rw [List.filter_cons_of_pos (by simpa using ha)]
          simp only [lookup, ih]
          by_cases hi : a = i
          · subst hi; simp [ha]
          · simp [hi]
    rw [this]
    split <;> simp
  | loc l =>
    have hk : k ∈ l.map Prod.fst := by
      rcases h with h | ⟨m, hm⟩
      · exact h
      · cases hm
    obtain ⟨⟨k', x⟩, hmem, rfl⟩ := List.mem_map.1 hk
    obtain ⟨l1, l2, rfl⟩ := List.append_of_mem hmem
    have hv' : ((l1 ++ (k', x) :: l2).map Prod.fst).Nodup := hv
    rw [List.map_append, List.map_cons, List.nodup_append] at hv'
    obtain ⟨n1, n2, n3⟩ := hv'
    rw [List.nodup_cons] at n2
    have h1 : k' ∉ l1.map Prod.fst := fun hc => n3 _ hc _ (by simp) rfl
    have hloop := erase_loop_present k' x l1 l2 h1 n2.1
    have hne : ((List.range (l1 ++ (k', x) :: l2).length).foldl
      (fun a i => if (a.getD i (0, 0)).1 = k' then shiftDown i a else a) (l1 ++ (k', x) :: l2)).length ≠ 0 := by
      have hlen : ∀ (is : List Nat) (a : List (Nat × T)), (is.foldl
          (fun a i => if (a.getD i (0, 0)).1 = k' then shiftDown i a else a) a).length = a.length := by
        intro is
        induction is with
        | nil => intro a; rfl
        | cons i is ih =>
          intro a
          rw [List.foldl_cons, ih]
          split
          · exact shiftDown_length i a
          · rfl
      rw [hlen]; simp
    refine ⟨.loc (l1 ++ l2), ?_, ?_, fun i => ?_⟩
    · simp only [FSV.erase]
      rw [if_neg hne, hloop]
    · change ((l1 ++ l2).map Prod.fst).Nodup
      rw [List.map_append]
      exact List.nodup_append.2 ⟨n1, n2.2, fun a ha b hb => n3 a ha b (List.mem_cons_of_mem _ hb)⟩
    · simp only [FSV.value, FSV.entries, lookup_app, lookup]
      by_cases hi : i = k'
      · subst hi
        rw [lookup_eq_none.2 h1, lookup_eq_none.2 n2.1]; simp
      · simp [hi, Ne.symm hi]

/-- C25 fails for an absent key in local representation: the last entry disappears. -/
theorem C25_erase_absent_fails (v : FSV T) (l : List (Nat × T)) (hv : v = .loc l) (hl : l ≠ []) (k : Nat)
    (hk : k ∉ l.map Prod.fst) : v.erase k = some (.loc l.dropLast) := by
  subst hv
  simp only [FSV.erase, erase_loop_absent k l hk]
  rw [if_neg (by simpa using hl)]

/-- Concrete witness: erasing key 2 from `{1 ↦ 5}` loses key 1. -/
theorem C25_erase_absent_fails_witness :
    ∃ v' : FSV Int, (FSV.loc [(1, 5)]).erase 2 = some v' ∧ (FSV.loc [(1, (5 : Int))]).value 1 = 5 ∧ v'.value 1 = 0 :=
  ⟨.loc [], by decide, by decide, by decide⟩

/-- On an empty vector the size counter wraps around (undefined behaviour afterwards). -/
theorem C25_erase_empty_fails (k : Nat) : (FSV.empty : FSV T).erase k = none := by
  simp [FSV.erase, FSV.empty]

/-- Non-vacuity of the partial theorem. -/
example : (FSV.loc [(1, (5 : Int)), (2, 6), (3, 7)]).erase 2 = some (.loc [(1, 5), (3, 7)]) := by decide

end Cdec.Sparse
