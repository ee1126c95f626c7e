import Verif.Util.Indices
/-! # C32: index compaction -/
namespace Cdec
variable {β : Type}

/-- Specification: the elements whose flag is set, in order. -/
def keptOf : List β → List Bool → List β
  | x :: xs, true :: ks => x :: keptOf xs ks
  | _ :: xs, false :: ks => keptOf xs ks
  | _, _ => []

theorem newIndices_count (ks : List Bool) (f : Nat) : (newIndicesKeep ks f).2 = f + ks.count true := by
  induction ks generalizing f with
  | nil => rfl
  | cons k ks ih => cases k <;> simp [newIndicesKeep, ih] <;> omega

theorem newIndices_length (ks : List Bool) (f : Nat) : (newIndicesKeep ks f).1.length = ks.length := by
  induction ks generalizing f with
  | nil => rfl
  | cons k ks ih => cases k <;> simp [newIndicesKeep, ih]

theorem newIndices_get (ks : List Bool) (f i : Nat) :
    (newIndicesKeep ks f).1[i]? =
      (ks[i]?).map fun b => if b then some (f + (ks.take i).count true) else none := by
  induction ks generalizing f i with
  | nil => simp [newIndicesKeep]
  | cons k ks ih =>
    cases i with
    | zero => cases k <;> simp [newIndicesKeep]
    | succ i =>
      cases k with
      | true =>
        simp only [newIndicesKeep, List.getElem?_cons_succ, ih, List.take_succ_cons, List.count_cons_self]
        congr 1; funext b; rw [show f + 1 + List.count true (List.take i ks) = f + (List.count true (List.take i ks) + 1) by omega]
      | false => simp [newIndicesKeep, ih]

theorem move_spec (ks : List Bool) : ∀ (rest pre junk : List β), rest.length = ks.length →
    (moveLoop (pre ++ junk ++ rest) (pre.length + junk.length) (newIndicesKeep ks pre.length).1).take
      (pre.length + ks.count true) = pre ++ keptOf rest ks := by
  induction ks with
  | nil =>
    intro rest pre junk h
    have : rest = [] := List.length_eq_zero_iff.1 (by simpa using h)
    subst this
    simp [newIndicesKeep, moveLoop, keptOf]
  | cons k ks ih =>
    intro rest pre junk h
    cases rest with
    | nil => simp at h
    | cons x rest =>
      have hl : rest.length = ks.length := by simpa using h
      cases k with
      | false =>
        have := ih rest pre (junk ++ [x]) hl
        simp only [List.length_append, List.length_cons, List.length_nil, Nat.zero_add] at this
        simp only [newIndicesKeep, moveLoop, keptOf]
        rw [show pre ++ junk ++ x :: rest = pre ++ (junk ++ [x]) ++ rest by simp,
          show (false :: ks).count true = ks.count true by simp, ← this]
        rfl
      | true =>
        have hget : (pre ++ junk ++ x :: rest)[pre.length + junk.length]? = some x := by
          rw [List.getElem?_append_right (by simp)]; simp
        simp only [newIndicesKeep, moveLoop, keptOf, hget]
        rw [show (true :: ks).count true = ks.count true + 1 by simp]
        cases junk with
        | nil =>
          have := ih rest (pre ++ [x]) [] hl
          simp only [List.length_append, List.length_cons, List.length_nil, Nat.add_zero, Nat.zero_add] at this
          have hs : (pre ++ [] ++ x :: rest).set pre.length x = pre ++ [x] ++ [] ++ rest := by simp
          rw [hs, List.length_nil, Nat.add_zero, show pre.length + (ks.count true + 1) = pre.length + 1 + ks.count true by omega, this]
          simp
        | cons j js =>
          have := ih rest (pre ++ [x]) (js ++ [x]) hl
          simp only [List.length_append, List.length_cons, List.length_nil, Nat.zero_add] at this
          have hs : (pre ++ j :: js ++ x :: rest).set pre.length x = pre ++ [x] ++ (js ++ [x]) ++ rest := by simp
          rw [hs, List.length_cons, show pre.length + (ks.count true + 1) = pre.length + 1 + ks.count true by omega,
            show pre.length + (js.length + 1) + 1 = pre.length + 1 + (js.length + 1) by omega, this]
          simp

theorem swap_spec (ks : List Bool) : ∀ (rest pre junk : List β), rest.length = ks.length →
    (swapLoop (pre ++ junk ++ rest) (pre.length + junk.length) (newIndicesKeep ks pre.length).1).take
      (pre.length + ks.count true) = pre ++ keptOf rest ks := by
  induction ks with
  | nil =>
    intro rest pre junk h
    have : rest = [] := List.length_eq_zero_iff.1 (by simpa using h)
    subst this
    simp [newIndicesKeep, swapLoop, keptOf]
  | cons k ks ih =>
    intro rest pre junk h
    cases rest with
    | nil => simp at h
    | cons x rest =>
      have hl : rest.length = ks.length := by simpa using h
      cases k with
      | false =>
        have := ih rest pre (junk ++ [x]) hl
        simp only [List.length_append, List.length_cons, List.length_nil, Nat.zero_add] at this
        simp only [newIndicesKeep, swapLoop, keptOf]
        rw [show pre ++ junk ++ x :: rest = pre ++ (junk ++ [x]) ++ rest by simp,
          show (false :: ks).count true = ks.count true by simp, ← this]
        rfl
      | true =>
        have hget : (pre ++ junk ++ x :: rest)[pre.length + junk.length]? = some x := by
          rw [List.getElem?_append_right (by simp)]; simp
        simp only [newIndicesKeep, swapLoop, keptOf, hget]
        rw [show (true :: ks).count true = ks.count true + 1 by simp]
        cases junk with
        | nil =>
          have := ih rest (pre ++ [x]) [] hl
          simp only [List.length_append, List.length_cons, List.length_nil, Nat.add_zero, Nat.zero_add] at this
          have hm : (pre ++ [] ++ x :: rest)[pre.length]? = some x := by simp
          have hs : ((pre ++ [] ++ x :: rest).set pre.length x).set (pre.length + ([] : List β).length) x =
              pre ++ [x] ++ [] ++ rest := by simp
          simp only [hm]
          rw [hs, List.length_nil, Nat.add_zero, show pre.length + (ks.count true + 1) = pre.length + 1 + ks.count true by omega, this]
          simp
        | cons j js =>
          have := ih rest (pre ++ [x]) (js ++ [j]) hl
          simp only [List.length_append, List.length_cons, List.length_nil, Nat.zero_add] at this
          have hm : (pre ++ j :: js ++ x :: rest)[pre.length]? = some j := by simp
          have hs : ((pre ++ j :: js ++ x :: rest).set pre.length x).set (pre.length + (j :: js).length) j =
              pre ++ [x] ++ (js ++ [j]) ++ rest := by
            have h1 : (pre ++ j :: js ++ x :: rest).set pre.length x = (pre ++ x :: js) ++ x :: rest := by simp
            rw [h1, List.set_append_right _ _ (by simp)]
            simp
          simp only [hm]
          rw [hs, List.length_cons, show pre.length + (ks.count true + 1) = pre.length + 1 + ks.count true by omega,
            show pre.length + (js.length + 1) + 1 = pre.length + 1 + (js.length + 1) by omega, this]
          simp

/-- Splitting off the leading kept elements, which the loops skip. -/
theorem leading_split (ks : List Bool) (f : Nat) (v : List β) (hv : v.length = ks.length) :
    ∃ n, leadingKept (newIndicesKeep ks f).1 = n ∧ n ≤ ks.length ∧
      (newIndicesKeep ks f).1.drop n = (newIndicesKeep (ks.drop n) (f + n)).1 ∧
      ks.count true = n + (ks.drop n).count true ∧
      keptOf v ks = v.take n ++ keptOf (v.drop n) (ks.drop n) := by
  induction ks generalizing f v with
  | nil =>
    have : v = [] := List.length_eq_zero_iff.1 (by simpa using hv)
    subst this
    exact ⟨0, rfl, Nat.le_refl _, rfl, rfl, rfl⟩
  | cons k ks ih =>
    cases k with
    | false => exact ⟨0, by simp [leadingKept, newIndicesKeep], Nat.zero_le _, rfl, by simp, by simp⟩
    | true =>
      cases v with
      | nil => simp at hv
      | cons x v =>
        obtain ⟨n, h1, h2, h3, h4, h5⟩ := ih (f + 1) v (by simpa using hv)
        refine ⟨n + 1, ?_, by simpa using h2, ?_, ?_, ?_⟩
        · simp only [leadingKept, newIndicesKeep, List.takeWhile_cons, Option.isSome_some, if_true, List.length_cons]
          exact congrArg (· + 1) h1
        · simp only [newIndicesKeep, List.drop_succ_cons]
          rw [h3, show f + 1 + n = f + (n + 1) by omega]
        · simp only [List.count_cons_self, List.drop_succ_cons]; omega
        · simp only [keptOf, List.take_succ_cons, List.drop_succ_cons, List.cons_append]; rw [h5]

/-- C32.  For every mask and every vector of the same length: the counter returned is the number of kept
elements; kept index `i` is mapped to the number of kept indices before it and removed ones to nothing;
`do_moves`, `do_moves_swap` and `copy_to` all leave exactly the kept elements in order; and the element
found at the new index is the old element. -/
theorem C32_compaction (ks : List Bool) (v : List β) (hv : v.length = ks.length) (d : β) :
    let m := newIndicesKeep ks 0
    m.2 = ks.count true ∧
    (∀ i (hi : i < ks.length), m.1[i]? = some (if ks[i] then some ((ks.take i).count true) else none)) ∧
    doMoves m.1 m.2 v = keptOf v ks ∧
    doMovesSwap m.1 m.2 v = keptOf v ks ∧
    copyTo d m.1 m.2 v = keptOf v ks ∧
    (∀ i j : Nat, m.1[i]? = some (some j) → (keptOf v ks)[j]? = v[i]?) := by
  intro m
  have hm2 : m.2 = ks.count true := by simp [m, newIndices_count]
  obtain ⟨n, h1, h2, h3, h4, h5⟩ := leading_split ks 0 v hv
  have hlen : (v.take n).length = n := by rw [List.length_take]; omega
  have hd : (v.drop n).length = (ks.drop n).length := by simp [hv]
  refine ⟨hm2, fun i hi => ?_, ?_, ?_, ?_, ?_⟩
  · rw [newIndices_get, List.getElem?_eq_getElem hi]; simp
  · have := move_spec (ks.drop n) (v.drop n) (v.take n) [] hd
    rw [hlen] at this
    simp only [List.append_nil, List.take_append_drop, List.length_nil, Nat.add_zero] at this
    rw [doMoves, h1, h3, hm2, h4, h5, Nat.zero_add]
    exact this
  · have := swap_spec (ks.drop n) (v.drop n) (v.take n) [] hd
    rw [hlen] at this
    simp only [List.append_nil, List.take_append_drop, List.length_nil, Nat.add_zero] at this
    rw [doMovesSwap, h1, h3, hm2, h4, h5, Nat.zero_add]
    exact this
  · have key : ∀ (ks : List Bool) (v pre : List β), v.length = ks.length →
        ((newIndicesKeep ks pre.length).1.zip v).foldl (fun to p => match p.1 with
          | some m => to.set m p.2
          | none => to) (pre ++ List.replicate (ks.count true) d) = pre ++ keptOf v ks := by
      intro ks
      induction ks with
      | nil => intro v pre h; simp [newIndicesKeep, keptOf]
      | cons k ks ih =>
        intro v pre h
        cases v with
        | nil => simp at h
        | cons x v =>
          have h' : v.length = ks.length := by simpa using h
          cases k with
          | false => simp [newIndicesKeep, keptOf, ih v pre h']
          | true =>
            have := ih v (pre ++ [x]) h'
            simp only [List.length_append, List.length_cons, List.length_nil, Nat.zero_add] at this
            simp only [newIndicesKeep, List.zip_cons_cons, List.foldl_cons, keptOf]
            have hs : (pre ++ List.replicate ((true :: ks).count true) d).set pre.length x =
                pre ++ [x] ++ List.replicate (ks.count true) d := by simp [List.replicate_succ]
            rw [hs, this]; simp
    have := key ks v [] hv
    rw [copyTo, hm2]
    simp only [List.nil_append, List.length_nil] at this
    exact this
  · intro i j hij
    have key : ∀ (ks : List Bool) (v : List β) (f i j : Nat), v.length = ks.length →
        (newIndicesKeep ks f).1[i]? = some (some j) → f ≤ j ∧ (keptOf v ks)[j - f]? = v[i]? := by
      intro ks
      induction ks with
      | nil => intro v f i j _ h; simp [newIndicesKeep] at h
      | cons k ks ih =>
        intro v f i j hl h
        cases v with
        | nil => simp at hl
        | cons x v =>
          have hl' : v.length = ks.length := by simpa using hl
          cases k with
          | false =>
            cases i with
            | zero => simp [newIndicesKeep] at h
            | succ i =>
              simp only [newIndicesKeep, List.getElem?_cons_succ] at h
              simpa [keptOf] using ih v f i j hl' h
          | true =>
            cases i with
            | zero => simp only [newIndicesKeep, List.getElem?_cons_zero, Option.some.injEq] at h; subst h; simp [keptOf]
            | succ i =>
              simp only [newIndicesKeep, List.getElem?_cons_succ] at h
              obtain ⟨h1, h2⟩ := ih v (f + 1) i j hl' h
              refine ⟨by omega, ?_⟩
              rw [keptOf, show j - f = (j - (f + 1)) + 1 by omega, List.getElem?_cons_succ, h2]
              simp
    simpa using (key ks v 0 i j hv hij).2

/-- Non-vacuity. -/
example : newIndicesKeep [true, false, true, true, false] 0 = ([some 0, none, some 1, some 2, none], 3) ∧
    doMoves (newIndicesKeep [true, false, true, true, false] 0).1 3 [10, 11, 12, 13, 14] = [10, 12, 13] ∧
    reindex (newIndicesKeep [true, false, true, true, false] 0).1 [3, 1, 0, 3] = [2, 0, 2] := by decide

end Cdec
