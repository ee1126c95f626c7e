import Verif.Mteval.Edit
import Mathlib.Data.List.Basic
import Mathlib.Tactic.Ring
namespace Cdec.Edit

variable {α : Type _} [DecidableEq α]

/-- The usual recursion, on lists. -/
def ed : List α → List α → Nat
  | [], ys => ys.length
  | xs, [] => xs.length
  | x :: xs, y :: ys => min (min (ed xs (y :: ys) + 1) (ed (x :: xs) ys + 1)) (ed xs ys + if x = y then 0 else 1)
  termination_by xs ys => xs.length + ys.length

theorem ed_nil_left (ys : List α) : ed [] ys = ys.length := by rw [ed]
theorem ed_nil_right (xs : List α) : ed xs [] = xs.length := by cases xs <;> simp [ed]
theorem ed_cons (x y : α) (xs ys : List α) : ed (x :: xs) (y :: ys) =
    min (min (ed xs (y :: ys) + 1) (ed (x :: xs) ys + 1)) (ed xs ys + if x = y then 0 else 1) := by rw [ed]

theorem ed_cons_le (x : α) (xs ys : List α) : ed (x :: xs) ys ≤ ed xs ys + 1 := by
  cases ys with
  | nil => simp [ed_nil_right]
  | cons y ys => rw [ed_cons]; omega

theorem ed_cons_le' (y : α) (xs ys : List α) : ed xs (y :: ys) ≤ ed xs ys + 1 := by
  cases xs with
  | nil => simp [ed_nil_left]
  | cons x xs => rw [ed_cons]; omega

theorem le_ed_cons (x : α) (xs : List α) : ∀ ys : List α, ed xs ys ≤ ed (x :: xs) ys + 1
  | [] => by simp [ed_nil_right]; omega
  | y :: ys => by
    rw [ed_cons]
    have := le_ed_cons x xs ys
    have := ed_cons_le' y xs ys
    have h3 : (if x = y then 0 else 1) ≤ 1 := by split <;> omega
    omega

theorem ed_subst (x y : α) (v : List α) : ∀ c : List α, ed (x :: v) c ≤ ed (y :: v) c + 1
  | [] => by simp [ed_nil_right]
  | w :: c => by
    have := ed_subst x y v c
    rw [ed_cons, ed_cons]
    have h3 : (if x = w then 0 else 1) ≤ 1 := by split <;> omega
    omega

theorem lipschitz_prefix (s t : List α) (h : ∀ c : List α, ed s c ≤ ed t c + 1) : ∀ (u c : List α),
    ed (u ++ s) c ≤ ed (u ++ t) c + 1
  | [], c => h c
  | z :: u, [] => by
    have := lipschitz_prefix s t h u []
    simp only [ed_nil_right] at this ⊢
    simp only [List.cons_append, List.length_cons]; omega
  | z :: u, w :: c => by
    have i1 := lipschitz_prefix s t h u (w :: c)
    have i2 := lipschitz_prefix s t h (z :: u) c
    have i3 := lipschitz_prefix s t h u c
    simp only [List.cons_append] at i2 ⊢
    rw [ed_cons, ed_cons]
    omega
  termination_by u c => u.length + c.length

theorem ed_oneEdit {a b : List α} (h : OneEdit a b) (c : List α) : ed a c ≤ ed b c + 1 := by
  cases h with
  | ins u x v => exact lipschitz_prefix v (x :: v) (le_ed_cons x v) u c
  | del u x v => exact lipschitz_prefix (x :: v) v (ed_cons_le x v) u c
  | sub u x y v => exact lipschitz_prefix (x :: v) (y :: v) (ed_subst x y v) u c

theorem ed_self : ∀ a : List α, ed a a = 0
  | [] => by simp [ed_nil_left]
  | x :: a => by rw [ed_cons, ed_self a]; simp

theorem ed_le {n : Nat} {a b : List α} (h : Edits n a b) : ed a b ≤ n := by
  induction h with
  | refl a => rw [ed_self]
  | step h1 _ ih => exact Nat.le_trans (ed_oneEdit h1 _) (Nat.succ_le_succ ih)

omit [DecidableEq α] in
theorem OneEdit.cons {a b : List α} (x : α) (h : OneEdit a b) : OneEdit (x :: a) (x :: b) := by
  cases h with
  | ins u y v => exact .ins (x :: u) y v
  | del u y v => exact .del (x :: u) y v
  | sub u y z v => exact .sub (x :: u) y z v

omit [DecidableEq α] in
theorem Edits.cons {n : Nat} {a b : List α} (x : α) (h : Edits n a b) : Edits n (x :: a) (x :: b) := by
  induction h with
  | refl a => exact .refl _
  | step h1 _ ih => exact .step (h1.cons x) ih

omit [DecidableEq α] in
theorem edits_ins : ∀ ys : List α, Edits ys.length [] ys
  | [] => .refl _
  | y :: ys => .step (OneEdit.ins [] y []) ((edits_ins ys).cons y)

omit [DecidableEq α] in
theorem edits_del : ∀ xs : List α, Edits xs.length xs []
  | [] => .refl _
  | x :: xs => .step (OneEdit.del [] x xs) (edits_del xs)

theorem edits_ed : ∀ a b : List α, Edits (ed a b) a b
  | [], b => by rw [ed_nil_left]; exact edits_ins b
  | a, [] => by rw [ed_nil_right]; exact edits_del a
  | x :: a, y :: b => by
    have h1 := edits_ed a (y :: b)
    have h2 := edits_ed (x :: a) b
    have h3 := edits_ed a b
    have c1 : Edits (ed a (y :: b) + 1) (x :: a) (y :: b) := .step (.del [] x a) h1
    have c2 : Edits (ed (x :: a) b + 1) (x :: a) (y :: b) := .step (.ins [] y (x :: a)) (h2.cons y)
    have c3 : Edits (ed a b + if x = y then 0 else 1) (x :: a) (y :: b) := by
      split
      · rename_i h; subst h; exact h3.cons x
      · exact .step (.sub [] x y a) (h3.cons y)
    rw [ed_cons]
    rcases Nat.le_total (ed a (y :: b) + 1) (ed (x :: a) b + 1) with h | h
    · rw [Nat.min_eq_left h]
      rcases Nat.le_total (ed a (y :: b) + 1) (ed a b + if x = y then 0 else 1) with h | h
      · rw [Nat.min_eq_left h]; exact c1
      · rw [Nat.min_eq_right h]; exact c3
    · rw [Nat.min_eq_right h]
      rcases Nat.le_total (ed (x :: a) b + 1) (ed a b + if x = y then 0 else 1) with h | h
      · rw [Nat.min_eq_left h]; exact c2
      · rw [Nat.min_eq_right h]; exact c3
  termination_by a b => a.length + b.length

theorem isEditDistance_ed (a b : List α) : IsEditDistance a b (ed a b) := ⟨edits_ed a b, fun _ h => ed_le h⟩

omit [DecidableEq α] in
theorem OneEdit.reverse {a b : List α} (h : OneEdit a b) : OneEdit a.reverse b.reverse := by
  cases h with
  | ins u x v => simpa using OneEdit.ins v.reverse x u.reverse
  | del u x v => simpa using OneEdit.del v.reverse x u.reverse
  | sub u x y v => simpa using OneEdit.sub v.reverse x y u.reverse

omit [DecidableEq α] in
theorem Edits.reverse {n : Nat} {a b : List α} (h : Edits n a b) : Edits n a.reverse b.reverse := by
  induction h with
  | refl a => exact .refl _
  | step h1 _ ih => exact .step h1.reverse ih

theorem ed_reverse (a b : List α) : ed a.reverse b.reverse = ed a b := by
  apply Nat.le_antisymm
  · exact ed_le (edits_ed a b).reverse
  · have := ed_le (edits_ed a.reverse b.reverse).reverse
    simpa using this

/-! ## The tables -/

/-- The distance between the first `i` words of `a` and the first `j` words of `b`. -/
def dp (a b : List α) (i j : Nat) : Nat := ed (a.take i) (b.take j)

theorem dp_zero_left (a b : List α) (j : Nat) (h : j ≤ b.length) : dp a b 0 j = j := by
  simp [dp, ed_nil_left, h]

theorem dp_zero_right (a b : List α) (i : Nat) (h : i ≤ a.length) : dp a b i 0 = i := by
  simp [dp, ed_nil_right, h]

omit [DecidableEq α] in
theorem take_succ_reverse (a : List α) (i : Nat) (h : i < a.length) :
    (a.take (i + 1)).reverse = a[i] :: (a.take i).reverse := by
  rw [List.take_succ, List.getElem?_eq_getElem h]; simp

theorem dp_succ (a b : List α) (i j : Nat) (hi : i < a.length) (hj : j < b.length) :
    dp a b (i + 1) (j + 1) = min (min (dp a b i (j + 1) + 1) (dp a b (i + 1) j + 1))
      (dp a b i j + if a[i]? = b[j]? then 0 else 1) := by
  unfold dp
  rw [← ed_reverse, ← ed_reverse (a.take i) (b.take (j + 1)), ← ed_reverse (a.take (i + 1)) (b.take j),
    ← ed_reverse (a.take i) (b.take j), take_succ_reverse a i hi, take_succ_reverse b j hj, ed_cons,
    List.getElem?_eq_getElem hi, List.getElem?_eq_getElem hj]
  simp

/-! ## The two-row computation -/

theorem levRow (a b : List α) (i : Nat) (hi : i ≤ b.length) (e : Nat → Nat)
    (hprev : i ≠ 0 → ∀ j ≤ a.length, e (((i - 1) % 2) * (a.length + 1) + j) = dp a b j (i - 1)) :
    ∀ k ≤ a.length + 1, let e' := (List.range k).foldl (fun e j => levCell a b a.length i e j) e
      (∀ j < k, e' ((i % 2) * (a.length + 1) + j) = dp a b j i) ∧
      (i ≠ 0 → ∀ j ≤ a.length, e' (((i - 1) % 2) * (a.length + 1) + j) = dp a b j (i - 1)) := by
  intro k
  induction k with
  | zero => intro _; exact ⟨fun j hj => absurd hj (Nat.not_lt_zero _), hprev⟩
  | succ k ih =>
    intro hk
    obtain ⟨h1, h2⟩ := ih (by omega)
    rw [List.range_succ, List.foldl_append, List.foldl_cons, List.foldl_nil]
    generalize (List.range k).foldl (fun e j => levCell a b a.length i e j) e = e' at h1 h2
    unfold levCell
    by_cases hi0 : i = 0
    · subst hi0
      simp only [if_true, upd]
      refine ⟨fun j hj => ?_, fun h => absurd rfl h⟩
      simp only [Nat.zero_mod, Nat.zero_mul, Nat.zero_add] at h1 ⊢
      split
      · rename_i h; subst h; rw [dp_zero_right _ _ _ (by omega)]
      · exact h1 j (by omega)
    · obtain ⟨i', rfl⟩ : ∃ i', i = i' + 1 := ⟨i - 1, by omega⟩
      have h2' := h2 hi0
      simp only [Nat.add_sub_cancel] at h2' ⊢
      rw [if_neg hi0]
      have hsep : ∀ x y, x ≤ a.length → y ≤ a.length →
          (i' % 2) * (a.length + 1) + x ≠ ((i' + 1) % 2) * (a.length + 1) + y := by
        intro x y hx hy h
        rcases Nat.mod_two_eq_zero_or_one i' with hm | hm
        · have hm' : (i' + 1) % 2 = 1 := by omega
          rw [hm, hm'] at h; omega
        · have hm' : (i' + 1) % 2 = 0 := by omega
          rw [hm, hm'] at h; omega
      by_cases hk0 : k = 0
      · subst hk0
        simp only [if_true, upd]
        refine ⟨fun j hj => ?_, fun _ j hj => ?_⟩
        · have : j = 0 := by omega
          subst this
          simp [dp_zero_left a b (i' + 1) hi]
        · rw [if_neg (by simpa using hsep j 0 hj (Nat.zero_le _))]
          exact h2' j hj
      · obtain ⟨k', rfl⟩ : ∃ k', k = k' + 1 := ⟨k - 1, by omega⟩
        rw [if_neg hk0]
        simp only [upd, Nat.add_sub_cancel]
        refine ⟨fun j hj => ?_, fun _ j hj => ?_⟩
        · split
          · rename_i h
            have : j = k' + 1 := by omega
            subst this
            rw [h2' _ (by omega), h2' _ (by omega)]
            have e1 : (i' + 1) % 2 * (a.length + 1) + (k' + 1) - 1 = (i' + 1) % 2 * (a.length + 1) + k' := by omega
            rw [e1, h1 k' (by omega), dp_succ a b k' i' (by omega) (by omega)]
          · exact h1 j (by omega)
        · rw [if_neg (hsep j (k' + 1) hj (by omega))]
          exact h2' j hj

theorem levenshtein_eq (a b : List α) : levenshtein a b = ed a b := by
  have key : ∀ k ≤ b.length, ∀ j ≤ a.length,
      ((List.range (k + 1)).foldl
        (fun e i => (List.range (a.length + 1)).foldl (fun e j => levCell a b a.length i e j) e) (fun _ => 0))
        ((k % 2) * (a.length + 1) + j) = dp a b j k := by
    intro k
    induction k with
    | zero =>
      intro hk j hj
      rw [List.range_succ (n := 0), List.foldl_append, List.foldl_cons, List.foldl_nil]
      exact (levRow a b 0 hk _ (fun h => absurd rfl h) (a.length + 1) (Nat.le_refl _)).1 j (by omega)
    | succ k ih =>
      intro hk j hj
      rw [List.range_succ (n := k + 1), List.foldl_append, List.foldl_cons, List.foldl_nil]
      exact (levRow a b (k + 1) hk _ (fun _ j hj => ih (by omega) j hj) (a.length + 1) (Nat.le_refl _)).1 j (by omega)
  have := key b.length (Nat.le_refl _) a.length (Nat.le_refl _)
  unfold levenshtein
  simp only
  rw [this]
  simp [dp]

/-! ## The full table with back pointers -/

/-- What a cell of the table says. -/
def CellOk (hyp ref : List α) (s : Mats) (i j : Nat) : Prop :=
  s.c i j = dp hyp ref i j ∧
  (1 ≤ i → 1 ≤ j → match s.b i j with
    | .MATCH => hyp[i - 1]? = ref[j - 1]? ∧ dp hyp ref i j = dp hyp ref (i - 1) (j - 1)
    | .SUBSTITUTION => hyp[i - 1]? ≠ ref[j - 1]? ∧ dp hyp ref i j = dp hyp ref (i - 1) (j - 1) + 1
    | .INSERTION => dp hyp ref i j = dp hyp ref (i - 1) j + 1
    | .DELETION => dp hyp ref i j = dp hyp ref i (j - 1) + 1)

theorem cellOk_choice (hyp ref : List α) (s : Mats) (i j : Nat) (hi : i < hyp.length) (hj : j < ref.length)
    (h1 : s.c i j = dp hyp ref i j) (h2 : s.c i (j + 1) = dp hyp ref i (j + 1))
    (h3 : s.c (i + 1) j = dp hyp ref (i + 1) j) :
    CellOk hyp ref (medCell hyp ref (i + 1) s (j + 1)) (i + 1) (j + 1) := by
  have hd := dp_succ hyp ref i j hi hj
  unfold CellOk medCell Mats.set
  simp only [Nat.add_sub_cancel, h1, h2, h3, and_self, if_true]
  unfold medChoice
  by_cases he : hyp[i]? = ref[j]?
  · have he' : decide (ref[j]? = hyp[i]?) = true := by simp [he]
    rw [if_pos he] at hd
    simp only [he', if_true]
    split
    · simp only
      split
      · refine ⟨?_, fun _ _ => ?_⟩ <;> simp only <;> omega
      · refine ⟨?_, fun _ _ => ?_⟩ <;> simp only <;> omega
    · simp only
      split
      · refine ⟨?_, fun _ _ => ?_⟩ <;> simp only <;> omega
      · refine ⟨?_, fun _ _ => ?_⟩
        · simp only; omega
        · exact ⟨he, by omega⟩
  · have he' : decide (ref[j]? = hyp[i]?) = false := by simpa using fun h => he h.symm
    rw [if_neg he] at hd
    simp only [he', Bool.false_eq_true, if_false]
    split
    · simp only
      split
      · refine ⟨?_, fun _ _ => ?_⟩ <;> simp only <;> omega
      · refine ⟨?_, fun _ _ => ?_⟩ <;> simp only <;> omega
    · simp only
      split
      · refine ⟨?_, fun _ _ => ?_⟩ <;> simp only <;> omega
      · refine ⟨?_, fun _ _ => ?_⟩
        · simp only; omega
        · exact ⟨he, by omega⟩

theorem medCell_other (hyp ref : List α) (s : Mats) (i j i' j' : Nat) (h : ¬ (i' = i ∧ j' = j)) :
    (CellOk hyp ref (medCell hyp ref i s j) i' j' ↔ CellOk hyp ref s i' j') := by
  unfold CellOk medCell Mats.set
  simp only [h, if_false]

theorem medRow (hyp ref : List α) (i : Nat) (hi : i < hyp.length) (s : Mats)
    (hprev : ∀ i' ≤ i, ∀ j ≤ ref.length, CellOk hyp ref s i' j) (h0 : CellOk hyp ref s (i + 1) 0) :
    ∀ k ≤ ref.length, let s' := (List.range' 1 k).foldl (fun s j => medCell hyp ref (i + 1) s j) s
      (∀ i' ≤ i, ∀ j ≤ ref.length, CellOk hyp ref s' i' j) ∧ (∀ j ≤ k, CellOk hyp ref s' (i + 1) j) ∧
      (∀ i' j, i + 1 < i' → (s'.c i' j = s.c i' j)) := by
  intro k
  induction k with
  | zero =>
    intro _
    refine ⟨hprev, fun j hj => ?_, fun _ _ _ => rfl⟩
    have : j = 0 := by omega
    subst this; exact h0
  | succ k ih =>
    intro hk
    obtain ⟨g1, g2, g3⟩ := ih (by omega)
    rw [List.range'_1_concat, List.foldl_append, List.foldl_cons, List.foldl_nil]
    generalize (List.range' 1 k).foldl (fun s j => medCell hyp ref (i + 1) s j) s = s' at g1 g2 g3
    rw [Nat.add_comm 1 k]
    refine ⟨fun i' hi' j hj => ?_, fun j hj => ?_, fun i' j hi' => ?_⟩
    · rw [medCell_other _ _ _ _ _ _ _ (by omega)]; exact g1 i' hi' j hj
    · by_cases h : j = k + 1
      · subst h
        exact cellOk_choice hyp ref s' i k hi (by omega) (g1 i (Nat.le_refl _) k (by omega)).1
          (g1 i (Nat.le_refl _) (k + 1) hk).1 (g2 k (Nat.le_refl _)).1
      · rw [medCell_other _ _ _ _ _ _ _ (by omega)]; exact g2 j (by omega)
    · rw [← g3 i' j hi']
      unfold medCell Mats.set
      simp only
      rw [if_neg (by omega)]

theorem setC_col (n : Nat) (s : Mats) : ∀ k, let s' := (List.range k).foldl (fun s i => s.setC i 0 i) s
    (∀ i < k, s'.c i 0 = i) ∧ s'.b = s.b := by
  intro k
  induction k with
  | zero => exact ⟨fun i hi => absurd hi (Nat.not_lt_zero _), rfl⟩
  | succ k ih =>
    obtain ⟨h1, h2⟩ := ih
    rw [List.range_succ, List.foldl_append, List.foldl_cons, List.foldl_nil]
    generalize (List.range k).foldl (fun s i => s.setC i 0 i) s = s' at h1 h2
    refine ⟨fun i hi => ?_, h2⟩
    unfold Mats.setC
    simp only
    split
    · rename_i h; exact h.1.symm
    · rename_i h
      have : i ≠ k := fun e => h (by simp [e])
      exact h1 i (by omega)

theorem setC_row (s : Mats) : ∀ k, let s' := (List.range k).foldl (fun s j => s.setC 0 j j) s
    (∀ j < k, s'.c 0 j = j) ∧ (∀ i j, i ≠ 0 → s'.c i j = s.c i j) ∧ (k = 0 → s' = s) ∧ s'.b = s.b := by
  intro k
  induction k with
  | zero => exact ⟨fun i hi => absurd hi (Nat.not_lt_zero _), fun _ _ _ => rfl, fun _ => rfl, rfl⟩
  | succ k ih =>
    obtain ⟨h1, h2, h3, h4⟩ := ih
    rw [List.range_succ, List.foldl_append, List.foldl_cons, List.foldl_nil]
    generalize (List.range k).foldl (fun s j => s.setC 0 j j) s = s' at h1 h2 h3 h4
    refine ⟨fun j hj => ?_, fun i j hi => ?_, fun h => absurd h (by omega), h4⟩
    · unfold Mats.setC
      simp only
      split
      · rename_i h; exact h.2.symm
      · rename_i h
        have : j ≠ k := fun e => h (by simp [e])
        exact h1 j (by omega)
    · unfold Mats.setC
      simp only
      rw [if_neg (fun h => hi h.1)]
      exact h2 i j hi

theorem medMats_ok (hyp ref : List α) : ∀ i ≤ hyp.length, ∀ j ≤ ref.length, CellOk hyp ref (medMats hyp ref) i j := by
  unfold medMats
  simp only
  obtain ⟨c1, _⟩ := setC_col 0 (⟨fun _ _ => 0, fun _ _ => .MATCH⟩ : Mats) (hyp.length + 1)
  generalize (List.range (hyp.length + 1)).foldl (fun s i => s.setC i 0 i) (⟨fun _ _ => 0, fun _ _ => .MATCH⟩ : Mats)
    = s1 at c1
  obtain ⟨r1, r2, _, _⟩ := setC_row s1 (ref.length + 1)
  generalize (List.range (ref.length + 1)).foldl (fun s j => s.setC 0 j j) s1 = s2 at r1 r2
  have hrow0 : ∀ j ≤ ref.length, CellOk hyp ref s2 0 j := fun j hj =>
    ⟨by rw [r1 j (by omega), dp_zero_left _ _ _ hj], fun h => absurd h (by omega)⟩
  have hcol0 : ∀ i, 1 ≤ i → i ≤ hyp.length → s2.c i 0 = i := fun i h1 h2 => by
    rw [r2 i 0 (by omega), c1 i (by omega)]
  have key : ∀ k ≤ hyp.length,
      let s' := (List.range' 1 k).foldl
        (fun s i => (List.range' 1 ref.length).foldl (fun s j => medCell hyp ref i s j) s) s2
      (∀ i ≤ k, ∀ j ≤ ref.length, CellOk hyp ref s' i j) ∧ (∀ i, k < i → i ≤ hyp.length → s'.c i 0 = i) := by
    intro k
    induction k with
    | zero =>
      intro _
      refine ⟨fun i hi j hj => ?_, fun i h1 h2 => hcol0 i h1 h2⟩
      have : i = 0 := by omega
      subst this; exact hrow0 j hj
    | succ k ih =>
      intro hk
      obtain ⟨g1, g2⟩ := ih (by omega)
      rw [List.range'_1_concat, List.foldl_append, List.foldl_cons, List.foldl_nil]
      generalize (List.range' 1 k).foldl
        (fun s i => (List.range' 1 ref.length).foldl (fun s j => medCell hyp ref i s j) s) s2 = s' at g1 g2
      rw [Nat.add_comm 1 k]
      obtain ⟨m1, m2, m3⟩ := medRow hyp ref k (by omega) s' g1
        ⟨by rw [g2 (k + 1) (by omega) hk, dp_zero_right _ _ _ hk], fun _ h => absurd h (by omega)⟩ ref.length (Nat.le_refl _)
      refine ⟨fun i hi j hj => ?_, fun i h1 h2 => ?_⟩
      · by_cases h : i = k + 1
        · subst h; exact m2 j hj
        · exact m1 i (by omega) j hj
      · rw [m3 i 0 h1]; exact g2 i (by omega) h2
  exact fun i hi j hj => (key hyp.length (Nat.le_refl _)).1 i hi j hj

omit [DecidableEq α] in
theorem Explains.append {p q : List Trans} {h h' r r' : List α} (a : Explains p h r) (b : Explains q h' r') :
    Explains (p ++ q) (h ++ h') (r ++ r') := by
  induction a with
  | nil => exact b
  | keep x _ ih => exact .keep x ih
  | subst x y hne _ ih => exact .subst x y hne ih
  | inserted x _ ih => exact .inserted x ih
  | deleted y _ ih => exact .deleted y ih

theorem errors_cons (t : Trans) (p : List Trans) : errors (t :: p) = errors p + if t = .MATCH then 0 else 1 := by
  unfold errors
  rw [List.filter_cons]
  cases t <;> simp

theorem errors_reverse (p : List Trans) : errors p.reverse = errors p := by
  unfold errors; rw [List.filter_reverse, List.length_reverse]

omit [DecidableEq α] in
theorem take_succ' (l : List α) (i : Nat) (h : i < l.length) : l.take (i + 1) = l.take i ++ [l[i]] := by
  rw [List.take_succ, List.getElem?_eq_getElem h]; rfl

theorem trace_ok (hyp ref : List α) (s : Mats)
    (hs : ∀ i ≤ hyp.length, ∀ j ≤ ref.length, CellOk hyp ref s i j) : ∀ (i j : Nat), i ≤ hyp.length → j ≤ ref.length →
    Explains (trace s.b i j).reverse (hyp.take i) (ref.take j) ∧ errors (trace s.b i j) = dp hyp ref i j
  | 0, 0, _, _ => by
    rw [trace]
    exact ⟨.nil, by simp [errors, dp, ed_nil_left]⟩
  | i + 1, 0, hi, hj => by
    obtain ⟨h1, h2⟩ := trace_ok hyp ref s hs i 0 (by omega) hj
    rw [trace]
    refine ⟨?_, ?_⟩
    · rw [List.reverse_cons, take_succ' hyp i (by omega)]
      have := h1.append (Explains.inserted hyp[i] Explains.nil)
      simpa using this
    · rw [errors_cons, h2, dp_zero_right _ _ _ (by omega), dp_zero_right _ _ _ hi]; simp
  | 0, j + 1, hi, hj => by
    obtain ⟨h1, h2⟩ := trace_ok hyp ref s hs 0 j hi (by omega)
    rw [trace]
    refine ⟨?_, ?_⟩
    · rw [List.reverse_cons, take_succ' ref j (by omega)]
      have := h1.append (Explains.deleted ref[j] Explains.nil)
      simpa using this
    · rw [errors_cons, h2, dp_zero_left _ _ _ (by omega), dp_zero_left _ _ _ hj]; simp
  | i + 1, j + 1, hi, hj => by
    have hc := (hs (i + 1) hi (j + 1) hj).2 (by omega) (by omega)
    rw [trace]
    simp only [Nat.add_sub_cancel] at hc
    cases hb : s.b (i + 1) (j + 1) with
    | MATCH =>
      rw [hb] at hc
      obtain ⟨h1, h2⟩ := trace_ok hyp ref s hs i j (by omega) (by omega)
      simp only
      refine ⟨?_, ?_⟩
      · rw [List.reverse_cons, take_succ' hyp i (by omega), take_succ' ref j (by omega)]
        have he : ref[j] = hyp[i] := by
          have := hc.1
          rw [List.getElem?_eq_getElem (show i < hyp.length by omega),
            List.getElem?_eq_getElem (show j < ref.length by omega)] at this
          exact (Option.some.inj this).symm
        rw [he]
        exact h1.append (Explains.keep hyp[i] Explains.nil)
      · rw [errors_cons, h2, hc.2]; simp
    | SUBSTITUTION =>
      rw [hb] at hc
      obtain ⟨h1, h2⟩ := trace_ok hyp ref s hs i j (by omega) (by omega)
      simp only
      refine ⟨?_, ?_⟩
      · rw [List.reverse_cons, take_succ' hyp i (by omega), take_succ' ref j (by omega)]
        have he : hyp[i] ≠ ref[j] := by
          intro h
          apply hc.1
          rw [List.getElem?_eq_getElem (show i < hyp.length by omega),
            List.getElem?_eq_getElem (show j < ref.length by omega), h]
        exact h1.append (Explains.subst _ _ he Explains.nil)
      · rw [errors_cons, h2, hc.2]; simp
    | INSERTION =>
      rw [hb] at hc
      obtain ⟨h1, h2⟩ := trace_ok hyp ref s hs i (j + 1) (by omega) hj
      simp only
      refine ⟨?_, ?_⟩
      · rw [List.reverse_cons, take_succ' hyp i (by omega)]
        have := h1.append (Explains.inserted hyp[i] Explains.nil)
        simpa using this
      · rw [errors_cons, h2, hc]; simp
    | DELETION =>
      rw [hb] at hc
      obtain ⟨h1, h2⟩ := trace_ok hyp ref s hs (i + 1) j hi (by omega)
      simp only
      refine ⟨?_, ?_⟩
      · rw [List.reverse_cons, take_succ' ref j (by omega)]
        have := h1.append (Explains.deleted ref[j] Explains.nil)
        simpa using this
      · rw [errors_cons, h2, hc]; simp
  termination_by i j => i + j

theorem med_ok (hyp ref : List α) : (minimumEditDistance hyp ref).1 = ed hyp ref ∧
    Explains (minimumEditDistance hyp ref).2 hyp ref ∧ errors (minimumEditDistance hyp ref).2 = ed hyp ref := by
  have hok := medMats_ok hyp ref
  obtain ⟨h1, h2⟩ := trace_ok hyp ref _ hok hyp.length ref.length (Nat.le_refl _) (Nat.le_refl _)
  unfold minimumEditDistance
  simp only
  refine ⟨?_, ?_, ?_⟩
  · rw [(hok _ (Nat.le_refl _) _ (Nat.le_refl _)).1]; simp [dp]
  · simpa using h1
  · rw [errors_reverse, h2]; simp [dp]

end Cdec.Edit
