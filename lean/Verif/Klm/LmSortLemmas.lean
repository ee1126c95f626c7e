import Verif.Klm.LmSort
import Mathlib.Data.List.Forall2
namespace Cdec.Klm.Builder

variable {α κ : Type} [LinearOrder κ]

theorem Pops.perm {key : α → κ} {qs : List (List α)} {out : List α} (h : Pops key qs out) : out.Perm qs.flatten := by
  induction h with
  | done => simp
  | pop l r x xs out _ _ ih =>
    have e : (l ++ (if xs.isEmpty then [] else [xs]) ++ r).flatten = l.flatten ++ (xs ++ r.flatten) := by
      by_cases hx : xs = []
      · simp [hx]
      · simp [hx]
    rw [e] at ih
    have e2 : (l ++ (x :: xs) :: r).flatten = l.flatten ++ x :: (xs ++ r.flatten) := by simp
    rw [e2]
    exact (ih.cons x).trans List.perm_middle.symm

theorem Pops.sorted {key : α → κ} {qs : List (List α)} {out : List α} (h : Pops key qs out)
    (hs : ∀ q ∈ qs, q.Pairwise fun x y => key x ≤ key y) : out.Pairwise fun x y => key x ≤ key y := by
  induction h with
  | done => exact List.Pairwise.nil
  | pop l r x xs out hmin hp ih =>
    have hxs : (x :: xs).Pairwise fun x y => key x ≤ key y := hs _ (by simp)
    refine List.Pairwise.cons ?_ (ih ?_)
    · intro y hy
      rw [hp.perm.mem_iff] at hy
      obtain ⟨q, hq, hyq⟩ := List.mem_flatten.1 hy
      simp only [List.mem_append] at hq
      have key_le : ∀ q ∈ l ++ r, y ∈ q → key x ≤ key y := by
        intro q hq hyq
        have hsq := hs q (by simp only [List.mem_append, List.mem_cons] at hq ⊢; tauto)
        cases q with
        | nil => simp at hyq
        | cons z zs =>
          have h1 := hmin _ hq z (by simp)
          rcases List.mem_cons.1 hyq with rfl | hz
          · exact h1
          · exact h1.trans ((List.pairwise_cons.1 hsq).1 y hz)
      rcases hq with (hq | hq) | hq
      · exact key_le q (by simp [hq]) hyq
      · have : y ∈ xs := by
          by_cases hx : xs = []
          · simp [hx] at hq
          · simp only [List.isEmpty_iff, hx, if_false, List.mem_singleton] at hq; exact hq ▸ hyq
        exact (List.pairwise_cons.1 hxs).1 y this
      · exact key_le q (by simp [hq]) hyq
    · intro q hq
      simp only [List.mem_append] at hq
      rcases hq with (hq | hq) | hq
      · exact hs q (by simp [hq])
      · by_cases hx : xs = []
        · simp [hx] at hq
        · simp only [List.isEmpty_iff, hx, if_false, List.mem_singleton] at hq
          exact hq ▸ (List.pairwise_cons.1 hxs).2
      · exact hs q (by simp [hq])

/-! ## Without combining -/

theorem combineAdj_never (s : α) (l : List α) : combineAdj neverCombine s l = s :: l := by
  induction l generalizing s with
  | nil => rfl
  | cons x xs ih => simp [combineAdj, neverCombine, ih]

theorem Groups.never {key : α → κ} {bs outs : List (List α)} (h : Groups key neverCombine bs outs)
    (hs : ∀ q ∈ bs, q.Pairwise fun x y => key x ≤ key y) :
    outs.flatten.Perm bs.flatten ∧ ∀ q ∈ outs, q.Pairwise fun x y => key x ≤ key y := by
  induction h with
  | nil => simp
  | cons group rest t ts outs _ hp _ ih =>
    obtain ⟨i1, i2⟩ := ih fun q hq => hs q (by simp [hq])
    rw [combineAdj_never]
    refine ⟨?_, ?_⟩
    · simp only [List.flatten_cons, List.flatten_append]
      exact hp.perm.append i1
    · intro q hq
      rcases List.mem_cons.1 hq with rfl | hq
      · exact hp.sorted fun q hq => hs q (by simp [hq])
      · exact i2 q hq

theorem MergeRun.never {key : α → κ} {bs outs : List (List α)} (h : MergeRun key neverCombine bs outs)
    (hs : ∀ q ∈ bs, q.Pairwise fun x y => key x ≤ key y) :
    outs.flatten.Perm bs.flatten ∧ ∀ q ∈ outs, q.Pairwise fun x y => key x ≤ key y := by
  cases h with
  | none => simp
  | one b => exact ⟨List.Perm.refl _, hs⟩
  | groups _ _ _ hg => exact hg.never hs

theorem Sorts.never {key : α → κ} {bs : List (List α)} {out : List α} (h : Sorts key neverCombine bs out)
    (hs : ∀ q ∈ bs, q.Pairwise fun x y => key x ≤ key y) :
    out.Perm bs.flatten ∧ out.Pairwise fun x y => key x ≤ key y := by
  induction h with
  | last bs outs hm hl =>
    obtain ⟨h1, h2⟩ := hm.never hs
    refine ⟨h1, ?_⟩
    match outs, hl with
    | [], _ => simp
    | [q], _ => simpa using h2 q (by simp)
    | _ :: _ :: _, hl => simp at hl
  | pass bs bs' out hm _ ih =>
    obtain ⟨h1, h2⟩ := hm.never hs
    obtain ⟨i1, i2⟩ := ih h2
    exact ⟨i1.trans h1, i2⟩

theorem Runs.spec {key : α → κ} {blocks runs : List (List α)} (h : Runs key blocks runs) :
    runs.flatten.Perm blocks.flatten ∧ ∀ q ∈ runs, q.Pairwise fun x y => key x ≤ key y := by
  have e : (blocks.filter fun b => !b.isEmpty).flatten = blocks.flatten := by
    clear h
    induction blocks with
    | nil => rfl
    | cons b bs ih =>
      cases b with
      | nil => simpa using ih
      | cons x xs => simp [ih]
  rw [← e]
  unfold Runs at h
  generalize blocks.filter (fun b => !b.isEmpty) = bs at h
  induction h with
  | nil => simp
  | cons hb _ ih =>
    obtain ⟨i1, i2⟩ := ih
    refine ⟨?_, ?_⟩
    · simp only [List.flatten_cons]
      exact hb.1.append i1
    · intro q hq
      rcases List.mem_cons.1 hq with rfl | hq
      · exact hb.2
      · exact i2 q hq

/-- Sorting without combining: a sorted permutation of the records of the blocks. -/
theorem sort_never {key : α → κ} {blocks runs : List (List α)} {out : List α} (h : Runs key blocks runs)
    (hs : Sorts key neverCombine runs out) : out.Perm blocks.flatten ∧ out.Pairwise fun x y => key x ≤ key y :=
  ⟨(hs.never h.spec.2).1.trans h.spec.1, (hs.never h.spec.2).2⟩

/-! ## Adding the counts of equal n-grams -/

/-- The total count of an n-gram in a list of records. -/
def total (g : Gram) (l : List (Gram × Nat)) : Nat := ((l.filter fun r => r.1 = g).map (·.2)).sum

theorem total_nil (g : Gram) : total g [] = 0 := rfl

theorem total_cons (g : Gram) (r : Gram × Nat) (l : List (Gram × Nat)) :
    total g (r :: l) = (if r.1 = g then r.2 else 0) + total g l := by
  unfold total
  by_cases h : r.1 = g <;> simp [h]

theorem total_append (g : Gram) (a b : List (Gram × Nat)) : total g (a ++ b) = total g a + total g b := by
  simp [total]

theorem total_perm (g : Gram) {a b : List (Gram × Nat)} (h : a.Perm b) : total g a = total g b :=
  ((h.filter _).map _).sum_nat

abbrev sufKey : Gram × Nat → List Nat := fun r => suffixKey r.1

theorem suffixKey_inj {a b : Gram} (h : suffixKey a = suffixKey b) : a = b := List.reverse_injective h

theorem mem_combineAdj (s : Gram × Nat) (l : List (Gram × Nat)) (g : Gram) :
    g ∈ (combineAdj addCombine s l).map (·.1) ↔ g ∈ (s :: l).map (·.1) := by
  induction l generalizing s with
  | nil => simp [combineAdj]
  | cons x xs ih =>
    rw [combineAdj]
    by_cases e : s.1 = x.1
    · simp only [addCombine, e, if_true]
      rw [ih]
      simp [e]
    · simp only [addCombine, e, if_false, List.map_cons, List.mem_cons]
      rw [ih x]
      simp

theorem total_combineAdj (s : Gram × Nat) (l : List (Gram × Nat)) (g : Gram) :
    total g (combineAdj addCombine s l) = total g (s :: l) := by
  induction l generalizing s with
  | nil => rfl
  | cons x xs ih =>
    rw [combineAdj]
    by_cases e : s.1 = x.1
    · simp only [addCombine, e, if_true]
      rw [ih]
      simp only [total_cons, e]
      split <;> omega
    · simp only [addCombine, e, if_false]
      rw [total_cons, ih, total_cons, total_cons, total_cons]

theorem combineAdj_sorted (s : Gram × Nat) (l : List (Gram × Nat)) (h : (s :: l).Pairwise fun x y => sufKey x ≤ sufKey y) :
    (combineAdj addCombine s l).Pairwise fun x y => sufKey x < sufKey y := by
  induction l generalizing s with
  | nil => simp [combineAdj]
  | cons x xs ih =>
    rw [combineAdj]
    obtain ⟨h1, h2⟩ := List.pairwise_cons.1 h
    by_cases e : s.1 = x.1
    · simp only [addCombine, e, if_true]
      refine ih _ ?_
      obtain ⟨h3, h4⟩ := List.pairwise_cons.1 h2
      exact List.pairwise_cons.2 ⟨h3, h4⟩
    · simp only [addCombine, e, if_false]
      refine List.Pairwise.cons ?_ (ih x h2)
      intro y hy
      have hy' : y.1 ∈ (x :: xs).map (·.1) := (mem_combineAdj x xs y.1).1 (List.mem_map_of_mem hy)
      obtain ⟨z, hz, hzy⟩ := List.mem_map.1 hy'
      have hsx : sufKey s < sufKey x := lt_of_le_of_ne (h1 x (by simp)) fun he => e (suffixKey_inj he)
      have hxz : sufKey x ≤ sufKey z := by
        rcases List.mem_cons.1 hz with rfl | hz
        · exact le_refl _
        · exact (List.pairwise_cons.1 h2).1 z hz
      have : sufKey z = sufKey y := by simp only [sufKey, hzy]
      exact this ▸ lt_of_lt_of_le hsx hxz

/-- What a pass keeps: the n-grams and their totals; and every run has each n-gram once. -/
structure SameCounts (bs outs : List (List (Gram × Nat))) : Prop where
  mem : ∀ g, g ∈ outs.flatten.map (·.1) ↔ g ∈ bs.flatten.map (·.1)
  tot : ∀ g, total g outs.flatten = total g bs.flatten
  strict : ∀ q ∈ outs, q.Pairwise fun x y => sufKey x < sufKey y

theorem Groups.add {bs outs : List (List (Gram × Nat))} (h : Groups sufKey addCombine bs outs)
    (hs : ∀ q ∈ bs, q.Pairwise fun x y => sufKey x < sufKey y) : SameCounts bs outs := by
  induction h with
  | nil => exact ⟨by simp, by simp, by simp⟩
  | cons group rest t ts outs _ hp _ ih =>
    have i := ih fun q hq => hs q (by simp [hq])
    have hsort := hp.sorted fun q hq => (hs q (by simp [hq])).imp le_of_lt
    refine ⟨?_, ?_, ?_⟩
    · intro g
      simp only [List.flatten_cons, List.flatten_append, List.map_append, List.mem_append]
      rw [mem_combineAdj, i.mem, (hp.perm.map _).mem_iff]
    · intro g
      simp only [List.flatten_cons, List.flatten_append, total_append]
      rw [total_combineAdj, i.tot, total_perm g hp.perm]
    · intro q hq
      rcases List.mem_cons.1 hq with rfl | hq
      · exact combineAdj_sorted t ts hsort
      · exact i.strict q hq

theorem MergeRun.add {bs outs : List (List (Gram × Nat))} (h : MergeRun sufKey addCombine bs outs)
    (hs : ∀ q ∈ bs, q.Pairwise fun x y => sufKey x < sufKey y) : SameCounts bs outs := by
  cases h with
  | none => exact ⟨by simp, by simp, by simp⟩
  | one b => exact ⟨fun _ => Iff.rfl, fun _ => rfl, hs⟩
  | groups _ _ _ hg => exact hg.add hs

theorem Sorts.add {bs : List (List (Gram × Nat))} {out : List (Gram × Nat)} (h : Sorts sufKey addCombine bs out)
    (hs : ∀ q ∈ bs, q.Pairwise fun x y => sufKey x < sufKey y) : SameCounts bs [out] := by
  induction h with
  | last bs outs hm hl =>
    have a := hm.add hs
    refine ⟨by simpa using a.mem, by simpa using a.tot, ?_⟩
    match outs, hl, a.strict with
    | [], _, _ => simp
    | [q], _, h => simpa using h
    | _ :: _ :: _, hl, _ => simp at hl
  | pass bs bs' out hm _ ih =>
    have a := hm.add hs
    have b := ih a.strict
    exact ⟨fun g => (b.mem g).trans (a.mem g), fun g => (b.tot g).trans (a.tot g), b.strict⟩

theorem total_eq_of_strict {l : List (Gram × Nat)} (h : l.Pairwise fun x y => sufKey x < sufKey y) {g : Gram} {c : Nat}
    (hm : (g, c) ∈ l) : total g l = c := by
  induction l with
  | nil => simp at hm
  | cons x xs ih =>
    obtain ⟨h1, h2⟩ := List.pairwise_cons.1 h
    rw [total_cons]
    rcases List.mem_cons.1 hm with rfl | hm
    · have : total g xs = 0 := by
        unfold total
        rw [List.filter_eq_nil_iff.2]
        · rfl
        · intro r hr
          simp only [decide_eq_true_eq]
          intro e
          have := h1 r hr
          simp only [sufKey, e, lt_irrefl] at this
      simp [this]
    · have : ¬ x.1 = g := by
        intro e
        have := h1 _ hm
        simp only [sufKey, e, lt_irrefl] at this
      simp [this, ih h2 hm]

/-- Sorting with adding: every n-gram of the blocks once, in order, with its total count. -/
theorem sort_add {blocks runs : List (List (Gram × Nat))} {out : List (Gram × Nat)} (h : Runs sufKey blocks runs)
    (hd : ∀ b ∈ blocks, (b.map (·.1)).Nodup) (hs : Sorts sufKey addCombine runs out) :
    (out.Pairwise fun x y => sufKey x < sufKey y) ∧
      ∀ g c, (g, c) ∈ out ↔ g ∈ blocks.flatten.map (·.1) ∧ c = total g blocks.flatten := by
  have hst : ∀ q ∈ runs, q.Pairwise fun x y => sufKey x < sufKey y := by
    have key : ∀ (bs runs : List (List (Gram × Nat))), List.Forall₂ (BlockSorted sufKey) bs runs →
        (∀ b ∈ bs, (b.map (·.1)).Nodup) → ∀ q ∈ runs, q.Pairwise fun x y => sufKey x < sufKey y := by
      intro bs runs hf
      induction hf with
      | nil => simp
      | cons hb _ ih =>
        intro hd q hq
        rcases List.mem_cons.1 hq with rfl | hq
        · have hn : (q.map (·.1)).Nodup := (hb.1.map (·.1)).nodup_iff.2 (hd _ (by simp))
          have hn' : q.Pairwise fun x y => x.1 ≠ y.1 := List.pairwise_map.1 hn
          exact (hb.2.and hn').imp fun ⟨h1, h2⟩ => lt_of_le_of_ne h1 fun e => h2 (suffixKey_inj e)
        · exact ih (fun b hb => hd b (by simp [hb])) q hq
    exact key _ _ h fun b hb => hd b (List.mem_filter.1 hb).1
  have a := hs.add hst
  have hstrict := a.strict out (by simp)
  refine ⟨hstrict, ?_⟩
  intro g c
  have e1 : ∀ g, g ∈ out.map (·.1) ↔ g ∈ blocks.flatten.map (·.1) := fun g => by
    have := a.mem g
    simp only [List.flatten_cons, List.flatten_nil, List.append_nil] at this
    rw [this, (h.spec.1.map _).mem_iff]
  have e2 : total g out = total g blocks.flatten := by
    have := a.tot g
    simp only [List.flatten_cons, List.flatten_nil, List.append_nil] at this
    rw [this, total_perm g h.spec.1]
  constructor
  · intro hm
    exact ⟨(e1 g).1 (List.mem_map.2 ⟨_, hm, rfl⟩), by rw [← e2, total_eq_of_strict hstrict hm]⟩
  · rintro ⟨hm, rfl⟩
    obtain ⟨r, hr, rfl⟩ := List.mem_map.1 ((e1 g).2 hm)
    rw [← e2, total_eq_of_strict hstrict (c := r.2) hr]
    exact hr

end Cdec.Klm.Builder
