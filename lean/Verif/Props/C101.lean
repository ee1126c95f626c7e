import Verif.Mteval.SskLemmas
import Mathlib.Algebra.Order.BigOperators.Ring.Finset
import Mathlib.Tactic.Positivity
/-!
# C101: the string kernel score measures common subsequences
-/
namespace Cdec.Mteval.Ssk
open Spec
variable {K α : Type} [CommSemiring K] [DecidableEq α]

/-- C101.  For all strings, every `N` and every `lambda`, the dynamic program computes the sum, over all choices of `1` to `N` places in each string that show the same symbols, of
`lambda` to the power of the total length of the two spans. -/
theorem C101_kernel (N : Nat) (lam : K) (s t : List α) : kernel N lam s t = Spec.kernel N lam s t := kernel_spec N

/-! ## Sums by words -/

/-- The weight of a choice of places. -/
def weight (N : Nat) (lam : ℝ) (I : List Nat) : ℝ := if 1 ≤ I.length ∧ I.length ≤ N then lam ^ span I else 0

/-- The words of a string. -/
def words (s : List α) : Finset (List (Option α)) := ((places s.length).map (at' s)).toFinset

/-- The weight of a word in a string. -/
def wordWeight (N : Nat) (lam : ℝ) (s : List α) (w : List (Option α)) : ℝ := ((places s.length).map fun I => if at' s I = w then weight N lam I else 0).sum

theorem sum_finset_list {ι : Type} {β : Type} (S : Finset ι) (l : List β) (f : ι → β → ℝ) : ∑ i ∈ S, (l.map (f i)).sum = (l.map fun b => ∑ i ∈ S, f i b).sum := by
  induction l with
  | nil => simp
  | cons b l ih => simp only [List.map_cons, List.sum_cons, Finset.sum_add_distrib, ih]

theorem kernel_words (N : Nat) (lam : ℝ) (s t : List α) (S : Finset (List (Option α))) (hS : words s ⊆ S) :
    kernel N lam s t = ∑ w ∈ S, wordWeight N lam s w * wordWeight N lam t w := by
  rw [kernel_spec]
  unfold Spec.kernel wordWeight
  simp only [← List.sum_map_mul_right]
  rw [sum_finset_list]
  congr 1
  refine List.map_congr_left fun I hI => ?_
  simp only [← List.sum_map_mul_left]
  rw [sum_finset_list]
  congr 1
  refine List.map_congr_left fun J hJ => ?_
  have hmem : at' s I ∈ S := hS (by unfold words; simp only [List.mem_toFinset, List.mem_map]; exact ⟨I, hI, rfl⟩)
  rw [Finset.sum_eq_single_of_mem _ hmem]
  · rw [if_pos rfl]
    unfold weight
    by_cases h : at' s I = at' t J
    · have hl := at_length h
      rw [if_pos h.symm]
      by_cases h1 : 1 ≤ I.length ∧ I.length ≤ N
      · rw [if_pos ⟨h1.1, h1.2, h⟩, if_pos h1, if_pos (by omega)]
      · rw [if_neg fun h2 => h1 ⟨h2.1, h2.2.1⟩, if_neg h1, zero_mul]
    · rw [if_neg fun h2 => h h2.2.2, if_neg (show ¬ at' t J = at' s I from fun h2 => h h2.symm), mul_zero]
  · intro w _ hw
    rw [if_neg fun h => hw h.symm, zero_mul]

theorem wordWeight_nonneg (N : Nat) (lam : ℝ) (hlam : 0 ≤ lam) (s : List α) (w : List (Option α)) : 0 ≤ wordWeight N lam s w := by
  unfold wordWeight
  refine List.sum_nonneg ?_
  intro x hx
  obtain ⟨I, _, rfl⟩ := List.mem_map.1 hx
  unfold weight
  split
  · split
    · positivity
    · exact le_refl _
  · exact le_refl _

theorem kernel_symm (N : Nat) (lam : ℝ) (s t : List α) : kernel N lam s t = kernel N lam t s := by
  rw [kernel_words N lam s t _ (Finset.subset_union_left (s₂ := words t)), kernel_words N lam t s _ (Finset.subset_union_right (s₁ := words s))]
  exact Finset.sum_congr rfl fun w _ => mul_comm _ _

theorem kernel_cauchy (N : Nat) (lam : ℝ) (s t : List α) : kernel N lam s t ^ 2 ≤ kernel N lam s s * kernel N lam t t := by
  rw [kernel_words N lam s t _ (Finset.subset_union_left (s₂ := words t)), kernel_words N lam s s _ (Finset.subset_union_left (s₂ := words t)),
    kernel_words N lam t t _ (Finset.subset_union_right (s₁ := words s))]
  have := Finset.sum_mul_sq_le_sq_mul_sq (words s ∪ words t) (wordWeight N lam s) (wordWeight N lam t)
  simpa only [pow_two] using this

theorem kernel_nonneg (N : Nat) (lam : ℝ) (hlam : 0 ≤ lam) (s t : List α) : 0 ≤ kernel N lam s t := by
  rw [kernel_words N lam s t _ (Finset.Subset.refl _)]
  exact Finset.sum_nonneg fun w _ => mul_nonneg (wordWeight_nonneg N lam hlam s w) (wordWeight_nonneg N lam hlam t w)

theorem le_sum {β : Type} (f : β → ℝ) : ∀ (l : List β) (b : β), b ∈ l → (∀ x ∈ l, 0 ≤ f x) → f b ≤ (l.map f).sum := by
  intro l b hb h
  induction l with
  | nil => cases hb
  | cons a l ih =>
    rw [List.map_cons, List.sum_cons]
    have h0 : 0 ≤ (l.map f).sum := List.sum_nonneg fun x hx => by obtain ⟨y, hy, rfl⟩ := List.mem_map.1 hx; exact h y (by simp [hy])
    rcases List.mem_cons.1 hb with rfl | hb
    · linarith
    · have := ih hb fun x hx => h x (by simp [hx])
      have := h a (by simp)
      linarith

/-- The kernel is positive exactly if the strings have a common symbol. -/
theorem kernel_pos (N : Nat) (hN : 1 ≤ N) (lam : ℝ) (hlam : 0 < lam) (s t : List α) : 0 < kernel N lam s t ↔ ∃ x ∈ s, x ∈ t := by
  constructor
  · intro h
    by_contra hno
    have : kernel N lam s t = 0 := by
      rw [kernel_spec]
      unfold Spec.kernel
      refine List.sum_eq_zero ?_
      intro x hx
      obtain ⟨I, hI, rfl⟩ := List.mem_map.1 hx
      refine List.sum_eq_zero ?_
      intro y hy
      obtain ⟨J, hJ, rfl⟩ := List.mem_map.1 hy
      rw [if_neg]
      rintro ⟨h1, _, h3⟩
      have hl := at_length h3
      obtain ⟨a, I, rfl⟩ : ∃ a I', I = a :: I' := by cases I with | nil => simp at h1 | cons a I => exact ⟨a, I, rfl⟩
      obtain ⟨b, J, rfl⟩ : ∃ b J', J = b :: J' := by cases J with | nil => simp at hl | cons b J => exact ⟨b, J, rfl⟩
      have ha := places_lt hI a (by simp)
      have hb := places_lt hJ b (by simp)
      simp only [at', List.map_cons, List.cons.injEq] at h3
      have h4 := h3.1
      rw [List.getElem?_eq_getElem ha, List.getElem?_eq_getElem hb] at h4
      exact hno ⟨s[a], List.getElem_mem ha, by rw [Option.some.inj h4]; exact List.getElem_mem hb⟩
    linarith
  · rintro ⟨x, hs, ht⟩
    obtain ⟨a, ha, rfl⟩ := List.mem_iff_getElem.1 hs
    obtain ⟨b, hb, hab⟩ := List.mem_iff_getElem.1 ht
    have hIa : [a] ∈ places s.length := by unfold places; rw [List.mem_sublists]; simpa using ha
    have hIb : [b] ∈ places t.length := by unfold places; rw [List.mem_sublists]; simpa using hb
    have hnn : ∀ I J, 0 ≤ (if 1 ≤ I.length ∧ I.length ≤ N ∧ at' s I = at' t J then lam ^ span I * lam ^ span J else 0 : ℝ) := by
      intro I J
      split
      · positivity
      · exact le_refl _
    rw [kernel_spec]
    unfold Spec.kernel
    refine lt_of_lt_of_le ?_ (le_sum _ _ [a] hIa fun I _ => ?_)
    · refine lt_of_lt_of_le ?_ (le_sum _ _ [b] hIb fun J _ => hnn _ _)
      rw [if_pos ⟨by simp, by simpa using hN, by simp [at', ha, hb, hab]⟩]
      positivity
    · exact List.sum_nonneg fun y hy => by obtain ⟨J, _, rfl⟩ := List.mem_map.1 hy; exact hnn _ _

/-- The normalised kernel is between zero and one, symmetric, one for equal strings that are not empty, and zero exactly if the strings have no symbol in common. -/
theorem C101_similarity (N : Nat) (hN : 1 ≤ N) (lam : ℝ) (hlam : 0 < lam) (s t : List α) :
    0 ≤ similarity N lam s t ∧ similarity N lam s t ≤ 1 ∧ similarity N lam s t = similarity N lam t s ∧ (s ≠ [] → similarity N lam s s = 1) ∧
      (similarity N lam s t = 0 ↔ ∀ x ∈ s, x ∉ t) := by
  have hpos : ∀ u : List α, u ≠ [] → 0 < kernel N lam u u := by
    intro u hu
    obtain ⟨x, u', rfl⟩ := List.exists_cons_of_ne_nil hu
    exact (kernel_pos N hN lam hlam _ _).2 ⟨x, by simp, by simp⟩
  have hk := kernel_nonneg N lam hlam.le s t
  have hc := kernel_cauchy N lam s t
  have hsq : kernel N lam s t ≤ Real.sqrt (kernel N lam s s * kernel N lam t t) := Real.le_sqrt_of_sq_le hc
  refine ⟨?_, ?_, ?_, ?_, ?_⟩
  · unfold similarity
    simp only []
    split
    · exact le_refl _
    · exact div_nonneg hk (Real.sqrt_nonneg _)
  · unfold similarity
    simp only []
    split
    · exact zero_le_one
    · exact div_le_one_of_le₀ hsq (Real.sqrt_nonneg _)
  · unfold similarity
    simp only []
    rw [kernel_symm N lam t s, mul_comm (kernel N lam t t)]
  · intro hs
    have h1 := hpos s hs
    unfold similarity
    simp only []
    rw [if_neg h1.ne', Real.sqrt_mul_self h1.le, div_self h1.ne']
  · have hiff := kernel_pos N hN lam hlam s t
    unfold similarity
    simp only []
    by_cases h0 : kernel N lam s t = 0
    · rw [if_pos h0]
      simp only [true_iff]
      intro x hx hxt
      have := hiff.2 ⟨x, hx, hxt⟩
      linarith
    · rw [if_neg h0]
      have h1 : 0 < kernel N lam s t := lt_of_le_of_ne hk (Ne.symm h0)
      obtain ⟨x, h2, h3⟩ := hiff.1 h1
      have h4 : 0 < Real.sqrt (kernel N lam s s * kernel N lam t t) := lt_of_lt_of_le h1 hsq
      constructor
      · intro h5
        have := div_pos h1 h4
        linarith
      · intro h5
        exact absurd h3 (h5 x h2)

/-- The best of the references. -/
theorem foldl_best {β : Type} (f : β → ℝ) (l : List β) (b : ℝ) : let m := l.foldl (fun best r => if f r > best then f r else best) b
    b ≤ m ∧ (∀ r ∈ l, f r ≤ m) ∧ (m = b ∨ ∃ r ∈ l, m = f r) := by
  induction l generalizing b with
  | nil => simp
  | cons r l ih =>
    simp only [List.foldl_cons]
    by_cases h : f r > b
    · rw [if_pos h]
      obtain ⟨h1, h2, h3⟩ := ih (f r)
      refine ⟨by linarith, ?_, ?_⟩
      · intro x hx
        rcases List.mem_cons.1 hx with rfl | hx
        · exact h1
        · exact h2 x hx
      · rcases h3 with h3 | ⟨x, hx, h3⟩
        · exact .inr ⟨r, by simp, h3⟩
        · exact .inr ⟨x, by simp [hx], h3⟩
    · rw [if_neg h]
      obtain ⟨h1, h2, h3⟩ := ih b
      refine ⟨h1, ?_, ?_⟩
      · intro x hx
        rcases List.mem_cons.1 hx with rfl | hx
        · linarith
        · exact h2 x hx
      · rcases h3 with h3 | ⟨x, hx, h3⟩
        · exact .inl h3
        · exact .inr ⟨x, by simp [hx], h3⟩

/-- The statistics of a sentence: the similarity to the closest reference. -/
theorem C101_closest (hyp : List α) (refs : List (List α)) (hne : refs ≠ []) :
    (∃ r ∈ refs, (stats hyp refs).1 = similarity 4 0.8 hyp r) ∧ ∀ r ∈ refs, similarity 4 0.8 hyp r ≤ (stats hyp refs).1 := by
  obtain ⟨h1, h2, h3⟩ := foldl_best (fun r => similarity 4 0.8 hyp r) refs 0
  refine ⟨?_, h2⟩
  rcases h3 with h3 | h3
  · obtain ⟨r, refs', rfl⟩ := List.exists_cons_of_ne_nil hne
    refine ⟨r, by simp, ?_⟩
    have h4 := h2 r (by simp)
    have h5 := (C101_similarity 4 (by decide) 0.8 (by norm_num) hyp r).1
    show _ = _
    rw [show (stats hyp (r :: refs')).1 = 0 from h3]
    simp only [h3] at h4
    linarith
  · exact h3

/-- The score of a corpus is the mean of the scores of its sentences, and between zero and one. -/
theorem C101_corpus (corpus : List (List α × List (List α))) (hne : corpus ≠ []) :
    let total := corpus.foldl (fun acc x => plus acc (stats x.1 x.2)) (0, 0)
    score total = ((corpus.map fun x => score (stats x.1 x.2)).sum) / corpus.length ∧ 0 ≤ score total ∧ score total ≤ 1 := by
  intro total
  have htot : ∀ (l : List (List α × List (List α))) (a : ℝ × ℝ), l.foldl (fun acc x => plus acc (stats x.1 x.2)) a =
      (a.1 + (l.map fun x => score (stats x.1 x.2)).sum, a.2 + l.length) := by
    intro l
    induction l with
    | nil => intro a; simp
    | cons x l ih =>
      intro a
      rw [List.foldl_cons, ih]
      simp only [plus, List.map_cons, List.sum_cons, List.length_cons, score, stats, div_one, Nat.cast_add, Nat.cast_one]
      rw [add_assoc, add_assoc, add_comm (1 : ℝ)]
  have hlen : (0 : ℝ) < corpus.length := by
    have := List.length_pos_iff.2 hne
    exact_mod_cast this
  have hb : ∀ x : List α × List (List α), 0 ≤ score (stats x.1 x.2) ∧ score (stats x.1 x.2) ≤ 1 := by
    intro x
    obtain ⟨h1, h2, h3⟩ := foldl_best (fun r => similarity 4 0.8 x.1 r) x.2 0
    have : score (stats x.1 x.2) = (stats x.1 x.2).1 := by simp [score, stats]
    rw [this]
    refine ⟨h1, ?_⟩
    rcases h3 with h3 | ⟨r, _, h3⟩
    · rw [show (stats x.1 x.2).1 = 0 from h3]; exact zero_le_one
    · rw [show (stats x.1 x.2).1 = similarity 4 0.8 x.1 r from h3]
      exact (C101_similarity 4 (by decide) 0.8 (by norm_num) x.1 r).2.1
  have h0 : total = ((corpus.map fun x => score (stats x.1 x.2)).sum, (corpus.length : ℝ)) := by
    show corpus.foldl _ _ = _
    rw [htot]
    simp
  have hs0 : 0 ≤ (corpus.map fun x => score (stats x.1 x.2)).sum := List.sum_nonneg fun y hy => by obtain ⟨x, _, rfl⟩ := List.mem_map.1 hy; exact (hb x).1
  have hs1 : ∀ l : List (List α × List (List α)), (l.map fun x => score (stats x.1 x.2)).sum ≤ l.length := by
    intro l
    induction l with
    | nil => simp
    | cons x l ih =>
      have := (hb x).2
      simp only [List.map_cons, List.sum_cons, List.length_cons, Nat.cast_add, Nat.cast_one]
      linarith
  rw [h0]
  refine ⟨rfl, div_nonneg hs0 hlen.le, ?_⟩
  exact div_le_one_of_le₀ (hs1 corpus) hlen.le

/-! ## Cases -/

/-- `cat` and `car` with two places: `c`, `a` and `ca` are common. -/
example : kernel 2 (2 : Nat) ['c', 'a', 't'] ['c', 'a', 'r'] = 2 ^ 2 + 2 ^ 2 + 2 ^ 4 := by decide +kernel

/-- A gap: `ct` spans three places of `cat` and two of `ct`. -/
example : kernel 2 (2 : Nat) ['c', 'a', 't'] ['c', 't'] = 2 ^ 2 + 2 ^ 2 + 2 ^ 5 := by decide +kernel

example : similarity 4 0.8 [1, 2, 3] [1, 2, 3] = 1 := (C101_similarity 4 (by decide) 0.8 (by norm_num) [1, 2, 3] ([] : List Nat)).2.2.2.1 (by simp)

example : similarity 4 0.8 [1, 2] [3, 4] = 0 := (C101_similarity 4 (by decide) 0.8 (by norm_num) [1, 2] [3, 4]).2.2.2.2.2 (by decide)

end Cdec.Mteval.Ssk
