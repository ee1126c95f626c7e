import Verif.Mteval.Bleu
import Verif.Mteval.BleuSpec
import Mathlib.Algebra.BigOperators.Ring.Finset
import Mathlib.Algebra.Order.BigOperators.Group.Finset
namespace Cdec.Bleu

variable {W : Type _} [DecidableEq W]

/-- The n-grams in the order in which an inner loop meets them. -/
def grams (pre : List W) : Nat → List W → List (List W)
  | 0, _ => []
  | _, [] => []
  | k + 1, w :: rest => (pre ++ [w]) :: grams (pre ++ [w]) k rest

/-- The n-grams in the order in which the two loops meet them. -/
def events (N : Nat) : List W → List (List W)
  | [] => []
  | w :: rest => grams [] N (w :: rest) ++ events N rest

theorem filter_grams (n : Nat) : ∀ (k : Nat) (pre rest : List W), pre.length < n →
    (grams pre k rest).filter (fun g => g.length = n) =
      if n ≤ pre.length + k ∧ n ≤ pre.length + rest.length then [pre ++ rest.take (n - pre.length)] else []
  | 0, pre, rest, h => by simp [grams]; omega
  | k + 1, pre, [], h => by simp [grams]; omega
  | k + 1, pre, w :: rest, h => by
    rw [grams, List.filter_cons]
    by_cases hn : pre.length + 1 = n
    · have h0 : (grams (pre ++ [w]) k rest).filter (fun g => g.length = n) = [] := by
        have : ∀ (k : Nat) (p r : List W) (g : List W), g ∈ grams p k r → p.length < g.length := by
          intro k
          induction k with
          | zero => intro p r g hg; simp [grams] at hg
          | succ k ih =>
            intro p r g hg
            cases r with
            | nil => simp [grams] at hg
            | cons x r =>
              rw [grams, List.mem_cons] at hg
              rcases hg with rfl | hg
              · simp
              · have := ih _ _ _ hg
                simp at this; omega
        rw [List.filter_eq_nil_iff]
        intro g hg
        have := this k _ _ g hg
        simp at this ⊢; omega
      rw [h0, if_pos (by simp [hn]), if_pos (by simp; omega)]
      have : n - pre.length = 1 := by omega
      simp [this]
    · rw [if_neg (by simp [hn]), filter_grams n k (pre ++ [w]) rest (by simp; omega)]
      simp only [List.length_append, List.length_cons, List.length_nil]
      have e : n - pre.length = (n - (pre.length + (0 + 1))) + 1 := by omega
      rw [e, List.take_succ_cons]
      simp only [List.append_assoc, List.singleton_append]
      congr 1
      apply propext; omega

theorem filter_events (N n : Nat) (h1 : 1 ≤ n) (h2 : n ≤ N) : ∀ s : List W,
    (events N s).filter (fun g => g.length = n) = Spec.ngrams n s
  | [] => by
    have : 0 + 1 - n = 0 := by omega
    simp [events, Spec.ngrams, this]
  | w :: s => by
    rw [events, List.filter_append, filter_grams n N [] _ (by simp; omega), filter_events N n h1 h2 s]
    unfold Spec.ngrams
    by_cases h : n ≤ s.length + 1
    · have e : (w :: s).length + 1 - n = (s.length + 1 - n) + 1 := by simp; omega
      rw [e, List.range_succ_eq_map, if_pos (by simp; omega)]
      simp [Function.comp_def]
    · have e : (w :: s).length + 1 - n = 0 := by simp; omega
      have e' : s.length + 1 - n = 0 := by omega
      rw [e, e', if_neg (by simp; omega)]
      rfl

theorem length_of_mem_grams : ∀ (k : Nat) (p r g : List W), g ∈ grams p k r →
    p.length < g.length ∧ g.length ≤ p.length + k
  | 0, p, r, g, h => by simp [grams] at h
  | k + 1, p, [], g, h => by simp [grams] at h
  | k + 1, p, x :: r, g, h => by
    rw [grams, List.mem_cons] at h
    rcases h with rfl | h
    · simp
    · have := length_of_mem_grams k _ _ _ h
      simp at this; omega

theorem length_of_mem_events (N : Nat) : ∀ (s g : List W), g ∈ events N s → 1 ≤ g.length ∧ g.length ≤ N
  | [], g, h => by simp [events] at h
  | w :: s, g, h => by
    rw [events, List.mem_append] at h
    rcases h with h | h
    · have := length_of_mem_grams _ _ _ _ h
      simp at this; omega
    · exact length_of_mem_events N s g h

theorem count_events (N : Nat) (s g : List W) (h1 : 1 ≤ g.length) (h2 : g.length ≤ N) :
    (events N s).count g = (Spec.ngrams g.length s).count g := by
  rw [← filter_events N g.length h1 h2, List.count_filter (by simp)]

theorem prefix_of_mem_grams : ∀ (k : Nat) (p r g : List W), g ∈ grams p k r → p <+: g
  | 0, p, r, g, h => by simp [grams] at h
  | k + 1, p, [], g, h => by simp [grams] at h
  | k + 1, p, x :: r, g, h => by
    rw [grams, List.mem_cons] at h
    rcases h with rfl | h
    · exact List.prefix_append _ _
    · exact (List.prefix_append _ _).trans (prefix_of_mem_grams k _ _ _ h)

/-! ## Counting references -/

/-- Counting one n-gram. -/
def countStep (tc : CountMap W) (g : List W) : CountMap W := upd tc g ((tc g).1 + 1, (tc g).2)

theorem countGrams_eq : ∀ (k : Nat) (tc : CountMap W) (pre rest : List W),
    countGrams tc pre k rest = (grams pre k rest).foldl countStep tc
  | 0, tc, pre, rest => by simp [countGrams, grams]
  | k + 1, tc, pre, [] => by simp [countGrams, grams]
  | k + 1, tc, pre, w :: rest => by
    rw [countGrams, grams, List.foldl_cons, countGrams_eq k]; rfl

theorem countAll_eq (N : Nat) : ∀ (s : List W) (tc : CountMap W),
    countAll N tc s = (events N s).foldl countStep tc
  | [], tc => by simp [countAll, events]
  | w :: s, tc => by
    rw [countAll, events, List.foldl_append, countAll_eq N s, countGrams_eq]

theorem foldl_countStep (es : List (List W)) : ∀ (tc : CountMap W) (g : List W),
    es.foldl countStep tc g = ((tc g).1 + es.count g, (tc g).2) := by
  induction es with
  | nil => intro tc g; rfl
  | cons e es ih =>
    intro tc g
    rw [List.foldl_cons, ih]
    unfold countStep upd
    rw [List.count_cons]
    by_cases h : g = e
    · subst h; simp; omega
    · have : ¬(e = g) := fun h' => h h'.symm
      simp [h, this]

theorem countRef_eq (N : Nat) (m : CountMap W) (r g : List W) (hm : (m g).2 = 0) :
    countRef N m r g = (max (m g).1 ((events N r).count g), 0) := by
  unfold countRef
  simp only [countAll_eq, foldl_countStep, Nat.zero_add]
  split
  · rename_i h; rw [Nat.max_eq_right (by omega)]
  · rename_i h
    rw [Nat.max_eq_left (by omega)]
    exact Prod.ext rfl hm

theorem foldl_countRef (N : Nat) (refs : List (List W)) (g : List W) : ∀ m : CountMap W, (m g).2 = 0 →
    refs.foldl (countRef N) m g = (max (m g).1 ((refs.map fun r => (events N r).count g).foldr max 0), 0) := by
  induction refs with
  | nil => intro m hm; exact Prod.ext (by simp) hm
  | cons r refs ih =>
    intro m hm
    rw [List.foldl_cons, ih]
    · rw [countRef_eq N m r g hm]
      simp [Nat.max_assoc]
    · rw [countRef_eq N m r g hm]

theorem exists_pos_of_foldr_max : ∀ (l : List Nat), 0 < l.foldr max 0 → ∃ x ∈ l, 0 < x
  | [], h => by simp at h
  | x :: l, h => by
    rw [List.foldr_cons] at h
    by_cases hx : 0 < x
    · exact ⟨x, by simp, hx⟩
    · have : 0 < l.foldr max 0 := by omega
      obtain ⟨y, hy, hp⟩ := exists_pos_of_foldr_max l this
      exact ⟨y, by simp [hy], hp⟩

theorem le_foldr_max : ∀ (l : List Nat) (x : Nat), x ∈ l → x ≤ l.foldr max 0
  | y :: l, x, h => by
    rw [List.foldr_cons]
    rcases List.mem_cons.mp h with rfl | h
    · omega
    · have := le_foldr_max l x h; omega

theorem mem_ngrams_iff (n : Nat) (s g : List W) (hn : g.length = n) (hpos : 1 ≤ n) :
    g ∈ Spec.ngrams n s ↔ g <:+: s := by
  unfold Spec.ngrams
  simp only [List.mem_map, List.mem_range]
  constructor
  · rintro ⟨j, _, rfl⟩
    exact (List.take_prefix _ _).isInfix.trans (List.drop_suffix _ _).isInfix
  · rintro ⟨u, v, rfl⟩
    refine ⟨u.length, by simp; omega, ?_⟩
    rw [List.append_assoc, List.drop_left, ← hn, List.take_left]

/-- A reference that has no occurrence of an n-gram has none of its extensions. -/
theorem ref_closure (N : Nat) (refs : List (List W)) (g g' : List W) (hg : 1 ≤ g.length) (hg' : g'.length ≤ N)
    (hp : g <+: g') (h0 : (refs.map fun r => (events N r).count g).foldr max 0 = 0) :
    (refs.map fun r => (events N r).count g').foldr max 0 = 0 := by
  by_contra hne
  obtain ⟨x, hx, hpos⟩ := exists_pos_of_foldr_max _ (Nat.pos_of_ne_zero hne)
  obtain ⟨r, hr, rfl⟩ := List.mem_map.mp hx
  have hl := hp.length_le
  rw [count_events N r g' (by omega) hg', List.count_pos_iff, mem_ngrams_iff _ _ _ rfl (by omega)] at hpos
  have : g ∈ Spec.ngrams g.length r := (mem_ngrams_iff _ _ _ rfl hg).mpr (hp.isInfix.trans hpos)
  have h1 : 0 < (events N r).count g := by
    rw [count_events N r g hg (by omega)]; exact List.count_pos_iff.mpr this
  have := le_foldr_max _ _ (List.mem_map.mpr ⟨r, hr, rfl⟩ : (events N r).count g ∈ refs.map fun r => (events N r).count g)
  omega

/-! ## Scoring a hypothesis -/

/-- Looking up one n-gram, without the early exit. -/
def statStep (N : Nat) (s : CountMap W × Mem) (g : List W) : CountMap W × Mem :=
  if (s.1 g).2 < (s.1 g).1 then
    (upd s.1 g ((s.1 g).1, (s.1 g).2 + 1), inc (inc s.2 (g.length - 1)) (N + (g.length - 1)))
  else (s.1, inc s.2 (N + (g.length - 1)))

theorem statStep_fst (N : Nat) (s : CountMap W × Mem) (g g' : List W) : ((statStep N s g).1 g').1 = (s.1 g').1 := by
  unfold statStep
  split
  · simp only [upd]; split
    · rename_i h; rw [h]
    · rfl
  · rfl

theorem foldl_zero (N : Nat) : ∀ (k : Nat) (m : CountMap W) (mem : Mem) (pre rest : List W),
    (∀ g ∈ grams pre k rest, (m g).1 = 0) →
    (grams pre k rest).foldl (statStep N) (m, mem) = (m, bumpFrom mem (N + pre.length) (min k rest.length))
  | 0, m, mem, pre, rest, h => by simp [grams, bumpFrom]
  | k + 1, m, mem, pre, [], h => by simp [grams, bumpFrom]
  | k + 1, m, mem, pre, w :: rest, h => by
    rw [grams, List.foldl_cons]
    have h0 : (m (pre ++ [w])).1 = 0 := h _ (by simp [grams])
    have : statStep N (m, mem) (pre ++ [w]) = (m, inc mem (N + pre.length)) := by
      unfold statStep; rw [if_neg (by simp only [h0]; exact Nat.not_lt_zero _)]; simp
    rw [this, foldl_zero N k m _ _ _ (fun g hg => h g (by simp [grams, hg]))]
    have e : min (k + 1) (w :: rest).length = min k rest.length + 1 := by simp
    rw [e, bumpFrom]
    simp [Nat.add_assoc]

theorem inc_comm (mem : Mem) (a b : Nat) (h : a ≠ b) : inc (inc mem a) b = inc (inc mem b) a := by
  funext x
  unfold inc
  by_cases h1 : x = a
  · have : x ≠ b := fun h2 => h (h1.symm.trans h2)
    simp [h1, h]
  · by_cases h2 : x = b
    · simp [h2, Ne.symm h]
    · simp [h1, h2]

theorem statGrams_eq (N : Nat) : ∀ (k : Nat) (m : CountMap W) (mem : Mem) (pre rest : List W),
    (∀ g g' : List W, 1 ≤ g.length → g'.length ≤ N → g <+: g' → (m g).1 = 0 → (m g').1 = 0) →
    pre.length + k ≤ N →
    statGrams N m mem pre pre.length k rest = (grams pre k rest).foldl (statStep N) (m, mem)
  | 0, m, mem, pre, rest, _, _ => by simp [statGrams, grams]
  | k + 1, m, mem, pre, [], _, _ => by simp [statGrams, grams]
  | k + 1, m, mem, pre, w :: rest, hc, hl => by
    rw [statGrams]
    by_cases h0 : (m (pre ++ [w])).1 = 0
    · have hlt : ¬ (m (pre ++ [w])).2 < (m (pre ++ [w])).1 := by omega
      simp only [hlt, if_false, h0, if_true]
      rw [foldl_zero N (k + 1) m mem pre (w :: rest)]
      · simp
      · intro g hg
        have hlen := length_of_mem_grams _ _ _ _ hg
        rw [grams, List.mem_cons] at hg
        rcases hg with rfl | hg
        · exact h0
        · exact hc (pre ++ [w]) g (by simp) (by omega) (prefix_of_mem_grams _ _ _ _ hg) h0
    · rw [grams, List.foldl_cons]
      have hne : pre.length ≠ N + pre.length := by omega
      by_cases hlt : (m (pre ++ [w])).2 < (m (pre ++ [w])).1
      · simp only [hlt, if_true, h0, if_false]
        have e : statStep N (m, mem) (pre ++ [w]) =
            (upd m (pre ++ [w]) ((m (pre ++ [w])).1, (m (pre ++ [w])).2 + 1), inc (inc mem pre.length) (N + pre.length)) := by
          unfold statStep; rw [if_pos hlt]; simp
        rw [e, ← statGrams_eq N k _ _ _ _ _ (by simp; omega)]
        · simp
        · intro g g' hg hg' hp h
          have hf : ∀ x, (upd m (pre ++ [w]) ((m (pre ++ [w])).1, (m (pre ++ [w])).2 + 1) x).1 = (m x).1 := by
            intro x; unfold upd; split
            · rename_i hx; rw [hx]
            · rfl
          rw [hf] at h ⊢
          exact hc g g' hg hg' hp h
      · simp only [hlt, if_false, h0]
        have e : statStep N (m, mem) (pre ++ [w]) = (m, inc mem (N + pre.length)) := by
          unfold statStep; rw [if_neg hlt]; simp
        rw [e, ← statGrams_eq N k _ _ _ _ hc (by simp; omega)]
        simp

theorem foldl_fst (N : Nat) (es : List (List W)) : ∀ (s : CountMap W × Mem) (g : List W),
    ((es.foldl (statStep N) s).1 g).1 = (s.1 g).1 := by
  induction es with
  | nil => intro s g; rfl
  | cons e es ih => intro s g; rw [List.foldl_cons, ih, statStep_fst]

theorem statAll_eq (N : Nat) : ∀ (s : List W) (m : CountMap W) (mem : Mem),
    (∀ g g' : List W, 1 ≤ g.length → g'.length ≤ N → g <+: g' → (m g).1 = 0 → (m g').1 = 0) →
    statAll N m mem s = (events N s).foldl (statStep N) (m, mem)
  | [], m, mem, _ => by simp [statAll, events]
  | w :: s, m, mem, hc => by
    have e := statGrams_eq N N m mem [] (w :: s) hc (by simp)
    rw [statAll, events, List.foldl_append]
    simp only [List.length_nil] at e
    rw [e, statAll_eq N s]
    intro g g' hg hg' hp h
    rw [foldl_fst] at h ⊢
    exact hc g g' hg hg' hp h

theorem sum_bump (T : Finset (List W)) (f : List W → Nat) (g : List W) (hg : g ∈ T) :
    ∑ x ∈ T, (if x = g then f x + 1 else f x) = (∑ x ∈ T, f x) + 1 := by
  have : ∀ x, (if x = g then f x + 1 else f x) = f x + if x = g then 1 else 0 := by intro x; split <;> rfl
  simp only [this]
  rw [Finset.sum_add_distrib, Finset.sum_ite_eq' T g, if_pos hg]

/-- What the loop over the n-grams leaves behind. `T a` is any finite set of n-grams that contains those of order
`a + 1`. -/
theorem foldl_stat (N : Nat) (T : Nat → Finset (List W)) (hT : ∀ a, ∀ g ∈ T a, g.length = a + 1)
    (es : List (List W)) (m : CountMap W) (hm : ∀ g, (m g).2 = 0) :
    (∀ g ∈ es, 1 ≤ g.length ∧ g.length ≤ N ∧ g ∈ T (g.length - 1)) →
    (∀ g, ((es.foldl (statStep N) (m, fun _ => 0)).1 g).2 = min (m g).1 (es.count g)) ∧
    (∀ a < N, (es.foldl (statStep N) (m, fun _ => 0)).2 a =
      ∑ g ∈ T a, ((es.foldl (statStep N) (m, fun _ => 0)).1 g).2) ∧
    (∀ a < N, (es.foldl (statStep N) (m, fun _ => 0)).2 (N + a) = (es.filter (fun g => g.length = a + 1)).length) := by
  refine List.reverseRecOn es ?_ ?_
  · intro _
    simp [hm]
  · intro es e ih hes
    obtain ⟨i1, i2, i3⟩ := ih (fun g hg => hes g (by simp [hg]))
    obtain ⟨he1, he2, heT⟩ := hes e (by simp)
    rw [List.foldl_append, List.foldl_cons, List.foldl_nil]
    have hf := foldl_fst N es (m, fun _ => 0)
    generalize hs : es.foldl (statStep N) (m, fun _ => 0) = s at *
    simp only at hf
    obtain ⟨l, hl⟩ : ∃ l, e.length = l + 1 := ⟨e.length - 1, by omega⟩
    have hTe : ∀ a, a ≠ l → e ∉ T a := by
      intro a ha hin
      have := hT a e hin
      omega
    have hTl : e ∈ T l := by have := heT; rw [hl] at this; exact this
    unfold statStep
    rw [hl]
    by_cases hlt : (s.1 e).2 < (s.1 e).1
    · rw [if_pos hlt]
      have hu : ∀ g, (upd s.1 e ((s.1 e).1, (s.1 e).2 + 1) g).2 = if g = e then (s.1 g).2 + 1 else (s.1 g).2 := by
        intro g; unfold upd; split
        · rename_i h; rw [h]
        · rfl
      simp only [hu, Nat.add_sub_cancel]
      refine ⟨?_, ?_, ?_⟩
      · intro g
        rw [List.count_append, List.count_singleton, i1 g]
        by_cases h : g = e
        · subst h
          rw [i1 g, hf] at hlt
          simp; omega
        · have : ¬ (e = g) := fun h' => h h'.symm
          simp [h, this]
      · intro a ha
        unfold inc
        rw [if_neg (by omega)]
        by_cases hal : a = l
        · subst hal
          rw [if_pos rfl, sum_bump _ _ _ hTl, i2 a ha]
        · rw [if_neg hal, i2 a ha]
          apply Finset.sum_congr rfl
          intro g hg
          rw [if_neg]
          rintro rfl
          exact hTe a hal hg
      · intro a ha
        unfold inc
        rw [List.filter_append, List.length_append]
        by_cases hal : a = l
        · subst hal
          rw [if_pos rfl, if_neg (by omega), i3 a ha]
          simp [hl]
        · rw [if_neg (by omega), if_neg (by omega), i3 a ha]
          simp [hl]; omega
    · rw [if_neg hlt]
      simp only [Nat.add_sub_cancel]
      refine ⟨?_, ?_, ?_⟩
      · intro g
        rw [List.count_append, List.count_singleton, i1 g]
        by_cases h : g = e
        · subst h
          rw [i1 g, hf] at hlt
          simp; omega
        · have : ¬ (e = g) := fun h' => h h'.symm
          simp [this]
      · intro a ha
        unfold inc
        rw [if_neg (by omega), i2 a ha]
      · intro a ha
        unfold inc
        rw [List.filter_append, List.length_append]
        by_cases hal : a = l
        · subst hal
          rw [if_pos rfl, i3 a ha]
          simp [hl]
        · rw [if_neg (by omega), i3 a ha]
          simp [hl]; omega

end Cdec.Bleu
