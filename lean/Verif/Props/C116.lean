import Verif.Mteval.BleuValueLemmas
import Verif.Props.C36
/-!
# C116: the value of BLEU is the geometric mean of the precisions times the brevity penalty
-/
namespace Cdec.BleuValue

/-- The value, for both implementations: for counts with n-grams of every order, BLEU (`bleu`). Missing: hypotheses too
short to have n-grams of every order, see `C116_orders`. -/
theorem C116_value_partial (l : List (ℝ × ℝ)) (hypLen refLen : ℝ) (hne : l ≠ []) (hc : ∀ p ∈ l, 0 ≤ p.1 ∧ 0 < p.2)
    (hl : 0 < hypLen) :
    bleuNs l hypLen refLen = some (bleu l hypLen refLen) ∧ bleuOld l hypLen refLen = some (bleu l hypLen refLen) := by
  have hf : (l.filter fun p => decide (0 < p.2)) = l := by
    rw [List.filter_eq_self]; intro p hp; simpa using (hc p hp).2
  have hloop := loop_eq l (fun p hp => (hc p hp).1) (0, 0)
  rw [hf] at hloop
  have hpos := prod_pos l hc
  have hlen : l.length ≠ 0 := by rw [Ne, List.length_eq_zero_iff]; exact hne
  constructor
  · unfold bleuNs
    simp only [hloop, zero_add]
    rw [if_neg (by rintro (h | h); exact hlen h; exact hl.ne' h), exp_form hpos, brevity_exp hl]
    rfl
  · unfold bleuOld
    rw [if_neg hne, if_neg (fun h => hl.ne' h.1), hloop]
    simp only [zero_add]
    rw [exp_form hpos, brevity_exp hl]
    rfl

/-- BLEU is positive and at most 1, and 1 exactly if every n-gram is a match and the hypothesis is not too short. -/
theorem C116_range (l : List (ℝ × ℝ)) (hypLen refLen : ℝ) (hne : l ≠ []) (hc : Counts l) (hl : 0 < hypLen) :
    0 < bleu l hypLen refLen ∧ bleu l hypLen refLen ≤ 1 ∧
      (bleu l hypLen refLen = 1 ↔ (∀ p ∈ l, p.1 = p.2) ∧ refLen ≤ hypLen) := by
  have hpos := prod_pos l fun p hp => ⟨(hc p hp).1, by linarith [(hc p hp).2.2]⟩
  obtain ⟨h1, h2⟩ := prod_le l hc
  obtain ⟨b1, b2⟩ := brevity_le hypLen refLen hl
  have b0 := brevity_pos hypLen refLen
  have hn : (0 : ℝ) < 1 / (l.length : ℝ) := by
    have : 0 < l.length := List.length_pos_iff.2 hne
    positivity
  have g0 := Real.rpow_pos_of_pos hpos (1 / (l.length : ℝ))
  have g1 : (l.map precision).prod ^ (1 / (l.length : ℝ)) ≤ 1 := Real.rpow_le_one hpos.le h1 hn.le
  refine ⟨mul_pos b0 g0, mul_le_one₀ b1 g0.le g1, ?_⟩
  unfold bleu
  constructor
  · intro e
    have e1 : brevity hypLen refLen = 1 := by
      by_contra h
      have : brevity hypLen refLen < 1 := lt_of_le_of_ne b1 h
      have := mul_le_mul_of_nonneg_left g1 b0.le
      linarith
    rw [e1, one_mul] at e
    refine ⟨h2.1 ?_, b2.1 e1⟩
    by_contra h
    exact absurd e (Real.rpow_lt_one hpos.le (lt_of_le_of_ne h1 h) hn).ne
  · rintro ⟨e1, e2⟩
    rw [b2.2 e2, h2.2 e1, Real.one_rpow, one_mul]

/-- More matches give no smaller value: for counts of matches that are natural numbers. -/
theorem C116_monotone (cs ds hs : List ℕ) (hypLen refLen : ℝ) (hcd : List.Forall₂ (· ≤ ·) cs ds)
    (hl : cs.length = hs.length) (hh : ∀ h ∈ hs, 0 < h) :
    bleu (List.zipWith (fun (c h : ℕ) => ((c : ℝ), (h : ℝ))) cs hs) hypLen refLen ≤
      bleu (List.zipWith (fun (c h : ℕ) => ((c : ℝ), (h : ℝ))) ds hs) hypLen refLen := by
  have step : ∀ (c d h : ℕ), c ≤ d → 0 < h → precision ((c : ℝ), (h : ℝ)) ≤ precision ((d : ℝ), (h : ℝ)) := by
    intro c d h hc hh
    have hh' : (0 : ℝ) < h := by exact_mod_cast hh
    unfold precision
    apply div_le_div_of_nonneg_right _ hh'.le
    simp only [Nat.cast_eq_zero]
    rcases Nat.eq_zero_or_pos c with rfl | h0
    · rw [if_pos rfl]
      split
      · exact le_refl _
      · rename_i hd
        have : (1 : ℝ) ≤ d := by exact_mod_cast Nat.one_le_iff_ne_zero.2 hd
        linarith
    · rw [if_neg (by omega), if_neg (by omega)]
      exact_mod_cast hc
  have key : ∀ (cs ds hs : List ℕ), List.Forall₂ (· ≤ ·) cs ds → cs.length = hs.length → (∀ h ∈ hs, 0 < h) →
      0 ≤ ((List.zipWith (fun (c h : ℕ) => ((c : ℝ), (h : ℝ))) cs hs).map precision).prod ∧
      ((List.zipWith (fun (c h : ℕ) => ((c : ℝ), (h : ℝ))) cs hs).map precision).prod ≤
        ((List.zipWith (fun (c h : ℕ) => ((c : ℝ), (h : ℝ))) ds hs).map precision).prod := by
    intro cs ds hs h
    induction h generalizing hs with
    | nil => intro hl _; simp
    | cons hcd _ ih =>
      rename_i c d cs ds _
      intro hl hh
      cases hs with
      | nil => simp at hl
      | cons h hs =>
        obtain ⟨i1, i2⟩ := ih hs (by simpa using hl) fun x hx => hh x (by simp [hx])
        have s1 := step c d h hcd (hh h (by simp))
        have hpos : (0 : ℝ) < h := by exact_mod_cast hh h (by simp)
        have s0 := (precision_pos (p := ((c : ℝ), (h : ℝ))) (by simp) hpos).le
        simp only [List.zipWith_cons_cons, List.map_cons, List.prod_cons]
        exact ⟨mul_nonneg s0 i1, mul_le_mul s1 i2 i1 (le_trans s0 s1)⟩
  obtain ⟨k1, k2⟩ := key cs ds hs hcd hl hh
  unfold bleu
  have e : (List.zipWith (fun (c h : ℕ) => ((c : ℝ), (h : ℝ))) cs hs).length =
      (List.zipWith (fun (c h : ℕ) => ((c : ℝ), (h : ℝ))) ds hs).length := by
    simp [hcd.length_eq]
  rw [e]
  exact mul_le_mul_of_nonneg_left (Real.rpow_le_rpow k1 k2 (by positivity)) (brevity_pos _ _).le

/-- Short hypotheses: the new implementation takes the mean over the orders that have n-grams, the old one takes the
precision of an order without n-grams to be 1. -/
theorem C116_orders (l : List (ℝ × ℝ)) (hypLen refLen : ℝ) (hc : ∀ p ∈ l, 0 ≤ p.1) (hl : 0 < hypLen)
    (hne : ∃ p ∈ l, 0 < p.2) :
    bleuNs l hypLen refLen = some (bleu (l.filter fun p => decide (0 < p.2)) hypLen refLen) ∧
    bleuOld l hypLen refLen = some (brevity hypLen refLen *
      ((l.filter fun p => decide (0 < p.2)).map precision).prod ^ (1 / (l.length : ℝ))) := by
  obtain ⟨q, hq, hq2⟩ := hne
  have hloop := loop_eq l hc (0, 0)
  have hpos := prod_pos (l.filter fun p => decide (0 < p.2)) (by
    intro p hp; rw [List.mem_filter] at hp; exact ⟨hc p hp.1, by simpa using hp.2⟩)
  have hlen : (l.filter fun p => decide (0 < p.2)).length ≠ 0 := by
    rw [Ne, List.length_eq_zero_iff, List.filter_eq_nil_iff]
    intro h; exact h q hq (by simpa using hq2)
  constructor
  · unfold bleuNs
    simp only [hloop, zero_add]
    rw [if_neg (by rintro (h | h); exact hlen h; exact hl.ne' h), exp_form hpos, brevity_exp hl]
    rfl
  · unfold bleuOld
    rw [if_neg (by rintro rfl; simp at hq), if_neg (fun h => hl.ne' h.1), hloop]
    simp only [zero_add]
    rw [exp_form hpos, brevity_exp hl]

/-- So the two disagree: on a corpus of four hypotheses of one word each, one of them right, and orders up to 2. -/
theorem C116_short_fails : bleuNs [(1, 4), (0, 0)] 4 4 = some (1 / 4) ∧ bleuOld [(1, 4), (0, 0)] 4 4 = some (1 / 2) := by
  have hc : ∀ p ∈ [((1 : ℝ), (4 : ℝ)), (0, 0)], 0 ≤ p.1 := by
    intro p hp
    simp only [List.mem_cons, List.not_mem_nil, or_false] at hp
    rcases hp with rfl | rfl <;> norm_num
  obtain ⟨h1, h2⟩ := C116_orders [((1 : ℝ), (4 : ℝ)), (0, 0)] 4 4 hc (by norm_num) ⟨_, List.mem_cons_self, by norm_num⟩
  have hf : ([((1 : ℝ), (4 : ℝ)), (0, 0)].filter fun p => decide (0 < p.2)) = [(1, 4)] := by
    simp
  rw [h1, h2, hf]
  constructor
  · simp [bleu, brevity, precision]
  · simp only [brevity, precision, lt_irrefl, if_false, List.map_cons, List.map_nil, List.prod_cons, List.prod_nil,
      one_ne_zero, mul_one, one_mul, List.length_cons, List.length_nil]
    congr 1
    rw [show ((1 : ℝ) / 4) = (1 / 2) ^ (2 : ℝ) by norm_num, ← Real.rpow_mul (by norm_num)]
    norm_num

/-- An empty hypothesis: the new implementation gives NaN, the old one 0. -/
theorem C116_empty_fails (l : List (ℝ × ℝ)) (refLen : ℝ) (hne : l ≠ []) (h0 : ∀ p ∈ l, p = (0, 0))
    (hr : 0 < refLen) : bleuNs l 0 refLen = none ∧ bleuOld l 0 refLen = some 0 := by
  refine ⟨?_, ?_⟩
  · have : ∀ l : List (ℝ × ℝ), (∀ p ∈ l, p = (0, 0)) → loop (1 / 100) l (0, 0) = (0, 0) := by
      intro l
      induction l with
      | nil => intro _; rfl
      | cons p l ih =>
        intro h
        rw [loop, h p (by simp), if_neg (by simp)]
        exact ih fun q hq => h q (by simp [hq])
    unfold bleuNs
    rw [this l h0]
    simp
  · unfold bleuOld; rw [if_neg hne, if_pos ⟨rfl, hr⟩]

/-- The QCRI variant gives a hypothesis without a match of some order the value of one with a match. -/
theorem C116_qcri_fails (pre post : List (ℝ × ℝ)) (h hypLen refLen : ℝ) :
    bleuQcri (pre ++ (0, h) :: post) hypLen refLen = bleuQcri (pre ++ (1, h) :: post) hypLen refLen := by
  have e1 : ∀ pre s, loop 1 (pre ++ (0, h) :: post) s = loop 1 (pre ++ (1, h) :: post) s := by
    intro pre
    induction pre with
    | nil => intro s; simp [loop, lprec]
    | cons p pre ih => intro s; simp only [List.cons_append, loop, ih]
  have e2 : ∀ pre s, adjLoop 1 (pre ++ (0, h) :: post) s = adjLoop 1 (pre ++ (1, h) :: post) s := by
    intro pre
    induction pre with
    | nil => intro s; simp [adjLoop]
    | cons p pre ih => intro s; simp only [List.cons_append, adjLoop, ih]
  unfold bleuQcri
  simp only [e1, e2]

section
variable {W : Type} [DecidableEq W]
open Cdec.Bleu

/-- The counts of the statistics of C36. -/
noncomputable def countsOf (s : Stats) : List (ℝ × ℝ) :=
  List.zipWith (fun (c h : ℕ) => ((c : ℝ), (h : ℝ))) s.correct s.hyp

/-- A hypothesis of at least `N` words that is one of the references has BLEU 1 (IBM), whatever has been scored before;
and the counts of every hypothesis of at least `N` words are as `C116_range` needs them. -/
theorem C116_sentence (N : ℕ) (refs history : List (List W)) (hyp : List W) (hN : 0 < N) (hlen : N ≤ hyp.length) :
    (∀ st, st = (evaluate N .IBM (scoreMany N .IBM (create N .IBM refs) history) hyp).1 →
      Counts (countsOf st) ∧ countsOf st ≠ [] ∧
      (hyp ∈ refs → ∃ r : ℚ, st.refLen = some r ∧ bleuNs (countsOf st) st.hypLen (r : ℝ) = some 1)) := by
  rintro st rfl
  obtain ⟨h1, h2, h3, h4⟩ := C36_clipped_counts N .IBM refs history hyp
  generalize hst : (evaluate N .IBM (scoreMany N .IBM (create N .IBM refs) history) hyp).1 = st at h1 h2 h4
  have hco : countsOf st = (List.range N).map fun i =>
      ((Spec.clippedMatches (i + 1) refs hyp : ℝ), ((hyp.length - i : ℕ) : ℝ)) := by
    rw [countsOf, h1, h2, List.zipWith_map]
    simp only [h3, List.zipWith_self]
  have hsum : ∀ n, ∑ g ∈ (Spec.ngrams n hyp).toFinset, (Spec.ngrams n hyp).count g = (Spec.ngrams n hyp).length := by
    intro n
    convert List.sum_toFinset_count_eq_length (Spec.ngrams n hyp)
  have hle : ∀ n, Spec.clippedMatches n refs hyp ≤ (Spec.ngrams n hyp).length := by
    intro n
    unfold Spec.clippedMatches
    rw [← hsum]
    exact Finset.sum_le_sum fun g _ => Nat.min_le_left _ _
  have hcounts : Counts (countsOf st) := by
    rw [hco]
    intro p hp
    obtain ⟨i, hi, rfl⟩ := List.mem_map.1 hp
    rw [List.mem_range] at hi
    have := hle (i + 1)
    rw [h3] at this
    refine ⟨by simp, by simp only; exact_mod_cast this, ?_⟩
    have : 1 ≤ hyp.length - i := by omega
    simp only
    exact_mod_cast this
  have hne : countsOf st ≠ [] := by
    rw [hco, Ne, List.map_eq_nil_iff, List.range_eq_nil]; omega
  refine ⟨hcounts, hne, fun hm => ?_⟩
  obtain ⟨pre, r, post, e, g1, g2, g3⟩ := C36_closest_length N .IBM (.inl rfl) refs history hyp
    ⟨hyp, hm, by simp⟩
  rw [hst] at g1
  have hr : r.length = hyp.length := by
    rw [e, List.mem_append, List.mem_cons] at hm
    rcases hm with hm | rfl | hm
    · have := g2 hyp hm
      simp only [sub_self, abs_zero] at this
      exact absurd this (not_lt.2 (abs_nonneg _))
    · rfl
    · have := g3 hyp hm
      simp only [sub_self, abs_zero] at this
      have := abs_eq_zero.1 (le_antisymm this (abs_nonneg _))
      have : (r.length : ℚ) = hyp.length := by linarith
      exact_mod_cast this
  have hall : ∀ n, Spec.clippedMatches n refs hyp = (Spec.ngrams n hyp).length := by
    intro n
    unfold Spec.clippedMatches
    conv_rhs => rw [← hsum]
    refine Finset.sum_congr rfl fun g hg => Nat.min_eq_left ?_
    have hgl : (Spec.ngrams n hyp).count g ≤ (Spec.ngrams g.length hyp).count g := by
      rw [List.mem_toFinset] at hg
      unfold Spec.ngrams at hg
      obtain ⟨j, hj, rfl⟩ := List.mem_map.1 hg
      rw [List.mem_range] at hj
      have : ((hyp.drop j).take n).length = n := by
        rw [List.length_take, List.length_drop]; omega
      rw [this]
    refine le_trans hgl ?_
    unfold Spec.maxRefCount
    have : ∀ (l : List (List W)), hyp ∈ l → (Spec.ngrams g.length hyp).count g ≤
        (l.map fun r => (Spec.ngrams g.length r).count g).foldr max 0 := by
      intro l
      induction l with
      | nil => intro h; simp at h
      | cons x l ih =>
        intro h
        rw [List.map_cons, List.foldr_cons]
        rcases List.mem_cons.1 h with rfl | h
        · exact le_max_left _ _
        · exact le_trans (ih h) (le_max_right _ _)
    exact this refs hm
  refine ⟨_, g1, ?_⟩
  have hpos : (0 : ℝ) < st.hypLen := by rw [h4]; exact_mod_cast (by omega : 0 < hyp.length)
  rw [(C116_value_partial (countsOf st) st.hypLen _ hne (fun p hp => ⟨(hcounts p hp).1, by
    linarith [(hcounts p hp).2.2]⟩) hpos).1]
  congr 1
  rw [(C116_range (countsOf st) st.hypLen _ hne hcounts hpos).2.2]
  refine ⟨?_, by rw [h4, hr]; simp⟩
  rw [hco]
  intro p hp
  obtain ⟨i, _, rfl⟩ := List.mem_map.1 hp
  simp only [hall, h3]

end

/-- Non-vacuity: counts of a hypothesis of five words. -/
example : Counts [(4, 5), (2, 4), (1, 3), (0, 2)] ∧ ([(4, 5), (2, 4), (1, 3), (0, 2)] : List (ℝ × ℝ)) ≠ [] := by
  refine ⟨?_, by simp⟩
  intro p hp
  simp only [List.mem_cons, List.not_mem_nil, or_false] at hp
  rcases hp with rfl | rfl | rfl | rfl <;> norm_num

/-- Non-vacuity: a hypothesis of three words that is the second reference, for orders up to 2. -/
example : 0 < 2 ∧ 2 ≤ [7, 8, 7].length ∧ [7, 8, 7] ∈ [[7, 8], [7, 8, 7]] := by decide

end Cdec.BleuValue
