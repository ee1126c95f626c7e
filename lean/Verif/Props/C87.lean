import Verif.Props.C86
/-!
# C87: count pruning

An n-gram of order above one whose number of occurrences does not exceed the threshold of its order is to be dropped, and no
other.  Records to be dropped are marked by `AdjustCounts`.
-/
namespace Cdec.Klm.Builder
open CountSpec AdjSpec

/-- The record of an n-gram of lower order that does not end the last n-gram of the stream is marked just if there is a threshold
for its order and it does not occur more often.  (Missing: the n-grams that end the last one, see `C87_prune_fails`.) -/
theorem C87_prune_partial (order cap : Nat) (ho : 2 ≤ order) (prune : Nat → Nat) (corpus : List (List Nat)) (hc : corpus ≠ [])
    (counts : List (Gram × Nat)) (h : CountsTo order cap corpus counts) (i : Nat) (hi : i + 1 < order)
    (w : Gram) (c : Nat) (m : Bool) (hr : ⟨w, c, m⟩ ∈ adjustCounts order prune counts i)
    (hl : ∀ r, counts.getLast? = some r → ¬ w <:+ r.1) :
    m = decide (1 ≤ i ∧ prune i ≠ 0 ∧ occurrences order corpus w ≤ prune i) := by
  obtain ⟨hp, hs⟩ := counts_reversed ho h
  have hf := countFacts ho h
  obtain ⟨g, hgl, hle, hinv⟩ := adjInv_run ho (prune := prune) _ (by simpa using counts_ne_nil ho h hc) hp hs
  obtain ⟨f1, f2⟩ := finish_spec (hp _ hgl.choose_spec) hgl hinv i hi
  unfold adjustCounts at hr
  simp only [] at hr
  rw [if_pos hi] at hr
  obtain ⟨q, hq, he⟩ := List.mem_map.1 hr
  obtain ⟨qw, qc, qm⟩ := q
  simp only [AdjRec.mk.injEq] at he
  obtain ⟨rfl, rfl, rfl⟩ := he
  rcases (f2 _).1 hq with hq | ⟨h1, h2, h3⟩
  · unfold firstRecs at hq
    split at hq
    · rename_i h0
      simp only [List.mem_cons, AdjRec.mk.injEq, List.not_mem_nil, or_false] at hq
      rcases hq with ⟨_, _, rfl⟩ | ⟨_, _, rfl⟩ <;> simp [h0]
    · simp at hq
  · simp only at h1 h2 h3
    have hne : ¬ qw = g.take (i + 1) := by
      intro e
      have hcn := counts_ne_nil ho h hc
      have hlast := List.getLast?_eq_some_getLast hcn
      apply hl _ hlast
      have hgt : (counts.getLast hcn).1.reverse ≤ g :=
        hle _ (List.mem_map.2 ⟨_, List.getLast_mem hcn, rfl⟩)
      obtain ⟨cg, hgl⟩ := hgl
      obtain ⟨q, hq, hqe⟩ := List.mem_map.1 hgl
      have hgq : q.1.reverse = g := congrArg Prod.fst hqe
      have hle2 : g ≤ (counts.getLast hcn).1.reverse := by
        rw [← hgq]
        rw [List.pairwise_map] at hs
        rw [← List.dropLast_append_getLast hcn] at hq hs
        rcases List.mem_append.1 hq with hq | hq
        · exact le_of_lt ((List.pairwise_append.1 hs).2.2 q hq _ (by simp))
        · rw [List.mem_singleton.1 hq]
      have hge := le_antisymm hgt hle2
      rw [← List.reverse_prefix, List.reverse_reverse, e, hge]
      exact List.take_prefix _ _
    rw [if_neg hne] at h3
    rw [h3]
    have := rawR_occ hf qw.reverse
    rw [List.reverse_reverse] at this
    rw [this]
    rfl

/-- Without thresholds no record is marked. -/
theorem C87_unpruned (order cap : Nat) (ho : 2 ≤ order) (corpus : List (List Nat)) (hc : corpus ≠ [])
    (counts : List (Gram × Nat)) (h : CountsTo order cap corpus counts) (i : Nat) (hi : i < order)
    (r : AdjRec) (hr : r ∈ adjustCounts order (fun _ => 0) counts i) : r.marked = false := by
  by_cases hio : i + 1 < order
  · obtain ⟨hp, hs⟩ := counts_reversed ho h
    have hf := countFacts ho h
    obtain ⟨g, hgl, hle, hinv⟩ := adjInv_run ho (prune := fun _ => 0) _ (by simpa using counts_ne_nil ho h hc) hp hs
    obtain ⟨f1, f2⟩ := finish_spec (hp _ hgl.choose_spec) hgl hinv i hio
    unfold adjustCounts at hr
    simp only [] at hr
    rw [if_pos hio] at hr
    obtain ⟨q, hq, rfl⟩ := List.mem_map.1 hr
    rcases (f2 _).1 hq with hq | ⟨h1, h2, h3⟩
    · unfold firstRecs at hq
      split at hq
      · simp only [List.mem_cons, List.not_mem_nil, or_false] at hq
        rcases hq with rfl | rfl <;> rfl
      · simp at hq
    · simp only
      rw [h3]
      split
      · have e := List.reverse_reverse q.words
        rw [← e] at h1 ⊢
        rw [ends_iff hf (by omega)] at h1
        rw [adjR_occ hf]
        simp only [decide_eq_false_iff_not, Nat.le_zero]
        split
        · omega
        · have hfin : (precedingWords order corpus q.words.reverse).Finite := by
            have := preSet_finite (counts.map fun r => (r.1.reverse, r.2)) q.words.reverse.reverse
            refine this.subset ?_
            intro x hx
            unfold precedingWords at hx
            rw [Set.mem_setOf_eq, occ_pos hf] at hx
            obtain ⟨r, hr, hx⟩ := hx
            refine ⟨_, List.mem_map.2 ⟨r, hr, rfl⟩, ?_⟩
            rw [← List.reverse_prefix] at hx
            simpa using hx
          rw [Set.ncard_eq_zero hfin]
          intro he
          obtain ⟨r, hr, hw⟩ := (occ_pos hf _).1 h1.2.1
          have hlen := hf.len r hr
          obtain ⟨t, ht⟩ := hw
          have : t ≠ [] := by
            rintro rfl
            have := congrArg List.length ht
            simp only [List.nil_append] at this
            omega
          have hx : t.getLast this ∈ precedingWords order corpus q.words.reverse := by
            unfold precedingWords
            rw [Set.mem_setOf_eq, occ_pos hf]
            refine ⟨r, hr, t.dropLast, ?_⟩
            rw [← ht]
            conv_rhs => rw [← List.dropLast_append_getLast this]
            simp
          rw [he] at hx
          exact hx
      · simp [pruneMark]
  · have : i = order - 1 := by omega
    subst this
    obtain ⟨w, c, m⟩ := r
    obtain ⟨h1, h2, h3, h4⟩ := (C86_highest order cap ho _ corpus hc counts h w c m).1 hr
    simp only
    rw [h4, decide_eq_false_iff_not]
    have := List.count_pos_iff.2 h1
    omega

/-- The counts of the corpus of `C87_prune_fails`. -/
def pruneCounts : List (Gram × Nat) := [([4, 5, 2], 2), ([1, 1, 3], 2), ([1, 3, 4], 2), ([3, 4, 5], 2)]

theorem pruneCounts_ok : CountsTo 3 10 [[3, 4, 5], [3, 4, 5]] pruneCounts := by
  refine ⟨[pruneCounts], ?_, .last _ [pruneCounts] (.one _) (by simp)⟩
  have : (corpusBlocks 3 10 [[3, 4, 5], [3, 4, 5]]).filter (fun b => !b.isEmpty) =
      [[([1, 1, 3], 2), ([1, 3, 4], 2), ([3, 4, 5], 2), ([4, 5, 2], 2)]] := by decide
  unfold Runs
  rw [this]
  refine .cons ⟨by decide, ?_⟩ .nil
  unfold pruneCounts suffixKey
  simp only [List.pairwise_cons, List.mem_cons, List.not_mem_nil, or_false, forall_eq_or_imp, forall_eq, List.reverse_cons,
    List.reverse_nil, List.nil_append, List.cons_append, IsEmpty.forall_iff, implies_true, List.Pairwise.nil, and_true]
  refine ⟨⟨?_, ?_, ?_⟩, ⟨?_, ?_⟩, ?_⟩ <;> exact le_of_lt (List.cons_lt_cons_iff.2 (Or.inl (by decide)))

/-- The code disagrees with the claim: with thresholds 1 for bigrams and trigrams, the bigram `4 5`, which occurs twice, is
dropped, although the trigram `3 4 5`, which also occurs twice, is kept. -/
theorem C87_prune_fails : ∃ (corpus : List (List Nat)) (counts : List (Gram × Nat)) (prune : Nat → Nat),
    CountsTo 3 10 corpus counts ∧ prune 1 < occurrences 3 corpus [4, 5] ∧
    ⟨[4, 5], 1, true⟩ ∈ adjustCounts 3 prune counts 1 ∧ ⟨[3, 4, 5], 2, false⟩ ∈ adjustCounts 3 prune counts 2 := by
  refine ⟨[[3, 4, 5], [3, 4, 5]], pruneCounts, fun i => if i = 0 then 0 else 1, pruneCounts_ok, by decide, by decide, by decide⟩

/-- Non-vacuity: in the same corpus `3 4` is kept with threshold 1 and dropped with threshold 2. -/
example : ⟨[3, 4], 1, false⟩ ∈ adjustCounts 3 (fun _ => 1) pruneCounts 1 ∧
    ⟨[3, 4], 1, true⟩ ∈ adjustCounts 3 (fun _ => 2) pruneCounts 1 := by decide

end Cdec.Klm.Builder
