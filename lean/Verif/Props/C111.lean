import Verif.Train.DtrainLemmas
/-!
# C111: ranking training
-/
namespace Cdec.Train.Dtrain
open Cdec.Train.Mira (Vec)
variable {H : Type}

/-- `all`: if the limit is not reached, every wanted pair is used as often as its members were sampled, and no other. -/
theorem C111_all [DecidableEq H] (V : View H) (srt : List H → List H) (hsrt : Sorts V.score srt) (samples : List H)
    (hne : samples ≠ []) (thr : ℚ) (hthr : 0 ≤ thr) (max : Nat) (mis : Bool)
    (hmax : samples.length * (samples.length - 1) / 2 ≤ max) :
    ∃ ps, allPairs V srt samples thr max mis = some ps ∧ ∀ a b,
      (Wanted V thr mis a b → ps.count (a, b) = samples.count a * samples.count b) ∧ (¬ Wanted V thr mis a b → (a, b) ∉ ps) := by
  obtain ⟨hp, hs⟩ := hsrt samples
  have hne' : srt samples ≠ [] := fun e => hne (by rw [e] at hp; exact hp.symm.eq_nil)
  refine ⟨(allLoop V thr max mis (srt samples) ⟨[], 0, false⟩).training, ?_, fun a b => ?_⟩
  · unfold allPairs
    cases h : srt samples with
    | nil => exact absurd h hne'
    | cons x l => rfl
  · rw [allLoop_run _ _ _ _ _ _ rfl]
    have hlen := length_pairsOf (srt samples)
    rw [hp.length_eq] at hlen
    have he := (run_all V thr max mis (pairsOf (srt samples)) ⟨[], 0, false⟩ rfl (by show 0 + _ ≤ _; omega)).1
    rw [he, List.nil_append]
    constructor
    · intro hw
      rw [List.count_filter ((keep_wanted (le_of_lt hw.1) hthr).2 hw), count_pairsOf V.score hw.1 hs, hp.count_eq, hp.count_eq]
    · intro hw hm
      rw [List.mem_filter] at hm
      exact hw ((keep_wanted (mem_pairsOf hs _ hm.1) hthr).1 hm.2)

/-- `all` with a limit: at most so many pairs, all of them wanted. -/
theorem C111_limit (V : View H) (srt : List H → List H) (hsrt : Sorts V.score srt) (samples : List H)
    (thr : ℚ) (hthr : 0 ≤ thr) (max : Nat) (hmax : 0 < max) (mis : Bool) (ps : List (H × H)) (h : allPairs V srt samples thr max mis = some ps) :
    ps.length ≤ max ∧ ∀ p ∈ ps, Wanted V thr mis p.1 p.2 ∧ p.1 ∈ samples ∧ p.2 ∈ samples := by
  obtain ⟨hp, hs⟩ := hsrt samples
  have h' : ps = (allLoop V thr max mis (srt samples) ⟨[], 0, false⟩).training := by
    unfold allPairs at h
    cases hc : srt samples with
    | nil => rw [hc] at h; cases h
    | cons x l => rw [hc] at h; exact (Option.some.inj h).symm
  rw [allLoop_run _ _ _ _ _ _ rfl] at h'
  obtain ⟨q, r, e1, e2, e3, e4, e5⟩ := run_prefix V thr max mis (pairsOf (srt samples)) ⟨[], 0, false⟩ rfl
  have hc := run_count V thr max mis (pairsOf (srt samples)) ⟨[], 0, false⟩ hmax
  rw [e2, List.nil_append] at h'
  rw [e3] at hc
  constructor
  · rw [h']
    have := length_filter_mono (p := considered V mis) (q := keep V thr mis) (fun x hx => by unfold keep at hx; simp at hx; exact hx.1) q
    simp only at hc
    omega
  · intro p hpm
    rw [h', List.mem_filter] at hpm
    have hm : p ∈ pairsOf (srt samples) := by rw [e1]; simp [hpm.1]
    have := mem_pairsOf_mem p hm
    exact ⟨(keep_wanted (mem_pairsOf hs p hm) hthr).1 hpm.2, hp.mem_iff.1 this.1, hp.mem_iff.1 this.2⟩

/-- `XYX`: for more than four samples and a part of at least one, the best are paired with all others; all pairs are
wanted ones.  Missing: the middle with the worst. -/
theorem C111_xyx_partial [DecidableEq H] (V : View H) (srt : List H → List H) (hsrt : Sorts V.score srt) (samples : List H)
    (hlen : 4 < samples.length) (thr : ℚ) (hthr : 0 ≤ thr) (max : Nat) (mis : Bool) (hiLo : ℚ) (sep : Nat)
    (hsep : sep = ⌊(samples.length : ℚ) * hiLo + 1 / 2⌋₊) (h1 : 1 ≤ sep) (hsz : sep ≤ samples.length)
    (hmax : 2 * samples.length * samples.length ≤ max) :
    ∃ ps, partXYX V srt samples thr max mis hiLo = some ps ∧
      (∀ a b, Wanted V thr mis a b → Hi V sep samples a → ¬ Hi V sep samples b → ps.count (a, b) = samples.count a * samples.count b) ∧
      (∀ p ∈ ps, Wanted V thr mis p.1 p.2 ∧ p.1 ∈ samples ∧ p.2 ∈ samples) := by
  obtain ⟨hp, hs⟩ := hsrt samples
  have hl : (srt samples).length = samples.length := hp.length_eq
  generalize hk : climb ((srt samples).map V.score) samples.length sep = k
  obtain ⟨c1, c2, c3, c4⟩ := climb_spec ((srt samples).map V.score) samples.length sep (by simp [hl, hsz]) (by simp [hl])
  rw [hk] at c1 c2 c3 c4
  rw [List.length_map] at c2 c4
  obtain ⟨hin, hout⟩ := hi_split V hs h1 c1 c2 c3 c4
  generalize hlo : samples.length - descend ((srt samples).map V.score) (samples.length - sep) = lo
  have hlen1 : (prodOf ((srt samples).drop k) ((srt samples).take k)).length ≤ samples.length * samples.length := by
    rw [length_prodOf, List.length_take, List.length_drop, hl]
    exact Nat.mul_le_mul (Nat.min_le_right _ _) (Nat.sub_le _ _)
  have hlen2 : (prodOf ((srt samples).drop lo) (((srt samples).take lo).drop k)).length ≤ samples.length * samples.length := by
    rw [length_prodOf, List.length_drop, List.length_drop, List.length_take, hl]
    exact Nat.mul_le_mul (by omega) (Nat.sub_le _ _)
  obtain ⟨r1, r2⟩ := run_all V thr max mis _ ⟨[], 0, false⟩ rfl (show 0 + (prodOf ((srt samples).drop k) ((srt samples).take k)).length ≤ max by nlinarith)
  generalize hst : run V thr max mis (prodOf ((srt samples).drop k) ((srt samples).take k)) ⟨[], 0, false⟩ = st at r1 r2
  simp only [Nat.zero_add, List.nil_append] at r1 r2
  obtain ⟨r3, -⟩ := run_all V thr max mis (prodOf ((srt samples).drop lo) (((srt samples).take lo).drop k)) { st with stop := false } rfl
    (by show st.count + _ ≤ _; nlinarith)
  simp only at r3
  have hsub : ∀ x, x ∈ ((srt samples).take lo).drop k → x ∈ (srt samples).drop k := by
    intro x hx
    rw [List.drop_take] at hx
    exact List.mem_of_mem_take hx
  refine ⟨st.training ++ (prodOf ((srt samples).drop lo) (((srt samples).take lo).drop k)).filter (keep V thr mis), ?_, ?_, ?_⟩
  · unfold partXYX
    rw [if_neg (by omega)]
    simp only [← hsep]
    rw [if_neg (by omega)]
    simp only [hlen, gt_iff_lt, if_true, hk, hlo]
    rw [cross_run _ _ _ _ _ _ _ rfl, cross_run _ _ _ _ _ _ _ rfl, hst, r3]
  · intro a b hw ha hb
    have ha' := (countP_perm_hi V sep hp a).2 ha
    have hb' : ¬ Hi V sep (srt samples) b := fun h => hb ((countP_perm_hi V sep hp b).1 h)
    rw [List.count_append, r1, List.count_filter ((keep_wanted (le_of_lt hw.1) hthr).2 hw),
      List.count_filter ((keep_wanted (le_of_lt hw.1) hthr).2 hw), count_prodOf, count_prodOf]
    have z1 : (((srt samples).take lo).drop k).count a = 0 := List.count_eq_zero.2 fun h => hout a (hsub a h) ha'
    have z2 : ((srt samples).drop k).count a = 0 := List.count_eq_zero.2 fun h => hout a h ha'
    have z3 : ((srt samples).take k).count b = 0 := List.count_eq_zero.2 fun h => hb' (hin b h)
    have s1 : ∀ x, (srt samples).count x = ((srt samples).take k).count x + ((srt samples).drop k).count x := fun x => by
      rw [← List.count_append, List.take_append_drop]
    rw [z1, ← hp.count_eq, ← hp.count_eq, s1 a, s1 b, z2, z3]
    ring
  · intro p hpm
    have hmem : p.1 ∈ srt samples ∧ p.2 ∈ srt samples ∧ V.score p.2 ≤ V.score p.1 ∧ keep V thr mis p = true := by
      have hcut : ∀ j x y, x ∈ (srt samples).take j → y ∈ (srt samples).drop j → V.score y ≤ V.score x := by
        intro j x y hx hy
        have := hs
        rw [← List.take_append_drop j (srt samples)] at this
        exact (List.pairwise_append.1 this).2.2 x hx y hy
      rcases List.mem_append.1 hpm with hpm | hpm
      · rw [r1, List.mem_filter, mem_prodOf] at hpm
        exact ⟨List.mem_of_mem_take hpm.1.1, List.mem_of_mem_drop hpm.1.2, hcut k _ _ hpm.1.1 hpm.1.2, hpm.2⟩
      · rw [List.mem_filter, mem_prodOf] at hpm
        have := List.mem_of_mem_drop hpm.1.1
        exact ⟨List.mem_of_mem_take this, List.mem_of_mem_drop hpm.1.2, hcut lo _ _ this hpm.1.2, hpm.2⟩
    exact ⟨(keep_wanted hmem.2.2.1 hthr).1 hmem.2.2.2, hp.mem_iff.1 hmem.1, hp.mem_iff.1 hmem.2.1⟩

/-- `PRO`: all pairs differ by the threshold; of at most 5000 such pairs, the fifty with the largest differences are
used, or all if there are no more.  Missing: more than 5000, of which only the first in the order of the samples count. -/
theorem C111_pro_partial [DecidableEq H] (V : View H) (srt : List H → List H) (hsrt : Sorts V.score srt)
    (srtPairs : List (H × H) → List (H × H)) (hsp : Sorts (gap V) srtPairs) (samples : List H) (hne : samples ≠ []) (thr : ℚ) :
    ∃ ps all, pro V srt srtPairs samples thr = some ps ∧
      (∀ p ∈ all, p.1 ∈ samples ∧ p.2 ∈ samples ∧ V.score p.2 ≤ V.score p.1 ∧ thr ≤ gap V p) ∧
      (∀ a b, V.score b < V.score a → thr ≤ gap V (a, b) → all.count (a, b) = samples.count a * samples.count b) ∧
      ps.length ≤ 50 ∧ (∀ p ∈ ps, p ∈ all) ∧
      (all.length ≤ 5000 → ∃ rest, (ps ++ rest).Perm all ∧ (rest ≠ [] → ps.length = 50) ∧ ∀ p ∈ ps, ∀ r ∈ rest, gap V r ≤ gap V p) := by
  obtain ⟨hp, hs⟩ := hsrt samples
  have hne' : srt samples ≠ [] := fun e => hne (by rw [e] at hp; exact hp.symm.eq_nil)
  generalize hall : (pairsOf (srt samples)).filter (fun p => acceptPair (V.score p.1) (V.score p.2) thr) = all
  have ht : (proLoop V thr (srt samples) ⟨[], 0, false⟩).training = all.take 5000 := by
    rw [proLoop_eq _ _ _ _ rfl (by decide : (0 : Nat) < 5000), hall]; rfl
  have hres : pro V srt srtPairs samples thr = some (if (all.take 5000).length > 50 then (srtPairs (all.take 5000)).take 50 else all.take 5000) := by
    unfold pro
    cases h : srt samples with
    | nil => exact absurd h hne'
    | cons x l => rw [← h]; simp only; rw [ht]
  have hacc : ∀ a b, acceptPair (V.score a) (V.score b) thr = true ↔ thr ≤ gap V (a, b) := by
    intro a b
    unfold acceptPair gap
    by_cases h : |V.score a - V.score b| < thr
    · simp [h]
    · simp [h, not_lt.1 h]
  obtain ⟨q1, q2⟩ := hsp (all.take 5000)
  refine ⟨_, all, hres, fun p hpm => ?_, fun a b hab hthr => ?_, ?_, fun p hpm => ?_, fun hsm => ?_⟩
  · rw [← hall, List.mem_filter] at hpm
    have := mem_pairsOf_mem p hpm.1
    exact ⟨hp.mem_iff.1 this.1, hp.mem_iff.1 this.2, mem_pairsOf hs p hpm.1, (hacc p.1 p.2).1 hpm.2⟩
  · rw [← hall, List.count_filter (p := fun p : H × H => acceptPair (V.score p.1) (V.score p.2) thr) (a := (a, b)) ((hacc a b).2 hthr), count_pairsOf V.score hab hs, hp.count_eq, hp.count_eq]
  · split
    · rw [List.length_take]; omega
    · omega
  · split at hpm
    · exact List.mem_of_mem_take (q1.mem_iff.1 (List.mem_of_mem_take hpm))
    · exact List.mem_of_mem_take hpm
  · rw [List.take_of_length_le hsm] at q1 q2 ⊢
    split
    · refine ⟨(srtPairs all).drop 50, ?_, fun _ => ?_, fun p hpm r hr => ?_⟩
      · rw [List.take_append_drop]; exact q1
      · rw [List.length_take, q1.length_eq]; omega
      · have := q2
        rw [← List.take_append_drop 50 (srtPairs all)] at this
        exact (List.pairwise_append.1 this).2.2 p hpm r hr
    · exact ⟨[], by rw [List.append_nil], fun h => absurd rfl h, fun p _ r hr => by simp at hr⟩

/-! ## The updates -/

/-- The pass over all sentences: online, a step of the learning rate against a subgradient of the pairwise hinge loss at
every sentence; with `batch`, one such step for all sentences together.  (No `gamma`.) -/
theorem C111_pass (c : Config) (hg : c.gamma = 0) (hm : 0 ≤ c.lossMargin) (hd : Decodes c.decode) (hs : Samples c.pairs)
    (m : Main) (hb : m.w.batchUpdates = 0) (t : Nat) :
    ∃ m' avg, epoch c m t = some m' ∧ m'.w.batchUpdates = 0 ∧ Pass c m.w.lambdas m'.w.lambdas avg ∧
      m'.wAverage = m.wAverage + m'.w.lambdas ∧ m'.files = m.files ++ [m'.w.lambdas] ∧
      (m.maxScore < avg → m'.maxScore = avg ∧ m'.bestIt = t) ∧ (avg ≤ m.maxScore → m'.maxScore = m.maxScore ∧ m'.bestIt = m.bestIt) := by
  have hr : List.range c.n = List.range' 0 c.n := List.range_eq_range'
  cases hbt : c.batch with
  | false =>
    obtain ⟨e', u, g1, g2, g3, g4, g5, g6⟩ := sentences_online c hg hbt hm hd hs c.n 0 ⟨m.w, 0, 0⟩
    simp only [Nat.zero_add, zero_add, Nat.Ico_zero_eq_range] at g2 g3 g4 g5 g6
    refine ⟨_, e'.scoreSum / c.n, by unfold epoch; rw [hr, g1], ?_, ?_, ?_, ?_, fun h => ?_, fun h => ?_⟩
    · simp only [hbt, Bool.false_eq_true, if_false]; rw [g2]; exact hb
    · simp only [hbt, Bool.false_eq_true, if_false, Pass]
      exact ⟨u, g3, g4, fun i hi => g5 i (Nat.zero_le _) hi, by rw [g6]⟩
    · rfl
    · rfl
    · exact ⟨if_pos h, if_pos h⟩
    · exact ⟨if_neg (not_lt.2 h), if_neg (not_lt.2 h)⟩
  | true =>
    obtain ⟨e', pss, g1, g2, g3, g4, g5, g6, g7⟩ := sentences_batch c hbt hd hs c.n 0 ⟨m.w, 0, 0⟩
    simp only [Nat.zero_add, zero_add, Nat.Ico_zero_eq_range] at g3 g4 g5 g6 g7
    refine ⟨_, e'.scoreSum / c.n, by unfold epoch; rw [hr, g1], ?_, ?_, ?_, ?_, fun h => ?_, fun h => ?_⟩
    · simp only [hbt, if_true]
    · simp only [hbt, if_true, Pass, hg, ne_eq, not_true, if_false]
      refine ⟨pss, -(total c pss.flatten), g5, g2, subgradient c hm _ _ g6, ?_, by rw [g7]⟩
      rw [g3, g4, hb, zero_add, smul_neg, sub_neg_eq_add]
    · rfl
    · rfl
    · exact ⟨if_pos h, if_pos h⟩
    · exact ⟨if_neg (not_lt.2 h), if_neg (not_lt.2 h)⟩

/-- All passes from number `a` on. -/
theorem epochs_run (c : Config) (hg : c.gamma = 0) (hm : 0 ≤ c.lossMargin) (hd : Decodes c.decode) (hs : Samples c.pairs) :
    ∀ (k a : Nat) (m : Main), m.w.batchUpdates = 0 → m.files.length = a → ∃ (m' : Main) (w : Nat → Vec) (avg : Nat → ℚ),
      epochs c (List.range' a k) m = some m' ∧ w a = m.w.lambdas ∧ w (a + k) = m'.w.lambdas ∧
      (∀ t, a ≤ t → t < a + k → Pass c (w t) (w (t + 1)) (avg t)) ∧
      m'.wAverage = m.wAverage + ∑ t ∈ Finset.Ico a (a + k), w (t + 1) ∧
      (∀ t, a ≤ t → t < a + k → m'.files[t]? = some (w (t + 1))) ∧
      (∀ t < a, m'.files[t]? = m.files[t]?) ∧
      (∀ t, a ≤ t → t < a + k → avg t ≤ m'.maxScore) ∧ m.maxScore ≤ m'.maxScore ∧
      ((m'.maxScore = m.maxScore ∧ m'.bestIt = m.bestIt) ∨ (a ≤ m'.bestIt ∧ m'.bestIt < a + k ∧ avg m'.bestIt = m'.maxScore))
  | 0, a, m, hb, hl => ⟨m, fun _ => m.w.lambdas, fun _ => 0, rfl, rfl, rfl, fun t h1 h2 => by omega, by simp, fun t h1 h2 => by omega,
      fun _ _ => rfl, fun t h1 h2 => by omega, le_refl _, Or.inl ⟨rfl, rfl⟩⟩
  | k + 1, a, m, hb, hl => by
    obtain ⟨m1, av, e1, e2, e3, e4, e5, e6, e7⟩ := C111_pass c hg hm hd hs m hb a
    obtain ⟨m', w, avg, r1, r2, r3, r4, r5, r6, r7, r8, r9, r10⟩ := epochs_run c hg hm hd hs k (a + 1) m1 e2 (by rw [e5]; simp [hl])
    refine ⟨m', fun t => if t = a then m.w.lambdas else w t, fun t => if t = a then av else avg t, ?_, by simp, ?_, ?_, ?_, ?_, ?_, ?_, ?_, ?_⟩
    · rw [List.range'_succ]
      show (match epoch c m a with | none => none | some m' => epochs c (List.range' (a + 1) k) m') = _
      rw [e1]; exact r1
    · show (if a + (k + 1) = a then _ else _) = _
      rw [if_neg (by omega), show a + (k + 1) = a + 1 + k by omega]; exact r3
    · intro t h1 h2
      rcases Nat.eq_or_lt_of_le h1 with rfl | hlt
      · simp only [if_true, Nat.succ_ne_self, if_false]
        rw [r2]; exact e3
      · simp only
        rw [if_neg (by omega), if_neg (by omega), if_neg (by omega)]
        exact r4 t hlt (by omega)
    · have hS : ∑ t ∈ Finset.Ico a (a + (k + 1)), (fun t => if t = a then m.w.lambdas else w t) (t + 1) =
          ∑ t ∈ Finset.Ico a (a + (k + 1)), w (t + 1) :=
        Finset.sum_congr rfl fun i hi => if_neg (by have := Finset.mem_Ico.1 hi; omega)
      rw [hS, r5, e4, show a + 1 + k = a + (k + 1) by omega, Finset.sum_eq_sum_Ico_succ_bot (by omega : a < a + (k + 1)), r2, add_assoc]
    · intro t h1 h2
      show m'.files[t]? = some (if t + 1 = a then _ else _)
      rw [if_neg (by omega)]
      rcases Nat.eq_or_lt_of_le h1 with rfl | hlt
      · rw [r7 a (by omega), e5, List.getElem?_append_right (by omega), hl, Nat.sub_self, r2]; rfl
      · exact r6 t hlt (by omega)
    · intro t ht
      rw [r7 t (by omega), e5, List.getElem?_append_left (by omega)]
    · intro t h1 h2
      show (if t = a then av else avg t) ≤ _
      rcases Nat.eq_or_lt_of_le h1 with rfl | hlt
      · rw [if_pos rfl]
        rcases lt_or_ge m.maxScore av with h | h
        · rw [← (e6 h).1]; exact r9
        · rw [(e7 h).1] at r9; exact le_trans h r9
      · rw [if_neg (by omega)]
        exact r8 t hlt (by omega)
    · rcases lt_or_ge m.maxScore av with h | h
      · rw [(e6 h).1] at r9; exact le_trans (le_of_lt h) r9
      · rw [(e7 h).1] at r9; exact r9
    · simp only
      rcases r10 with ⟨q1, q2⟩ | ⟨q1, q2, q3⟩
      · rcases lt_or_ge m.maxScore av with h | h
        · right
          rw [q2, (e6 h).2, q1, (e6 h).1]
          exact ⟨Nat.le_refl _, by omega, if_pos rfl⟩
        · left
          rw [q1, q2, (e7 h).1, (e7 h).2]
          exact ⟨rfl, rfl⟩
      · right
        exact ⟨by omega, by omega, by rw [if_neg (by omega)]; exact q3⟩

theorem pass_nonneg (c : Config) (hscore : ∀ w i, ∀ h ∈ c.decode w i, 0 ≤ h.score) {w w' : Vec} {avg : ℚ} (h : Pass c w w' avg) : 0 ≤ avg := by
  have htop : ∀ u i, 0 ≤ topScore c u i := by
    intro u i
    unfold topScore
    cases hc : c.decode u i with
    | nil => simp
    | cons x l => simp; exact hscore u i x (by rw [hc]; simp)
  unfold Pass at h
  split at h
  · obtain ⟨_, _, _, _, _, _, rfl⟩ := h
    exact div_nonneg (Finset.sum_nonneg fun i _ => htop _ _) (Nat.cast_nonneg _)
  · obtain ⟨_, _, _, _, rfl⟩ := h
    exact div_nonneg (Finset.sum_nonneg fun i _ => htop _ _) (Nat.cast_nonneg _)

/-- Training: after `T` passes the three ways to select weights give those of the last pass, the average of those after
each pass, and those after a pass in which the average score was highest. -/
theorem C111_train (c : Config) (hg : c.gamma = 0) (hm : 0 ≤ c.lossMargin) (hd : Decodes c.decode) (hs : Samples c.pairs)
    (hscore : ∀ w i, ∀ h ∈ c.decode w i, 0 ≤ h.score) (hT : 0 < c.T) :
    ∃ (w : Nat → Vec) (avg : Nat → ℚ), w 0 = c.init ∧ (∀ t < c.T, Pass c (w t) (w (t + 1)) (avg t)) ∧
      train c .last = some (w c.T) ∧
      train c .avg = some ((1 / (c.T : ℚ)) • ∑ t ∈ Finset.range c.T, w (t + 1)) ∧
      ∃ b < c.T, train c .best = some (w (b + 1)) ∧ ∀ t < c.T, avg t ≤ avg b := by
  obtain ⟨m', w, avg, r1, r2, r3, r4, r5, r6, r7, r8, r9, r10⟩ := epochs_run c hg hm hd hs c.T 0 ⟨⟨c.init, 0⟩, 0, 0, 0, []⟩ rfl rfl
  simp only [Nat.zero_add, zero_add, Nat.Ico_zero_eq_range] at r2 r3 r4 r5 r6 r8 r9 r10
  have hr : List.range c.T = List.range' 0 c.T := List.range_eq_range'
  refine ⟨w, avg, r2, fun t ht => r4 t (Nat.zero_le _) ht, ?_, ?_, m'.bestIt, ?_, ?_, ?_⟩
  · unfold train; rw [hr, r1, r3]
  · unfold train; rw [hr, r1]; simp only; rw [r5]
  · rcases r10 with ⟨_, q2⟩ | ⟨_, q2, _⟩
    · rw [q2]; exact hT
    · exact q2
  · unfold train
    rw [hr, r1]
    simp only
    apply r6 _ (Nat.zero_le _)
    rcases r10 with ⟨_, q2⟩ | ⟨_, q2, _⟩
    · rw [q2]; exact hT
    · exact q2
  · intro t ht
    rcases r10 with ⟨q1, q2⟩ | ⟨_, _, q3⟩
    · have h1 := r8 t (Nat.zero_le _) ht
      rw [q1] at h1
      exact le_trans h1 (pass_nonneg c hscore (r4 m'.bestIt (Nat.zero_le _) (by rw [q2]; exact hT)))
    · rw [q3]; exact r8 t (Nat.zero_le _) ht

/-- Sampling all pairs is such a sampling. -/
theorem C111_all_samples (srt : List Hyp → List Hyp) (hsrt : Sorts Hyp.score srt) (thr : ℚ) (hthr : 0 ≤ thr) (max : Nat) (hmax : 0 < max) :
    Samples fun mis l => allPairs Hyp.view srt l thr max mis := by
  intro mis l hl
  have hp := (hsrt l).1
  have hne' : srt l ≠ [] := fun e => hl (by rw [e] at hp; exact hp.symm.eq_nil)
  have : ∃ ps, allPairs Hyp.view srt l thr max mis = some ps := by
    unfold allPairs
    cases h : srt l with
    | nil => exact absurd h hne'
    | cons x t => exact ⟨_, rfl⟩
  obtain ⟨ps, h⟩ := this
  refine ⟨ps, h, fun p hpm => ?_⟩
  have := (C111_limit Hyp.view srt hsrt l thr hthr max hmax mis ps h).2 p hpm
  exact ⟨this.2.1, this.2.2, this.1.2.2⟩

/-! ## Cases -/

namespace Case

/-- A sorting function. -/
def srt {A : Type} (key : A → ℚ) (l : List A) : List A := l.mergeSort fun a b => decide (key b ≤ key a)

theorem sorts {A : Type} (key : A → ℚ) : Sorts key (srt key) := by
  intro l
  refine ⟨List.mergeSort_perm _ _, ?_⟩
  have := List.pairwise_mergeSort (le := fun a b : A => decide (key b ≤ key a))
    (fun a b c h1 h2 => by simp only [decide_eq_true_eq] at *; exact le_trans h2 h1)
    (fun a b => by simp only [Bool.or_eq_true, decide_eq_true_eq]; exact le_total _ _) l
  exact this.imp fun h => by simpa using h

/-- Samples are numbers that are their own scores, the model gives them all the same. -/
def V : View Nat := ⟨fun n => n, fun _ => 0⟩

theorem srt_of {l : List Nat} (h : l.Pairwise fun a b => b ≤ a) : srt V.score l = l :=
  List.mergeSort_of_pairwise (h.imp fun h => by simpa [V] using h)

def ten : List Nat := [10, 9, 8, 7, 6, 5, 4, 3, 2, 1]

theorem floor_ten : ⌊((10 : Nat) : ℚ) * (1 / 10) + 1 / 2⌋₊ = 1 := by
  rw [Nat.floor_eq_iff (by norm_num)]; norm_num

theorem floor_four : ⌊((4 : Nat) : ℚ) * (1 / 10) + 1 / 2⌋₊ = 0 := by
  rw [Nat.floor_eq_zero]; norm_num

end Case

open Case

/-- `XYX` does not pair the middle with the worst: among ten samples, 5 and 1. -/
theorem C111_xyx_fails :
    ∃ (samples : List Nat) (hiLo : ℚ) (a b : Nat) (ps : List (Nat × Nat)), 4 < samples.length ∧ 1 / 100 ≤ hiLo ∧ hiLo ≤ 1 / 2 ∧
      Sorts V.score (srt V.score) ∧ a ∈ samples ∧ b ∈ samples ∧
      ¬ Hi V ⌊(samples.length : ℚ) * hiLo + 1 / 2⌋₊ samples a ∧ ¬ Lo V ⌊(samples.length : ℚ) * hiLo + 1 / 2⌋₊ samples a ∧
      Lo V ⌊(samples.length : ℚ) * hiLo + 1 / 2⌋₊ samples b ∧ Wanted V 0 false a b ∧
      partXYX V (srt V.score) samples 0 4294967295 false hiLo = some ps ∧ (a, b) ∉ ps := by
  refine ⟨ten, 1 / 10, 5, 1, [(10, 9), (10, 8), (10, 7), (10, 6), (10, 5), (10, 4), (10, 3), (10, 2), (10, 1)], by decide, by norm_num, by norm_num,
    sorts _, by decide, by decide, ?_, ?_, ?_, ?_, ?_, by decide⟩
  · rw [show ten.length = 10 from rfl, floor_ten]; unfold Hi; decide +kernel
  · rw [show ten.length = 10 from rfl, floor_ten]; unfold Lo; decide +kernel
  · rw [show ten.length = 10 from rfl, floor_ten]; unfold Lo; decide +kernel
  · exact ⟨by norm_num [V], fun h => absurd h (lt_irrefl _), fun h => absurd h (by decide)⟩
  · unfold partXYX
    rw [srt_of (by decide), show ten.length = 10 from rfl]
    simp only [floor_ten]
    decide +kernel

/-- `XYX` with fewer than five samples reads behind the end. -/
theorem C111_xyx_bounds_fails :
    ∃ (samples : List Nat) (hiLo : ℚ), samples.length = 4 ∧ 1 / 100 ≤ hiLo ∧ hiLo ≤ 1 / 2 ∧ Sorts V.score (srt V.score) ∧
      partXYX V (srt V.score) samples 0 4294967295 false hiLo = none := by
  refine ⟨[4, 3, 2, 1], 1 / 10, rfl, by norm_num, by norm_num, sorts _, ?_⟩
  unfold partXYX
  rw [srt_of (by decide), show [4, 3, 2, 1].length = 4 from rfl]
  simp only [floor_four]
  rfl

/-- `XYX` does not keep the limit: three pairs are allowed, seventeen are used. -/
theorem C111_xyx_limit_fails :
    ∃ (samples : List Nat) (hiLo : ℚ) (ps : List (Nat × Nat)), 1 / 100 ≤ hiLo ∧ hiLo ≤ 1 / 2 ∧ Sorts V.score (srt V.score) ∧
      partXYX V (srt V.score) samples 0 3 false hiLo = some ps ∧ ps.length = 17 := by
  refine ⟨[10, 9, 8, 7, 6, 5, 4, 1, 1, 1], 1 / 10, [(10, 9), (10, 8), (10, 7), (9, 7), (9, 6), (9, 5), (9, 4), (9, 1), (9, 1), (9, 1),
    (8, 7), (8, 6), (8, 5), (8, 4), (8, 1), (8, 1), (8, 1)], by norm_num, by norm_num, sorts _, ?_, rfl⟩
  unfold partXYX
  rw [srt_of (by decide), show [10, 9, 8, 7, 6, 5, 4, 1, 1, 1].length = 10 from rfl]
  simp only [floor_ten]
  decide +kernel

namespace Case

/-- The model score under weights `w`. -/
noncomputable def hyp (x score : ℚ) (w : Vec) : Hyp := ⟨Finsupp.single 0 x, score, Mira.inner (Finsupp.single 0 x) w⟩

noncomputable def w1 : Vec := Finsupp.single 0 1

/-- Two hypotheses for every sentence, the default options, with a way to sample. -/
noncomputable def cfg (pairs : Bool → List Hyp → Option (List (Hyp × Hyp))) (batch : Bool) : Config :=
  { eta := 1, gamma := 0, lossMargin := 0, batch := batch, T := 2, n := 2, decode := fun w _ => [hyp 2 1 w, hyp 1 0 w], pairs := pairs, init := w1 }

theorem decodes (pairs : Bool → List Hyp → Option (List (Hyp × Hyp))) (batch : Bool) : Decodes (cfg pairs batch).decode := by
  intro w i
  refine ⟨by simp [cfg], fun h hh => ?_⟩
  have : h = hyp 2 1 w ∨ h = hyp 1 0 w := by simpa [cfg] using hh
  rcases this with rfl | rfl <;> rfl

theorem inner_single (x : ℚ) : Mira.inner (Finsupp.single 0 x) w1 = x := by
  rw [Mira.inner_eq (S := {0}) (by intro k hk; simpa using Finsupp.support_single_subset hk)]
  simp [w1]

end Case

/-- `PRO` with the default options: the pairs are not chosen by rank, but all of them are treated as errors; the weights
move although the model ranks all pairs right. -/
theorem C111_pro_fails :
    ∃ (c : Config) (ps : List (Hyp × Hyp)),
      c.pairs = (fun _ l => pro Hyp.view (srt Hyp.score) (srt (gap Hyp.view)) l 0) ∧ Sorts Hyp.score (srt Hyp.score) ∧
      Sorts (gap Hyp.view) (srt (gap Hyp.view)) ∧ Decodes c.decode ∧ c.gamma = 0 ∧ c.lossMargin = 0 ∧
      c.pairs c.faster (c.decode c.init 0) = some ps ∧ (∀ p ∈ ps, p.2.model < p.1.model) ∧
      hinge c.lossMargin ps c.init = 0 ∧ (updatePairs c ⟨c.init, 0⟩ ps).lambdas ≠ c.init := by
  refine ⟨cfg (fun _ l => pro Hyp.view (srt Hyp.score) (srt (gap Hyp.view)) l 0) false, [(hyp 2 1 w1, hyp 1 0 w1)], rfl, sorts _, sorts _,
    decodes _ _, rfl, rfl, ?_, ?_, ?_, ?_⟩
  · show pro Hyp.view (srt Hyp.score) (srt (gap Hyp.view)) [hyp 2 1 w1, hyp 1 0 w1] 0 = _
    have hsrt : srt Hyp.score [hyp 2 1 w1, hyp 1 0 w1] = [hyp 2 1 w1, hyp 1 0 w1] :=
      List.mergeSort_of_pairwise (by simp [hyp])
    unfold pro
    rw [hsrt]
    simp [proLoop, proInner, acceptPair, Hyp.view, hyp]
  · intro p hp
    rw [List.mem_singleton] at hp
    subst hp
    show Mira.inner _ _ < Mira.inner _ _
    rw [inner_single, inner_single]; norm_num
  · show hinge 0 _ w1 = 0
    simp only [hinge, List.map_cons, List.map_nil, List.sum_cons, List.sum_nil, hyp]
    rw [inner_single, inner_single]; norm_num
  · show (updatePairs (cfg _ false) ⟨w1, 0⟩ _).lambdas ≠ w1
    unfold updatePairs
    rw [updatePairs_online _ rfl rfl]
    simp only
    intro h
    have h0 := DFunLike.congr_fun h 0
    simp [total, updates, Config.faster, cfg, hyp, w1] at h0

/-- Training on all pairs. -/
example : ∃ w : Vec, train (cfg (fun mis l => allPairs Hyp.view (srt Hyp.score) l 0 100 mis) false) .last = some w := by
  obtain ⟨w, _, _, _, h, _⟩ := C111_train (cfg (fun mis l => allPairs Hyp.view (srt Hyp.score) l 0 100 mis) false) rfl (le_refl _) (decodes _ _)
    (C111_all_samples _ (sorts _) 0 (le_refl _) 100 (by decide))
    (by intro w i h hh
        have : h = hyp 2 1 w ∨ h = hyp 1 0 w := by simpa [cfg] using hh
        rcases this with rfl | rfl <;> norm_num [hyp])
    (by decide)
  exact ⟨_, h⟩

/-- All pairs of three samples. -/
example : ∃ ps, allPairs V (srt V.score) [2, 3, 2] 0 100 false = some ps ∧ ps.count (3, 2) = 2 ∧ (2, 2) ∉ ps := by
  obtain ⟨ps, h1, h2⟩ := C111_all V (srt V.score) (sorts _) [2, 3, 2] (by decide) 0 (le_refl _) 100 false (by decide)
  exact ⟨ps, h1, (h2 3 2).1 ⟨by norm_num [V], fun h => absurd h (lt_irrefl _), fun h => absurd h (by decide)⟩,
    (h2 2 2).2 fun h => absurd h.1 (lt_irrefl _)⟩

/-- Ten samples, the best tenth. -/
example : ∃ ps, partXYX V (srt V.score) ten 0 1000 false (1 / 10) = some ps ∧ ps.count (10, 4) = 1 := by
  obtain ⟨ps, h1, h2, _⟩ := C111_xyx_partial V (srt V.score) (sorts _) ten (by decide) 0 (le_refl _) 1000 false (1 / 10) 1
    (by rw [show ten.length = 10 from rfl, floor_ten]) (by decide) (by decide) (by decide)
  refine ⟨ps, h1, h2 10 4 ⟨by norm_num [V], fun h => absurd h (lt_irrefl _), fun h => absurd h (by decide)⟩ ?_ ?_⟩ <;> unfold Hi <;> decide +kernel

/-- Three samples are less than fifty pairs. -/
example : ∃ ps, pro V (srt V.score) (srt (gap V)) [3, 2, 1] 2 = some ps ∧ ps.length ≤ 50 := by
  obtain ⟨ps, _, h1, _, _, h2, _⟩ := C111_pro_partial V (srt V.score) (sorts _) (srt (gap V)) (sorts _) [3, 2, 1] (by decide) 2
  exact ⟨ps, h1, h2⟩

end Cdec.Train.Dtrain
