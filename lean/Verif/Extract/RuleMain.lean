import Verif.Extract.RuleAlign
/-!
# The extracts of one occurrence: soundness
-/
namespace Cdec.Extract
open Spec RuleSpec

theorem outerGap_facts {G : GapParams} {S : LinkSpans} {isGap : Bool} {gap : Int × Int} {e1 e2 inner : Int} {n n' : Nat} {gs : List (Int × Int)} {met : Bool}
    (h : outerGap G S isGap gap e1 e2 inner n = some (gs, n', met)) :
    (isGap = true ∧ n < G.maxSymbols ∧ n' = n + 1 ∧ (G.tight = true → S.sourceLow.getD e1.toNat (-1) ≠ -1 ∧ S.sourceLow.getD e2.toNat (-1) ≠ -1)) ∨
    (isGap = false ∧ n' = n ∧ (G.tight = true → met = true → S.sourceLow.getD inner.toNat (-1) ≠ -1)) := by
  unfold outerGap at h
  split at h
  · rename_i hg
    left
    split at h
    · cases h
    · split at h
      · cases h
      · rename_i h1 h2
        simp only [Option.some.injEq, Prod.mk.injEq] at h
        refine ⟨hg, by omega, by omega, ?_⟩
        intro ht
        rw [Bool.and_eq_true, Bool.or_eq_true, decide_eq_true_eq, decide_eq_true_eq, not_and, not_or] at h2
        exact h2 ht
  · rename_i hg
    right
    simp only [Option.some.injEq, Prod.mk.injEq] at h
    refine ⟨by simpa using hg, by omega, ?_⟩
    intro ht hm
    rw [← h.2.2] at hm
    rw [ht] at hm
    simpa using hm

theorem getGaps_outer {G : GapParams} {S : LinkSpans} {matching : List (Nat × Nat)} {start : Nat} {sl sh bl bh : Int} {n n' : Nat} {sg tg : List (Int × Int)} {met : Bool}
    (h : getGaps G S matching start sl sh bl bh n = some (sg, tg, n', met)) :
    ∃ l n1 m1 r m2, outerGap G S (decide (bl < sl)) (bl, sl) bl (sl - 1) sl n = some (l, n1, m1) ∧
      outerGap G S (decide (sh < bh)) (sh, bh) sh (bh - 1) (sh - 1) n1 = some (r, n', m2) ∧ met = (m1 && m2) := by
  simp only [getGaps, bind, Option.bind] at h
  cases hl : outerGap G S (decide (bl < sl)) (bl, sl) bl (sl - 1) sl n with
  | none => rw [hl] at h; cases h
  | some lv =>
    obtain ⟨left, n1, m1⟩ := lv
    rw [hl] at h
    simp only [] at h
    cases hrr : outerGap G S (decide (sh < bh)) (sh, bh) sh (bh - 1) (sh - 1) n1 with
    | none => rw [hrr] at h; cases h
    | some rv =>
      obtain ⟨right, n2, m2⟩ := rv
      rw [hrr] at h
      simp only [] at h
      cases hm : (left ++ innerGaps start matching ++ right).mapM (checkGap G S) with
      | none => rw [hm] at h; cases h
      | some gaps =>
        rw [hm] at h
        simp only [pure, Option.some.injEq, Prod.mk.injEq] at h
        obtain ⟨_, _, rfl, rfl⟩ := h
        exact ⟨_, _, _, _, _, rfl, hrr, rfl⟩

theorem checkTight_gaps {E : XEnv} (hE : LinksOK E) {ms : List (Nat × Nat)} (h : checkTightPhrases E ms = true) (hin : ∀ g ∈ natGaps ms, g.1 < g.2 ∧ g.2 ≤ E.src.length)
    (ht : E.tight = true) : ∀ g ∈ natGaps ms, SrcAligned E g.1 ∧ SrcAligned E (g.2 - 1) := by
  unfold checkTightPhrases at h
  rw [ht, innerGaps_eq] at h
  simp only [Bool.not_true, Bool.false_or, List.all_eq_true, Bool.and_eq_true, decide_eq_true_eq] at h
  intro g hg
  have b := hin g hg
  have := h ((g.1 : Int), (g.2 : Int)) (List.mem_map_of_mem hg)
  simp only [Int.toNat_natCast] at this
  rw [show ((g.2 : Int) - 1).toNat = g.2 - 1 by omega] at this
  exact ⟨(sourceLow_iff hE (by omega)).1 this.1, (sourceLow_iff hE (by omega)).1 this.2⟩

theorem natGaps_min {src : List Int} {mg : Int} {phrase : List Int} {ms : List (Nat × Nat)} (h : Occurs src mg phrase ms) : ∀ g ∈ natGaps ms, mg ≤ (g.2 : Int) - g.1 := by
  induction h with
  | last m w h1 h2 h3 => simp [natGaps]
  | cons m w x rest m' c' ms h1 h2 h3 h4 h5 h6 h7 ih =>
    intro g hg
    rw [natGaps, List.mem_cons] at hg
    rcases hg with rfl | hg
    · exact h6
    · exact ih g hg

theorem natGaps_length : ∀ (m c : Nat) (ms : List (Nat × Nat)), (natGaps ((m, c) :: ms)).length = ms.length
  | m, c, [] => rfl
  | m, c, (m', c') :: ms => by rw [natGaps, List.length_cons, natGaps_length m' c' ms]; rfl

theorem castGaps_append (l r : List (Nat × Nat)) : castGaps (l ++ r) = castGaps l ++ castGaps r := by simp [castGaps]

/-- After `GetGaps`. -/
theorem getGaps_base {E : XEnv} (hE : LinksOK E) {phrase : List Int} {m c : Nat} {ms : List (Nat × Nat)}
    (hocc : Occurs E.src E.minGap phrase ((m, c) :: ms)) (htight : checkTightPhrases E ((m, c) :: ms) = true) {a b : Nat}
    (ha : a ≤ m ∧ (a < m → E.minGap ≤ (m : Int) - a)) (hb : chunksEnd ((m, c) :: ms) ≤ b ∧ (chunksEnd ((m, c) :: ms) < b → E.minGap ≤ (b : Int) - chunksEnd ((m, c) :: ms)))
    (hbl : b ≤ E.src.length) {sg tg : List (Int × Int)} {n n' : Nat} {met : Bool}
    (h : getGaps E.gapParams E.spans ((m, c) :: ms) 0 m (chunksEnd ((m, c) :: ms)) a b n = some (sg, tg, n', met)) (hn : n ≤ E.maxSymbols) :
    ∃ sgN tgN, sg = castGaps sgN ∧ tg = castGaps tgN ∧
      Base E phrase m c ms (decide (a < m)) (decide (chunksEnd ((m, c) :: ms) < b)) a b sgN tgN ∧
      n + (if a < m then 1 else 0) + (if chunksEnd ((m, c) :: ms) < b then 1 else 0) ≤ E.maxSymbols ∧
      (E.tight = true → met = true → SrcAligned E a ∧ SrcAligned E (b - 1)) := by
  generalize he : chunksEnd ((m, c) :: ms) = e at *
  have hend : m < e := by rw [← he]; exact chain_lt ms m c (occurs_chain hocc)
  have hordN : InOrder e m (natGaps ((m, c) :: ms)) := by
    have := natGaps_inOrder [] e m c ms m (occurs_chain hocc) (Nat.le_refl _) (by rw [he]; exact Nat.le_refl _)
    rwa [List.append_nil] at this
  have hin : ∀ g ∈ natGaps ((m, c) :: ms), g.1 < g.2 ∧ g.2 ≤ E.src.length := by
    intro g hg
    have := hordN.mem g hg
    omega
  obtain ⟨esg, hlen, heach⟩ := C43_gaps E.gapParams E.links hE ((m, c) :: ms) 0 m e a b n n' met
    (by simp only [XEnv.gapParams]; omega)
    (by
      intro g hg
      rw [innerGaps_eq, castGaps, List.mem_map] at hg
      obtain ⟨g, hg, rfl⟩ := hg
      have := hin g hg
      simp only [XEnv.gapParams]; omega) sg tg h
  obtain ⟨l, n1, m1, r, m2, ho1, ho2, rfl⟩ := getGaps_outer h
  have f1 := outerGap_facts ho1
  have f2 := outerGap_facts ho2
  have hsgN : sg = castGaps ((if a < m then [(a, m)] else []) ++ natGaps ((m, c) :: ms) ++ if e < b then [(e, b)] else []) := by
    rw [esg, innerGaps_eq, castGaps_append, castGaps_append]
    congr 1
    · congr 1
      by_cases h1 : a < m <;> simp [h1, castGaps]
    · by_cases h1 : e < b <;> simp [h1, castGaps]
  generalize hN : (if a < m then [(a, m)] else []) ++ natGaps ((m, c) :: ms) ++ (if e < b then [(e, b)] else []) = sgN at hsgN
  have htgN : tg = castGaps (tg.map fun g => (g.1.toNat, g.2.toNat)) := by
    unfold castGaps
    rw [List.map_map]
    conv => lhs; rw [← List.map_id tg]
    refine List.map_congr_left ?_
    intro t ht
    obtain ⟨k, hk, rfl⟩ := List.mem_iff_getElem.1 ht
    have hk' : k < sg.length := by omega
    have := heach k _ _ (List.getElem?_eq_getElem hk') (List.getElem?_eq_getElem hk)
    refine Prod.ext ?_ ?_
    · simp only [id, Function.comp]; omega
    · simp only [id, Function.comp]; omega
  generalize tg.map (fun g => (g.1.toNat, g.2.toNat)) = tgN at htgN
  subst hsgN htgN
  -- tightness of the gaps
  have tl : E.tight = true → a < m → SrcAligned E a ∧ SrcAligned E (m - 1) := by
    intro ht h1
    rcases f1 with ⟨_, _, _, t⟩ | ⟨t, _⟩
    · have := t ht
      rw [Int.toNat_natCast, show ((m : Int) - 1).toNat = m - 1 by omega] at this
      exact ⟨(sourceLow_iff hE (by omega)).1 this.1, (sourceLow_iff hE (by omega)).1 this.2⟩
    · rw [decide_eq_false_iff_not] at t; omega
  have tr : E.tight = true → e < b → SrcAligned E e ∧ SrcAligned E (b - 1) := by
    intro ht h1
    rcases f2 with ⟨_, _, _, t⟩ | ⟨t, _⟩
    · have := t ht
      rw [Int.toNat_natCast, show ((b : Int) - 1).toNat = b - 1 by omega] at this
      exact ⟨(sourceLow_iff hE (by omega)).1 this.1, (sourceLow_iff hE (by omega)).1 this.2⟩
    · rw [decide_eq_false_iff_not] at t; omega
  have ti := fun ht => checkTight_gaps hE htight hin ht
  have hall : E.tight = true → ∀ g ∈ sgN, SrcAligned E g.1 ∧ SrcAligned E (g.2 - 1) := by
    intro ht g hg
    rw [← hN, List.mem_append, List.mem_append] at hg
    rcases hg with (hg | hg) | hg
    · split at hg
      · rw [List.mem_singleton] at hg; subst hg; exact tl ht (by assumption)
      · cases hg
    · exact ti ht g hg
    · split at hg
      · rw [List.mem_singleton] at hg; subst hg; exact tr ht (by assumption)
      · cases hg
  refine ⟨sgN, tgN, rfl, rfl, ⟨?_, ?_, hbl, ?_, ?_, ?_, ?_⟩, ?_, ?_⟩
  · by_cases h1 : a < m <;> simp [h1]; omega
  · rw [he]; by_cases h1 : e < b <;> simp [h1]; omega
  · rw [← hN, he]; simp
  · simpa [castGaps] using hlen
  · intro k g u hg hu
    have := heach k ((g.1 : Int), (g.2 : Int)) ((u.1 : Int), (u.2 : Int)) (by simp [castGaps, hg]) (by simp [castGaps, hu])
    simp only [XEnv.gapParams] at this
    exact ⟨this.2.2.2.1, this.2.2.2.2, ⟨by omega, by omega⟩, fun ht => hall ht g (List.mem_of_getElem? hg)⟩
  · intro g hg
    rw [← hN, List.mem_append, List.mem_append] at hg
    rcases hg with (hg | hg) | hg
    · split at hg
      · rw [List.mem_singleton] at hg; subst hg; exact ha.2 (by assumption)
      · cases hg
    · exact natGaps_min hocc g hg
    · split at hg
      · rw [List.mem_singleton] at hg; subst hg; exact hb.2 (by assumption)
      · cases hg
  · have fa : n1 = n + (if a < m then 1 else 0) ∧ n1 ≤ E.maxSymbols := by
      rcases f1 with ⟨t, t2, t3, _⟩ | ⟨t, t2, _⟩
      · rw [decide_eq_true_eq] at t
        rw [if_pos (by omega)]
        simp only [XEnv.gapParams] at t2
        omega
      · rw [decide_eq_false_iff_not] at t
        rw [if_neg (by omega)]
        omega
    rcases f2 with ⟨t, t2, t3, _⟩ | ⟨t, t2, _⟩
    · rw [decide_eq_true_eq] at t
      rw [if_pos (show e < b by omega)]
      simp only [XEnv.gapParams] at t2
      omega
    · rw [decide_eq_false_iff_not] at t
      rw [if_neg (show ¬ e < b by omega)]
      omega
  · intro ht hm
    rw [Bool.and_eq_true] at hm
    constructor
    · by_cases h1 : a < m
      · exact (tl ht h1).1
      · rcases f1 with ⟨t, _⟩ | ⟨_, _, t⟩
        · rw [decide_eq_true_eq] at t; omega
        · have := t ht hm.1
          rw [Int.toNat_natCast] at this
          rw [show a = m by omega]
          exact (sourceLow_iff hE (by omega)).1 this
    · by_cases h1 : e < b
      · exact (tr ht h1).2
      · rcases f2 with ⟨t, _⟩ | ⟨_, _, t⟩
        · rw [decide_eq_true_eq] at t; omega
        · have := t ht hm.2
          rw [show ((e : Int) - 1).toNat = e - 1 by omega] at this
          rw [show b = e by omega]
          exact (sourceLow_iff hE (by omega)).1 this

/-- The extracts of one occurrence: up to four batches, with different source sides. -/
structure AllSound (E : XEnv) (phrase : List Int) (m c : Nat) (ms : List (Nat × Nat)) (L R : Bool) (b1 b2 b3 b4 : List Extracted) : Prop where
  base : Sound E phrase m c ms L R b1
  right : Sound E phrase m c ms L true b2
  left : Sound E phrase m c ms true R b3
  both : Sound E phrase m c ms true true b4
  right' : b2 ≠ [] → R = false
  left' : b3 ≠ [] → L = false
  both' : b4 ≠ [] → L = false ∧ R = false

theorem allSound_nil (E : XEnv) (phrase : List Int) (m c : Nat) (ms : List (Nat × Nat)) : AllSound E phrase m c ms false false [] [] [] [] :=
  ⟨Or.inl rfl, Or.inl rfl, Or.inl rfl, Or.inl rfl, fun h => absurd rfl h, fun h => absurd rfl h, fun h => absurd rfl h⟩

theorem extractAlignments_sound {E : XEnv} (hE : LinksOK E) (hmin : 1 ≤ E.minGap) (junk : Int) {phrase : List Int} {m c : Nat} {ms : List (Nat × Nat)}
    (hocc : Occurs E.src E.minGap phrase ((m, c) :: ms)) (hspan : (chunksEnd ((m, c) :: ms) : Int) - m ≤ E.maxSpan) (hnt : ms.length ≤ E.maxNT)
    (hsym : phrase.length ≤ E.maxSymbols) :
    ∃ L R b1 b2 b3 b4, extractAlignments E junk phrase (((m, c) :: ms).map (·.1)) = some (b1 ++ b2 ++ b3 ++ b4) ∧ AllSound E phrase m c ms L R b1 b2 b3 b4 ∧
      (b1 ++ b2 ++ b3 ++ b4 ≠ [] → checkAlignedTerminals E ((m, c) :: ms) = true) := by
  have nil : ∀ r : Option (List Extracted), r = some [] → ∃ L R b1 b2 b3 b4, r = some (b1 ++ b2 ++ b3 ++ b4) ∧ AllSound E phrase m c ms L R b1 b2 b3 b4 ∧
      (b1 ++ b2 ++ b3 ++ b4 ≠ [] → checkAlignedTerminals E ((m, c) :: ms) = true) := by
    rintro _ rfl
    exact ⟨false, false, [], [], [], [], rfl, allSound_nil _ _ _ _ _, fun h => absurd rfl h⟩
  have hend := occurs_end hocc
  have hml := chain_lt ms m c (occurs_chain hocc)
  unfold extractAlignments
  rw [occurs_zip hocc]
  simp only []
  by_cases hchk : (!checkAlignedTerminals E ((m, c) :: ms) || !checkTightPhrases E ((m, c) :: ms)) = true
  · rw [if_pos hchk]
    exact nil _ rfl
  rw [if_neg hchk]
  rw [Bool.or_eq_true, not_or] at hchk
  have hal : checkAlignedTerminals E ((m, c) :: ms) = true := by simpa using hchk.1
  have hti : checkTightPhrases E ((m, c) :: ms) = true := by simpa using hchk.2
  have e1 : (((((m, c) :: ms).headD (0, 0)).1 : Nat) : Int) = (m : Int) := rfl
  have e2 : (((((m, c) :: ms).getLastD (0, 0)).1 : Nat) : Int) + ((((m, c) :: ms).getLastD (0, 0)).2 : Nat) = ((chunksEnd ((m, c) :: ms) : Nat) : Int) := by
    unfold chunksEnd; push_cast; rfl
  rw [e1, e2]
  have hlenm : (((m, c) :: ms).map (·.1)).length = ms.length + 1 := by simp
  rw [hlenm]
  generalize hmx : (E.maxNT : Int) - (ms.length + 1 : Nat) + 1 = mx
  have htot := fix_total hE (minS := E.minGap) (minT := 0) (mx := mx) (lo := true) (hi := true) (arb := false) (Nat.le_of_lt hml) hend
  cases hfix : findFixPoint (E.fixParams E.minGap 0 mx true true false) E.spans (E.src.length + 1) m (chunksEnd ((m, c) :: ms)) (-1, -1) with
  | none => exact absurd hfix htot
  | some o =>
    cases o with
    | none => exact nil _ rfl
    | some r =>
      obtain ⟨a, b, c', d', rfl, g1, g2, g3, g4, g5, g6, g7, g8, g9, g10, g11, g12⟩ := fix_found hE (Nat.le_of_lt hml) hend hfix
      simp only []
      cases hgaps : getGaps E.gapParams E.spans ((m, c) :: ms) 0 m (chunksEnd ((m, c) :: ms)) a b phrase.length with
      | none => exact nil _ rfl
      | some v =>
        obtain ⟨sg, tg, n', met⟩ := v
        obtain ⟨sgN, tgN, rfl, rfl, hbase, hsy, htm⟩ := getGaps_base hE hocc hti ⟨g1, fun h => (g10 h).2⟩ ⟨g2, fun h => (g11 h).2⟩ g3 hgaps hsym
        simp only []
        have eL : decide ((a : Int) ≠ m) = decide (a < m) := by
          by_cases h : a < m
          · simp [h]; omega
          · simp [h]; omega
        have eR : decide ((b : Int) ≠ (chunksEnd ((m, c) :: ms) : Nat)) = decide (chunksEnd ((m, c) :: ms) < b) := by
          by_cases h : chunksEnd ((m, c) :: ms) < b
          · simp [h]; omega
          · simp [h]; omega
        rw [eL, eR]
        have hsgl : sgN.length = (if a < m then 1 else 0) + ms.length + if chunksEnd ((m, c) :: ms) < b then 1 else 0 := by
          rw [hbase.gaps, List.length_append, List.length_append, natGaps_length]
          by_cases h1 : a < m <;> by_cases h2 : chunksEnd ((m, c) :: ms) < b <;> simp [h1, h2]
        have hntn : sgN.length ≤ E.maxNT := by
          rw [hsgl]
          have : ((if a < m then 1 else 0 : Nat) : Int) = if a < m then 1 else 0 := by split <;> rfl
          have : ((if chunksEnd ((m, c) :: ms) < b then 1 else 0 : Nat) : Int) = if chunksEnd ((m, c) :: ms) < b then 1 else 0 := by split <;> rfl
          omega
        have hsyl : (extendPhrase phrase (decide (a < m)) (decide (chunksEnd ((m, c) :: ms) < b))).length ≤ E.maxSymbols := by
          rw [extendPhrase_length]
          simp only [decide_eq_true_eq]
          omega
        -- the first batch
        have hfirst : ∃ b1, (if met = true then addExtracts E (extendPhrase phrase (decide (a < m)) (decide (chunksEnd ((m, c) :: ms) < b)))
            (sourceIndexes ((m, c) :: ms) (if decide (a < m) = true then 1 else 0) fun _ => none) (castGaps tgN) c' d' else some []) = some b1 ∧
            Sound E phrase m c ms (decide (a < m)) (decide (chunksEnd ((m, c) :: ms) < b)) b1 := by
          cases met with
          | false => exact ⟨[], by simp, Or.inl rfl⟩
          | true =>
            rw [if_pos rfl]
            obtain ⟨xs, hx, hbatch⟩ := addExtracts_any hE hocc (decide (a < m)) (decide (chunksEnd ((m, c) :: ms) < b)) a b hbase.low hbase.high g3 sgN tgN hbase.gaps
              hbase.length (c', d') ⟨g8, g9, ⟨g4, g5⟩, fun h => htm h rfl⟩ hbase.found (g7 hspan) g6 hntn hsyl hbase.min_gap
            rcases hbatch with rfl | hbatch
            · exact ⟨[], hx, Or.inl rfl⟩
            exact ⟨xs, hx, Or.inr ⟨a, b, _, _, _, hbase.low, hbase.high, hbase.gaps, hbatch⟩⟩
        obtain ⟨b1, hb1, hs1⟩ := hfirst
        rw [hb1]
        simp only []
        split
        · refine ⟨_, _, b1, [], [], [], by simp, ⟨hs1, Or.inl rfl, Or.inl rfl, Or.inl rfl, fun h => absurd rfl h, fun h => absurd rfl h, fun h => absurd rfl h⟩, fun _ => hal⟩
        · obtain ⟨b2, x2, s2, f2⟩ := extremities_sound hE hmin junk hocc hbase false true
          obtain ⟨b3, x3, s3, f3⟩ := extremities_sound hE hmin junk hocc hbase true false
          obtain ⟨b4, x4, s4, f4⟩ := extremities_sound hE hmin junk hocc hbase true true
          rw [x2, x3, x4]
          simp only [Bool.or_false, Bool.or_true] at s2 s3 s4
          exact ⟨_, _, b1, b2, b3, b4, rfl, ⟨hs1, s2, s3, s4, fun h => (f2 h).2 rfl, fun h => (f3 h).1 rfl, fun h => ⟨(f4 h).1 rfl, (f4 h).2 rfl⟩⟩, fun _ => hal⟩

end Cdec.Extract
