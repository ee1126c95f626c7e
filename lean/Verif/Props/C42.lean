import Verif.Extract.IntersectorLemmas
/-!
# C42: The intersector finds exactly the occurrences of a discontiguous phrase
-/
namespace Cdec.Extract
open Spec

theorem getD_last (ps : List Nat) (n : Nat) (h : n = ps.length) : ps.getD (n - 1) 0 = ps.getLastD 0 := by
  subst h
  rw [List.getLastD_eq_getLast?, List.getLast?_eq_getElem?, List.getD_eq_getElem?_getD]

theorem headD_snoc (ps : List Nat) (q : Nat) (h : ps ≠ []) : (ps ++ [q]).headD 0 = ps.headD 0 := by
  cases ps with
  | nil => exact absurd rfl h
  | cons a b => rfl

theorem endOf_snoc (cs : List (List String)) (c : List String) (ps : List Nat) (q : Nat) :
    endOf (cs ++ [c]) (ps ++ [q]) = q + c.length := by simp [endOf]

theorem endOf_cons (cs : List (List String)) (c : List String) (ps : List Nat) (q : Nat) (h1 : cs ≠ []) (h2 : ps ≠ []) :
    endOf (c :: cs) (q :: ps) = endOf cs ps := by
  cases cs with
  | nil => exact absurd rfl h1
  | cons a b =>
    cases ps with
    | nil => exact absurd rfl h2
    | cons p ps => simp [endOf]

/-- Extending every match of the prefix across a gap. -/
theorem prefix_gap {lines : List (List String)} {I : Intersector} (hd : I.d = createDataArray lines)
    {cs : List (List String)} {ts : List (List Nat)} (hm : Matches lines I.gap I.span cs ts) (hcs : cs ≠ [])
    (hne : ∀ c ∈ cs, c ≠ []) {w : String} {sym : Nat} (hw : I.d.word2id w = some sym) (qs : List Nat) :
    (∃ ps ∈ ts, qs ∈ I.prefixScan true sym ps (I.d.getSentenceStart (I.d.getSentenceId (ps.headD 0) + 1) - 1)
      (I.span - (I.gap + 1))
      ((ps.getLastD 0 : Int) + (I.gap + 1 : Nat) + (((cs.getLastD []).length : Int) - 1))) ↔
    Occurs lines I.gap I.span (cs ++ [[w]]) qs := by
  have hlast : 0 < (cs.getLastD []).length := by
    rw [List.getLastD_eq_getLast?, List.getLast?_eq_getLast_of_ne_nil hcs]
    exact List.length_pos_iff.2 (hne _ (List.getLast_mem hcs))
  constructor
  · rintro ⟨ps, hps, hq⟩
    rw [mem_prefixScan] at hq
    obtain ⟨q, h1, h2, h3, h4, h5, rfl⟩ := hq
    obtain ⟨ho, k, l, hk, hb, he⟩ := hm.sound ps hps
    have hhe := ho.head_lt_end hne
    obtain ⟨f1, f2, f3, f4⟩ := line_facts lines k l hk (ps.headD 0) hb (by omega)
    rw [hd, f1, f3] at h3
    have hpsne : ps ≠ [] := by
      intro e; have := ho.length; rw [e] at this; exact hcs (List.length_eq_zero_iff.1 this.symm)
    obtain ⟨n, rfl⟩ : ∃ n : Nat, q = n := ⟨q.toNat, by omega⟩
    simp only [if_true, Int.toNat_natCast] at h5 ⊢
    rw [hd] at h5 hw
    rw [data_at lines w sym hw n (by omega)] at h5
    refine ⟨⟨(occFrom_snoc _ _ _ _ hcs).2 ⟨ho, by push_cast at h1; omega, (singleton_prefix_drop _ _ _).2 h5⟩,
      k, l, hk, ?_, ?_⟩, ?_⟩
    · rw [headD_snoc _ _ hpsne]; exact hb
    · rw [endOf_snoc, List.length_singleton]; omega
    · rw [headD_snoc _ _ hpsne, endOf_snoc, List.length_singleton]; omega
  · rintro ⟨⟨ho, k, l, hk, hb, he⟩, hsp⟩
    have hql := ho.length
    obtain ⟨ps, n, rfl⟩ : ∃ ps n, qs = ps ++ [n] := by
      have : qs ≠ [] := by intro e; rw [e] at hql; simp at hql
      exact ⟨qs.dropLast, qs.getLast this, (List.dropLast_append_getLast this).symm⟩
    rw [occFrom_snoc _ _ _ _ hcs, singleton_prefix_drop] at ho
    obtain ⟨ho, hg, ht⟩ := ho
    have hhe := ho.head_lt_end hne
    have hpsne : ps ≠ [] := by
      intro e; have := ho.length; rw [e] at this; exact hcs (List.length_eq_zero_iff.1 this.symm)
    rw [headD_snoc _ _ hpsne] at hb hsp
    rw [endOf_snoc, List.length_singleton] at he hsp
    have hends : endOf cs ps ≤ n := by simp only [endOf]; omega
    refine ⟨ps, hm.complete ps ⟨⟨ho, k, l, hk, hb, by omega⟩, by omega⟩, ?_⟩
    rw [mem_prefixScan]
    obtain ⟨f1, f2, f3, f4⟩ := line_facts lines k l hk (ps.headD 0) hb (by omega)
    refine ⟨n, by push_cast; omega, ?_, ?_, by omega, ?_, by simp⟩
    · simp only [endOf] at hhe
      have : I.gap + 1 ≤ I.span := by omega
      push_cast [this]
      omega
    · rw [hd, f1, f3]; omega
    · rw [hd] at hw ⊢
      rw [Int.toNat_natCast, data_at lines w sym hw n (by omega)]
      exact ht

/-- Extending every match of the prefix by the next word. -/
theorem prefix_next {lines : List (List String)} {I : Intersector} (hd : I.d = createDataArray lines)
    {C : List (List String)} {c : List String} {ts : List (List Nat)}
    (hm : Matches lines I.gap I.span (C ++ [c]) ts)
    (hne : ∀ c' ∈ C ++ [c], c' ≠ []) {w : String} {sym : Nat} (hw : I.d.word2id w = some sym) (qs : List Nat) :
    (∃ ps ∈ ts, qs ∈ I.prefixScan false sym ps (I.d.getSentenceStart (I.d.getSentenceId (ps.headD 0) + 1) - 1)
      (2 - 1) ((ps.getLastD 0 : Int) + (1 : Nat) + ((((c ++ [w]).length : Nat) : Int) - 2))) ↔
    Occurs lines I.gap I.span (C ++ [c ++ [w]]) qs := by
  have hlast : 0 < c.length := List.length_pos_iff.2 (hne _ (by simp))
  constructor
  · rintro ⟨ps, hps, hq⟩
    rw [mem_prefixScan] at hq
    obtain ⟨q, h1, h2, h3, h4, h5, rfl⟩ := hq
    obtain ⟨ho, k, l, hk, hb, he⟩ := hm.sound ps hps
    have hhe := ho.head_lt_end hne
    have hpsne : ps ≠ [] := by
      intro e; have := ho.length; rw [e] at this; simp at this
    obtain ⟨f1, f2, f3, f4⟩ := line_facts lines k l hk (ps.headD 0) hb (by omega)
    rw [hd, f1, f3] at h3
    obtain ⟨P, p, rfl⟩ : ∃ P p, ps = P ++ [p] :=
      ⟨ps.dropLast, ps.getLast hpsne, (List.dropLast_append_getLast hpsne).symm⟩
    rw [endOf_snoc] at he hhe
    have hgl : (P ++ [p]).getLastD 0 = p := by simp
    rw [hgl, List.length_append, List.length_singleton] at h1 h2
    obtain ⟨n, rfl⟩ : ∃ n : Nat, q = n := ⟨q.toNat, by omega⟩
    simp only [Bool.false_eq_true, if_false, List.append_nil, Int.toNat_natCast] at h5 ⊢
    have hn : n = p + c.length := by omega
    rw [hd] at h5 hw
    rw [data_at lines w sym hw n (by omega), hn] at h5
    refine ⟨⟨(occFrom_grow_last _ _ _ _ _).2 ⟨ho, h5⟩, k, l, hk, hb, ?_⟩, ?_⟩
    · rw [endOf_snoc, List.length_append, List.length_singleton]; omega
    · rw [endOf_snoc, List.length_append, List.length_singleton]; omega
  · rintro ⟨⟨ho, k, l, hk, hb, he⟩, hsp⟩
    have hql := ho.length
    obtain ⟨P, p, rfl⟩ : ∃ ps n, qs = ps ++ [n] := by
      have : qs ≠ [] := by intro e; rw [e] at hql; simp at hql
      exact ⟨qs.dropLast, qs.getLast this, (List.dropLast_append_getLast this).symm⟩
    rw [occFrom_grow_last] at ho
    obtain ⟨ho, ht⟩ := ho
    have hhe := ho.head_lt_end hne
    rw [endOf_snoc, List.length_append, List.length_singleton] at he hsp
    rw [endOf_snoc] at hhe
    refine ⟨P ++ [p], hm.complete _ ⟨⟨ho, k, l, hk, hb, by rw [endOf_snoc]; omega⟩, by rw [endOf_snoc]; omega⟩, ?_⟩
    rw [mem_prefixScan]
    obtain ⟨f1, f2, f3, f4⟩ := line_facts lines k l hk ((P ++ [p]).headD 0) hb (by omega)
    refine ⟨(p + c.length : Nat), by simp; omega, by simp; omega, ?_, by omega, ?_, by simp⟩
    · rw [hd, f1, f3]; omega
    · rw [hd] at hw ⊢
      rw [Int.toNat_natCast, data_at lines w sym hw _ (by omega)]
      exact ht

/-- Extending every match of the suffix to the left across a gap. -/
theorem suffix_gap {lines : List (List String)} {I : Intersector} (hd : I.d = createDataArray lines)
    {cs : List (List String)} {ts : List (List Nat)} (hm : Matches lines I.gap I.span cs ts) (hcs : cs ≠ [])
    (hne : ∀ c ∈ cs, c ≠ []) {w : String} {sym : Nat} (hw : I.d.word2id w = some sym) (qs : List Nat) :
    (∃ ps ∈ ts, qs ∈ I.suffixScan true sym ps (I.d.getSentenceStart (I.d.getSentenceId (ps.headD 0)))
      ((ps.getLastD 0 : Int) + ((cs.getLastD []).length : Nat) - 1) (I.span - (I.gap + 1))
      ((ps.headD 0 : Int) - (I.gap + 1 : Nat))) ↔
    Occurs lines I.gap I.span ([w] :: cs) qs := by
  have hlast : 0 < (cs.getLastD []).length := by
    rw [List.getLastD_eq_getLast?, List.getLast?_eq_getLast_of_ne_nil hcs]
    exact List.length_pos_iff.2 (hne _ (List.getLast_mem hcs))
  constructor
  · rintro ⟨ps, hps, hq⟩
    rw [mem_suffixScan] at hq
    obtain ⟨q, h1, h2, h3, h4, h5, rfl⟩ := hq
    obtain ⟨ho, k, l, hk, hb, he⟩ := hm.sound ps hps
    have hhe := ho.head_lt_end hne
    have hpsne : ps ≠ [] := by
      intro e; have := ho.length; rw [e] at this; exact hcs (List.length_eq_zero_iff.1 this.symm)
    obtain ⟨f1, f2, f3, f4⟩ := line_facts lines k l hk (ps.headD 0) hb (by omega)
    rw [hd, f1, f2] at h3
    obtain ⟨n, rfl⟩ : ∃ n : Nat, q = n := ⟨q.toNat, by omega⟩
    simp only [if_true, Int.toNat_natCast, List.drop_zero] at h5 ⊢
    rw [hd] at h5 hw
    rw [data_at lines w sym hw n (by omega)] at h5
    refine ⟨⟨(occFrom_cons _ _ _ _ hcs).2 ⟨ho, by rw [List.length_singleton]; omega,
      (singleton_prefix_drop _ _ _).2 h5⟩, k, l, hk, ?_, ?_⟩, ?_⟩
    · rw [List.headD_cons]; omega
    · rw [endOf_cons _ _ _ _ hcs hpsne]; exact he
    · rw [endOf_cons _ _ _ _ hcs hpsne, List.headD_cons]; simp only [endOf]; omega
  · rintro ⟨⟨ho, k, l, hk, hb, he⟩, hsp⟩
    have hql := ho.length
    obtain ⟨n, ps, rfl⟩ : ∃ n ps, qs = n :: ps := by
      cases qs with
      | nil => simp at hql
      | cons a b => exact ⟨a, b, rfl⟩
    rw [occFrom_cons _ _ _ _ hcs, singleton_prefix_drop, List.length_singleton] at ho
    obtain ⟨ho, hg, ht⟩ := ho
    have hhe := ho.head_lt_end hne
    have hpsne : ps ≠ [] := by
      intro e; have := ho.length; rw [e] at this; exact hcs (List.length_eq_zero_iff.1 this.symm)
    rw [endOf_cons _ _ _ _ hcs hpsne] at he hsp
    rw [List.headD_cons] at hb hsp
    refine ⟨ps, hm.complete ps ⟨⟨ho, k, l, hk, by omega, he⟩, by omega⟩, ?_⟩
    rw [mem_suffixScan]
    obtain ⟨f1, f2, f3, f4⟩ := line_facts lines k l hk (ps.headD 0) (by omega) (by omega)
    refine ⟨n, by push_cast; omega, ?_, ?_, ?_, ?_, by simp⟩
    · have : I.gap + 1 ≤ I.span := by omega
      push_cast [this]; omega
    · rw [hd, f1, f2]; omega
    · simp only [endOf] at hsp; omega
    · rw [hd] at hw ⊢
      rw [Int.toNat_natCast, data_at lines w sym hw n (by omega)]
      exact ht

/-- Extending every match of the suffix by the previous word. -/
theorem suffix_next {lines : List (List String)} {I : Intersector} (hd : I.d = createDataArray lines)
    {C : List (List String)} {c : List String} {ts : List (List Nat)}
    (hm : Matches lines I.gap I.span (c :: C) ts) (hC : C ≠ [])
    (hne : ∀ c' ∈ c :: C, c' ≠ []) {w : String} {sym : Nat} (hw : I.d.word2id w = some sym) (qs : List Nat) :
    (∃ ps ∈ ts, qs ∈ I.suffixScan false sym ps (I.d.getSentenceStart (I.d.getSentenceId (ps.headD 0)))
      ((ps.getLastD 0 : Int) + ((C.getLastD []).length : Nat) - 1) (2 - 1) ((ps.headD 0 : Int) - (1 : Nat))) ↔
    Occurs lines I.gap I.span ((w :: c) :: C) qs := by
  have hlast : 0 < (C.getLastD []).length := by
    rw [List.getLastD_eq_getLast?, List.getLast?_eq_getLast_of_ne_nil hC]
    exact List.length_pos_iff.2 (hne _ (List.mem_cons_of_mem _ (List.getLast_mem hC)))
  have hcl : (c :: C).getLastD [] = C.getLastD [] := by
    cases C with
    | nil => exact absurd rfl hC
    | cons a b => simp
  constructor
  · rintro ⟨ps, hps, hq⟩
    rw [mem_suffixScan] at hq
    obtain ⟨q, h1, h2, h3, h4, h5, rfl⟩ := hq
    obtain ⟨ho, k, l, hk, hb, he⟩ := hm.sound ps hps
    have hhe := ho.head_lt_end hne
    rw [hcl] at hhe
    have hpl := ho.length
    obtain ⟨p, P, rfl⟩ : ∃ n P, ps = n :: P := by
      cases ps with
      | nil => simp at hpl
      | cons a b => exact ⟨a, b, rfl⟩
    have hP : P ≠ [] := by
      intro e; rw [e] at hpl; simp at hpl; exact hC (by simpa using hpl)
    obtain ⟨f1, f2, f3, f4⟩ := line_facts lines k l hk ((p :: P).headD 0) hb (by omega)
    rw [hd, f1, f2] at h3
    rw [List.headD_cons] at *
    rw [endOf_cons _ _ _ _ hC hP] at he hhe
    obtain ⟨n, rfl⟩ : ∃ n : Nat, q = n := ⟨q.toNat, by omega⟩
    simp only [Bool.false_eq_true, if_false, Int.toNat_natCast, List.drop_succ_cons, List.drop_zero] at h5 ⊢
    have hn : p = n + 1 := by simp at h1 h2; omega
    subst hn
    rw [hd] at h5 hw
    rw [data_at lines w sym hw n (by omega)] at h5
    have hl2 : ((n + 1) :: P).getLastD 0 = P.getLastD 0 := by
      cases P with
      | nil => exact absurd rfl hP
      | cons a b => simp
    rw [hl2] at h4
    refine ⟨⟨(occFrom_grow_first _ _ _ _ _).2 ⟨ho, h5⟩, k, l, hk, ?_, ?_⟩, ?_⟩
    · rw [List.headD_cons]; omega
    · rw [endOf_cons _ _ _ _ hC hP]; omega
    · rw [endOf_cons _ _ _ _ hC hP, List.headD_cons]; simp only [endOf]; omega
  · rintro ⟨⟨ho, k, l, hk, hb, he⟩, hsp⟩
    have hql := ho.length
    obtain ⟨n, P, rfl⟩ : ∃ n P, qs = n :: P := by
      cases qs with
      | nil => simp at hql
      | cons a b => exact ⟨a, b, rfl⟩
    have hP : P ≠ [] := by
      intro e; rw [e] at hql; simp at hql; exact hC (by simpa using hql)
    rw [occFrom_grow_first] at ho
    obtain ⟨ho, ht⟩ := ho
    have hhe := ho.head_lt_end hne
    rw [endOf_cons _ _ _ _ hC hP] at he hsp hhe
    rw [hcl] at hhe
    rw [List.headD_cons] at hb hsp hhe
    refine ⟨(n + 1) :: P, hm.complete _ ⟨⟨ho, k, l, hk, by rw [List.headD_cons]; omega,
      by rw [endOf_cons _ _ _ _ hC hP]; exact he⟩, by rw [endOf_cons _ _ _ _ hC hP, List.headD_cons]; omega⟩, ?_⟩
    rw [mem_suffixScan]
    obtain ⟨f1, f2, f3, f4⟩ := line_facts lines k l hk (n + 1) (by omega) (by omega)
    have hl2 : ((n + 1) :: P).getLastD 0 = P.getLastD 0 := by
      cases P with
      | nil => exact absurd rfl hP
      | cons a b => simp
    refine ⟨n, by simp, by simp; omega, ?_, ?_, ?_, by simp⟩
    · rw [List.headD_cons, hd, f1, f2]; omega
    · rw [hl2]; simp only [endOf] at hsp; omega
    · rw [hd] at hw ⊢
      rw [Int.toNat_natCast, data_at lines w sym hw n (by omega)]
      exact ht

theorem occ_words {t : List String} {gap : Nat} : ∀ {cs : List (List String)} {ps : List Nat},
    OccFrom t gap cs ps → ∀ c ∈ cs, ∀ w ∈ c, w ∈ t
  | [c], [p], h, c', hc, w, hw => by
    rw [List.mem_singleton] at hc; subst hc
    exact List.mem_of_mem_drop (h.subset hw)
  | c :: c1 :: cs, p :: q :: ps, h, c', hc, w, hw => by
    rcases List.mem_cons.1 hc with rfl | hc
    · exact List.mem_of_mem_drop (h.1.subset hw)
    · exact occ_words h.2.2 c' hc w hw
  | [], _, h, _, _, _, _ => by simp [OccFrom] at h
  | [c], [], h, _, _, _, _ => by simp [OccFrom] at h
  | [c], _ :: _ :: _, h, _, _, _, _ => by simp [OccFrom] at h
  | _ :: _ :: _, [], h, _, _, _, _ => by simp [OccFrom] at h
  | _ :: _ :: _, [_], h, _, _, _, _ => by simp [OccFrom] at h

/-- A word without a number does not occur. -/
theorem unknown_not_occurs {lines : List (List String)} {w : String}
    (hw : (createDataArray lines).word2id w = none) (gap span : Nat) (cs : List (List String)) (ps : List Nat)
    (c : List String) (hc : c ∈ cs) (hwc : w ∈ c) : ¬ Occurs lines gap span cs ps := by
  intro h
  have hm := occ_words h.1.1 c hc w hwc
  have := (C62_word_ids lines).2 w
  rw [hw] at this
  refine this.2 ?_ rfl
  obtain ⟨l, hl, hx⟩ := List.mem_flatMap.1 hm
  rcases List.mem_append.1 hx with hx | hx
  · exact Or.inr (Or.inr ⟨l, hl, hx⟩)
  · exact Or.inr (Or.inl (List.mem_singleton.1 hx))

/-- The words of the chunks of a phrase. -/
def Intersector.wordChunks (I : Intersector) (s : List Int) : List (List String) := (chunks s).map (·.map I.terminal)

/-- The location stands for a list of matches of the phrase, stored with one position per chunk. -/
structure Intersector.Holds (I : Intersector) (lines : List (List String)) (s : List Int) (l : PhraseLocation) : Prop where
  isMatches : Matches lines I.gap I.span (I.wordChunks s) (I.matchesOf l)
  num : I.matchesOf l ≠ [] → (I.extendLocation l).2 = (chunks s).length

/-- All matches are within the span limit. -/
def Intersector.Exact (I : Intersector) (lines : List (List String)) (s : List Int) (l : PhraseLocation) : Prop :=
  I.Holds lines s l ∧ ∀ ps, ps ∈ I.matchesOf l ↔ Occurs lines I.gap I.span (I.wordChunks s) ps

theorem exact_of_found {I : Intersector} {lines : List (List String)} {s : List Int} (found : List (List Nat))
    (h : ∀ ps, ps ∈ found ↔ Occurs lines I.gap I.span (I.wordChunks s) ps) (hn : found.Nodup) :
    I.Exact lines s (.ofMatchings found.flatten ((buildPhrase s).arity + 1)) := by
  have hlen : ∀ t ∈ found, t.length = (buildPhrase s).arity + 1 := by
    intro t ht
    rw [((h t).1 ht).1.1.length, Intersector.wordChunks, List.length_map, arity_eq]
  have e := matchesOf_flatten I found ((buildPhrase s).arity + 1) (by omega) hlen
  refine ⟨⟨⟨?_, ?_, ?_⟩, ?_⟩, ?_⟩
  · intro ps hps; rw [e] at hps; exact ((h ps).1 hps).1
  · intro ps hps; rw [e]; exact (h ps).2 hps
  · rw [e]; exact hn
  · intro _; rw [← arity_eq]; rfl
  · intro ps; rw [e]; exact h ps

theorem exact_of_none {I : Intersector} {lines : List (List String)} {s : List Int} (num : Nat)
    (h : ∀ ps, ¬ Occurs lines I.gap I.span (I.wordChunks s) ps) : I.Exact lines s (.ofMatchings [] num) := by
  have e : I.matchesOf (.ofMatchings [] num) = [] := by
    simp [Intersector.matchesOf, Intersector.extendLocation, PhraseLocation.ofMatchings, slices]
  refine ⟨⟨⟨?_, ?_, ?_⟩, ?_⟩, ?_⟩
  · intro ps hps; rw [e] at hps; cases hps
  · intro ps hps; exact absurd hps (h ps)
  · rw [e]; exact List.nodup_nil
  · intro hne; exact absurd e hne
  · intro ps; rw [e]; simp [h ps]

theorem matches_nil_of {I : Intersector} {l : PhraseLocation} : I.matchesOf l =
    slices (I.extendLocation l).2 (I.extendLocation l).1.length (I.extendLocation l).1 := rfl

/-- Extending a prefix is exact. -/
theorem extendPrefix_exact {lines : List (List String)} {I : Intersector} (hd : I.d = createDataArray lines)
    (u : List Int) (w : Int) (hw : 0 ≤ w) (har : 2 ≤ (chunks (u ++ [w])).length)
    (hne : ∀ c ∈ chunks (u ++ [w]), c ≠ []) (l : PhraseLocation)
    (hl : I.Holds lines (prefixPart (u ++ [w])) l) :
    I.Exact lines (u ++ [w]) (I.extendPrefix l (buildPhrase (u ++ [w]))
      (!isTerminal ((u ++ [w]).getD ((u ++ [w]).length - 2) 0)) w) := by
  obtain ⟨v, y, rfl⟩ : ∃ v y, u = v ++ [y] := by
    have : u ≠ [] := by
      intro e; subst e
      rw [List.nil_append, chunks_cons_term hw] at har; simp [chunks] at har
    exact ⟨u.dropLast, u.getLast this, (List.dropLast_append_getLast this).symm⟩
  have hgy : (v ++ [y] ++ [w]).getD ((v ++ [y] ++ [w]).length - 2) 0 = y := by
    simp [List.getD_eq_getElem?_getD]
  have har' := arity_eq (v ++ [y] ++ [w])
  have hwc : ∃ c ∈ I.wordChunks (v ++ [y] ++ [w]), I.terminal w ∈ c := by
    refine ⟨((chunks (v ++ [y])).getLastD [] ++ [w]).map I.terminal, ?_, by simp⟩
    rw [Intersector.wordChunks, chunks_snoc_term hw]; simp
  have hpp : prefixPart (v ++ [y] ++ [w]) = if y < 0 then v else v ++ [y] := by
    simp [prefixPart]
  rw [hpp] at hl
  rw [hgy]
  cases hsym : I.d.word2id (I.terminal w) with
  | none =>
    simp only [Intersector.extendPrefix, hsym]
    obtain ⟨c, hc, hcw⟩ := hwc
    rw [hd] at hsym
    exact exact_of_none _ (fun ps => unknown_not_occurs hsym _ _ _ ps c hc hcw)
  | some sym =>
    simp only [Intersector.extendPrefix, hsym]
    change I.Exact lines _ (.ofMatchings (List.flatten ((I.matchesOf l).flatMap _)) _)
    by_cases hy : y < 0
    · rw [if_pos hy] at hl
      have hx : (!isTerminal y) = true := by simp [isTerminal, hy]
      have hch : chunks (v ++ [y] ++ [w]) = chunks v ++ [[w]] := by
        rw [chunks_snoc_term hw, chunks_snoc_nt hy]; simp
      have hcs : I.wordChunks (v ++ [y] ++ [w]) = I.wordChunks v ++ [[I.terminal w]] := by
        rw [Intersector.wordChunks, hch]; simp [Intersector.wordChunks]
      have hcne : I.wordChunks v ≠ [] := by
        intro e; rw [Intersector.wordChunks, List.map_eq_nil_iff] at e; exact chunks_ne_nil v e
      have hne' : ∀ c ∈ I.wordChunks v, c ≠ [] := by
        intro c hc e
        obtain ⟨c', hc', rfl⟩ := List.mem_map.1 hc
        rw [List.map_eq_nil_iff] at e
        exact hne c' (by rw [hch]; exact List.mem_append_left _ hc') e
      have hcl : (buildPhrase (v ++ [y] ++ [w])).getChunkLen ((buildPhrase (v ++ [y] ++ [w])).arity - 1) =
          ((I.wordChunks v).getLastD []).length := by
        have hlen := congrArg List.length hch
        rw [List.length_append, List.length_singleton] at hlen
        have h0 : 0 < (chunks v).length := List.length_pos_iff.2 (chunks_ne_nil v)
        rw [chunkLen_eq _ _ (by omega), hch, List.getD_eq_getElem?_getD, List.getElem?_append_left (by omega),
          Intersector.wordChunks, List.getLastD_eq_getLast?, List.getLast?_map, List.getLast?_eq_getElem?,
          show (buildPhrase (v ++ [y] ++ [w])).arity - 1 = (chunks v).length - 1 from by omega]
        cases (chunks v)[(chunks v).length - 1]? <;> simp
      refine exact_of_found _ ?_ ?_
      · intro qs
        rw [hcs, ← prefix_gap hd hl.isMatches hcne hne' hsym, List.mem_flatMap]
        refine exists_congr fun ps => and_congr_right fun hps => ?_
        have hnum : (I.extendLocation l).2 = ps.length := by
          rw [(hl.isMatches.sound ps hps).1.length, Intersector.wordChunks, List.length_map]
          exact hl.num (List.ne_nil_of_mem hps)
        rw [hx, getD_last ps _ hnum]
        simp only [Intersector.searchRange, if_true, hcl]
      · rw [List.nodup_flatMap]
        refine ⟨fun ps hps => ?_, ?_⟩
        · rw [hx]; refine nodup_prefixScan I true _ _ _ _ _ ?_ (Or.inl rfl)
          simp only [Intersector.searchRange, if_true]; omega
        · refine hl.isMatches.nodup.imp ?_
          intro a b hab
          simp only [Function.onFun, List.disjoint_left]
          intro q hq hq'
          rw [mem_prefixScan] at hq hq'
          obtain ⟨_, _, _, _, _, _, e1⟩ := hq
          obtain ⟨_, _, _, _, _, _, e2⟩ := hq'
          rw [e1, hx] at e2
          simp only [if_true] at e2
          exact hab (List.append_inj_left' e2 rfl)
    · rw [if_neg hy] at hl
      have hx : (!isTerminal y) = false := by simp [isTerminal]; omega
      have hch : chunks (v ++ [y] ++ [w]) = (chunks (v ++ [y])).dropLast ++ [(chunks (v ++ [y])).getLastD [] ++ [w]] :=
        chunks_snoc_term hw _
      have hch2 := chunks_snoc_term (Int.not_lt.1 hy) v
      have hcv : chunks (v ++ [y]) = (chunks (v ++ [y])).dropLast ++ [(chunks (v ++ [y])).getLastD []] := by
        rw [hch2]; simp
      have hcs : I.wordChunks (v ++ [y] ++ [w]) = ((chunks (v ++ [y])).dropLast).map (·.map I.terminal) ++
          [((chunks (v ++ [y])).getLastD []).map I.terminal ++ [I.terminal w]] := by
        rw [Intersector.wordChunks, hch]; simp
      have hcs2 : I.wordChunks (v ++ [y]) = ((chunks (v ++ [y])).dropLast).map (·.map I.terminal) ++
          [((chunks (v ++ [y])).getLastD []).map I.terminal] := by
        rw [Intersector.wordChunks]
        conv_lhs => rw [hcv]
        simp
      have hm := hl.isMatches
      rw [hcs2] at hm
      have hne' : ∀ c' ∈ ((chunks (v ++ [y])).dropLast).map (·.map I.terminal) ++
          [((chunks (v ++ [y])).getLastD []).map I.terminal], c' ≠ [] := by
        intro c hc e
        rcases List.mem_append.1 hc with hc | hc
        · obtain ⟨c', hc', rfl⟩ := List.mem_map.1 hc
          rw [List.map_eq_nil_iff] at e
          exact hne c' (by rw [hch]; exact List.mem_append_left _ hc') e
        · rw [List.mem_singleton] at hc
          rw [hc, List.map_eq_nil_iff, hch2] at e
          simp at e
      have hcl : (buildPhrase (v ++ [y] ++ [w])).getChunkLen ((buildPhrase (v ++ [y] ++ [w])).arity) =
          (((chunks (v ++ [y])).getLastD []).map I.terminal ++ [I.terminal w]).length := by
        have hlen := congrArg List.length hch
        rw [List.length_append, List.length_singleton] at hlen
        rw [chunkLen_eq _ _ (by omega), hch, List.getD_eq_getElem?_getD, List.getElem?_append_right (by omega),
          show (buildPhrase (v ++ [y] ++ [w])).arity - (chunks (v ++ [y])).dropLast.length = 0 from by omega]
        simp
      refine exact_of_found _ ?_ ?_
      · intro qs
        rw [hcs, ← prefix_next hd hm hne' hsym, List.mem_flatMap]
        refine exists_congr fun ps => and_congr_right fun hps => ?_
        have hnum : (I.extendLocation l).2 = ps.length := by
          rw [(hl.isMatches.sound ps hps).1.length, Intersector.wordChunks, List.length_map]
          exact hl.num (List.ne_nil_of_mem hps)
        rw [hx, getD_last ps _ hnum]
        simp only [Intersector.searchRange, hcl, Bool.false_eq_true, if_false]
      · rw [List.nodup_flatMap]
        refine ⟨fun ps hps => ?_, ?_⟩
        · rw [hx]; refine nodup_prefixScan I false _ _ _ _ _ ?_ (Or.inr (by simp [Intersector.searchRange]))
          simp only [Intersector.searchRange, hcl, Bool.false_eq_true, if_false, List.length_append,
            List.length_singleton]
          push_cast; omega
        · refine hl.isMatches.nodup.imp ?_
          intro a b hab
          simp only [Function.onFun, List.disjoint_left]
          intro q hq hq'
          rw [mem_prefixScan] at hq hq'
          obtain ⟨_, _, _, _, _, _, e1⟩ := hq
          obtain ⟨_, _, _, _, _, _, e2⟩ := hq'
          rw [e1, hx] at e2
          simp only [Bool.false_eq_true, if_false, List.append_nil] at e2
          exact hab e2

/-- Extending a suffix is exact. -/
theorem extendSuffix_exact {lines : List (List String)} {I : Intersector} (hd : I.d = createDataArray lines)
    (u : List Int) (w : Int) (hw : 0 ≤ w) (har : 2 ≤ (chunks (w :: u)).length)
    (hne : ∀ c ∈ chunks (w :: u), c ≠ []) (l : PhraseLocation)
    (hl : I.Holds lines (suffixPart (w :: u)) l) :
    I.Exact lines (w :: u) (I.extendSuffix l (buildPhrase (w :: u)) (!isTerminal ((w :: u).getD 1 0)) w) := by
  obtain ⟨y, v, rfl⟩ : ∃ y v, u = y :: v := by
    cases u with
    | nil => rw [chunks_cons_term hw] at har; simp [chunks] at har
    | cons y v => exact ⟨y, v, rfl⟩
  have hgy : (w :: y :: v).getD 1 0 = y := rfl
  have har' := arity_eq (w :: y :: v)
  have hwc : ∃ c ∈ I.wordChunks (w :: y :: v), I.terminal w ∈ c := by
    refine ⟨(w :: (chunks (y :: v)).headD []).map I.terminal, ?_, by simp⟩
    rw [Intersector.wordChunks, chunks_cons_term hw]; simp
  have hpp : suffixPart (w :: y :: v) = if y < 0 then v else y :: v := by simp [suffixPart]
  rw [hpp] at hl
  rw [hgy]
  cases hsym : I.d.word2id (I.terminal w) with
  | none =>
    simp only [Intersector.extendSuffix, hsym]
    obtain ⟨c, hc, hcw⟩ := hwc
    rw [hd] at hsym
    exact exact_of_none _ (fun ps => unknown_not_occurs hsym _ _ _ ps c hc hcw)
  | some sym =>
    simp only [Intersector.extendSuffix, hsym]
    change I.Exact lines _ (.ofMatchings (List.flatten ((I.matchesOf l).flatMap _)) _)
    by_cases hy : y < 0
    · rw [if_pos hy] at hl
      have hx : (!isTerminal y) = true := by simp [isTerminal, hy]
      have hch : chunks (w :: y :: v) = [w] :: chunks v := by
        rw [chunks_cons_term hw, chunks_cons_nt hy]; simp
      have hcs : I.wordChunks (w :: y :: v) = [I.terminal w] :: I.wordChunks v := by
        rw [Intersector.wordChunks, hch]; simp [Intersector.wordChunks]
      have hcne : I.wordChunks v ≠ [] := by
        intro e; rw [Intersector.wordChunks, List.map_eq_nil_iff] at e; exact chunks_ne_nil v e
      have hne' : ∀ c ∈ I.wordChunks v, c ≠ [] := by
        intro c hc e
        obtain ⟨c', hc', rfl⟩ := List.mem_map.1 hc
        rw [List.map_eq_nil_iff] at e
        exact hne c' (by rw [hch]; exact List.mem_cons_of_mem _ hc') e
      have hcl : (buildPhrase (w :: y :: v)).getChunkLen ((buildPhrase (w :: y :: v)).arity) =
          ((I.wordChunks v).getLastD []).length := by
        have hlen := congrArg List.length hch
        rw [List.length_cons] at hlen
        have h0 : 0 < (chunks v).length := List.length_pos_iff.2 (chunks_ne_nil v)
        rw [chunkLen_eq _ _ (by omega), hch, List.getD_eq_getElem?_getD,
          Intersector.wordChunks, List.getLastD_eq_getLast?, List.getLast?_map, List.getLast?_eq_getElem?,
          show (buildPhrase (w :: y :: v)).arity = ((chunks v).length - 1) + 1 from by omega,
          List.getElem?_cons_succ]
        cases (chunks v)[(chunks v).length - 1]? <;> simp
      refine exact_of_found _ ?_ ?_
      · intro qs
        rw [hcs, ← suffix_gap hd hl.isMatches hcne hne' hsym, List.mem_flatMap]
        refine exists_congr fun ps => and_congr_right fun hps => ?_
        have hnum : (I.extendLocation l).2 = ps.length := by
          rw [(hl.isMatches.sound ps hps).1.length, Intersector.wordChunks, List.length_map]
          exact hl.num (List.ne_nil_of_mem hps)
        rw [hx, getD_last ps _ hnum]
        simp only [Intersector.searchRange, if_true, hcl]
      · rw [List.nodup_flatMap]
        refine ⟨fun ps hps => nodup_suffixScan .., ?_⟩
        refine hl.isMatches.nodup.imp ?_
        intro a b hab
        simp only [Function.onFun, List.disjoint_left]
        intro q hq hq'
        rw [mem_suffixScan] at hq hq'
        obtain ⟨_, _, _, _, _, _, e1⟩ := hq
        obtain ⟨_, _, _, _, _, _, e2⟩ := hq'
        rw [e1, hx] at e2
        simp only [if_true, List.drop_zero, List.cons.injEq] at e2
        exact hab e2.2
    · rw [if_neg hy] at hl
      have hx : (!isTerminal y) = false := by simp [isTerminal]; omega
      have hch : chunks (w :: y :: v) = (w :: (chunks (y :: v)).headD []) :: (chunks (y :: v)).tail :=
        chunks_cons_term hw _
      have hch2 := chunks_cons_term (Int.not_lt.1 hy) v
      have hcv := cons_of_chunks (y :: v)
      have hcs : I.wordChunks (w :: y :: v) = (I.terminal w :: ((chunks (y :: v)).headD []).map I.terminal) ::
          (chunks (y :: v)).tail.map (·.map I.terminal) := by
        rw [Intersector.wordChunks, hch]; simp
      have hcs2 : I.wordChunks (y :: v) = (((chunks (y :: v)).headD []).map I.terminal) ::
          (chunks (y :: v)).tail.map (·.map I.terminal) := by
        rw [Intersector.wordChunks]
        conv_lhs => rw [hcv]
        simp
      have hm := hl.isMatches
      rw [hcs2] at hm
      have hlen := congrArg List.length hch
      rw [List.length_cons] at hlen
      have hC : (chunks (y :: v)).tail.map (·.map I.terminal) ≠ [] := by
        intro e
        rw [List.map_eq_nil_iff] at e
        rw [e] at hlen
        simp at hlen; omega
      have hne' : ∀ c' ∈ (((chunks (y :: v)).headD []).map I.terminal) ::
          (chunks (y :: v)).tail.map (·.map I.terminal), c' ≠ [] := by
        intro c hc e
        rcases List.mem_cons.1 hc with hc | hc
        · rw [hc, List.map_eq_nil_iff, hch2] at e
          simp at e
        · obtain ⟨c', hc', rfl⟩ := List.mem_map.1 hc
          rw [List.map_eq_nil_iff] at e
          exact hne c' (by rw [hch]; exact List.mem_cons_of_mem _ hc') e
      have hcl : (buildPhrase (w :: y :: v)).getChunkLen ((buildPhrase (w :: y :: v)).arity) =
          (((chunks (y :: v)).tail.map (·.map I.terminal)).getLastD []).length := by
        have h0 : 0 < (chunks (y :: v)).tail.length := by omega
        rw [chunkLen_eq _ _ (by omega), hch, List.getD_eq_getElem?_getD,
          List.getLastD_eq_getLast?, List.getLast?_map, List.getLast?_eq_getElem?,
          show (buildPhrase (w :: y :: v)).arity = ((chunks (y :: v)).tail.length - 1) + 1 from by omega,
          List.getElem?_cons_succ]
        cases (chunks (y :: v)).tail[(chunks (y :: v)).tail.length - 1]? <;> simp
      refine exact_of_found _ ?_ ?_
      · intro qs
        rw [hcs, ← suffix_next hd hm hC hne' hsym, List.mem_flatMap]
        refine exists_congr fun ps => and_congr_right fun hps => ?_
        have hnum : (I.extendLocation l).2 = ps.length := by
          rw [(hl.isMatches.sound ps hps).1.length, Intersector.wordChunks, List.length_map]
          exact hl.num (List.ne_nil_of_mem hps)
        rw [hx, getD_last ps _ hnum]
        simp only [Intersector.searchRange, hcl, Bool.false_eq_true, if_false]
      · rw [List.nodup_flatMap]
        refine ⟨fun ps hps => nodup_suffixScan .., ?_⟩
        refine hl.isMatches.nodup.imp_of_mem ?_
        intro a b ha hb hab
        simp only [Function.onFun, List.disjoint_left]
        intro q hq hq'
        rw [mem_suffixScan] at hq hq'
        obtain ⟨q1, h1, h2, h3, _, _, e1⟩ := hq
        obtain ⟨q2, h4, h5, h6, _, _, e2⟩ := hq'
        have la := (hm.sound a ha).1.length
        have lb := (hm.sound b hb).1.length
        rw [e1, hx] at e2
        simp only [Bool.false_eq_true, if_false, List.cons.injEq] at e2
        rw [hx] at h1 h2 h4 h5
        simp only [Intersector.searchRange, Bool.false_eq_true, if_false] at h1 h2 h4 h5
        cases a with
        | nil => simp at la
        | cons a0 a =>
          cases b with
          | nil => simp at lb
          | cons b0 b =>
            simp only [List.headD_cons, List.drop_succ_cons, List.drop_zero] at *
            exact hab (by rw [e2.2]; congr 1; omega)

theorem getLastD_snoc (u : List Int) (w : Int) : (u ++ [w]).getLastD 0 = w := by simp

/-- For every corpus, gap and span limits and phrase whose chunks are nonempty: given locations holding the matches
of the phrase without its last word and without its first word, and precomputed collocations that are exact where
they exist, the intersector returns exactly the occurrences of the phrase inside one line, with at least the minimum
gap and at most the maximum span, each once, and the result is again a valid location. -/
theorem C42_intersect (lines : List (List String)) (I : Intersector) (hd : I.d = createDataArray lines)
    (s : List Int) (har : 2 ≤ (chunks s).length) (hne : ∀ c ∈ chunks s, c ≠ []) (preLoc sufLoc : PhraseLocation)
    (hp : I.Holds lines (prefixPart s) preLoc) (hs : I.Holds lines (suffixPart s) sufLoc)
    (hpre : ∀ m, I.pre s = some m → I.Exact lines s (.ofMatchings m ((buildPhrase s).arity + 1))) :
    I.Holds lines s (I.intersect preLoc sufLoc (buildPhrase s)) ∧
    ∀ ps, ps ∈ I.matchesOf (I.intersect preLoc sufLoc (buildPhrase s)) ↔
      Occurs lines I.gap I.span (I.wordChunks s) ps := by
  change I.Exact lines s _
  have hlast : ∃ u w, s = u ++ [w] ∧ 0 ≤ w := by
    have hs0 : s ≠ [] := by intro e; subst e; simp [chunks] at har
    refine ⟨s.dropLast, s.getLast hs0, (List.dropLast_append_getLast hs0).symm, ?_⟩
    by_contra hneg
    have := chunks_snoc_nt (Int.not_le.1 hneg) s.dropLast
    rw [List.dropLast_append_getLast hs0] at this
    exact hne [] (by rw [this]; simp) rfl
  have hfirst : ∃ w u, s = w :: u ∧ 0 ≤ w := by
    cases s with
    | nil => simp [chunks] at har
    | cons w u =>
      refine ⟨w, u, rfl, ?_⟩
      by_contra hneg
      have := chunks_cons_nt (Int.not_le.1 hneg) u
      exact hne [] (by rw [this]; simp) rfl
  unfold Intersector.intersect
  have hsy : (buildPhrase s).symbols = s := rfl
  simp only [hsy]
  cases hpc : I.pre s with
  | some m => exact hpre m hpc
  | none =>
    simp only []
    by_cases hest : I.estimate preLoc (!isTerminal (s.getD (s.length - 2) 0)) ≤
        I.estimate sufLoc (!isTerminal (s.getD 1 0))
    · rw [if_pos hest]
      obtain ⟨u, w, rfl, hw⟩ := hlast
      rw [getLastD_snoc]
      exact extendPrefix_exact hd u w hw har hne preLoc hp
    · rw [if_neg hest]
      obtain ⟨w, u, rfl, hw⟩ := hfirst
      exact extendSuffix_exact hd u w hw har hne sufLoc hs

theorem exists_line : ∀ (lines : List (List String)) (p : Nat), p < (text lines).length →
    ∃ k l, lines[k]? = some l ∧ lineStart lines k ≤ p ∧ p ≤ lineStart lines k + l.length ∧
      (text lines)[lineStart lines k + l.length]? = some "__END_OF_LINE__"
  | [], p, h => by simp [text] at h
  | l :: ls, p, h => by
    have e : text (l :: ls) = l ++ ["__END_OF_LINE__"] ++ text ls := by simp [text]
    by_cases hp : p ≤ l.length
    · refine ⟨0, l, rfl, ?_, ?_, ?_⟩
      · simp [lineStart, text]
      · simp [lineStart, text]; omega
      · rw [e]; simp [lineStart, text]
    · have hl := congrArg List.length e
      simp only [List.length_append, List.length_singleton] at hl
      obtain ⟨k, l', h1, h2, h3, h4⟩ := exists_line ls (p - (l.length + 1)) (by omega)
      have hst : lineStart (l :: ls) (k + 1) = l.length + 1 + lineStart ls k := by
        simp [lineStart, text]; omega
      refine ⟨k + 1, l', h1, by omega, by omega, ?_⟩
      rw [hst, e, List.getElem?_append_right (by simp; omega)]
      rw [← h4]; congr 1; simp; omega

/-- A contiguous phrase of ordinary words: the suffix-array range found by looking it up is a valid location. -/
theorem C42_contiguous (lines : List (List String)) (hnull : ∀ l ∈ lines, "__NULL__" ∉ l) (rnd : Nat → Nat)
    (I : Intersector) (hd : I.d = createDataArray lines)
    (hsa : buildSuffixArray I.d.data I.d.id2word.length rnd = some I.sa)
    (s : List Int) (hs : s ≠ []) (hterm : ∀ x ∈ s, 0 ≤ x)
    (hn : ∀ x ∈ s, I.terminal x ≠ "__NULL__" ∧ I.terminal x ≠ "__END_OF_LINE__") :
    I.Holds lines s (.ofRange (findPhrase I.d.data I.sa (s.map (I.d.word2id ∘ I.terminal))).1
      (findPhrase I.d.data I.sa (s.map (I.d.word2id ∘ I.terminal))).2) := by
  have hch : chunks s = [s] := by
    have : ∀ s : List Int, (∀ x ∈ s, 0 ≤ x) → chunks s = [s] := by
      intro s
      induction s with
      | nil => intro _; rfl
      | cons a s ih =>
        intro h
        rw [chunks_cons_term (h a List.mem_cons_self), ih (fun x hx => h x (List.mem_cons_of_mem _ hx))]; rfl
    exact this s hterm
  have hwc : I.wordChunks s = [s.map I.terminal] := by rw [Intersector.wordChunks, hch]; rfl
  rw [hd] at hsa
  have key := C39_lookup lines hnull rnd I.sa hsa (s.map I.terminal) (by simpa using hs) (by
    intro h; obtain ⟨x, hx, e⟩ := List.mem_map.1 h; exact (hn x hx).1 e)
  rw [List.map_map, ← hd] at key
  have sok := saok_of_build hnull hsa
  rw [← hd] at sok
  generalize findPhrase I.d.data I.sa (s.map (I.d.word2id ∘ I.terminal)) = loc at key
  obtain ⟨k1, k2, k3⟩ := key
  have hms : I.matchesOf (.ofRange loc.1 loc.2) =
      (List.range' loc.1 (loc.2 - loc.1)).map fun i => [I.sa.sa.getD i 0] := by
    simp only [Intersector.matchesOf, Intersector.extendLocation, PhraseLocation.ofRange]
    have : ((List.range' loc.1 (loc.2 - loc.1)).map fun i => I.sa.sa.getD i 0) =
        ((List.range' loc.1 (loc.2 - loc.1)).map fun i => [I.sa.sa.getD i 0]).flatten := by
      rw [← List.flatMap_def, List.map_eq_flatMap]
    rw [this]
    refine slices_flatten 1 (by omega) _ _ ?_ (Nat.le_refl _)
    intro t ht
    obtain ⟨_, _, rfl⟩ := List.mem_map.1 ht
    rfl
  have hmem : ∀ ps, ps ∈ I.matchesOf (.ofRange loc.1 loc.2) ↔
      ∃ p, ps = [p] ∧ (s.map I.terminal) <+: (text lines).drop p := by
    intro ps
    rw [hms, List.mem_map]
    constructor
    · rintro ⟨r, hr, rfl⟩
      rw [List.mem_range'_1] at hr
      refine ⟨_, rfl, (k3 _).1 ⟨r, by omega, by omega, ?_⟩⟩
      rw [List.getD_eq_getElem?_getD, List.getElem?_eq_getElem (by omega)]; rfl
    · rintro ⟨p, rfl, h⟩
      obtain ⟨r, h1, h2, h3⟩ := (k3 p).2 h
      refine ⟨r, List.mem_range'_1.2 ⟨h1, by omega⟩, ?_⟩
      rw [List.getD_eq_getElem?_getD, h3]; rfl
  refine ⟨⟨?_, ?_, ?_⟩, ?_⟩
  · intro ps hps
    obtain ⟨p, rfl, hpp⟩ := (hmem ps).1 hps
    rw [hwc]
    refine ⟨hpp, ?_⟩
    have hlen : (s.map I.terminal).length ≤ (text lines).length - p := by
      have := hpp.length_le; rwa [List.length_drop] at this
    have hpos : 0 < (s.map I.terminal).length := by rw [List.length_map]; exact List.length_pos_iff.2 hs
    obtain ⟨k, l, h1, h2, h3, h4⟩ := exists_line lines p (by omega)
    refine ⟨k, l, h1, h2, ?_⟩
    simp only [endOf, List.getLastD_cons, List.getLastD_nil]
    by_contra hc
    obtain ⟨rest, hr⟩ := hpp
    have h5 : (s.map I.terminal)[lineStart lines k + l.length - p]? = some "__END_OF_LINE__" := by
      rw [← h4]
      have := congrArg (fun x : List String => x[lineStart lines k + l.length - p]?) hr
      simp only [List.getElem?_drop] at this
      rw [List.getElem?_append_left (by omega)] at this
      rw [this]; congr 1; omega
    obtain ⟨x, hx, e⟩ := List.mem_map.1 (List.mem_of_getElem? h5)
    exact (hn x hx).2 e
  · intro ps hps
    rw [hwc] at hps
    have hpl := hps.1.1.length
    match ps, hpl with
    | [p], _ => exact (hmem _).2 ⟨p, rfl, hps.1.1⟩
  · rw [hms]
    rw [List.nodup_map_iff_inj_on List.nodup_range']
    intro a ha b hb hab
    rw [List.mem_range'_1] at ha hb
    simp only [List.cons.injEq, and_true, List.getD_eq_getElem?_getD] at hab
    rw [List.getElem?_eq_getElem (by omega), List.getElem?_eq_getElem (by omega)] at hab
    exact (List.Nodup.getElem_inj_iff (sok.perm.nodup_iff.2 List.nodup_range)).1 hab
  · intro _; rw [hch]; rfl

/-- Locations as the rule factory obtains them: contiguous phrases by lookup, others by intersecting the locations of
their prefix and suffix. -/
inductive Intersector.Located (I : Intersector) : List Int → PhraseLocation → Prop
  | contiguous (s : List Int) (hs : s ≠ []) (ht : ∀ x ∈ s, 0 ≤ x) :
    I.Located s (.ofRange (findPhrase I.d.data I.sa (s.map (I.d.word2id ∘ I.terminal))).1
      (findPhrase I.d.data I.sa (s.map (I.d.word2id ∘ I.terminal))).2)
  | intersect (s : List Int) (har : 2 ≤ (chunks s).length) (hne : ∀ c ∈ chunks s, c ≠ []) (p q : PhraseLocation) :
    I.Located (prefixPart s) p → I.Located (suffixPart s) q → I.Located s (I.intersect p q (buildPhrase s))

/-- However a discontiguous phrase is assembled, its location holds exactly its occurrences. -/
theorem C42_located (lines : List (List String)) (hnull : ∀ l ∈ lines, "__NULL__" ∉ l) (rnd : Nat → Nat)
    (I : Intersector) (hd : I.d = createDataArray lines)
    (hsa : buildSuffixArray I.d.data I.d.id2word.length rnd = some I.sa)
    (hn : ∀ x, I.terminal x ≠ "__NULL__" ∧ I.terminal x ≠ "__END_OF_LINE__")
    (hpre : ∀ s m, I.pre s = some m → I.Exact lines s (.ofMatchings m ((buildPhrase s).arity + 1)))
    (s : List Int) (har : 2 ≤ (chunks s).length) (l : PhraseLocation) (h : I.Located s l) :
    (I.matchesOf l).Nodup ∧
    ∀ ps, ps ∈ I.matchesOf l ↔ Occurs lines I.gap I.span (I.wordChunks s) ps := by
  have all : ∀ s l, I.Located s l → I.Holds lines s l := by
    intro s l h
    induction h with
    | contiguous s hs ht => exact C42_contiguous lines hnull rnd I hd hsa s hs ht (fun x _ => hn x)
    | intersect s har hne p q _ _ ih1 ih2 => exact (C42_intersect lines I hd s har hne p q ih1 ih2 (hpre s)).1
  cases h with
  | contiguous s hs ht =>
    have : chunks s = [s] := by
      have : ∀ s : List Int, (∀ x ∈ s, 0 ≤ x) → chunks s = [s] := by
        intro s
        induction s with
        | nil => intro _; rfl
        | cons a s ih =>
          intro h
          rw [chunks_cons_term (h a List.mem_cons_self), ih (fun x hx => h x (List.mem_cons_of_mem _ hx))]; rfl
      exact this s ht
    rw [this] at har; simp at har
  | intersect s har hne p q hp hq =>
    have := C42_intersect lines I hd s har hne p q (all _ _ hp) (all _ _ hq) (hpre s)
    exact ⟨this.1.isMatches.nodup, this.2⟩

/-- A corpus with the phrases `a X c` and `a X c d`. -/
def exampleIntersector : Intersector where
  d := createDataArray [["a", "b", "c", "d", "c", "d"], ["a", "c", "d"]]
  sa := (buildSuffixArray (createDataArray [["a", "b", "c", "d", "c", "d"], ["a", "c", "d"]]).data
    (createDataArray [["a", "b", "c", "d", "c", "d"], ["a", "c", "d"]]).id2word.length (fun _ => 0)).getD ⟨[], []⟩
  terminal := fun i => if i = 1 then "a" else if i = 2 then "c" else "d"
  pre := fun _ => none
  span := 6
  gap := 1

example : chunks [1, -1, 2, 3] = [[1], [2, 3]] ∧ prefixPart [1, -1, 2, 3] = [1, -1, 2] ∧
    suffixPart [1, -1, 2, 3] = [2, 3] ∧ prefixPart [1, -1, 2] = [1] ∧ suffixPart [1, -1, 2] = [2] := by decide

example :
    let I := exampleIntersector
    let find := fun s : List Int => PhraseLocation.ofRange (findPhrase I.d.data I.sa (s.map (I.d.word2id ∘ I.terminal))).1
      (findPhrase I.d.data I.sa (s.map (I.d.word2id ∘ I.terminal))).2
    let axc := I.intersect (find [1]) (find [2]) (buildPhrase [1, -1, 2])
    I.matchesOf axc = [[0, 2], [0, 4]] ∧
    I.matchesOf (I.intersect axc (find [2, 3]) (buildPhrase [1, -1, 2, 3])) = [[0, 2], [0, 4]] ∧
    I.matchesOf (find [1]) = [[0], [7]] := by decide +kernel

end Cdec.Extract
