import Verif.Extract.RuleComplete
/-!
# C74: Rules extracted from an occurrence are consistent with the alignment, and the rules for the occurrence itself are all extracted
-/
namespace Cdec.Extract
open Spec RuleSpec

theorem occurs_cons {src : List Int} {mg : Int} {phrase : List Int} {ms : List (Nat × Nat)} (h : Occurs src mg phrase ms) : ∃ m c ms', ms = (m, c) :: ms' := by
  cases h <;> exact ⟨_, _, _, rfl⟩

theorem occGaps_eq : ∀ ms : List (Nat × Nat), occGaps ms = natGaps ms
  | [] => rfl
  | [_] => rfl
  | (m, c) :: (m', c') :: ms => by
    rw [natGaps, ← occGaps_eq ((m', c') :: ms)]
    rfl

theorem shape_renumber : ∀ (l : List Int) (k : Nat), shape (renumber k l) = shape l
  | [], _ => rfl
  | s :: l, k => by
    rw [renumber]
    split
    · rename_i h
      have h1 : -((k : Int) + 1) < 0 := by omega
      have := shape_renumber l (k + 1)
      unfold shape at this ⊢
      rw [List.map_cons, List.map_cons, this, if_pos h, if_pos h1]
    · have := shape_renumber l k
      unfold shape at this ⊢
      rw [List.map_cons, List.map_cons, this]

theorem shape_extend (phrase : List Int) (L R : Bool) :
    shape (extendPhrase phrase L R) = (if L then [none] else []) ++ shape phrase ++ if R then [none] else [] := by
  have happ : ∀ a b : List Int, shape (a ++ b) = shape a ++ shape b := fun a b => List.map_append
  unfold extendPhrase
  rw [happ, happ, shape_renumber]
  congr 1
  · congr 1
    cases L <;> rfl
  · cases R
    · rfl
    · simp only [if_true]
      unfold shape
      rw [List.map_cons, List.map_nil, if_pos (by omega)]

/-- Extraction from an occurrence of a phrase within the limits is defined, and each extracted rule consists of a source span and a target span, with gaps numbered alike
on both sides, such that no alignment link leaves the two spans or a source gap with its target gap, there is a link in each pair and, with tight
phrases, the words at their edges are aligned.  The two sides of the rule are the words of the spans with nonterminals for the gaps, and its alignment is
the links between these words.  The words of the source side are those of the occurrence, the source side is the phrase with perhaps a nonterminal at
either end, and the rule respects the limits.  If aligned words are required, the occurrence has them. -/
theorem C74_sound (E : XEnv) (hE : ∀ l ∈ E.links, l.1 < E.src.length ∧ l.2 < E.tgt.length) (hmin : 1 ≤ E.minGap) (junk : Int)
    (phrase : List Int) (ms : List (Nat × Nat)) (hocc : Occurs E.src E.minGap phrase ms) (hlim : Within E phrase ms) :
    ∃ xs, extractAlignments E junk phrase (ms.map (·.1)) = some xs ∧ ∀ x ∈ xs, AlignedOK E ms ∧
      (∃ s t sg tg, IsRule E x.source x.target x.alignment s t sg tg ∧ ∀ p, Slot.word p ∈ side s.1 s.2 sg ↔ ∃ m ∈ ms, m.1 ≤ p ∧ p < m.1 + m.2) ∧
      ∃ L R : Bool, shape x.source = (if L then [none] else []) ++ shape phrase ++ if R then [none] else [] := by
  obtain ⟨m, c, ms, rfl⟩ := occurs_cons hocc
  obtain ⟨L, R, b1, b2, b3, b4, h1, h2, h3⟩ := extractAlignments_sound hE hmin junk hocc hlim.1 (by have := hlim.2.1; simp at this; exact this) hlim.2.2
  refine ⟨_, h1, ?_⟩
  intro x hx
  refine ⟨(checkAligned_iff hE (occurs_within hocc)).1 (h3 (List.ne_nil_of_mem hx)), ?_⟩
  have key : ∀ L R xs, Sound E phrase m c ms L R xs → x ∈ xs →
      (∃ s t sg tg, IsRule E x.source x.target x.alignment s t sg tg ∧ ∀ p, Slot.word p ∈ side s.1 s.2 sg ↔ ∃ m_1 ∈ (m, c) :: ms, m_1.1 ≤ p ∧ p < m_1.1 + m_1.2) ∧
      ∃ L R : Bool, shape x.source = (if L then [none] else []) ++ shape phrase ++ if R then [none] else [] := by
    intro L R xs hs hx
    rcases hs with rfl | ⟨a, b, t, sg, tg, ha, hb, hsg, hbatch⟩
    · cases hx
    obtain ⟨ch, _, hr⟩ := hbatch.rule x hx
    refine ⟨⟨(a, b), (ch.lo, ch.hi), sg, ch.gaps, hr, ?_⟩, L, R, ?_⟩
    · intro p
      obtain ⟨_, hside⟩ := side_source L R a b m c ms (occurs_chain hocc) ha hb
      rw [← hsg] at hside
      simp only []
      rw [hside]
      cases L
      · simp only [Bool.false_eq_true, if_false, List.nil_append]
        exact srcSlots_mem R _ _ p
      · simp only [if_true, List.singleton_append, List.mem_cons, reduceCtorEq, false_or]
        rw [srcSlots_mem]
        simp only [List.mem_cons]
    · rw [hbatch.source x hx, shape_extend]
  rw [List.mem_append, List.mem_append, List.mem_append] at hx
  rcases hx with ((hx | hx) | hx) | hx
  · exact key _ _ _ h2.base hx
  · exact key _ _ _ h2.right hx
  · exact key _ _ _ h2.left hx
  · exact key _ _ _ h2.both hx

/-- With tight phrases the code reads the span of a word one before the first or one after the last of the sentence.  Whatever is read there
does not change the rules. -/
theorem C74_outside (E : XEnv) (hE : ∀ l ∈ E.links, l.1 < E.src.length ∧ l.2 < E.tgt.length) (hmin : 1 ≤ E.minGap) (j1 j2 : Int)
    (phrase : List Int) (ms : List (Nat × Nat)) (hocc : Occurs E.src E.minGap phrase ms) :
    extractAlignments E j1 phrase (ms.map (·.1)) = extractAlignments E j2 phrase (ms.map (·.1)) := by
  obtain ⟨m, c, ms, rfl⟩ := occurs_cons hocc
  exact extractAlignments_junk hE hmin j1 j2 hocc

/-- Every rule for an occurrence, that is with the words of the occurrence and its gaps on the source side, is extracted.  So is every rule with
another nonterminal at one end or at both that starts and ends at the nearest place allowed, if the span of the occurrence itself forms a pair
with some target span within the limit. -/
theorem C74_complete (E : XEnv) (hE : ∀ l ∈ E.links, l.1 < E.src.length ∧ l.2 < E.tgt.length) (hmin : 1 ≤ E.minGap) (hnt2 : E.maxNT ≤ 2) (junk : Int)
    (phrase : List Int) (ms : List (Nat × Nat)) (hocc : Occurs E.src E.minGap phrase ms) (hal : AlignedOK E ms)
    (source target : List Int) (al : List (Nat × Nat)) (s t : Nat × Nat) (lead trail tg : List (Nat × Nat))
    (hlead : (lead = [] ∧ s.1 = occStart ms) ∨ (lead = [(s.1, occStart ms)] ∧ NearestLow E (occStart ms) s.1))
    (htrail : (trail = [] ∧ s.2 = occEnd ms) ∨ (trail = [(occEnd ms, s.2)] ∧ NearestHigh E (occEnd ms) s.2))
    (hbase : lead ≠ [] ∨ trail ≠ [] → (∃ l ∈ E.links, occStart ms ≤ l.1 ∧ l.1 < occEnd ms) ∧
      ∃ u : Nat × Nat, Consistent E.links (occStart ms) (occEnd ms) u.1 u.2 ∧ (u.2 : Int) - u.1 ≤ E.maxSpan)
    (hr : IsRule E source target al s t (lead ++ occGaps ms ++ trail) tg)
    (xs : List Extracted) (hxs : extractAlignments E junk phrase (ms.map (·.1)) = some xs) :
    ∃ x ∈ xs, x.source = source ∧ x.target = target ∧ ∀ ij, ij ∈ x.alignment ↔ ij ∈ al := by
  obtain ⟨m, c, ms, rfl⟩ := occurs_cons hocc
  have e2 : occEnd ((m, c) :: ms) = chunksEnd ((m, c) :: ms) := rfl
  have e1 : occStart ((m, c) :: ms) = m := rfl
  rw [e1] at hlead hbase
  rw [e2] at htrail hbase
  rw [occGaps_eq] at hr
  have hml := chain_lt ms m c (occurs_chain hocc)
  have hend := occurs_end hocc
  obtain ⟨left, ha, hl⟩ : ∃ left : Bool, (if left then NearestLow E m s.1 else s.1 = m) ∧ lead = if left then [(s.1, m)] else [] := by
    rcases hlead with ⟨h1, h2⟩ | ⟨h1, h2⟩
    · exact ⟨false, by simpa using h2, by simpa using h1⟩
    · exact ⟨true, by simpa using h2, by simpa using h1⟩
  obtain ⟨right, hb, hr'⟩ : ∃ right : Bool, (if right then NearestHigh E (chunksEnd ((m, c) :: ms)) s.2 else s.2 = chunksEnd ((m, c) :: ms)) ∧
      trail = if right then [(chunksEnd ((m, c) :: ms), s.2)] else [] := by
    rcases htrail with ⟨h1, h2⟩ | ⟨h1, h2⟩
    · exact ⟨false, by simpa using h2, by simpa using h1⟩
    · exact ⟨true, by simpa using h2, by simpa using h1⟩
  refine extractAlignments_complete hE hmin hnt2 junk hocc hal left right ha hb ?_ hr (by rw [hl, hr']) xs hxs
  intro h
  obtain ⟨h1, h2⟩ := hbase (by
    rcases h with rfl | rfl
    · left; rw [hl]; simp
    · right; rw [hr']; simp)
  exact ⟨Nat.le_of_lt hml, hend, h1, h2⟩

/-- Three source words, of which the last two are swapped in the target, with a fourth source word after them. -/
def swapEnv : XEnv := ⟨[10, 11, 12, 13], [20, 21, 22, 23], [(0, 0), (1, 2), (2, 1), (3, 3)], 5, 1, 2, 5, true, false, false⟩

/-- Non-vacuity: `10 X 12` occurs in the sentence within the limits. -/
example : (∀ l ∈ swapEnv.links, l.1 < swapEnv.src.length ∧ l.2 < swapEnv.tgt.length) ∧ 1 ≤ swapEnv.minGap ∧ swapEnv.maxNT ≤ 2 ∧
    Occurs swapEnv.src swapEnv.minGap [10, -1, 12] [(0, 1), (2, 1)] ∧ Within swapEnv [10, -1, 12] [(0, 1), (2, 1)] ∧ AlignedOK swapEnv [(0, 1), (2, 1)] := by
  refine ⟨by decide, by decide, by decide, ?_, by unfold Within; decide, ?_⟩
  · exact Occurs.cons 0 [10] (-1) [12] 2 1 [] (by decide) (by decide) (by decide) (by decide) (by decide) (by decide)
      (Occurs.last 2 [12] (by decide) (by decide) (by decide))
  · intro _
    exact ⟨⟨(0, 1), by decide, 0, by decide, by decide, (0, 0), by decide, rfl⟩, fun h => by cases h⟩

/-- The rules extracted: `10 X1 12 → 20 21 X1`, and with the last word as another nonterminal. -/
example : (extractAlignments swapEnv 0 [10, -1, 12] [0, 2]).map (fun xs => xs.map fun x => (x.source, x.target, x.alignment)) =
    some [([10, -1, 12], [20, 21, -1], [(0, 0), (2, 1)]), ([10, -1, 12, -2], [20, 21, -1, -2], [(0, 0), (2, 1)])] := by decide

theorem links_of (links al : List (Nat × Nat)) (src tgt : List Slot) (h1 : ∀ x ∈ al, x.1 < src.length ∧ x.2 < tgt.length)
    (h : ∀ i ∈ List.range src.length, ∀ j ∈ List.range tgt.length, ((i, j) ∈ al ↔ ∃ l ∈ links, src[i]? = some (.word l.1) ∧ tgt[j]? = some (.word l.2))) :
    ∀ i j, (i, j) ∈ al ↔ ∃ l ∈ links, src[i]? = some (.word l.1) ∧ tgt[j]? = some (.word l.2) := by
  intro i j
  by_cases hi : i < src.length ∧ j < tgt.length
  · exact h i (List.mem_range.2 hi.1) j (List.mem_range.2 hi.2)
  · constructor
    · intro hx; exact absurd (h1 _ hx) hi
    · rintro ⟨l, _, e1, e2⟩
      exact absurd ⟨(List.getElem?_eq_some_iff.1 e1).1, (List.getElem?_eq_some_iff.1 e2).1⟩ hi

/-- Both are rules in the sense of the specification, the second with the nearest trailing nonterminal; so that the hypotheses of `C74_complete` hold for it. -/
example : IsRule swapEnv [10, -1, 12, -2] [20, 21, -1, -2] [(0, 0), (2, 1)] (0, 4) (0, 4) ([] ++ occGaps [(0, 1), (2, 1)] ++ [(3, 4)]) [(2, 3), (3, 4)] ∧
    NearestHigh swapEnv (occEnd [(0, 1), (2, 1)]) 4 ∧ (∃ l ∈ swapEnv.links, occStart [(0, 1), (2, 1)] ≤ l.1 ∧ l.1 < occEnd [(0, 1), (2, 1)]) ∧
    Consistent swapEnv.links (occStart [(0, 1), (2, 1)]) (occEnd [(0, 1), (2, 1)]) 0 3 := by
  have pair : ∀ s t : Nat × Nat, Consistent swapEnv.links s.1 s.2 t.1 t.2 → (∃ l ∈ swapEnv.links, s.1 ≤ l.1 ∧ l.1 < s.2) → Pair swapEnv s t :=
    fun s t h1 h2 => ⟨h1, h2, fun h => by cases h⟩
  refine ⟨⟨⟨⟨by decide, by decide, by unfold Apart; decide⟩, by decide, by decide⟩, ⟨⟨by decide, by decide, by unfold Apart; decide⟩, by decide⟩, rfl,
    pair _ _ (by unfold Consistent; decide) (by decide), ?_, by decide, by decide, ?_, by decide, by decide, by decide, by decide⟩,
    ⟨by decide, by decide, by simp only [swapEnv, Bool.false_eq_true, if_false]; decide⟩, by decide, by unfold Consistent; decide⟩
  · intro k g h hg hh
    match k with
    | 0 =>
      simp [occGaps] at hg hh
      subst hg hh
      exact pair _ _ (by unfold Consistent; decide) (by decide)
    | 1 =>
      simp [occGaps] at hg hh
      subst hg hh
      exact pair _ _ (by unfold Consistent; decide) (by decide)
    | k + 2 => simp at hh
  · exact links_of _ _ _ _ (by decide) (by decide)

/-- With three nonterminals the claim of completeness is false: a rule for the occurrence itself is not extracted, because the target gaps are not put
in their order (see `C44_three_gaps_fails`). -/
theorem C74_three_gaps_fails :
    let E : XEnv := ⟨[10, 11, 12, 13, 14, 15, 16], [20, 21, 22, 23, 24, 25, 26], [(0, 0), (2, 2), (4, 4), (6, 6), (1, 5), (3, 1), (5, 3)], 10, 1, 3, 10, true, true, true⟩
    let ms := [(0, 1), (2, 1), (4, 1), (6, 1)]
    let phrase := [10, -1, 12, -2, 14, -3, 16]
    (∀ l ∈ E.links, l.1 < E.src.length ∧ l.2 < E.tgt.length) ∧ Occurs E.src E.minGap phrase ms ∧ Within E phrase ms ∧ AlignedOK E ms ∧
    IsRule E phrase [20, -2, 22, -3, 24, -1, 26] [(0, 0), (2, 2), (4, 4), (6, 6)] (occStart ms, occEnd ms) (0, 7) (occGaps ms) [(5, 6), (1, 2), (3, 4)] ∧
    (extractAlignments E 0 phrase (ms.map (·.1))).map (fun xs => xs.length) = some 0 := by
  intro E ms phrase
  have al : ∀ p, p < 7 → SrcAligned E p := by
    unfold SrcAligned; decide
  have tal : ∀ p, p < 7 → TgtAligned E p := by
    unfold TgtAligned; decide
  have pair : ∀ s t : Nat × Nat, s.1 < s.2 → s.2 ≤ 7 → t.1 < t.2 → t.2 ≤ 7 → Consistent E.links s.1 s.2 t.1 t.2 → Pair E s t := by
    intro s t h1 h2 h3 h4 h5
    refine ⟨h5, ?_, fun _ => ⟨al _ (by omega), al _ (by omega), tal _ (by omega), tal _ (by omega)⟩⟩
    obtain ⟨l, hl, e⟩ := al s.1 (by omega)
    exact ⟨l, hl, by omega, by omega⟩
  refine ⟨by decide, ?_, by unfold Within; decide, ?_, ?_, by decide⟩
  · refine Occurs.cons 0 [10] (-1) _ 2 1 _ (by decide) (by decide) (by decide) (by decide) (by decide) (by decide) ?_
    refine Occurs.cons 2 [12] (-2) _ 4 1 _ (by decide) (by decide) (by decide) (by decide) (by decide) (by decide) ?_
    refine Occurs.cons 4 [14] (-3) _ 6 1 _ (by decide) (by decide) (by decide) (by decide) (by decide) (by decide) ?_
    exact Occurs.last 6 [16] (by decide) (by decide) (by decide)
  · intro _
    have : ∀ m ∈ ms, m.1 < 7 ∧ 0 < m.2 := by decide
    exact ⟨⟨(0, 1), by decide, 0, by decide, by decide, al 0 (by decide)⟩, fun _ m hm => ⟨m.1, Nat.le_refl _, by have := this m hm; omega, al _ (this m hm).1⟩⟩
  · refine ⟨⟨⟨by decide, by decide, by unfold Apart; decide⟩, by decide, by decide⟩, ⟨⟨by decide, by decide, by unfold Apart; decide⟩, by decide⟩, rfl,
      pair _ _ (by decide) (by decide) (by decide) (by decide) (by unfold Consistent; decide), ?_, by decide, by decide,
      links_of _ _ _ _ (by decide) (by decide), by decide, by decide, by decide, by decide⟩
    intro k g h hg hh
    match k with
    | 0 =>
      simp [occGaps, ms] at hg hh
      subst hg hh
      exact pair _ _ (by decide) (by decide) (by decide) (by decide) (by unfold Consistent; decide)
    | 1 =>
      simp [occGaps, ms] at hg hh
      subst hg hh
      exact pair _ _ (by decide) (by decide) (by decide) (by decide) (by unfold Consistent; decide)
    | 2 =>
      simp [occGaps, ms] at hg hh
      subst hg hh
      exact pair _ _ (by decide) (by decide) (by decide) (by decide) (by unfold Consistent; decide)
    | k + 3 => simp at hh

end Cdec.Extract
