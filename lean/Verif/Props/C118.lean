import Verif.Decoder.BasicFeaturesLemmas
/-!
# C118: the features of the rules of a derivation add up to counts of its strings
-/
namespace Cdec.Dec.Basic
open Spec

/-- The rules of the derivation use each variable once on the target side and have the arity that `ComputeArity` computes. -/
def GoodRules (rs : List Rule) : Prop := ∀ r ∈ rs, Linear r.e (numVars r.f) ∧ r.arity = computeArity r.e

theorem sum_mul (F : Rule → ℕ) (v : ℝ) : ∀ (rs : List Rule) (G : Rule → ℝ), (∀ r ∈ rs, G r = F r * v) →
    featureTotal G rs = (featureTotal F rs : ℕ) * v
  | [], _, _ => by simp [featureTotal]
  | r :: rs, G, h => by
    have := sum_mul F v rs G fun q hq => h q (by simp [hq])
    unfold featureTotal at this ⊢
    rw [List.map_cons, List.sum_cons, List.map_cons, List.sum_cons, this, h r (by simp)]
    push_cast
    ring

/-- The word penalties are those of the two strings: `-1 / log 10` for every word. -/
theorem C118_word_penalty (rs : List Rule) (t s : List Int) (h : Derives rs t s) (hg : GoodRules rs) :
    featureTotal wordPenalty rs = t.length * penaltyValue ∧ featureTotal sourceWordPenalty rs = s.length * penaltyValue := by
  have ha : ∀ r ∈ rs, r.arity = numVars r.f ∧ numVars r.e = numVars r.f := by
    intro r hr
    obtain ⟨h1, h2⟩ := hg r hr
    exact ⟨by rw [h2, computeArity_eq h1], linear_numVars h1⟩
  constructor
  · rw [sum_mul (fun r => terminals r.e) penaltyValue]
    · rw [derives_count (fun _ => true) _ h (fun r hr => (hg r hr).1) fun r _ => by simp [terminals]]
      simp
    · intro r hr
      obtain ⟨a1, a2⟩ := ha r hr
      have := terminals_add r.e
      rw [wordPenalty, eWords, a1, ← a2, ← this]
      push_cast
      ring
  · rw [sum_mul (fun r => terminals r.f) penaltyValue, derives_source _ h fun _ _ => rfl]
    intro r hr
    obtain ⟨a1, a2⟩ := ha r hr
    have := terminals_add r.f
    rw [sourceWordPenalty, fWords, a1, ← this]
    push_cast
    ring

/-- `Arity_i` counts the rules with `i` variables, up to the maximum. -/
theorem C118_arity (max i : ℕ) (hi : i ≤ max) (rs : List Rule) (hg : GoodRules rs) :
    featureTotal (arityFeature max i) rs = rs.countP fun r => decide (numVars r.f = i) := by
  induction rs with
  | nil => rfl
  | cons r rs ih =>
    obtain ⟨h1, h2⟩ := hg r (by simp)
    have ih := ih fun q hq => hg q (by simp [hq])
    unfold featureTotal at ih ⊢
    rw [List.map_cons, List.sum_cons, ih, List.countP_cons, arityFeature, h2, computeArity_eq h1, Int.toNat_natCast]
    by_cases h : numVars r.f = i
    · rw [if_pos (by omega)]; simp [h]; omega
    · simp [h]

/-- `WordSet` without `--oov` counts the words of the translation that are in the vocabulary. -/
theorem C118_word_set (vocab : List Int) (hv : ∀ w ∈ vocab, 0 < w) (rs : List Rule) (t s : List Int) (h : Derives rs t s)
    (hg : GoodRules rs) : featureTotal (wordSet false vocab) rs = t.countP fun w => decide (w ∈ vocab) := by
  refine derives_count _ _ h (fun r hr => (hg r hr).1) fun r _ => ?_
  rw [wordSet, wordSetLoop_eq, Nat.zero_add]
  apply List.countP_congr
  intro w _
  simp only [List.contains_eq_mem, Bool.bne_false, decide_eq_true_eq, Bool.and_eq_true]
  exact ⟨fun hm => ⟨hv w hm, hm⟩, fun hm => hm.2⟩

/-- With `--oov` it counts the words that are not in the vocabulary and, in addition, every rule but the first, since the
variables are taken for words. Missing for the claim: that it is the number of these words. -/
theorem C118_oov_partial (vocab : List Int) (hv : ∀ w ∈ vocab, 0 < w) (rs : List Rule) (t s : List Int)
    (h : Derives rs t s) (hg : GoodRules rs) :
    featureTotal (wordSet true vocab) rs + 1 = (t.countP fun w => decide (w ∉ vocab)) + rs.length := by
  have h1 := derives_count (fun w => decide (w ∉ vocab)) (fun r => r.e.countP fun c => decide (0 < c) && decide (c ∉ vocab)) h
    (fun r hr => (hg r hr).1) fun _ _ => rfl
  have h2 := derives_vars h
  have h3 : featureTotal (wordSet true vocab) rs = featureTotal (fun r => r.e.countP fun c =>
      decide (0 < c) && decide (c ∉ vocab)) rs + featureTotal (fun r => numVars r.e) rs := by
    unfold featureTotal
    rw [← List.sum_map_add]
    congr 1
    apply List.map_congr_left
    intro r _
    rw [wordSet, wordSetLoop_eq, Nat.zero_add, numVars]
    induction r.e with
    | nil => rfl
    | cons c e ih =>
      rw [List.countP_cons, ih, List.countP_cons, List.countP_cons]
      by_cases hm : c ∈ vocab
      · have := hv c hm
        simp [hm, show ¬c ≤ 0 by omega]
      · by_cases h0 : 0 < c
        · simp [hm, h0, show ¬c ≤ 0 by omega]; omega
        · simp [hm, h0, show c ≤ 0 by omega]; omega
  omega

/-- So words that are all known have unknown words. -/
theorem C118_oov_fails : ∃ rs t s, Derives rs t s ∧ GoodRules rs ∧ (∀ w ∈ t, w ∈ [(7 : Int), 8]) ∧
    featureTotal (wordSet true [7, 8]) rs = 2 := by
  have leaf : Derives [⟨-1, [5], [7], 0⟩] [7] [5] := by
    have := Derives.node ⟨-1, [5], [7], 0⟩ [] [7] [5] (by simp) (by decide) (by decide)
    simpa using this
  refine ⟨[⟨-1, [-1, 6, -1], [-1, 8, 0], 2⟩, ⟨-1, [5], [7], 0⟩, ⟨-1, [5], [7], 0⟩], [7, 8, 7], [5, 6, 5], ?_, ?_,
    by decide, by decide⟩
  · exact Derives.node ⟨-1, [-1, 6, -1], [-1, 8, 0], 2⟩ [([⟨-1, [5], [7], 0⟩], [7], [5]), ([⟨-1, [5], [7], 0⟩], [7], [5])] _ _
      (by simp [leaf]) (by decide) (by decide)
  · intro r hr
    simp only [List.mem_cons, List.not_mem_nil, or_false] at hr
    have l0 : Linear [7] 0 := List.Perm.refl _
    rcases hr with rfl | rfl | rfl
    · exact ⟨List.Perm.swap 0 1 [], by decide⟩
    · exact ⟨l0, by decide⟩
    · exact ⟨l0, by decide⟩

/-- `NonLatinCount` counts the words of the translation in which some character has several bytes, whatever has been
scored before (`cache`), if no word has a byte at the start of a character that cannot start one. -/
theorem C118_non_latin_partial (text : Int → List UInt8) (before : List Rule) (rs : List Rule) (t s : List Int)
    (h : Derives rs t s) (hg : GoodRules rs)
    (ht : ∀ r ∈ before ++ rs, ∀ w ∈ r.e, 0 < w → containsNonLatin (text w) ≠ none) :
    ∃ n cache, nonLatinRun text before [] = some (n, cache) ∧
    ∃ cache', nonLatinRun text rs cache =
      some (t.countP fun w => decide (containsNonLatin (text w) = some true), cache') := by
  obtain ⟨c1, h1, e1⟩ := nonLatinRun_eq text before [] (by intro w b hb; simp at hb) fun r hr => ht r (by simp [hr])
  obtain ⟨c2, h2, e2⟩ := nonLatinRun_eq text rs c1 h1 fun r hr => ht r (by simp [hr])
  refine ⟨_, c1, e1, c2, ?_⟩
  rw [e2, derives_count (fun w => decide (containsNonLatin (text w) = some true)) _ h (fun r hr => (hg r hr).1)]
  intro r _
  apply List.countP_congr
  intro w _
  simp

/-- Which words these are: ASCII words are not counted, words with a first character of several bytes after ASCII
characters are. -/
theorem C118_non_latin_words (bs pre post : List UInt8) (b : UInt8) :
    ((∀ c ∈ bs, c.toNat < 0x80) → containsNonLatin bs = some false) ∧
    ((∀ c ∈ pre, c.toNat < 0x80) → 1 < utf8Len b → containsNonLatin (pre ++ b :: post) = some true) :=
  ⟨containsNonLatin_ascii bs, containsNonLatin_multi pre post b⟩

/-- On a byte such as 0x80 in place of a first byte the loop does not end. And é, a Latin letter, is counted. -/
theorem C118_non_latin_fails : containsNonLatin [0x61, 0x80, 0x61] = none ∧ containsNonLatin "é".toUTF8.toList = some true := by
  decide +kernel

/-- The shape of a side: whether there are words before, between and after the variables, for up to two variables; with
more the assertion fails. -/
theorem C118_side (w : List Int) (segs : List (Int × List Int)) (hw : ∀ c ∈ w, 0 < c)
    (hs : ∀ p ∈ segs, p.1 ≤ 0 ∧ ∀ c ∈ p.2, 0 < c) :
    side (w ++ segs.flatMap fun p => p.1 :: p.2) =
      if segs.length ≤ 2 then some (decide (w ≠ []) :: (segs.flatMap fun p => [true, decide (p.2 ≠ [])]) ++
        List.replicate (4 - 2 * segs.length) false) else none := by
  have hnt : ∀ (n : Int) (rest : List Int) (bits : List Bool), n ≤ 0 →
      sideLoop (n :: rest) false bits = sideLoop rest true (bits ++ [true]) := by
    intro n rest bits hn
    rw [sideLoop, if_pos (by omega)]
  have hnil : ∀ lex bits, sideLoop [] lex bits = some bits := by
    intro lex bits; rw [sideLoop]
  have key : ∀ (segs : List (Int × List Int)) (w : List Int) (bits : List Bool), (∀ c ∈ w, 0 < c) →
      (∀ p ∈ segs, p.1 ≤ 0 ∧ ∀ c ∈ p.2, 0 < c) → ∃ B, sideLoop (w ++ segs.flatMap fun p => p.1 :: p.2) true bits =
        some (bits ++ B) ∧ (B = decide (w ≠ []) :: (segs.flatMap fun p => [true, decide (p.2 ≠ [])]) ∨
          B ++ [false] = decide (w ≠ []) :: (segs.flatMap fun p => [true, decide (p.2 ≠ [])])) := by
    intro segs
    induction segs with
    | nil =>
      intro w bits hw _
      by_cases h : w = []
      · subst h
        exact ⟨[], by simp [hnil], .inr (by simp)⟩
      · refine ⟨[true], ?_, .inl (by simp [h])⟩
        rw [List.flatMap_nil, sideLoop_words w [] bits hw (by simp) (.inl h), hnil]
        simp [h]
    | cons p segs ih =>
      intro w bits hw hs
      obtain ⟨hp, hpw⟩ := hs p (by simp)
      rw [List.flatMap_cons, List.cons_append, sideLoop_words w _ bits hw (by simp [hp]) (.inr (by simp)), hnt _ _ _ hp]
      obtain ⟨B, h1, h2⟩ := ih p.2 (bits ++ [decide (w ≠ [])] ++ [true]) hpw fun q hq => hs q (by simp [hq])
      refine ⟨decide (w ≠ []) :: true :: B, by rw [h1]; simp, ?_⟩
      rcases h2 with h2 | h2
      · left; rw [h2]; simp
      · right; rw [List.cons_append, List.cons_append, h2]; simp
  obtain ⟨B, h1, h2⟩ := key segs w [] hw hs
  have hlen : ∀ segs : List (Int × List Int), (segs.flatMap fun p => [true, decide (p.2 ≠ [])]).length = 2 * segs.length := by
    intro segs
    induction segs with
    | nil => rfl
    | cons p segs ih => rw [List.flatMap_cons, List.length_append, ih]; simp; omega
  have hl := hlen segs
  unfold side
  rw [h1]
  simp only [List.nil_append]
  rcases h2 with h2 | h2
  · have hB : B.length = 2 * segs.length + 1 := by rw [h2]; simp [← hl]
    rw [hB]
    by_cases hn : segs.length ≤ 2
    · rw [if_pos (by omega), if_pos hn, h2]
      have : 5 - (2 * segs.length + 1) = 4 - 2 * segs.length := by omega
      rw [this]
    · rw [if_neg (by omega), if_neg hn]
  · have hB : B.length = 2 * segs.length := by
      have := congrArg List.length h2
      simp [← hl] at this ⊢
      omega
    rw [hB]
    by_cases hn : segs.length ≤ 2
    · rw [if_pos (by omega), if_pos hn, ← h2]
      have : 5 - 2 * segs.length = (4 - 2 * segs.length) + 1 := by omega
      rw [this, List.replicate_succ]
      simp
    · rw [if_neg (by omega), if_neg hn]

/-- Two rules have the same shape feature exactly if their source sides and their target sides have the same shape. -/
theorem C118_shape_name (r r' : Rule) (hr : (shapeName r).isSome) (hr' : (shapeName r').isSome) :
    shapeName r = shapeName r' ↔ side r.f = side r'.f ∧ side r.e = side r'.e := by
  have hlen : ∀ l b, side l = some b → b.length = 5 := by
    intro l b h
    unfold side at h
    split at h
    · cases h
    · split at h
      · cases h; simp; omega
      · cases h
  have hinj : Function.Injective fun b : Bool => if b then '1' else '0' := by
    intro a b; cases a <;> cases b <;> simp
  unfold shapeName at hr hr' ⊢
  cases h1 : side r.f with
  | none => simp [h1] at hr
  | some a =>
    cases h2 : side r.e with
    | none => simp [h1, h2] at hr
    | some b =>
      cases h3 : side r'.f with
      | none => simp [h3] at hr'
      | some c =>
        cases h4 : side r'.e with
        | none => simp [h3, h4] at hr'
        | some d =>
          simp only [Option.some.injEq]
          constructor
          · intro h
            rw [List.append_assoc, List.append_assoc, List.append_assoc, List.append_assoc] at h
            have h := List.append_cancel_left h
            obtain ⟨e1, e2⟩ := List.append_inj h (by simp [hlen _ _ h1, hlen _ _ h3])
            have e2 := List.append_cancel_left e2
            exact ⟨List.map_injective_iff.2 hinj e1, List.map_injective_iff.2 hinj e2⟩
          · rintro ⟨rfl, rfl⟩; rfl

/-- Non-vacuity: a rule with two variables, its shape, and the values of its penalties' counts. -/
example : shapeName ⟨-1, [-1, 6, -1], [-1, 8, 0], 2⟩ = some "Shape_S01110_T01110".toList := by
  have h1 := C118_side [] [(-1, [6]), (-1, [])] (by simp) (by simp)
  have h2 := C118_side [] [(-1, [8]), (0, [])] (by simp) (by simp)
  simp only [List.flatMap_cons, List.flatMap_nil, List.nil_append, List.append_nil, List.cons_append] at h1 h2
  simp only [shapeName, h1, h2]
  decide

end Cdec.Dec.Basic
