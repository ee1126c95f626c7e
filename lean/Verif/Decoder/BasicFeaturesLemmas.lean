import Verif.Decoder.BasicFeatures
import Verif.Props.C19
import Mathlib.Algebra.BigOperators.Group.List.Basic
import Mathlib.Tactic.Ring
import Mathlib.Tactic.Linarith
/-!
# Lemmas about features of single rules
-/
namespace Cdec.Dec.Basic
open Spec

theorem foldl_min : ∀ (e : List Int) (m : Int), m ≤ 1 →
    (e.foldl (fun m i => if i < m then i else m) m) ≤ m ∧
    (∀ i ∈ e, (e.foldl (fun m i => if i < m then i else m) m) ≤ i) ∧
    ((e.foldl (fun m i => if i < m then i else m) m) = m ∨ (e.foldl (fun m i => if i < m then i else m) m) ∈ e)
  | [], m, _ => by simp
  | i :: e, m, hm => by
    rw [List.foldl_cons]
    by_cases h : i < m
    · rw [if_pos h]
      obtain ⟨h1, h2, h3⟩ := foldl_min e i (by omega)
      refine ⟨by omega, ?_, ?_⟩
      · intro j hj
        rcases List.mem_cons.1 hj with rfl | hj
        · exact h1
        · exact h2 j hj
      · rcases h3 with h3 | h3
        · right; rw [h3]; simp
        · right; exact List.mem_cons_of_mem _ h3
    · rw [if_neg h]
      obtain ⟨h1, h2, h3⟩ := foldl_min e m hm
      refine ⟨h1, ?_, ?_⟩
      · intro j hj
        rcases List.mem_cons.1 hj with rfl | hj
        · omega
        · exact h2 j hj
      · rcases h3 with h3 | h3
        · exact .inl h3
        · exact .inr (List.mem_cons_of_mem _ h3)

/-- The arity computed is the number of variables. -/
theorem computeArity_eq {e : List Int} {n : ℕ} (h : Linear e n) : computeArity e = n := by
  unfold computeArity
  obtain ⟨h1, h2, h3⟩ := foldl_min e 1 (le_refl _)
  generalize e.foldl (fun m i => if i < m then i else m) 1 = m at h1 h2 h3
  have hmem : ∀ k : ℕ, k < n ↔ (-(k : Int)) ∈ e := by
    intro k
    rw [← List.mem_range, ← h.mem_iff, List.mem_map]
    constructor
    · rintro ⟨c, hc, rfl⟩
      rw [List.mem_filter] at hc
      have : c ≤ 0 := by simpa using hc.2
      rw [show -(((-c).toNat : ℕ) : Int) = c by omega]
      exact hc.1
    · intro hk
      exact ⟨_, List.mem_filter.2 ⟨hk, by simp⟩, by omega⟩
  rcases Nat.eq_zero_or_pos n with rfl | hn
  · have : m = 1 := by
      rcases h3 with h3 | h3
      · exact h3
      · by_contra hne
        have := (hmem (-m).toNat).2 (by rw [show -(((-m).toNat : ℕ) : Int) = m by omega]; exact h3)
        omega
    omega
  · have h4 := h2 _ ((hmem (n - 1)).1 (by omega))
    have h5 : m ∈ e := by
      rcases h3 with h3 | h3
      · omega
      · exact h3
    have h6 := (hmem (-m).toNat).2 (by rw [show -(((-m).toNat : ℕ) : Int) = m by omega]; exact h5)
    omega

theorem linear_numVars {e : List Int} {n : ℕ} (h : Linear e n) : numVars e = n := by
  have := h.length_eq
  rw [List.length_map, List.length_range] at this
  rw [← this, numVars, List.countP_eq_length_filter]

theorem terminals_add (l : List Int) : terminals l + numVars l = l.length := by
  unfold terminals numVars
  induction l with
  | nil => rfl
  | cons c l ih =>
    simp only [List.countP_cons, List.length_cons]
    by_cases h : 0 < c
    · simp [h, show ¬c ≤ 0 by omega]; omega
    · simp [h, show c ≤ 0 by omega]; omega

/-- Counting in the result of a substitution. -/
theorem replaced_countP (p : Int → Bool) {vals : List (List Int)} {e out : List Int} (h : Replaced vals e out) :
    out.countP p = e.countP (fun c => decide (0 < c) && p c) +
      (((e.filter fun c => decide (c ≤ 0)).map fun c => (vals.getD (-c).toNat []).countP p).sum) := by
  induction h with
  | nil => rfl
  | @word w e out hw _ ih =>
    have h1 : ¬w ≤ 0 := by omega
    simp only [List.countP_cons, ih, hw, decide_true, Bool.true_and, List.filter_cons, h1, decide_false,
      Bool.false_eq_true, if_false]
    omega
  | @var k v e out hv _ ih =>
    have h1 : (-(k : Int)) ≤ 0 := by omega
    have h2 : ¬(0 : Int) < -(k : Int) := by omega
    have h3 : (- -(k : Int)).toNat = k := by omega
    have h4 : vals.getD k [] = v := by rw [List.getD_eq_getElem?_getD, hv]; rfl
    simp only [List.countP_append, ih, List.countP_cons, h2, decide_false, Bool.false_and, Bool.false_eq_true, if_false,
      List.filter_cons, h1, decide_true, if_true, List.map_cons, List.sum_cons, h3, h4, Nat.add_zero]
    omega

theorem eSubst_countP (p : Int → Bool) {e : List Int} {vals : List (List Int)} {t : List Int}
    (hl : Linear e vals.length) (h : eSubst e vals = some t) :
    t.countP p = e.countP (fun c => decide (0 < c) && p c) + (vals.map fun v => v.countP p).sum := by
  obtain ⟨h1, _⟩ := (C19_target e vals t).1 h
  rw [replaced_countP p h1]
  congr 1
  have := (hl.map fun k => (vals.getD k []).countP p).sum_nat
  rw [List.map_map] at this
  refine this.trans ?_
  congr 1
  apply List.ext_getElem
  · simp
  · intro i h1 h2
    simp at h1
    simp [List.getD_eq_getElem?_getD, h1]

/-- A count that adds up along substitutions adds up along derivations. -/
theorem derives_count (p : Int → Bool) (F : Rule → ℕ) {rs : List Rule} {t s : List Int} (h : Derives rs t s)
    (hl : ∀ r ∈ rs, Linear r.e (numVars r.f)) (hF : ∀ r ∈ rs, F r = r.e.countP fun c => decide (0 < c) && p c) :
    featureTotal F rs = t.countP p := by
  induction h with
  | node r ch t s hc he hf ih =>
    have hn : numVars r.e = ch.length := by simpa using ((C19_target _ _ _).1 he).2
    have hr := hl r (by simp)
    have hlen : numVars r.f = ch.length := by rw [← hn, linear_numVars hr]
    rw [hlen] at hr
    have e1 := eSubst_countP p (vals := ch.map fun c => c.2.1) (by simpa using hr) he
    rw [e1, List.map_map]
    unfold featureTotal
    rw [List.map_cons, List.sum_cons, hF r (by simp)]
    congr 1
    have : ∀ l : List (List Rule × List Int × List Int), (∀ c ∈ l, c ∈ ch) →
        ((l.flatMap fun c => c.1).map F).sum = (l.map ((fun v => List.countP p v) ∘ fun c => c.2.1)).sum := by
      intro l
      induction l with
      | nil => intro _; rfl
      | cons c l ihl =>
        intro hm
        have hcm := hm c (by simp)
        rw [List.flatMap_cons, List.map_append, List.sum_append, ihl fun x hx => hm x (by simp [hx]), List.map_cons,
          List.sum_cons]
        congr 1
        have sub : ∀ q ∈ c.1, q ∈ r :: ch.flatMap fun c => c.1 := fun q hq => by
          rw [List.mem_cons, List.mem_flatMap]; exact .inr ⟨c, hcm, hq⟩
        exact ih c hcm (fun q hq => hl q (sub q hq)) fun q hq => hF q (sub q hq)
    exact this ch fun c hc => hc

/-- The same for the source side, for lengths. -/
theorem derives_source (F : Rule → ℕ) {rs : List Rule} {t s : List Int} (h : Derives rs t s)
    (hF : ∀ r ∈ rs, F r = terminals r.f) : featureTotal F rs = s.length := by
  induction h with
  | node r ch t s hc he hf ih =>
    have hr := (C19_source _ _ _).1 hf
    have key : ∀ (vals : List (List Int)) (f out : List Int), ReplacedInOrder vals f out →
        out.length = terminals f + (vals.map List.length).sum := by
      intro vals f out h
      induction h with
      | nil => rfl
      | word hw _ ih => simp [terminals, hw, ih] at *; omega
      | @cat vals c v f out hc _ ih =>
        have h0 : ¬0 < c := by omega
        simp only [terminals, List.countP_cons, h0, decide_false, Bool.false_eq_true, if_false, List.length_append,
          List.map_cons, List.sum_cons] at ih ⊢
        omega
    rw [key _ _ _ hr, List.map_map]
    unfold featureTotal
    rw [List.map_cons, List.sum_cons, hF r (by simp)]
    congr 1
    have : ∀ l : List (List Rule × List Int × List Int), (∀ c ∈ l, c ∈ ch) →
        ((l.flatMap fun c => c.1).map F).sum = (l.map (List.length ∘ fun c => c.2.2)).sum := by
      intro l
      induction l with
      | nil => intro _; rfl
      | cons c l ihl =>
        intro hm
        have hcm := hm c (by simp)
        rw [List.flatMap_cons, List.map_append, List.sum_append, ihl fun x hx => hm x (by simp [hx]), List.map_cons,
          List.sum_cons]
        congr 1
        exact ih c hcm fun q hq => hF q (by rw [List.mem_cons, List.mem_flatMap]; exact .inr ⟨c, hcm, hq⟩)
    exact this ch fun c hc => hc

/-- The variables of a derivation: one for every rule but the first. -/
theorem derives_vars {rs : List Rule} {t s : List Int} (h : Derives rs t s) :
    featureTotal (fun r => numVars r.e) rs + 1 = rs.length := by
  induction h with
  | node r ch t s hc he hf ih =>
    have hn : numVars r.e = ch.length := by simpa using ((C19_target _ _ _).1 he).2
    have : ∀ l : List (List Rule × List Int × List Int), (∀ c ∈ l, c ∈ ch) →
        ((l.flatMap fun c => c.1).map fun r => numVars r.e).sum + l.length = (l.flatMap fun c => c.1).length := by
      intro l
      induction l with
      | nil => intro _; rfl
      | cons c l ihl =>
        intro hm
        have e1 := ihl fun x hx => hm x (by simp [hx])
        have e2 := ih c (hm c (by simp))
        unfold featureTotal at e2
        rw [List.flatMap_cons, List.map_append, List.sum_append, List.length_cons, List.length_append]
        omega
    unfold featureTotal
    rw [List.map_cons, List.sum_cons, hn, List.length_cons]
    have := this ch fun c hc => hc
    omega

theorem wordSetLoop_eq (oov : Bool) (vocab : List Int) : ∀ (e : List Int) (s : ℕ),
    wordSetLoop oov vocab e s = s + e.countP fun w => vocab.contains w != oov
  | [], s => rfl
  | w :: e, s => by
    rw [wordSetLoop, wordSetLoop_eq oov vocab e, wordSetLoop_eq oov vocab e, List.countP_cons]
    cases oov <;> cases vocab.contains w <;> simp <;> omega

/-! ## The cache -/

/-- What the cache holds is right. -/
def CacheOk (text : Int → List UInt8) (cache : Cache) : Prop :=
  ∀ w b, cache.lookup w = some b → containsNonLatin (text w) = some b

theorem nonLatinLoop_eq (text : Int → List UInt8) : ∀ (e : List Int) (cache : Cache) (n : ℕ), CacheOk text cache →
    (∀ w ∈ e, 0 < w → containsNonLatin (text w) ≠ none) → ∃ cache', CacheOk text cache' ∧
    nonLatinLoop text e cache n = some (n + e.countP (fun w => decide (0 < w) && (containsNonLatin (text w) == some true)), cache')
  | [], cache, n, h, _ => ⟨cache, h, by simp [nonLatinLoop]⟩
  | w :: e, cache, n, h, ht => by
    have ht' : ∀ v ∈ e, 0 < v → containsNonLatin (text v) ≠ none := fun v hv => ht v (by simp [hv])
    rw [nonLatinLoop]
    by_cases hw : 0 < w
    · rw [if_pos hw]
      obtain ⟨b, hb⟩ := Option.ne_none_iff_exists'.1 (ht w (by simp) hw)
      cases hl : cache.lookup w with
      | none =>
        simp only [hb]
        have hc : CacheOk text ((w, b) :: cache) := by
          intro v c hv
          rw [List.lookup_cons] at hv
          split at hv
          · rename_i e1
            have : v = w := by simpa using e1
            subst this
            rw [hb]; simpa using hv
          · exact h v c hv
        obtain ⟨c', h1, h2⟩ := nonLatinLoop_eq text e _ (if b then n + 1 else n) hc ht'
        refine ⟨c', h1, ?_⟩
        rw [h2, List.countP_cons]
        cases b <;> simp [hw, hb] <;> omega
      | some b' =>
        simp only
        have hb' : b' = b := by
          have := h w b' hl
          rw [hb] at this
          simpa using this.symm
        subst hb'
        obtain ⟨c', h1, h2⟩ := nonLatinLoop_eq text e _ (if b' then n + 1 else n) h ht'
        refine ⟨c', h1, ?_⟩
        rw [h2, List.countP_cons]
        cases b' <;> simp [hw, hb] <;> omega
    · rw [if_neg hw]
      obtain ⟨c', h1, h2⟩ := nonLatinLoop_eq text e cache n h ht'
      refine ⟨c', h1, ?_⟩
      rw [h2, List.countP_cons]
      simp [hw]

theorem nonLatinRun_eq (text : Int → List UInt8) : ∀ (rs : List Rule) (cache : Cache), CacheOk text cache →
    (∀ r ∈ rs, ∀ w ∈ r.e, 0 < w → containsNonLatin (text w) ≠ none) → ∃ cache', CacheOk text cache' ∧
    nonLatinRun text rs cache = some (featureTotal
      (fun r => r.e.countP fun w => decide (0 < w) && (containsNonLatin (text w) == some true)) rs, cache')
  | [], cache, h, _ => ⟨cache, h, rfl⟩
  | r :: rs, cache, h, ht => by
    obtain ⟨c1, h1, e1⟩ := nonLatinLoop_eq text r.e cache 0 h (ht r (by simp))
    obtain ⟨c2, h2, e2⟩ := nonLatinRun_eq text rs c1 h1 fun q hq => ht q (by simp [hq])
    refine ⟨c2, h2, ?_⟩
    rw [nonLatinRun, e1]
    simp only [e2, Option.map_some, featureTotal, List.map_cons, List.sum_cons, Nat.zero_add]

/-- `ContainsNonLatin` looks for a byte that starts a character of several bytes. -/
theorem containsNonLatin_ascii : ∀ (bs : List UInt8), (∀ b ∈ bs, b.toNat < 0x80) → containsNonLatin bs = some false
  | [], _ => rfl
  | b :: bs, h => by
    have hb := h b (by simp)
    have : utf8Len b = 1 := by unfold utf8Len; simp [hb]
    rw [containsNonLatin, this]
    simpa using containsNonLatin_ascii bs fun c hc => h c (by simp [hc])

theorem containsNonLatin_multi (pre post : List UInt8) (b : UInt8) (hp : ∀ c ∈ pre, c.toNat < 0x80) (hb : 1 < utf8Len b) :
    containsNonLatin (pre ++ b :: post) = some true := by
  induction pre with
  | nil => rw [List.nil_append, containsNonLatin, if_pos hb]
  | cons c pre ih =>
    have hc := hp c (by simp)
    have : utf8Len c = 1 := by unfold utf8Len; simp [hc]
    rw [List.cons_append, containsNonLatin, this]
    simpa using ih fun d hd => hp d (by simp [hd])

/-! ## Shapes -/

theorem sideLoop_words (w : List Int) (rest : List Int) (bits : List Bool) (hw : ∀ c ∈ w, 0 < c)
    (hr : ∀ c ∈ rest.head?, c ≤ 0) (hne : w ≠ [] ∨ rest ≠ []) :
    sideLoop (w ++ rest) true bits = sideLoop rest false (bits ++ [decide (w ≠ [])]) := by
  have hd : ∀ w : List Int, (∀ c ∈ w, 0 < c) → (w ++ rest).dropWhile (fun c => decide (c > 0)) = rest := by
    intro w
    induction w with
    | nil =>
      intro _
      cases rest with
      | nil => rfl
      | cons c rest => simp [List.dropWhile, show ¬0 < c by have := hr c (by simp); omega]
    | cons c w ih =>
      intro h
      simp only [List.cons_append, List.dropWhile, gt_iff_lt, h c (by simp), decide_true]
      exact ih fun d hd => h d (by simp [hd])
  cases w with
  | nil =>
    cases rest with
    | nil => simp at hne
    | cons c rest =>
      have : ¬c > 0 := by have := hr c (by simp); omega
      rw [List.nil_append, sideLoop, if_neg this]
      simp
  | cons c w =>
    rw [List.cons_append, sideLoop, if_pos (hw c (by simp)), hd w fun d hd => hw d (by simp [hd])]
    simp

end Cdec.Dec.Basic
