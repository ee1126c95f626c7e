import Verif.Extract.RuleFactory
import Verif.Extract.FactorySpec
import Verif.Props.C42
/-!
# Lemmas for the rule factory: chunks, occurrences and locations
-/
namespace Cdec.Extract
open Spec

/-! ## Arity -/

/-- Number of nonterminals. -/
def ar (s : List Int) : Nat := s.countP fun x => decide (x < 0)

theorem vp_length : ∀ s : List Int, (vp s).length = ar s
  | [] => rfl
  | s :: ss => by
    have ih := vp_length ss
    by_cases h : 0 ≤ s
    · rw [vp, if_pos h, List.length_map, ih]; simp [ar, h]
    · rw [vp, if_neg h, List.length_cons, List.length_map, ih]; simp [ar, Int.not_le.1 h]

theorem arity_ar (s : List Int) : (buildPhrase s).arity = ar s := by
  rw [Phrase.arity, build_varPos, vp_length]

theorem ar_snoc_word {w : Int} (h : 0 ≤ w) (s : List Int) : ar (s ++ [w]) = ar s := by
  simp [ar, List.countP_append, h]
theorem ar_snoc_nt {x : Int} (h : x < 0) (s : List Int) : ar (s ++ [x]) = ar s + 1 := by
  simp [ar, List.countP_append, h]
theorem ar_cons_word {w : Int} (h : 0 ≤ w) (s : List Int) : ar (w :: s) = ar s := by
  simp [ar, h]
theorem ar_cons_nt {x : Int} (h : x < 0) (s : List Int) : ar (x :: s) = ar s + 1 := by
  simp [ar, h]

theorem ar_zero {s : List Int} (h : ar s = 0) : ∀ x ∈ s, 0 ≤ x := by
  intro x hx
  have := List.countP_eq_zero.1 h x hx
  simpa using this

theorem chunks_terms : ∀ s : List Int, (∀ x ∈ s, 0 ≤ x) → chunks s = [s]
  | [], _ => rfl
  | a :: s, h => by
    rw [chunks_cons_term (h a List.mem_cons_self), chunks_terms s (fun x hx => h x (List.mem_cons_of_mem _ hx))]; rfl

/-! ## Chunks that are not empty -/

/-- The nonempty chunks of a pattern that may start or end with a nonterminal. -/
def cores (s : List Int) : List (List Int) := (chunks s).filter fun c => !c.isEmpty

theorem cores_eq {s : List Int} (h : ∀ c ∈ chunks s, c ≠ []) : chunks s = cores s := by
  rw [cores, List.filter_eq_self.2]
  intro c hc
  simpa using h c hc

theorem cores_snoc_nt {x : Int} (h : x < 0) (u : List Int) : cores (u ++ [x]) = cores u := by
  simp [cores, chunks_snoc_nt h]

theorem cores_cons_nt {x : Int} (h : x < 0) (u : List Int) : cores (x :: u) = cores u := by
  simp [cores, chunks_cons_nt h]

theorem chunks_last (u : List Int) : chunks u = (chunks u).dropLast ++ [(chunks u).getLastD []] := by
  have h := chunks_ne_nil u
  rw [List.getLastD_eq_getLast?, List.getLast?_eq_getLast_of_ne_nil h, Option.getD_some,
    List.dropLast_append_getLast h]

theorem cores_snoc {w : Int} (h : 0 ≤ w) (u : List Int) :
    (∃ C c, cores u = C ++ [c] ∧ cores (u ++ [w]) = C ++ [c ++ [w]]) ∨ cores (u ++ [w]) = cores u ++ [[w]] := by
  have e1 : cores (u ++ [w]) = ((chunks u).dropLast.filter fun c => !c.isEmpty) ++ [(chunks u).getLastD [] ++ [w]] := by
    rw [cores, chunks_snoc_term h, List.filter_append]
    congr 1
    simp
  have e2 : cores u = ((chunks u).dropLast.filter fun c => !c.isEmpty) ++
      ([(chunks u).getLastD []].filter fun c => !c.isEmpty) := by
    conv_lhs => rw [cores, chunks_last u, List.filter_append]
  cases hl : (chunks u).getLastD [] with
  | nil => right; rw [e1, e2, hl]; simp
  | cons a l => left; exact ⟨_, a :: l, by rw [e2, hl]; rfl, by rw [e1, hl]⟩

theorem cores_cons {w : Int} (h : 0 ≤ w) (u : List Int) :
    (∃ C c, cores u = c :: C ∧ cores (w :: u) = (w :: c) :: C) ∨ cores (w :: u) = [w] :: cores u := by
  have e1 : cores (w :: u) = (w :: (chunks u).headD []) :: ((chunks u).tail.filter fun c => !c.isEmpty) := by
    rw [cores, chunks_cons_term h]; simp
  have e2 : cores u = ([(chunks u).headD []].filter fun c => !c.isEmpty) ++
      ((chunks u).tail.filter fun c => !c.isEmpty) := by
    conv_lhs => rw [cores, cons_of_chunks u]
    rw [← List.filter_append]; rfl
  cases hl : (chunks u).headD [] with
  | nil => right; rw [e1, e2, hl]; simp
  | cons a l => left; exact ⟨_, a :: l, by rw [e2, hl]; rfl, by rw [e1, hl]; rfl⟩

theorem cores_snoc_ne {w : Int} (h : 0 ≤ w) (u : List Int) : cores (u ++ [w]) ≠ [] := by
  rcases cores_snoc h u with ⟨C, c, _, e⟩ | e <;> rw [e] <;> simp

/-- Renumbering nonterminals after the removal of a leading one. -/
def shift (s : List Int) : List Int := s.map fun y => if y < 0 then y + 1 else y

/-- The nonterminals keep their sign under `shift`. -/
def Low (s : List Int) : Prop := ∀ x ∈ s, x < 0 → x < -1

theorem chunks_shift : ∀ s : List Int, Low s → chunks (shift s) = chunks s
  | [], _ => rfl
  | a :: s, h => by
    have ih := chunks_shift s (fun x hx => h x (List.mem_cons_of_mem _ hx))
    by_cases ha : 0 ≤ a
    · rw [shift, List.map_cons, if_neg (by omega), chunks_cons_term ha, chunks_cons_term ha, ← shift, ih]
    · have := h a List.mem_cons_self (by omega)
      rw [shift, List.map_cons, if_pos (by omega), chunks_cons_nt (by omega), chunks_cons_nt (by omega), ← shift, ih]

theorem ar_shift (s : List Int) (h : Low s) : ar (shift s) = ar s := by
  have := length_chunks (shift s)
  rw [chunks_shift s h, length_chunks s, vp_length, vp_length] at this
  omega

theorem cores_shift (s : List Int) (h : Low s) : cores (shift s) = cores s := by
  rw [cores, chunks_shift s h, cores]

/-- The pattern without its first symbol, its nonterminals numbered from one. -/
def suf : List Int → List Int
  | [] => []
  | a :: s => if a < 0 then shift s else s

theorem suf_snoc_word {w : Int} (hw : 0 ≤ w) {s : List Int} (h : s ≠ []) : suf (s ++ [w]) = suf s ++ [w] := by
  cases s with
  | nil => exact absurd rfl h
  | cons a s =>
    simp only [List.cons_append, suf]
    split
    · simp [shift]; omega
    · rfl

/-! ## Occurrences of parts of a pattern -/

theorem InLine.shrink_last {lines : List (List String)} {gap : Nat} {C : List (List String)} {c : List String}
    {w : String} {ps : List Nat} (h : InLine lines gap (C ++ [c ++ [w]]) ps) : InLine lines gap (C ++ [c]) ps ∧
      endOf (C ++ [c]) ps ≤ endOf (C ++ [c ++ [w]]) ps := by
  have hl := h.1.length
  obtain ⟨P, p, rfl⟩ : ∃ P p, ps = P ++ [p] := by
    have : ps ≠ [] := by intro e; subst e; simp at hl
    exact ⟨ps.dropLast, ps.getLast this, (List.dropLast_append_getLast this).symm⟩
  obtain ⟨h1, k, l, h2, h3, h4⟩ := h
  rw [occFrom_grow_last] at h1
  rw [endOf_snoc, List.length_append] at h4
  refine ⟨⟨h1.1, k, l, h2, h3, ?_⟩, ?_⟩ <;> rw [endOf_snoc]
  · omega
  · rw [endOf_snoc, List.length_append]; omega

theorem InLine.drop_last {lines : List (List String)} {gap : Nat} {cs : List (List String)} {c : List String}
    {ps : List Nat} (hcs : cs ≠ []) (h : InLine lines gap (cs ++ [c]) ps) : InLine lines gap cs ps.dropLast ∧
      endOf cs ps.dropLast ≤ endOf (cs ++ [c]) ps ∧ ps.dropLast.headD 0 = ps.headD 0 := by
  have hl := h.1.length
  obtain ⟨P, p, rfl⟩ : ∃ P p, ps = P ++ [p] := by
    have : ps ≠ [] := by intro e; subst e; simp at hl
    exact ⟨ps.dropLast, ps.getLast this, (List.dropLast_append_getLast this).symm⟩
  obtain ⟨h1, k, l, h2, h3, h4⟩ := h
  rw [occFrom_snoc _ _ _ _ hcs] at h1
  have hP : P ≠ [] := by
    intro e; subst e
    have := h1.1.length
    exact hcs (List.length_eq_zero_iff.1 (by simpa using this.symm))
  rw [endOf_snoc] at h4
  rw [headD_snoc _ _ hP] at h3
  rw [List.dropLast_concat]
  have he : endOf cs P ≤ p := by have := h1.2.1; simp only [endOf]; omega
  refine ⟨⟨h1.1, k, l, h2, h3, by omega⟩, ?_, (headD_snoc _ _ hP).symm⟩
  rw [endOf_snoc]; omega

theorem InLine.shrink_first {lines : List (List String)} {gap : Nat} {C : List (List String)} {c : List String}
    {w : String} {ps : List Nat} (h : InLine lines gap ((w :: c) :: C) ps) :
    ∃ qs, InLine lines gap (c :: C) qs ∧ endOf (c :: C) qs ≤ endOf ((w :: c) :: C) ps ∧ ps.headD 0 ≤ qs.headD 0 := by
  have hl := h.1.length
  obtain ⟨p, P, rfl⟩ : ∃ p P, ps = p :: P := by
    cases ps with
    | nil => simp at hl
    | cons a b => exact ⟨a, b, rfl⟩
  obtain ⟨h1, k, l, h2, h3, h4⟩ := h
  rw [occFrom_grow_first] at h1
  have he : endOf (c :: C) ((p + 1) :: P) = endOf ((w :: c) :: C) (p :: P) := by
    cases C with
    | nil =>
      have : P = [] := by simpa using hl
      subst this; simp [endOf]; omega
    | cons c' C =>
      have hP : P ≠ [] := by intro e; subst e; simp at hl
      rw [endOf_cons _ _ _ _ (by simp) hP, endOf_cons _ _ _ _ (by simp) hP]
  refine ⟨(p + 1) :: P, ⟨h1.1, k, l, h2, ?_, by rw [he]; exact h4⟩, he.le, by simp⟩
  simp only [List.headD_cons] at h3 ⊢; omega

theorem InLine.drop_first {lines : List (List String)} {gap : Nat} {cs : List (List String)} {c : List String}
    {ps : List Nat} (hcs : cs ≠ []) (h : InLine lines gap (c :: cs) ps) : InLine lines gap cs ps.tail ∧
      endOf cs ps.tail ≤ endOf (c :: cs) ps ∧ ps.headD 0 ≤ ps.tail.headD 0 := by
  have hl := h.1.length
  obtain ⟨p, P, rfl⟩ : ∃ p P, ps = p :: P := by
    cases ps with
    | nil => simp at hl
    | cons a b => exact ⟨a, b, rfl⟩
  obtain ⟨h1, k, l, h2, h3, h4⟩ := h
  rw [occFrom_cons _ _ _ _ hcs] at h1
  have hP : P ≠ [] := by
    intro e; subst e
    have := h1.1.length
    exact hcs (List.length_eq_zero_iff.1 (by simpa using this.symm))
  have he := endOf_cons cs c P p hcs hP
  simp only [List.tail_cons, List.headD_cons] at h3 ⊢
  refine ⟨⟨h1.1, k, l, h2, by omega, by rw [← he]; exact h4⟩, he.ge, by omega⟩

/-- The nonempty chunks as words. -/
def wcores (I : Intersector) (s : List Int) : List (List String) := (cores s).map (·.map I.terminal)

/-- The pattern, without nonterminals at its ends, occurs in the corpus. -/
def Occ (lines : List (List String)) (I : Intersector) (s : List Int) : Prop :=
  ∃ ps, OccursAt lines I.gap I.span (wcores I s) ps

theorem Occ.init {lines : List (List String)} {I : Intersector} {w : Int} (hw : 0 ≤ w) {s : List Int}
    (hs : cores s ≠ []) (h : Occ lines I (s ++ [w])) : Occ lines I s := by
  obtain ⟨ps, h1, h2⟩ := h
  rcases cores_snoc hw s with ⟨C, c, e1, e2⟩ | e
  · rw [wcores, e2] at h1 h2
    simp only [List.map_append, List.map_cons, List.map_nil] at h1 h2
    obtain ⟨h3, h4⟩ := InLine.shrink_last h1
    refine ⟨ps, ?_, ?_⟩ <;> rw [wcores, e1] <;> simp only [List.map_append, List.map_cons, List.map_nil]
    · exact h3
    · intro hl
      have := h2 (by simpa using hl)
      omega
  · rw [wcores, e] at h1 h2
    simp only [List.map_append, List.map_cons, List.map_nil] at h1 h2
    obtain ⟨h3, h4, h5⟩ := InLine.drop_last (by simpa using hs) h1
    refine ⟨ps.dropLast, h3, ?_⟩
    intro hl
    have := h2 (by simp only [wcores, List.length_map] at hl; simp; omega)
    rw [h5, wcores]
    omega

theorem Occ.tail {lines : List (List String)} {I : Intersector} {w : Int} (hw : 0 ≤ w) {s : List Int}
    (hs : cores s ≠ []) (h : Occ lines I (w :: s)) : Occ lines I s := by
  obtain ⟨ps, h1, h2⟩ := h
  rcases cores_cons hw s with ⟨C, c, e1, e2⟩ | e
  · rw [wcores, e2] at h1 h2
    simp only [List.map_cons] at h1 h2
    obtain ⟨qs, h3, h4, h5⟩ := InLine.shrink_first h1
    refine ⟨qs, ?_, ?_⟩ <;> rw [wcores, e1] <;> simp only [List.map_cons]
    · exact h3
    · intro hl
      have := h2 (by simpa using hl)
      omega
  · rw [wcores, e] at h1 h2
    simp only [List.map_cons] at h1 h2
    obtain ⟨h3, h4, h5⟩ := InLine.drop_first (by simpa using hs) h1
    refine ⟨ps.tail, h3, ?_⟩
    intro hl
    have := h2 (by simp only [wcores, List.length_map] at hl; simp; omega)
    rw [wcores]
    simp only [List.map_nil] at h4 this
    omega

theorem Occ.suf {lines : List (List String)} {I : Intersector} {a : Int} {s : List Int} (hs : cores s ≠ [])
    (hlow : a < 0 → Low s) (h : Occ lines I (a :: s)) : Occ lines I (suf (a :: s)) := by
  rw [Extract.suf]
  split
  · rename_i ha
    obtain ⟨ps, h1⟩ := h
    refine ⟨ps, ?_⟩
    rw [wcores, cores_shift _ (hlow ha)]
    rw [wcores, cores_cons_nt ha] at h1
    exact h1
  · exact h.tail (by omega) hs

/-! ## Locations -/

/-- The location holds exactly the occurrences of the pattern. -/
structure NodeLoc (lines : List (List String)) (I : Intersector) (s : List Int) (l : PhraseLocation) : Prop where
  mem : ∀ ps, ps ∈ I.matchesOf l ↔ OccursAt lines I.gap I.span (wcores I s) ps
  nodup : (I.matchesOf l).Nodup
  num : I.matchesOf l ≠ [] → (I.extendLocation l).2 = (cores s).length

theorem NodeLoc.congr {lines : List (List String)} {I : Intersector} {s s' : List Int} {l : PhraseLocation}
    (h : NodeLoc lines I s l) (e : cores s' = cores s) : NodeLoc lines I s' l := by
  refine ⟨?_, h.nodup, ?_⟩
  · intro ps; rw [h.mem, wcores, wcores, e]
  · rw [e]; exact h.num

theorem NodeLoc.holds {lines : List (List String)} {I : Intersector} {s s' : List Int} {l : PhraseLocation}
    (h : NodeLoc lines I s l) (e : chunks s' = cores s) : I.Holds lines s' l := by
  refine ⟨⟨?_, ?_, h.nodup⟩, ?_⟩
  · intro ps hps
    rw [Intersector.wordChunks, e]
    exact ((h.mem ps).1 hps).1
  · intro ps hps
    rw [Intersector.wordChunks, e] at hps
    exact (h.mem ps).2 ⟨hps.1, fun _ => hps.2⟩
  · rw [e]; exact h.num

theorem nodeLoc_range {lines : List (List String)} (hnull : ∀ l ∈ lines, "__NULL__" ∉ l) {rnd : Nat → Nat}
    {I : Intersector} (hd : I.d = createDataArray lines)
    (hsa : buildSuffixArray I.d.data I.d.id2word.length rnd = some I.sa)
    {s : List Int} (hs : s ≠ []) (hterm : ∀ x ∈ s, 0 ≤ x)
    (hn : ∀ x ∈ s, I.terminal x ≠ "__NULL__" ∧ I.terminal x ≠ "__END_OF_LINE__") :
    NodeLoc lines I s (.ofRange (findPhrase I.d.data I.sa (s.map (I.d.word2id ∘ I.terminal))).1
      (findPhrase I.d.data I.sa (s.map (I.d.word2id ∘ I.terminal))).2) := by
  have hch := chunks_terms s hterm
  have hc : chunks s = cores s := cores_eq (by rw [hch]; simpa using hs)
  have H := C42_contiguous lines hnull rnd I hd hsa s hs hterm hn
  refine ⟨?_, H.isMatches.nodup, ?_⟩
  · intro ps
    constructor
    · intro h
      refine ⟨?_, ?_⟩
      · have := H.isMatches.sound ps h
        rwa [Intersector.wordChunks, hc] at this
      · intro hl
        rw [wcores, ← hc, hch] at hl
        simp at hl
    · intro h
      have H' := C42_contiguous lines hnull rnd ⟨I.d, I.sa, I.terminal, I.pre, endOf (wcores I s) ps, I.gap⟩ hd hsa s hs
        hterm hn
      refine H'.isMatches.complete ps ?_
      rw [Intersector.wordChunks, hc]
      refine ⟨h.1, ?_⟩
      change endOf (wcores I s) ps - _ ≤ endOf (wcores I s) ps
      omega
  · rw [← hc]; exact H.num

theorem getSize_range (I : Intersector) (a b : Nat) :
    (PhraseLocation.ofRange a b).getSize = 0 ↔ I.matchesOf (.ofRange a b) = [] := by
  simp only [PhraseLocation.ofRange, PhraseLocation.getSize, Intersector.matchesOf, Intersector.extendLocation,
    List.length_map, List.length_range', Nat.lt_irrefl, if_false]
  cases h : b - a with
  | zero => simp [slices]
  | succ k => simp [slices, List.range'_succ]

theorem getSize_matchings (I : Intersector) (m : List Nat) (n : Nat) (h : 0 < n ∨ m = []) :
    (PhraseLocation.ofMatchings m n).getSize = 0 ↔ I.matchesOf (.ofMatchings m n) = [] := by
  simp only [PhraseLocation.ofMatchings, PhraseLocation.getSize, Intersector.matchesOf, Intersector.extendLocation]
  cases m with
  | nil => simp [slices]
  | cons a m =>
    have hn : 0 < n := by simpa using h
    simp [hn, slices]

theorem getSize_intersect (I : Intersector) (p q : PhraseLocation) (ph : Phrase) :
    (I.intersect p q ph).getSize = 0 ↔ I.matchesOf (I.intersect p q ph) = [] := by
  unfold Intersector.intersect
  simp only []
  split
  · exact getSize_matchings I _ _ (Or.inl (by omega))
  · split
    · unfold Intersector.extendPrefix
      simp only []
      split
      · exact getSize_matchings I _ _ (Or.inr rfl)
      · exact getSize_matchings I _ _ (Or.inl (by omega))
    · unfold Intersector.extendSuffix
      simp only []
      split
      · exact getSize_matchings I _ _ (Or.inr rfl)
      · exact getSize_matchings I _ _ (Or.inl (by omega))

/-- Intersecting gives the location of a pattern with gaps. -/
theorem nodeLoc_intersect {lines : List (List String)} {I : Intersector} (hd : I.d = createDataArray lines)
    (hpre : ∀ s m, I.pre s = some m → I.Exact lines s (.ofMatchings m ((buildPhrase s).arity + 1)))
    {a : Int} {u : List Int} {w : Int} (ha : 0 ≤ a) (hw : 0 ≤ w) (har : 0 < ar (a :: u))
    (hne : ∀ c ∈ chunks (a :: u ++ [w]), c ≠ []) {p q : PhraseLocation}
    (hp : NodeLoc lines I (a :: u) p) (hq : NodeLoc lines I (u ++ [w]) q) :
    NodeLoc lines I (a :: u ++ [w]) (I.intersect p q (buildPhrase (a :: u ++ [w]))) := by
  have h2 : 2 ≤ (chunks (a :: u ++ [w])).length := by
    rw [length_chunks, vp_length, ar_snoc_word hw]; omega
  have hc := cores_eq hne
  have hpp : chunks (prefixPart (a :: u ++ [w])) = cores (a :: u) := by
    rw [prefixPart, List.dropLast_concat]
    rw [chunks_snoc_term hw] at hne
    split
    · rename_i hl
      obtain ⟨v, y, hv⟩ : ∃ v y, a :: u = v ++ [y] :=
        ⟨(a :: u).dropLast, (a :: u).getLast (by simp), (List.dropLast_append_getLast _).symm⟩
      rw [hv] at hl hne ⊢
      have hy : y < 0 := by simpa using hl
      rw [List.dropLast_concat, cores_snoc_nt hy]
      refine cores_eq fun c hcm => hne c ?_
      rw [chunks_snoc_nt hy, List.dropLast_concat]
      exact List.mem_append_left _ hcm
    · rename_i hl
      obtain ⟨v, y, hv⟩ : ∃ v y, a :: u = v ++ [y] :=
        ⟨(a :: u).dropLast, (a :: u).getLast (by simp), (List.dropLast_append_getLast _).symm⟩
      rw [hv] at hl hne ⊢
      have hy : 0 ≤ y := by simpa using hl
      refine cores_eq fun c hcm => ?_
      rw [chunks_snoc_term hy] at hcm hne
      rw [List.dropLast_concat] at hne
      rcases List.mem_append.1 hcm with h | h
      · exact hne c (List.mem_append_left _ h)
      · rw [List.mem_singleton.1 h]; simp
  have hqq : chunks (suffixPart (a :: u ++ [w])) = cores (u ++ [w]) := by
    rw [suffixPart, List.cons_append, List.tail_cons]
    rw [List.cons_append, chunks_cons_term ha] at hne
    cases hv : u ++ [w] with
    | nil => simp at hv
    | cons b v =>
      rw [hv] at hne
      by_cases hb : b < 0
      · rw [List.headD_cons, if_pos hb, List.tail_cons, cores_cons_nt hb]
        refine cores_eq fun c hcm => hne c ?_
        rw [chunks_cons_nt hb]
        exact List.mem_cons_of_mem _ hcm
      · rw [List.headD_cons, if_neg hb]
        refine cores_eq fun c hcm => ?_
        rw [chunks_cons_term (by omega)] at hcm hne
        rcases List.mem_cons.1 hcm with h | h
        · rw [h]; simp
        · exact hne c (List.mem_cons_of_mem _ h)
  obtain ⟨h3, h4⟩ := C42_intersect lines I hd (a :: u ++ [w]) h2 hne p q (hp.holds hpp) (hq.holds hqq) (hpre _)
  refine ⟨?_, h3.isMatches.nodup, ?_⟩
  · intro ps
    rw [h4, Intersector.wordChunks, hc]
    constructor
    · intro h; exact ⟨h.1, fun _ => h.2⟩
    · intro h; exact ⟨h.1, h.2 (by rw [wcores, List.length_map, ← hc]; exact h2)⟩
  · rw [← hc]; exact h3.num

theorem findFrom_append (data : List Nat) (s : SuffixArray) : ∀ (ws vs : List (Option Nat)) (k : Nat) (loc : Nat × Nat),
    findFrom data s (ws ++ vs) k loc = findFrom data s vs (k + ws.length) (findFrom data s ws k loc)
  | [], vs, k, loc => rfl
  | w :: ws, vs, k, loc => by
    rw [List.cons_append, findFrom, findFrom_append data s ws vs, findFrom, List.length_cons]
    congr 1; omega

theorem findPhrase_snoc (data : List Nat) (s : SuffixArray) (ws : List (Option Nat)) (w : Option Nat) :
    findPhrase data s (ws ++ [w]) =
      lookup data s (findPhrase data s ws).1 (findPhrase data s ws).2 w ws.length := by
  rw [findPhrase, findFrom_append, Nat.zero_add]; rfl

end Cdec.Extract
