import Verif.Klm.TrieFind
import Verif.Klm.NGramScore
/-!
# Queries of the trie
-/
namespace Cdec.Klm.LM
open Search

variable {K : Type} [AddCommGroup K] [DecidableEq K] {a : Spec.Arpa K} {vocab : Nat} {C : List (Call K)} {t : Trie K}

/-- The tables hold the probabilities of a file. -/
structure Faithful (a : Spec.Arpa K) (s : Search K) : Prop where
  wf : s.WF0
  order : s.order = a.order
  /-- what is held is listed, or has the probability that backing off gives -/
  held : ∀ x c e, s.get (x :: c) = some e → a.look (x :: c) = some (e.prob, e.bo) ∨ (a.look (x :: c) = none ∧ e.bo = 0 ∧ e.prob = a.score x c)
  listed : ∀ g, g.length < a.order → a.look g ≠ none → ∃ e, s.get g = some e
  long : ∀ g, g.length = a.order → s.long g = a.prob g
  context : ∀ x c, c ≠ [] → a.look (x :: c) ≠ none → a.look c ≠ none ∧ s.Ext c

/-! ## The trie -/

omit [DecidableEq K] in
theorem search_get (t : Trie K) {g : List Word} (h2 : 2 ≤ g.length) (ho : g.length < t.order) :
    t.search.get g = (t.locate g).bind fun j => ((t.tab g.length)[j]?).map fun s => ⟨s.prob, s.prob, s.bo, s.ext, decide (t.next g.length j = t.next g.length (j + 1))⟩ := by
  match g, h2 with
  | x :: y :: g, _ =>
    rw [get_cons2, if_pos (show g.length + 2 < t.search.order from (by simpa using ho : g.length + 2 < t.order))]
    show (if (x :: y :: g).length = g.length + 2 then _ else none) = _
    rw [if_pos (by simp)]

theorem get_iff (hr : a.Regular) (h : Built a vocab C t) (hz : Sizes t) {g : List Word} (h2 : 2 ≤ g.length) (ho : g.length < a.order) (e : Entry K) :
    t.search.get g = some e ↔ ∃ (i : Nat) (c : Call K) (s : Slot K), (callsOf C g.length)[i]? = some c ∧ c.gram = g ∧ (t.tab g.length)[i]? = some s ∧ SlotOf (blankScore a) C c s ∧
      e = ⟨s.prob, s.prob, s.bo, s.ext, decide (nextOf C g.length i = nextOf C g.length (i + 1))⟩ := by
  rw [search_get t h2 (by rw [h.order]; exact ho)]
  have hl := h.locate_spec hr hz h2 (le_of_lt ho)
  constructor
  · intro he
    obtain ⟨i, h3, h4⟩ := Option.bind_eq_some_iff.1 he
    obtain ⟨s, h5, h6⟩ := Option.map_eq_some_iff.1 h4
    obtain ⟨c, h7, h8⟩ := (forall₂_get (h.tab g.length h2) i).2 s h5
    have h9 := (hl i).1 h3
    rw [gramsOf_eq, List.getElem?_map, h7, Option.map_some, Option.some.injEq] at h9
    refine ⟨i, c, s, h7, h9, h5, h8, ?_⟩
    rw [← h6, h.next_eq h2 ho, h.next_eq h2 ho]
  · rintro ⟨i, c, s, h3, h4, h5, h6, rfl⟩
    have : (gramsOf C g.length)[i]? = some g := by rw [gramsOf_eq, List.getElem?_map, h3, Option.map_some, h4]
    rw [(hl i).2 this, Option.bind_some, h5, Option.map_some, h.next_eq h2 ho, h.next_eq h2 ho]

/-- An n-gram of at least two words is held just when it has been written. -/
theorem held_iff (hr : a.Regular) (h : Built a vocab C t) (hz : Sizes t) {g : List Word} (h2 : 2 ≤ g.length) (ho : g.length < a.order) :
    (∃ e, t.search.get g = some e) ↔ g ∈ C.map Call.gram := by
  constructor
  · rintro ⟨e, he⟩
    obtain ⟨i, c, s, h3, h4, _⟩ := (get_iff hr h hz h2 ho e).1 he
    exact List.mem_map.2 ⟨c, (List.mem_filter.1 (List.mem_of_getElem? h3)).1, h4⟩
  · intro hg
    obtain ⟨c, hc, rfl⟩ := List.mem_map.1 hg
    obtain ⟨i, hi⟩ := List.getElem?_of_mem (List.mem_filter.2 ⟨hc, by simp⟩ : c ∈ callsOf C c.gram.length)
    obtain ⟨s, h3, h4⟩ := (forall₂_get (h.tab _ h2) i).1 c hi
    exact ⟨_, (get_iff hr h hz h2 ho _).2 ⟨i, c, s, hi, rfl, h3, h4, rfl⟩⟩

theorem long_eq (hr : a.Regular) (h : Built a vocab C t) (hz : Sizes t) {g : List Word} (ho : g.length = a.order) :
    t.search.long g = a.prob g ∧ ((a.prob g).isSome → g ∈ C.map Call.gram) := by
  have h2 : 2 ≤ g.length := by rw [ho]; exact hr.two
  have hl := h.locate_spec hr hz h2 (le_of_eq ho)
  have e : t.search.long g = (t.locate g).bind fun i => ((t.tab g.length)[i]?).map (·.prob) := by
    show (if g.length = t.order then (t.slot g).map (·.prob) else none) = _
    rw [if_pos (by rw [h.order]; exact ho)]
    unfold Trie.slot
    cases t.locate g <;> rfl
  rw [e]
  cases hloc : t.locate g with
  | none =>
    have hn : a.look g = none := by
      by_contra hne
      obtain ⟨r, hm, he⟩ := h.calls.long g ho hne
      have : g ∈ gramsOf C g.length := mem_gramsOf.2 ⟨List.mem_map.2 ⟨_, hm, he⟩, rfl⟩
      obtain ⟨i, hi⟩ := List.getElem?_of_mem this
      rw [(hl i).2 hi] at hloc
      cases hloc
    refine ⟨?_, ?_⟩
    · simp [Spec.Arpa.prob, hn]
    · simp [Spec.Arpa.prob, hn]
  | some i =>
    have hg := (hl i).1 hloc
    have hm := (mem_gramsOf.1 (List.mem_of_getElem? hg)).1
    refine ⟨?_, fun _ => hm⟩
    rw [gramsOf_eq, List.getElem?_map] at hg
    obtain ⟨c, hc, hcg⟩ := Option.map_eq_some_iff.1 hg
    obtain ⟨s, h3, h4⟩ := (forall₂_get (h.tab _ h2) i).1 c hc
    have hcm := (List.mem_filter.1 (List.mem_of_getElem? hc)).1
    rw [Option.bind_some, h3, Option.map_some]
    obtain ⟨_, h4⟩ := h4
    cases c with
    | unigram w => exact h4.elim
    | blank g' l q =>
      have := (h.calls.blank g' l q hcm).2.1
      simp only [Call.gram] at hcg
      rw [hcg] at this; omega
    | middle r =>
      have := (h.calls.middle r hcm).2.1
      simp only [Call.gram] at hcg
      rw [hcg] at this; omega
    | longest r =>
      have := (h.calls.longest r hcm).2
      simp only [Call.gram] at hcg
      rw [hcg] at this
      rw [this, h4.1]

theorem written_of_has (hr : a.Regular) (h : Built a vocab C t) (hz : Sizes t) {g : List Word} (h2 : 2 ≤ g.length) (hh : t.search.Has g) : g ∈ C.map Call.gram := by
  have ho : t.search.order = a.order := h.order
  have hl := (has_length (by rw [ho]; exact hr.two) hh).2
  rw [ho] at hl
  rcases Nat.lt_or_eq_of_le hl with hl | hl
  · exact (held_iff hr h hz h2 hl).1 (get_of_has hh (by rw [ho]; exact hl))
  · have := long_eq hr h hz hl
    apply this.2
    rw [← this.1]
    unfold Has probOf at hh
    rwa [if_pos (by rw [ho]; exact hl)] at hh

theorem Built.faithful (hr : a.Regular) (h : Built a vocab C t) (hz : Sizes t) : Faithful a t.search := by
  have ho : t.search.order = a.order := h.order
  have huni : ∀ w, t.search.get [w] = some ⟨(t.uni w).prob, (t.uni w).prob, (t.uni w).bo, (t.uni w).ext, decide ((t.uniRange w).1 = (t.uniRange w).2)⟩ := fun _ => rfl
  have hget : ∀ g e, t.search.get g = some e → g.length < a.order := by
    intro g e he
    rw [← ho]
    exact (get_length (by rw [ho]; exact hr.two) he).2
  have hrange : ∀ (n j : Nat) (l : List Word) (y : Word), 1 ≤ n → (gramsOf C n)[j]? = some l → l ++ [y] ∈ C.map Call.gram → nextOf C n j ≠ nextOf C n (j + 1) := by
    intro n j l y hn hl hy heq
    have hln := (mem_gramsOf.1 (List.mem_of_getElem? hl)).2
    obtain ⟨i, hi⟩ := List.getElem?_of_mem (mem_gramsOf.2 ⟨hy, by simp [hln]⟩ : l ++ [y] ∈ gramsOf C (n + 1))
    have := (range_spec h.calls.sorted h.calls.closed hn hl i _ hi).2 (by rw [List.take_append_of_le_length (by omega), List.take_of_length_le (by omega)])
    omega
  refine ⟨⟨by rw [ho]; exact hr.two, ?_, ?_⟩, ho, ?_, ?_, ?_, ?_⟩
  · intro l y hne hh
    have hlen : 1 ≤ l.length := by cases l <;> simp at hne ⊢
    have hC := written_of_has hr h hz (by simp; omega) hh
    obtain ⟨c, hc, hcg⟩ := List.mem_map.1 hC
    have hlC : l ∈ C.map Call.gram := by
      have := h.calls.closed c hc l.length hlen (by rw [hcg]; simp)
      rwa [hcg, List.take_left'] at this
      rfl
    have hlo : l.length < a.order := by
      have := (has_length (by rw [ho]; exact hr.two) hh).2
      rw [ho] at this
      simp at this
      omega
    rcases Nat.lt_or_ge l.length 2 with h1 | h2
    · obtain ⟨w, rfl⟩ := List.length_eq_one_iff.1 (show l.length = 1 by omega)
      have hw : w < vocab := by
        obtain ⟨c, hc, hcg⟩ := List.mem_map.1 hlC
        exact h.calls.below c hc w (by rw [hcg]; simp)
      obtain ⟨h3, h4⟩ := h.uniRange_eq hr hw
      refine ⟨_, huni w, ?_⟩
      simp only [decide_eq_false_iff_not, h4]
      exact hrange 1 w [w] y (le_refl _) h3 hC
    · obtain ⟨e, he⟩ := (held_iff hr h hz h2 hlo).2 hlC
      refine ⟨e, he, ?_⟩
      obtain ⟨i, c', s, h3, h4, _, _, rfl⟩ := (get_iff hr h hz h2 hlo e).1 he
      simp only [decide_eq_false_iff_not]
      refine hrange l.length i l y hlen ?_ hC
      rw [gramsOf_eq, List.getElem?_map, h3, Option.map_some, h4]
  · intro g e he hx
    have hlo := hget g e he
    match g with
    | [] => cases he
    | [w] =>
      rw [huni] at he
      cases he
      exact (h.uni w).2.2 hx
    | x :: y :: g =>
      obtain ⟨i, c, s, h3, h4, h5, h6, rfl⟩ := (get_iff hr h hz (by simp) hlo e).1 he
      have hcm := (List.mem_filter.1 (List.mem_of_getElem? h3)).1
      obtain ⟨_, h6⟩ := h6
      simp only at hx ⊢
      cases c with
      | unigram w => exact h6.elim
      | blank g' l q => exact h6.2.1
      | middle r =>
        rw [h6.2.1]
        exact (h.calls.middle r hcm).2.2.2 (h6.2.2.1 hx)
      | longest r => exact h6.2
  · intro x c e he
    have hlo := hget _ e he
    match c with
    | [] =>
      rw [huni] at he
      cases he
      obtain ⟨h1, h2, _⟩ := h.uni x
      exact .inl (by simp [Spec.Arpa.look, h1, h2])
    | y :: c =>
      obtain ⟨i, c', s, h3, h4, h5, h6, rfl⟩ := (get_iff hr h hz (by simp) hlo e).1 he
      have hcm := (List.mem_filter.1 (List.mem_of_getElem? h3)).1
      obtain ⟨_, h6⟩ := h6
      cases c' with
      | unigram w => exact h6.elim
      | blank g' l q =>
        simp only [Call.gram] at h4
        subst h4
        obtain ⟨b1, b2, b3, b4, b5, b6⟩ := h.calls.blank _ l q hcm
        have := b6 _ b4 (le_refl _)
        rw [List.take_length] at this
        refine .inr ⟨by simpa [Spec.Arpa.prob] using this, h6.2.1, h6.1⟩
      | middle r =>
        simp only [Call.gram] at h4
        have := (h.calls.middle r hcm).2.2.1
        rw [h4, ← h6.1, ← h6.2.1] at this
        exact .inl this
      | longest r =>
        simp only [Call.gram] at h4
        have := (h.calls.longest r hcm).1
        rw [h4] at this
        omega
  · intro g hl hne
    match g with
    | [] => exact absurd rfl hne
    | [w] => exact ⟨_, huni w⟩
    | x :: y :: g =>
      obtain ⟨r, hm, he⟩ := h.calls.listed _ (by simp) hl hne
      exact (held_iff hr h hz (by simp) hl).2 (List.mem_map.2 ⟨_, hm, he⟩)
  · intro g hl
    exact (long_eq hr h hz hl).1
  · intro x c hc hne
    have hlc : 1 ≤ c.length := by cases c <;> simp at hc ⊢
    obtain ⟨v, hv⟩ := Option.ne_none_iff_exists'.1 hne
    obtain ⟨h1, h2⟩ := (look_mem hr (by simp; omega)).1 hv
    rcases Nat.lt_or_ge c.length 2 with hc1 | hc2
    · obtain ⟨w, rfl⟩ := List.length_eq_one_iff.1 (show c.length = 1 by omega)
      exact ⟨by simp [Spec.Arpa.look], _, huni w, h.ctxUni _ h2 w rfl⟩
    · simp only [List.length_cons] at h1 h2
      obtain ⟨i, r, s, e1, e2, e3, e4⟩ := h.ctx c.length hc2 (by omega) _ h2
      simp only [List.tail_cons] at e2
      have hm : Call.middle r ∈ C := (List.mem_filter.1 (List.mem_of_getElem? e1)).1
      obtain ⟨s', f1, f2⟩ := (forall₂_get (h.tab _ hc2) i).1 _ e1
      rw [e3] at f1
      cases f1
      refine ⟨by rw [← e2, (h.calls.middle r hm).2.2.1]; simp, _, (get_iff hr h hz hc2 (by omega) _).2 ⟨i, _, s, e1, e2, e3, f2, rfl⟩, e4⟩

/-! ## Scores -/

variable {s : Search K}

theorem Faithful.boOf (hr : a.Regular) (f : Faithful a s) (g : List Word) : s.boOf g = a.backoff g := by
  unfold Search.boOf Spec.Arpa.backoff
  cases hg : s.get g with
  | none =>
    split
    · rename_i hl
      have : a.look g = none := by
        by_contra hne
        obtain ⟨e, he⟩ := f.listed g hl hne
        rw [hg] at he
        cases he
      rw [this]
      rfl
    · rfl
  | some e =>
    have hl := get_length f.wf.two hg
    rw [f.order] at hl
    rw [if_pos hl.2]
    cases g with
    | nil => cases hg
    | cons x c =>
      rcases f.held x c e hg with h | ⟨h1, h2, _⟩
      · rw [h]; rfl
      · rw [h1]; exact h2

theorem Faithful.prob (f : Faithful a s) {x : Word} {c : List Word} {p : K} (h : s.probOf (x :: c) = some p) : p = a.score x c := by
  unfold probOf at h
  have hl : ∀ q, a.prob (x :: c) = some q → a.score x c = q := by
    intro q hq
    unfold Spec.Arpa.score
    rw [Spec.score.eq_def, hq]
  split at h
  · rename_i ho
    rw [f.long _ (by rw [← f.order]; exact ho)] at h
    exact (hl p h).symm
  · obtain ⟨e, he, rfl⟩ := Option.map_eq_some_iff.1 h
    rcases f.held x c e he with h | ⟨_, _, h3⟩
    · exact (hl _ (by rw [Spec.Arpa.prob, h]; rfl)).symm
    · exact h3

theorem look_length (hr : a.Regular) {g : List Word} (h : a.look g ≠ none) : g.length ≤ a.order := by
  have := hr.two
  match g with
  | [] => simp
  | [w] => simp; omega
  | x :: y :: g =>
    unfold Spec.Arpa.look at h
    by_contra hn
    simp only [hn, if_false] at h
    exact h rfl

theorem Faithful.has (hr : a.Regular) (f : Faithful a s) {g : List Word} (h : a.look g ≠ none) : s.Has g := by
  rcases Nat.lt_or_eq_of_le (look_length hr h) with hl | hl
  · obtain ⟨e, he⟩ := f.listed g hl h
    exact has_get f.wf.two he
  · unfold Has probOf
    rw [if_pos (by rw [f.order]; exact hl), f.long g hl]
    unfold Spec.Arpa.prob
    cases hh : a.look g with
    | none => exact absurd hh h
    | some v => rfl

/-- Backing off over words that no listed n-gram needs. -/
theorem Faithful.score (hr : a.Regular) (f : Faithful a s) (x : Word) (h : List Word) (k : Nat) (hk : k ≤ h.length) (hn : ∀ j, k < j → j ≤ h.length → a.look (x :: h.take j) = none) :
    a.score x h = a.score x (h.take k) + ((bos s [] h).drop k).sum := by
  induction h using List.reverseRecOn with
  | nil => simp [bos]
  | append_singleton h y ih =>
    rcases Nat.lt_or_eq_of_le hk with hk' | hk'
    · simp only [List.length_append, List.length_cons, List.length_nil] at hk'
      have htk : ∀ j, j ≤ h.length → (h ++ [y]).take j = h.take j := fun j hj => List.take_append_of_le_length hj
      have h1 := hn (h.length + 1) (by omega) (by simp)
      rw [List.take_of_length_le (by simp)] at h1
      rw [arpa_unlisted (by simp) h1, List.dropLast_concat, ih (by omega) (fun j h2 h3 => by rw [← htk j h3]; exact hn j h2 (by simp; omega)), htk k (by omega), bos_append,
        List.drop_append_of_le_length (by rw [bos_length]; omega), List.sum_append, ← f.boOf hr]
      simp only [bos, List.nil_append, List.sum_cons, List.sum_nil, add_zero]
      rw [add_comm, add_assoc]
    · rw [hk', List.take_length, List.drop_of_length_le (by rw [bos_length]), List.sum_nil, add_zero]

/-- A state stands for a history. -/
structure StandsFor (a : Spec.Arpa K) (s : Search K) (st : State K) (h : List Word) : Prop where
  le : st.length ≤ h.length
  words : st.words = h.take st.length
  backoff : st.backoff = (bos s [] h).take st.length
  none : ∀ j, st.length < j → j ≤ h.length → a.backoff (h.take j) = 0 ∧ ∀ x, a.look (x :: h.take j) = none

/-- A part of the history that is not marked as a context. -/
theorem Faithful.unmarked (hr : a.Regular) (f : Faithful a s) {c : List Word} (hc : c ≠ []) (h : ¬ s.Ext c) : a.backoff c = 0 ∧ ∀ x, a.look (x :: c) = none := by
  refine ⟨by rw [← f.boOf hr, boOf_not_ext f.wf h], fun x => ?_⟩
  by_contra hne
  exact h (f.context x c hc hne).2

theorem Faithful.recent (hr : a.Regular) (f : Faithful a s) {st : State K} {h : List Word} (r : Recent s st h) : StandsFor a s st h := by
  refine ⟨r.le, r.words, r.backoff, fun j h1 h2 => ?_⟩
  have hne : h.take j ≠ [] := by
    intro e
    have := congrArg List.length e
    rw [List.length_take, List.length_nil] at this
    omega
  by_cases h3 : j < s.order
  · exact f.unmarked hr hne (r.noext j h1 h2 h3)
  · exact f.unmarked hr hne (noExt_long f.wf (by rw [List.length_take, Nat.min_eq_left h2]; omega))

theorem StandsFor.null (a : Spec.Arpa K) (s : Search K) : StandsFor a s nullContext [] := by
  have h := suff_null s
  refine ⟨h.le, h.words, h.backoff, fun j h1 h2 => ?_⟩
  simp at h2
  omega

theorem StandsFor.bos (a : Spec.Arpa K) (s : Search K) (b : Word) : StandsFor a s (beginSentence s b) [b] := by
  have h := (suff_bos s b).1
  refine ⟨h.le, h.words, h.backoff, fun j h1 h2 => ?_⟩
  simp [beginSentence, State.length] at h1 h2
  omega

/-- Scoring a word with a state that stands for the history. -/
theorem StandsFor.next (hr : a.Regular) (f : Faithful a s) {R : State K} {h : List Word} (hs : StandsFor a s R h) (x : Word) :
    (fullScore s R x).1.prob = a.score x h ∧ StandsFor a s (fullScore s R x).2 (x :: h) := by
  obtain ⟨k, hk⟩ := seb_spec f.wf R.words x
  have hlw : R.words.length = R.length := rfl
  have hf1 : (fullScore s R x).1.prob = (scoreExceptBackoff s R.words x).1.prob + (R.backoff.drop ((scoreExceptBackoff s R.words x).1.ngramLength - 1)).sum := rfl
  have hf2 : (fullScore s R x).2 = (scoreExceptBackoff s R.words x).2 := rfl
  rw [hf1, hf2]
  generalize scoreExceptBackoff s R.words x = o at hk
  have hkR : k ≤ R.length := by have := hk.k_le; omega
  have hle := hs.le
  have htk : ∀ j, j ≤ R.length → R.words.take j = h.take j := by
    intro j hj
    rw [hs.words, take_take_le _ hj]
  have htx : ∀ j, j ≤ R.length + 1 → (x :: R.words).take j = (x :: h).take j := by
    intro j hj
    cases j with
    | zero => simp
    | succ j => simp [htk j (by omega)]
  have hzero : resid s [] h R.length = 0 := by
    apply bos_drop_zero
    intro j h1 h2
    rw [List.nil_append, f.boOf hr]
    exact (hs.none j h1 h2).1
  constructor
  · have hp := hk.prob
    rw [htk k hkR] at hp
    rw [f.prob hp, hk.len, show 1 + k - 1 = k by omega, hs.backoff, f.score hr x h k (by omega) ?_]
    · have := take_resid s [] h R.length k hkR hle
      rw [hzero, add_zero] at this
      rw [this]
    · intro j h1 h2
      by_cases h3 : j ≤ R.length
      · by_contra hne
        have := hk.longer j h1 (by omega)
        rw [htk j h3] at this
        exact this (f.has hr hne)
      · exact (hs.none j (by omega) h2).2 x
  · have hol := hk.le
    refine ⟨by simp; omega, ?_, ?_, ?_⟩
    · rw [hk.words]; exact htx _ (by omega)
    · rw [hk.backoff, ← bos_take, ← bos_take, htx _ (by omega)]
    · intro j h1 h2
      by_cases h3 : j ≤ R.length + 1
      · have hne := hk.noext j h1 (by omega)
        rw [htx j h3] at hne
        exact f.unmarked hr (by
          intro e
          have := congrArg List.length e
          simp at this
          omega) hne
      · obtain ⟨i, rfl⟩ : ∃ i, j = i + 1 := ⟨j - 1, by omega⟩
        simp only [List.length_cons] at h2
        have hno := (hs.none i (by omega) (by omega)).2
        rw [List.take_succ_cons]
        have hlk := hno x
        refine ⟨?_, fun y => ?_⟩
        · unfold Spec.Arpa.backoff
          rw [hlk]
          simp
        · by_contra hne
          exact (f.context y _ (by simp) hne).1 hlk

/-- `FullScoreForgotState`. -/
theorem Faithful.forgot (hr : a.Regular) (f : Faithful a s) (h : List Word) (x : Word) : (forgotState s h x).1.prob = a.score x h ∧ StandsFor a s (forgotState s h x).2 (x :: h) := by
  obtain ⟨⟨k, p, h1, h2, h3, h4⟩, r⟩ := forgot_recent f.wf h x
  refine ⟨?_, f.recent hr r⟩
  have h2' : s.probOf (x :: h.take k) = some p := by simpa using h2
  rw [h4, f.prob h2', f.score hr x h k h1 (fun j h5 h6 => ?_)]
  by_contra hne
  exact h3 j h5 h6 (by simpa using f.has hr hne)

end Cdec.Klm.LM
