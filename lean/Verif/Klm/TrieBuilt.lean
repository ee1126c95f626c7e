import Verif.Klm.TrieBuild
/-!
# The trie of an ARPA file, continued
-/
namespace Cdec.Klm.LM

variable {K : Type} [AddCommGroup K] [DecidableEq K]

theorem Source.boAt {a : Spec.Arpa K} (hr : a.Regular) {vocab : Nat} {uni : Word → Wt K} {full : Nat → List (Rec K)} (h : Source a vocab uni full) {g : List Word} (h1 : 1 ≤ g.length) (h2 : g.length < a.order) :
    boAt uni full g = a.backoff g := by
  unfold LM.boAt Spec.Arpa.backoff
  rw [if_pos h2]
  split
  · rename_i hl
    obtain ⟨w, rfl⟩ := List.length_eq_one_iff.1 hl
    have := (h.uniOk w).2.1
    simp only [List.headD_cons, Spec.Arpa.look, Option.map_some, Option.getD_some]
    rw [← this]
    rfl
  · unfold boIn
    congr 1
    cases hf : (full g.length).find? (fun r => decide (r.g = g)) with
    | some r =>
      have hm := List.mem_of_find?_eq_some hf
      have he : r.g = g := by simpa using List.find?_some hf
      obtain ⟨h3, _⟩ := h.fullOk g.length (by omega) (by omega) r hm
      rw [he] at h3
      rw [(look_mem hr (by omega)).2 ⟨by omega, h3⟩]
      rfl
    | none =>
      have : a.look g = none := by
        by_contra hne
        obtain ⟨y, hy⟩ := Option.ne_none_iff_exists'.1 hne
        obtain ⟨h3, h4⟩ := (look_mem hr (by omega)).1 hy
        obtain ⟨r, h5, h6⟩ := h.allOk g.length (by omega) (by omega) _ h4
        rw [List.find?_eq_none] at hf
        exact hf r h5 (by simpa using h6)
      rw [this]
      rfl

/-- The probability of a blank. -/
def blankScore (a : Spec.Arpa K) (x : List Word × Nat × K) : K := a.score (x.1.headD 0) x.1.tail

theorem Source.value {a : Spec.Arpa K} (hr : a.Regular) {vocab : Nat} {uni : Word → Wt K} {full : Nat → List (Rec K)} (h : Source a vocab uni full) {C : List (Call K)} (hc : Calls a vocab C)
    {g : List Word} {l : Nat} {q : K} (hm : Call.blank g l q ∈ C) : blankValue uni full (g, l, q) = blankScore a (g, l, q) := by
  obtain ⟨h1, h2, h3, h4, h5, h6⟩ := hc.blank g l q hm
  unfold blankValue blankScore
  simp only
  cases g with
  | nil => simp at h1
  | cons x c =>
    simp only [List.headD_cons, List.tail_cons, List.length_cons] at *
    rw [score_sum c l q h3 (by omega) h5 h6]
    congr 2
    refine List.map_congr_left fun i hi => ?_
    rw [List.mem_range'_1] at hi
    exact h.boAt hr (by rw [List.length_take]; omega) (by rw [List.length_take]; omega)

omit [AddCommGroup K] [DecidableEq K] in
theorem mem_blanksOf {C : List (Call K)} {n : Nat} {x : List Word × Nat × K} : x ∈ blanksOf C n ↔ Call.blank x.1 x.2.1 x.2.2 ∈ C ∧ x.1.length = n := by
  unfold blanksOf
  rw [List.mem_filterMap]
  constructor
  · rintro ⟨c, hc, h⟩
    cases c with
    | blank g l q =>
      simp only at h
      split at h
      · cases h; exact ⟨hc, by assumption⟩
      · cases h
    | unigram w => cases h
    | middle r => cases h
    | longest r => cases h
  · rintro ⟨h1, h2⟩
    exact ⟨_, h1, by simp [h2]⟩

/-- What the builder has made. -/
structure Built (a : Spec.Arpa K) (vocab : Nat) (C : List (Call K)) (t : Trie K) : Prop where
  order : t.order = a.order
  size : t.vocab = vocab
  calls : Calls a vocab C
  uniNext : t.uniNext = ((gramsOf C 1).map fun p => before C 2 p) ++ [(t.tab 2).length]
  tab : ∀ n, 2 ≤ n → List.Forall₂ (SlotOf (blankScore a) C) (callsOf C n) (t.tab n)
  uni : ∀ w, (t.uni w).prob = (a.uni w).1 ∧ (t.uni w).bo = (a.uni w).2 ∧ ((t.uni w).ext = false → (t.uni w).bo = 0)
  ctxUni : ∀ g ∈ a.sect 2, ∀ w, g.1.tail = [w] → (t.uni w).ext = true
  ctx : ∀ n, 2 ≤ n → n < a.order → ∀ g ∈ a.sect (n + 1), ∃ (i : Nat) (r : Rec K) (s : Slot K), (callsOf C n)[i]? = some (Call.middle r) ∧ r.g = g.1.tail ∧ (t.tab n)[i]? = some s ∧ s.ext = true

theorem buildTrie_spec {a : Spec.Arpa K} (hr : a.Regular) {vocab : Nat} (hb : a.Below vocab) {f : Files K} (hf : Spec.SortedFiles a f) {srt : List Message → List Message} (hs : Spec.Sorts srt) :
    (∀ t, buildTrie srt a.order vocab (Spec.unigram a) f = some t → ∃ C, Built a vocab C t) ∧
    ((∃ t, buildTrie srt a.order vocab (Spec.unigram a) f = some t) ↔ ∀ n, 2 ≤ n → n < a.order → ∀ g ∈ a.sect (n + 1), a.look g.1.tail ≠ none) := by
  have hS := Source.first hf vocab
  obtain ⟨C, hC1, hC2⟩ := hS.calls hr hb
  have hblank : ∀ n, ∀ x ∈ blanksOf C n, x.1.length = n ∧ n < a.order ∧ 1 ≤ x.2.1 ∧ x.2.1 < n := by
    intro n x hx
    obtain ⟨h1, h2⟩ := mem_blanksOf.1 hx
    obtain ⟨_, h4, h5, h6, _⟩ := hC2.blank _ _ _ h1
    exact ⟨h2, by omega, h5, by omega⟩
  have hue : ∀ w, (Spec.unigram a w).ext = false → (Spec.unigram a w).bo = 0 := by
    intro w h
    simpa [Spec.unigram] using h
  have hfe : ∀ n, 2 ≤ n → n < a.order → InOrder (f.full n) ∧ ∀ r ∈ f.full n, r.ext = false → r.bo = 0 :=
    fun n h1 h2 => ⟨hf.order n h1 (by omega), fun r hr' => (hS.fullOk n h1 (by omega) r hr').2⟩
  obtain ⟨o1, o2, _⟩ := obtainBackoffs_spec hs a.order (Spec.unigram a) f.full (findBlanks C) hue hfe
  have o3 := obtain_values hs (calls := C) hue hfe hblank
  unfold buildTrie
  rw [hC1]
  simp only
  generalize obtainBackoffs srt a.order (Spec.unigram a) f.full (findBlanks C) = o at o1 o2 o3
  have hS' := hS.same o1 o2
  obtain ⟨C', hC'1, hC'2⟩ := hS'.calls hr hb
  rw [hC'1]
  have hbl : ∀ n, blanksOf C n = blanksOf C' n := by
    intro n
    have := recursiveInsert_bare a.order vocab (uni := Spec.unigram a) (uni' := o.uni) (full := f.full) (full' := o.full) (fun w => (o1 w).1) (fun n _ _ => by
      have := o2 n
      revert this
      generalize f.full n = A
      generalize o.full n = B
      intro h
      induction h with
      | nil => rfl
      | cons ha _ ih => simp [Rec.bare, ha.1, ha.2.1, ih])
    rw [hC1, hC'1] at this
    simp only [Option.map_some, Option.some.injEq] at this
    rw [← blanksOf_bare C, this, blanksOf_bare]
  have hctx1 : ∀ c ∈ f.ctx 1, ∃ x : Nat, c = [x] ∧ 0 ≤ x ∧ x < 0 + vocab := by
    intro c hc
    obtain ⟨g, hg, rfl⟩ := (hf.ctx 1 (le_refl _) hr.two c).1 hc
    have hl := hr.length 2 (le_refl _) hr.two g hg
    have hbl := hb 2 (le_refl _) hr.two g hg
    match hgl : g.1, hl with
    | [x, y], _ =>
      rw [hgl] at hbl
      have : y < vocab := hbl y (by simp)
      exact ⟨y, rfl, Nat.zero_le _, by rw [Nat.zero_add]; exact this⟩
  obtain ⟨p1, p2⟩ := populate_spec vocab 0 o.uni (f.ctx 1) (hf.ctxOrder 1 (le_refl _) hr.two) hctx1
  rw [p1]
  generalize (populate o.uni (f.ctx 1) 0 vocab).1 = u at p2
  have hinit : WInv (blankScore a) (fun n => if n = 1 then [] else if 2 ≤ n ∧ n < a.order then f.ctx n else []) C' [] C' ⟨[], fun _ => [], fun n => if n = 1 then [] else if 2 ≤ n ∧ n < a.order then f.ctx n else [], o.values, o.extend⟩ := by
    refine ⟨rfl, fun n _ => .nil, fun n => ?_, fun n => ?_, fun n hn c hc => ?_, rfl, fun n c hc => hc, fun n _ c hc => .inl hc, fun n _ ha c hc => ha c hc⟩
    · simp only
      rw [o3, hbl]
      refine List.map_congr_left fun x hx => ?_
      obtain ⟨h1, _⟩ := mem_blanksOf.1 hx
      exact hS.value hr hC'2 h1
    · simp only
      split
      · exact .nil
      · split
        · rename_i h1 h2
          exact hf.ctxOrder n (by omega) h2.2
        · exact .nil
    · simp only [show n ≠ 1 by omega, if_false] at hc
      split at hc
      · rename_i h2
        obtain ⟨g, hg, rfl⟩ := (hf.ctx n (by omega) h2.2 c).1 hc
        have := hr.length (n + 1) (by omega) (by omega) g hg
        simp [this]
      · cases hc
  obtain ⟨b, hb1, hb2⟩ := hinit.run a.order hC'2.sorted (by
    intro c hc
    cases c with
    | unigram w => exact .inr ⟨w, rfl⟩
    | blank g l q => exact .inl (hC'2.blank g l q hc).1
    | middle r => exact .inl (hC'2.middle r hc).1
    | longest r => exact .inl (by show 2 ≤ r.g.length; rw [(hC'2.longest r hc).1]; exact hr.two)) C' [] _ rfl
  simp only
  rw [hb1]
  simp only
  have hany : ((List.range' 1 (a.order - 1)).any fun n => !(b.contexts n).isEmpty) = true ↔ ∃ n, 2 ≤ n ∧ n < a.order ∧ b.contexts n ≠ [] := by
    rw [List.any_eq_true]
    constructor
    · rintro ⟨n, hn, h⟩
      rw [List.mem_range'_1] at hn
      have hne : b.contexts n ≠ [] := by simpa using h
      refine ⟨n, ?_, by omega, hne⟩
      by_contra h2
      have : n = 1 := by omega
      subst this
      exact hne hb2.one
    · rintro ⟨n, h1, h2, h3⟩
      exact ⟨n, List.mem_range'_1.2 (by omega), by simpa using h3⟩
  have horig : ∀ n, 2 ≤ n → n < a.order → ∀ c, c ∈ (if n = 1 then [] else if 2 ≤ n ∧ n < a.order then f.ctx n else []) ↔ ∃ g ∈ a.sect (n + 1), g.1.tail = c := by
    intro n h1 h2 c
    rw [if_neg (by omega), if_pos ⟨h1, h2⟩]
    exact hf.ctx n (by omega) h2 c
  refine ⟨fun t ht => ?_, ?_⟩
  · split at ht
    · cases ht
    · rename_i hne
      cases ht
      rw [hany] at hne
      refine ⟨C', rfl, rfl, hC'2, by simp only; rw [hb2.uniNext], hb2.tab, fun w => ?_, fun g hg w hw => ?_, fun n h1 h2 g hg => ?_⟩
      · simp only
        rw [p2]
        have := hS'.uniOk w
        split
        · exact ⟨this.1.symm, this.2.1.symm, fun h => by cases h⟩
        · refine ⟨this.1.symm, this.2.1.symm, fun h => ?_⟩
          rw [← this.2.1]
          exact hue w (this.2.2 h)
      · simp only
        rw [p2, if_pos]
        exact (hf.ctx 1 (le_refl _) hr.two [w]).2 ⟨g, hg, hw⟩
      · rcases hb2.done n h1 g.1.tail ((horig n h1 h2 _).2 ⟨g, hg, rfl⟩) with h | h
        · exact absurd ⟨n, h1, h2, List.ne_nil_of_mem h⟩ hne
        · exact h
  · constructor
    · rintro ⟨t, ht⟩
      split at ht
      · cases ht
      · rename_i hne
        rw [hany] at hne
        intro n h1 h2 g hg
        rcases hb2.done n h1 g.1.tail ((horig n h1 h2 _).2 ⟨g, hg, rfl⟩) with h | ⟨i, r, s, e1, e2, _⟩
        · exact absurd ⟨n, h1, h2, List.ne_nil_of_mem h⟩ hne
        · have hm : Call.middle r ∈ C' := (List.mem_filter.1 (List.mem_of_getElem? e1)).1
          rw [← e2, (hC'2.middle r hm).2.2.1]
          simp
    · intro hl
      rw [if_neg]
      · exact ⟨_, rfl⟩
      · rw [hany]
        rintro ⟨n, h1, h2, h3⟩
        obtain ⟨c, hc⟩ := List.exists_mem_of_ne_nil _ h3
        obtain ⟨r, hr', _⟩ := hb2.left n h1 (by
          intro c hc
          obtain ⟨g, hg, rfl⟩ := (horig n h1 h2 _).1 hc
          have := hr.length (n + 1) (by omega) (by omega) g hg
          exact hC'2.listed _ (by simp [this]; omega) (by simp [this]; omega) (hl n h1 h2 g hg)) c hc
        cases hr'

end Cdec.Klm.LM
