import Verif.Extract.Precomp
import Verif.Extract.PrecompLemmas
/-! # C45: precomputed collocations -/
namespace Cdec.Extract

/-- The contiguous parts of a pattern: split at its nonterminals (negative symbols). -/
def chunks : List Int → List (List Int)
  | [] => [[]]
  | x :: xs =>
    if x < 0 then [] :: chunks xs
    else match chunks xs with
      | [] => [[x]]
      | c :: cs => (x :: c) :: cs

/-- Consecutive parts leave a gap of at least `gap` words. -/
def GapsOk (gap : Nat) : List (List Int × Nat) → Prop
  | a :: b :: l => a.2 + a.1.length + gap ≤ b.2 ∧ GapsOk gap (b :: l)
  | _ => True

/-- End of the last part. -/
def endOf : List (List Int × Nat) → Nat
  | [] => 0
  | [a] => a.2 + a.1.length
  | _ :: l => endOf l

/-- `pat` occurs in the corpus at `starts`: every part is found at its start position, the parts are separated by
gaps of at least the minimum size, the whole fits in the maximum span, and no sentence boundary is crossed. -/
def Occurs (P : PreParams) (data : List Nat) (pat : List Int) (starts : List Nat) : Prop :=
  (chunks pat).length = starts.length ∧
  (∀ p ∈ (chunks pat).zip starts, (((data.drop p.2).take p.1.length).map P.ann) = p.1) ∧
  GapsOk P.gap ((chunks pat).zip starts) ∧
  endOf ((chunks pat).zip starts) ≤ starts.headD 0 + P.span ∧
  ∀ i, starts.headD 0 ≤ i → i < endOf ((chunks pat).zip starts) → data[i]? ≠ some eol

theorem chunks_pos {c : List Int} (h : ∀ x ∈ c, 0 ≤ x) : chunks c = [c] := by
  induction c with
  | nil => rfl
  | cons x c ih =>
    rw [chunks, if_neg (by have := h x (by simp); omega), ih fun y hy => h y (by simp [hy])]

theorem chunks_cons {c : List Int} (h : ∀ x ∈ c, 0 ≤ x) {y : Int} (hy : y < 0) (r : List Int) :
    chunks (c ++ y :: r) = c :: chunks r := by
  induction c with
  | nil => simp [chunks, hy]
  | cons x c ih =>
    rw [List.cons_append, chunks, if_neg (by have := h x (by simp); omega), ih fun z hz => h z (by simp [hz])]

/-- What is known about the collected matches: they are frequent patterns at their positions in one sentence
(`lo` is the beginning of the current sentence, `hi` the current position). -/
structure GoodMatch (P : PreParams) (data : List Nat) (lo hi : Nat) (m : Match) : Prop where
  slice : ((data.drop m.start).take m.size).map P.ann = m.ann
  len : m.ann.length = m.size
  pos : ∀ x ∈ m.ann, 0 ≤ x
  lo : lo ≤ m.start
  hi : m.start < hi
  noEol : ∀ i, m.start ≤ i → i < m.start + m.size → data[i]? ≠ some eol

variable {P : PreParams} {data : List Nat}

theorem matchesFrom_good (hpos : ∀ w, 0 ≤ P.ann w) (hfreq : ∀ p r, P.freq p = some r → eol ∉ p) (lo i : Nat) (hlo : lo ≤ i) :
    ∀ (n j : Nat), ∀ m ∈ matchesFrom P data i n j, GoodMatch P data lo (i + 1) m ∧ j ≤ m.size ∧ m.size < j + n := by
  intro n
  induction n with
  | zero => intro j m hm; simp [matchesFrom] at hm
  | succ n ih =>
    intro j m hm
    unfold matchesFrom at hm
    split at hm
    · rename_i hle
      simp only at hm
      split at hm
      · simp at hm
      · rename_i r hr
        rcases List.mem_cons.1 hm with rfl | hm
        · refine ⟨⟨rfl, by simp; omega, ?_, hlo, by simp, ?_⟩, Nat.le_refl _, by simp⟩
          · intro x hx
            obtain ⟨w, _, rfl⟩ := List.mem_map.1 hx
            exact hpos w
          · intro k hk1 hk2 hc
            apply hfreq _ _ hr
            simp only at hk1 hk2
            rw [List.mem_iff_getElem?]
            refine ⟨k - i, ?_⟩
            rw [List.getElem?_take, if_pos (by omega), List.getElem?_drop, show i + (k - i) = k by omega]
            exact hc
        · obtain ⟨a, b, c⟩ := ih (j + 1) m hm
          exact ⟨a, by omega, by omega⟩
    · simp at hm

theorem occurs2 {lo hi : Nat} {m1 m2 : Match} (h1 : GoodMatch P data lo hi m1) (h2 : GoodMatch P data lo hi m2)
    (hs : ∀ i, lo ≤ i → i < hi → data[i]? ≠ some eol)
    (hg : (m2.start : Int) - m1.start - m1.size ≥ P.gap) (hsp : (m2.start : Int) + m2.size - m1.start ≤ P.span) :
    Occurs P data (m1.ann ++ [-1] ++ m2.ann) [m1.start, m2.start] := by
  have hc : chunks (m1.ann ++ [-1] ++ m2.ann) = [m1.ann, m2.ann] := by
    rw [List.append_assoc, List.singleton_append, chunks_cons h1.pos (by omega), chunks_pos h2.pos]
  unfold Occurs
  rw [hc]
  refine ⟨rfl, ?_, ?_, ?_, ?_⟩
  · intro p hp
    simp only [List.zip_cons_cons, List.zip_nil_right, List.mem_cons, List.not_mem_nil, or_false] at hp
    rcases hp with rfl | rfl
    · simp only [h1.len]; exact h1.slice
    · simp only [h2.len]; exact h2.slice
  · simp only [List.zip_cons_cons, List.zip_nil_right, GapsOk, h1.len, and_true]; omega
  · simp only [List.zip_cons_cons, List.zip_nil_right, endOf, h2.len, List.headD_cons]; omega
  · simp only [List.zip_cons_cons, List.zip_nil_right, endOf, h2.len, List.headD_cons]
    intro i hi1 hi2
    by_cases hh : i < hi
    · exact hs i (by have := h1.lo; omega) hh
    · exact h2.noEol i (by have := h2.hi; omega) hi2

theorem occurs3 {lo hi : Nat} {m1 m2 m3 : Match} (h1 : GoodMatch P data lo hi m1) (h2 : GoodMatch P data lo hi m2)
    (h3 : GoodMatch P data lo hi m3)
    (hs : ∀ i, lo ≤ i → i < hi → data[i]? ≠ some eol)
    (hg : (m2.start : Int) - m1.start - m1.size ≥ P.gap) (hg2 : (m3.start : Int) - m2.start - m2.size ≥ P.gap)
    (hsp : (m3.start : Int) + m3.size - m1.start ≤ P.span) :
    Occurs P data (m1.ann ++ [-1] ++ m2.ann ++ [-2] ++ m3.ann) [m1.start, m2.start, m3.start] := by
  have hc : chunks (m1.ann ++ [-1] ++ m2.ann ++ [-2] ++ m3.ann) = [m1.ann, m2.ann, m3.ann] := by
    simp only [List.append_assoc, List.singleton_append, List.cons_append, List.nil_append]
    rw [chunks_cons h1.pos (by omega), chunks_cons h2.pos (by omega), chunks_pos h3.pos]
  unfold Occurs
  rw [hc]
  refine ⟨rfl, ?_, ?_, ?_, ?_⟩
  · intro p hp
    simp only [List.zip_cons_cons, List.zip_nil_right, List.mem_cons, List.not_mem_nil, or_false] at hp
    rcases hp with rfl | rfl | rfl
    · simp only [h1.len]; exact h1.slice
    · simp only [h2.len]; exact h2.slice
    · simp only [h3.len]; exact h3.slice
  · simp only [List.zip_cons_cons, List.zip_nil_right, GapsOk, h1.len, h2.len, and_true]; omega
  · simp only [List.zip_cons_cons, List.zip_nil_right, endOf, h3.len, List.headD_cons]; omega
  · simp only [List.zip_cons_cons, List.zip_nil_right, endOf, h3.len, List.headD_cons]
    intro i hi1 hi2
    by_cases hh : i < hi
    · exact hs i (by have := h1.lo; omega) hh
    · exact h3.noEol i (by have := h3.hi; omega) hi2

/-- The ternary loop is sound if the right parts have one word each. -/
theorem tern_sound {lo hi : Nat} {m1 m2 : Match} (h1 : GoodMatch P data lo hi m1) (h2 : GoodMatch P data lo hi m2)
    (hs : ∀ i, lo ≤ i → i < hi → data[i]? ≠ some eol)
    (hg : (m2.start : Int) - m1.start - m1.size ≥ P.gap) (ms : List Match)
    (hms : ∀ m ∈ ms, GoodMatch P data lo hi m ∧ m.size = 1) :
    ∀ e ∈ ternLoop P m1 m2 ms (m1.ann ++ [-1] ++ m2.ann ++ [-2]), Occurs P data e.1 e.2 := by
  induction ms with
  | nil => intro e he; simp [ternLoop] at he
  | cons m3 ms ih =>
    intro e he
    have h3 := hms m3 (by simp)
    have ih' := ih fun m hm => hms m (by simp [hm])
    unfold ternLoop at he
    split at he
    · simp at he
    · split at he
      · rename_i hc
        simp only at he
        rcases List.mem_cons.1 he with rfl | he
        · exact occurs3 h1 h2 h3.1 hs hg hc.1 hc.2.1
        · have e1 : (m1.ann ++ [-1] ++ m2.ann ++ [-2] ++ m3.ann).eraseIdx
              ((m1.ann ++ [-1] ++ m2.ann ++ [-2] ++ m3.ann).length - m3.size) = m1.ann ++ [-1] ++ m2.ann ++ [-2] := by
            have hl := h3.1.len
            rw [h3.2] at hl ⊢
            obtain ⟨x, hx⟩ := List.length_eq_one_iff.1 hl
            rw [hx]
            generalize m1.ann ++ [-1] ++ m2.ann ++ [-2] = q
            rw [List.eraseIdx_append_of_length_le (by simp)]
            simp
          rw [e1] at he
          exact ih' e he
      · exact ih' e he

/-- A ternary event has three positions. -/
theorem tern_len (m1 m2 : Match) (ms : List Match) : ∀ (p : List Int), ∀ e ∈ ternLoop P m1 m2 ms p, e.2.length = 3 := by
  induction ms with
  | nil => intro p e he; simp [ternLoop] at he
  | cons m3 ms ih =>
    intro p e he
    unfold ternLoop at he
    split at he
    · simp at he
    · split at he
      · simp only at he
        rcases List.mem_cons.1 he with rfl | he
        · rfl
        · exact ih _ e he
      · exact ih _ e he

theorem bin_sound {lo hi : Nat} {m1 : Match} (h1 : GoodMatch P data lo hi m1)
    (hs : ∀ i, lo ≤ i → i < hi → data[i]? ≠ some eol) (ms : List Match)
    (hms : ∀ m ∈ ms, GoodMatch P data lo hi m) :
    ∀ e ∈ binLoop P m1 ms, (e.2.length = 2 ∨ (∀ m ∈ ms, m.size = 1)) → Occurs P data e.1 e.2 := by
  induction ms with
  | nil => intro e he; simp [binLoop] at he
  | cons m2 ms ih =>
    intro e he hcase
    have h2 := hms m2 (by simp)
    have ih' := ih (fun m hm => hms m (by simp [hm])) e
    have hcase' : e.2.length = 2 ∨ ∀ m ∈ ms, m.size = 1 := by
      rcases hcase with h | h
      · exact .inl h
      · exact .inr fun m hm => h m (by simp [hm])
    unfold binLoop at he
    split at he
    · simp at he
    · split at he
      · rename_i hc
        simp only at he
        rcases List.mem_cons.1 he with rfl | he
        · exact occurs2 h1 h2 hs hc.1 hc.2.1
        · rcases List.mem_append.1 he with he | he
          · split at he
            · rcases hcase' with h | h
              · have := tern_len m1 m2 ms _ e he
                omega
              · exact tern_sound h1 h2 hs hc.1 ms (fun m hm => ⟨hms m (by simp [hm]), h m hm⟩) e he
            · simp at he
          · exact ih' he hcase'
      · exact ih' he hcase'

theorem update_sound {lo hi : Nat} (hs : ∀ i, lo ≤ i → i < hi → data[i]? ≠ some eol) (ms : List Match)
    (hms : ∀ m ∈ ms, GoodMatch P data lo hi m) :
    ∀ e ∈ updateIndex P ms, (e.2.length = 2 ∨ (∀ m ∈ ms, m.size = 1)) → Occurs P data e.1 e.2 := by
  induction ms with
  | nil => intro e he; simp [updateIndex] at he
  | cons m1 ms ih =>
    intro e he hcase
    have hcase' : e.2.length = 2 ∨ ∀ m ∈ ms, m.size = 1 := by
      rcases hcase with h | h
      · exact .inl h
      · exact .inr fun m hm => h m (by simp [hm])
    rcases List.mem_append.1 he with he | he
    · exact bin_sound (hms m1 (by simp)) hs ms (fun m hm => hms m (by simp [hm])) e he hcase'
    · exact ih (fun m hm => hms m (by simp [hm])) e he hcase'

theorem pre_inv (hpos : ∀ w, 0 ≤ P.ann w) (hfreq : ∀ p r, P.freq p = some r → eol ∉ p) (n : Nat) :
    ∃ lo, lo ≤ n ∧ (∀ i, lo ≤ i → i < n → data[i]? ≠ some eol) ∧
      (∀ m ∈ ((List.range n).foldl (preStep P data) ([], [])).1, GoodMatch P data lo n m ∧ 1 ≤ m.size ∧ m.size ≤ P.maxLen) ∧
      ∀ e ∈ ((List.range n).foldl (preStep P data) ([], [])).2, (e.2.length = 2 ∨ P.maxLen = 1) → Occurs P data e.1 e.2 := by
  induction n with
  | zero => exact ⟨0, Nat.le_refl _, by omega, by simp, by simp⟩
  | succ n ih =>
    obtain ⟨lo, hlo, hs, hms, hes⟩ := ih
    rw [List.range_succ, List.foldl_append, List.foldl_cons, List.foldl_nil]
    generalize (List.range n).foldl (preStep P data) ([], []) = st at *
    unfold preStep
    split
    · refine ⟨n + 1, Nat.le_refl _, by omega, by simp, ?_⟩
      intro e he hc
      rcases List.mem_append.1 he with he | he
      · exact hes e he hc
      · refine update_sound hs st.1 (fun m hm => (hms m hm).1) e he ?_
        rcases hc with h | h
        · exact .inl h
        · exact .inr fun m hm => by have := hms m hm; omega
    · rename_i hne
      refine ⟨lo, by omega, ?_, ?_, hes⟩
      · intro i h1 h2
        by_cases hi : i = n
        · subst hi; exact hne
        · exact hs i h1 (by omega)
      · intro m hm
        rcases List.mem_append.1 hm with hm | hm
        · have := hms m hm
          exact ⟨⟨this.1.slice, this.1.len, this.1.pos, this.1.lo, by have := this.1.hi; omega, this.1.noEol⟩, this.2⟩
        · obtain ⟨a, b, c⟩ := matchesFrom_good hpos hfreq lo n hlo P.maxLen 1 m hm
          exact ⟨a, b, by omega⟩

/-- C45 (partial).  For every corpus, every set of frequent patterns that do not contain the sentence separator,
and all limits: every collocation of two parts in the index is an occurrence of its pattern; and when
frequent patterns have one word (`max_frequent_phrase_len = 1`), so is every collocation of three parts.
Missing: three parts with longer frequent patterns, where the claim is false (`C45_ternary_fails`). -/
theorem C45_collocations_partial (P : PreParams) (data : List Nat) (hpos : ∀ w, 0 ≤ P.ann w)
    (hfreq : ∀ p r, P.freq p = some r → eol ∉ p) :
    ∀ e ∈ precompute P data, (e.2.length = 2 ∨ P.maxLen = 1) → Occurs P data e.1 e.2 := by
  obtain ⟨lo, _, _, _, h⟩ := pre_inv (data := data) hpos hfreq data.length
  exact h

/-- The index holds all collocations of two parts: for a corpus whose last sentence is ended, `(pat, [s1, s2])` is in
the index exactly if frequent patterns of some lengths occur at `s1` and `s2`, `pat` is made of them, and they obey the
limits on gaps, span and symbols within a sentence. -/
theorem C45_two_parts (P : PreParams) (data : List Nat) (hlast : data.getLast? = some eol)
    (hfreq : ∀ p r, P.freq p = some r → eol ∉ p) (pat : List Int) (s1 s2 : Nat) :
    (pat, [s1, s2]) ∈ precompute P data ↔ ∃ n1 n2, FreqAt P data s1 n1 ∧ FreqAt P data s2 n2 ∧
      pat = (slice data s1 n1).map P.ann ++ [-1] ++ (slice data s2 n2).map P.ann ∧
      s1 + n1 + P.gap ≤ s2 ∧ s2 + n2 ≤ s1 + P.span ∧ n1 + n2 + 1 ≤ P.symbols ∧ Within data s1 (s2 + n2) := by
  constructor
  · intro h
    obtain ⟨lo, n, h1, h2, h3⟩ := (mem_precompute hlast _).1 h
    rcases update_fwd _ _ h3 with ⟨m1, hm1, m2, hm2, he, hp⟩ | ⟨hl, _⟩
    · obtain ⟨a1, b1, c1⟩ := collected_fwd hm1
      obtain ⟨a2, b2, c2⟩ := collected_fwd hm2
      simp only [Prod.mk.injEq, List.cons.injEq, and_true] at he
      obtain ⟨rfl, rfl, rfl⟩ := he
      refine ⟨m1.size, m2.size, a1.freq, a2.freq, by rw [a1.ann, a2.ann], hp.1, hp.2.1, hp.2.2, ?_⟩
      intro i hi1 hi2
      by_cases hi : i < m2.start
      · exact h1 i (by omega) (by omega)
      · exact freqAt_within hfreq a2.freq i (by omega) hi2
    · simp at hl
  · rintro ⟨n1, n2, f1, f2, rfl, c1, c2, c3, c4⟩
    obtain ⟨lo, n, h1, h2, h3, h4⟩ := (mem_precompute hlast _).2 s1 (by have := f1.2.2.1; have := f1.1; omega)
    apply h4
    have hn : s2 + n2 ≤ n := by
      by_contra hc
      exact c4 n h2 (by omega) h3
    have := f1.1
    have := f2.1
    obtain ⟨m1, hm1, e1, e1'⟩ := collected_bwd (P := P) (data := data) (lo := lo) (n := n) h1 (by omega) f1
    obtain ⟨m2, hm2, e2, e2'⟩ := collected_bwd (P := P) (data := data) (lo := lo) (n := n) (by omega) (by omega) f2
    have a1 := (collected_fwd hm1).1.ann
    have a2 := (collected_fwd hm2).1.ann
    subst e1 e1' e2 e2'
    rw [← a1, ← a2]
    exact update_bwd _ (collected_sorted _ _) m1 m2 hm1 hm2 (by omega) (by omega) ⟨c1, c2, c3⟩

/-- The same for three parts, when frequent patterns have one word: the middle word and one of the others must be
among the most frequent ones. -/
theorem C45_three_parts (P : PreParams) (data : List Nat) (hlast : data.getLast? = some eol)
    (hfreq : ∀ p r, P.freq p = some r → eol ∉ p) (hone : P.maxLen = 1) (pat : List Int) (s1 s2 s3 : Nat) :
    (pat, [s1, s2, s3]) ∈ precompute P data ↔ FreqAt P data s1 1 ∧ FreqAt P data s2 1 ∧ FreqAt P data s3 1 ∧
      pat = (slice data s1 1).map P.ann ++ [-1] ++ (slice data s2 1).map P.ann ++ [-2] ++ (slice data s3 1).map P.ann ∧
      s1 + 1 + P.gap ≤ s2 ∧ s2 + 1 + P.gap ≤ s3 ∧ s3 + 1 ≤ s1 + P.span ∧ 5 ≤ P.symbols ∧
      SuperAt P data s2 1 ∧ (SuperAt P data s1 1 ∨ SuperAt P data s3 1) ∧ Within data s1 (s3 + 1) := by
  have hsz : ∀ {m : Match}, IsMatch P data m → m.size = 1 := by
    intro m hm
    have h1 := hm.freq.1
    have h2 := hm.freq.2.1
    omega
  have hall : ∀ lo n, ∀ m ∈ collected P data lo n, m.ann.length = 1 ∧ m.size = 1 := by
    intro lo n m hm
    have h := (collected_fwd hm).1
    exact ⟨by rw [isMatch_len h, hsz h], hsz h⟩
  constructor
  · intro h
    obtain ⟨lo, n, h1, h2, h3⟩ := (mem_precompute hlast _).1 h
    rcases update_fwd _ _ h3 with ⟨m1, hm1, m2, hm2, he, hp⟩ | ⟨_, hl⟩
    · simp at he
    · obtain ⟨m1, hm1, m2, hm2, m3, hm3, he, c1, c2, c3, c4, c5, c6⟩ := hl (hall lo n)
      obtain ⟨a1, b1, d1⟩ := collected_fwd hm1
      obtain ⟨a2, b2, d2⟩ := collected_fwd hm2
      obtain ⟨a3, b3, d3⟩ := collected_fwd hm3
      have z1 := hsz a1
      have z2 := hsz a2
      have z3 := hsz a3
      simp only [Prod.mk.injEq, List.cons.injEq, and_true] at he
      obtain ⟨rfl, rfl, rfl, rfl⟩ := he
      have f1 := a1.freq; have f2 := a2.freq; have f3 := a3.freq
      have g1 := a1.ann; have g2 := a2.ann; have g3 := a3.ann
      have s1 := a1.sup; have s2 := a2.sup; have s3 := a3.sup
      rw [z1] at f1 g1 s1 c1 c4
      rw [z2] at f2 g2 s2 c2 c4
      rw [z3] at f3 g3 s3 c3 c4
      refine ⟨f1, f2, f3, by rw [g1, g2, g3], c1, c2, c3, by omega, s2.1 c5, ?_, ?_⟩
      · rcases c6 with h | h
        · exact .inl (s1.1 h)
        · exact .inr (s3.1 h)
      · intro i hi1 hi2
        by_cases hi : i < m3.start
        · exact h1 i (by omega) (by omega)
        · exact freqAt_within hfreq f3 i (by omega) hi2
  · rintro ⟨f1, f2, f3, rfl, c1, c2, c3, c4, c5, c6, c7⟩
    obtain ⟨lo, n, h1, h2, h3, h4⟩ := (mem_precompute hlast _).2 s1 (by have := f1.2.2.1; omega)
    apply h4
    have hn : s3 + 1 ≤ n := by
      by_contra hc
      exact c7 n h2 (by omega) h3
    obtain ⟨m1, hm1, e1, e1'⟩ := collected_bwd (P := P) (data := data) (lo := lo) (n := n) h1 (by omega) f1
    obtain ⟨m2, hm2, e2, e2'⟩ := collected_bwd (P := P) (data := data) (lo := lo) (n := n) (by omega) (by omega) f2
    obtain ⟨m3, hm3, e3, e3'⟩ := collected_bwd (P := P) (data := data) (lo := lo) (n := n) (by omega) (by omega) f3
    obtain ⟨a1, _⟩ := collected_fwd hm1
    obtain ⟨a2, _⟩ := collected_fwd hm2
    obtain ⟨a3, _⟩ := collected_fwd hm3
    have g1 := a1.ann; have g2 := a2.ann; have g3 := a3.ann
    have t1 := a1.sup; have t2 := a2.sup; have t3 := a3.sup
    rw [e1, e1'] at g1 t1
    rw [e2, e2'] at g2 t2
    rw [e3, e3'] at g3 t3
    rw [← g1, ← g2, ← g3, ← e1, ← e2, ← e3]
    refine update_bwd3 _ (collected_sorted _ _) (hall lo n) m1 m2 m3 hm1 hm2 hm3 ⟨?_, ?_, ?_, ?_, t2.2 c5, ?_⟩
    · rw [e1, e1', e2]; exact c1
    · rw [e2, e2', e3]; exact c2
    · rw [e3, e3', e1]; exact c3
    · rw [e1', e2', e3']; omega
    · rcases c6 with h | h
      · exact .inl (t1.2 h)
      · exact .inr (t3.2 h)

/-- Example parameters: every pattern without the separator is frequent, up to two words. -/
def exP (maxLen : Nat) : PreParams :=
  { freq := fun p => if eol ∈ p then none else some 0, ann := fun w => w, numSuper := 1, maxLen := maxLen,
    span := 6, symbols := 7, gap := 1 }

/-- C45 fails for three parts: in the one-sentence corpus `2 3 4 5 6 7` the index says that `2 X 4 X 7 7` occurs
at positions 0, 2, 5, although the corpus has only one 7. -/
theorem C45_ternary_fails :
    ([2, -1, 4, -2, 7, 7], [0, 2, 5]) ∈ precompute (exP 2) [2, 3, 4, 5, 6, 7, 1] ∧
    ¬ Occurs (exP 2) [2, 3, 4, 5, 6, 7, 1] [2, -1, 4, -2, 7, 7] [0, 2, 5] := by
  refine ⟨by decide +kernel, ?_⟩
  rintro ⟨_, h, _⟩
  exact absurd (h ([7, 7], 5) (by decide)) (by decide)

/-- Non-vacuity. -/
example : (∀ w, 0 ≤ (exP 1).ann w) ∧ (∀ p r, (exP 1).freq p = some r → eol ∉ p) ∧
    ([2, -1, 4, -2, 7], [0, 2, 5]) ∈ precompute (exP 1) [2, 3, 4, 5, 6, 7, 1] := by
  refine ⟨fun w => by simp [exP], fun p r h => ?_, by decide +kernel⟩
  simp only [exP] at h
  split at h
  · cases h
  · assumption

example : [2, 3, 4, 5, 6, 7, 1].getLast? = some eol ∧
    ([2, -1, 5, 6], [0, 3]) ∈ precompute (exP 2) [2, 3, 4, 5, 6, 7, 1] := by decide +kernel

end Cdec.Extract
