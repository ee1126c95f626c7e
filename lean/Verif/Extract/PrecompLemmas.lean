import Verif.Extract.Precomp
import Mathlib.Data.List.Pairwise
/-! # Exactly which collocations are collected -/
namespace Cdec.Extract

/-- The `n` words from position `s` on. -/
def slice (data : List Nat) (s n : Nat) : List Nat := (data.drop s).take n

/-- A frequent pattern of `n` words occurs at position `s`, and so do its beginnings. -/
def FreqAt (P : PreParams) (data : List Nat) (s n : Nat) : Prop :=
  1 ≤ n ∧ n ≤ P.maxLen ∧ s + n ≤ data.length ∧ ∀ j, 1 ≤ j → j ≤ n → (P.freq (slice data s j)).isSome

/-- The pattern is among the most frequent ones. -/
def SuperAt (P : PreParams) (data : List Nat) (s n : Nat) : Prop :=
  ∃ r, P.freq (slice data s n) = some r ∧ r < P.numSuper

variable {P : PreParams} {data : List Nat}

/-- What is collected at a position. -/
structure IsMatch (P : PreParams) (data : List Nat) (m : Match) : Prop where
  freq : FreqAt P data m.start m.size
  ann : m.ann = (slice data m.start m.size).map P.ann
  sup : m.sup = true ↔ SuperAt P data m.start m.size

theorem mem_matchesFrom_fwd (i : Nat) : ∀ (n j : Nat), ∀ m ∈ matchesFrom P data i n j,
    m.start = i ∧ j ≤ m.size ∧ m.size < j + n ∧ i + m.size ≤ data.length ∧
      (∀ l, j ≤ l → l ≤ m.size → (P.freq (slice data i l)).isSome) ∧
      m.ann = (slice data i m.size).map P.ann ∧ (m.sup = true ↔ SuperAt P data i m.size) := by
  intro n
  induction n with
  | zero => intro j m hm; simp [matchesFrom] at hm
  | succ n ih =>
    intro j m hm
    unfold matchesFrom at hm
    split at hm
    · rename_i hle
      simp only at hm
      split at hm
      · simp at hm
      · rename_i r hr
        rcases List.mem_cons.1 hm with rfl | hm
        · refine ⟨rfl, Nat.le_refl _, by simp, hle, ?_, rfl, ?_⟩
          · intro l h1 h2
            simp only at h2
            obtain rfl : l = j := by omega
            unfold slice; rw [hr]; rfl
          · simp only [decide_eq_true_eq]
            constructor
            · intro h; exact ⟨r, hr, h⟩
            · rintro ⟨r', h1, h2⟩
              unfold slice at h1
              rw [hr] at h1; cases h1; exact h2
        · obtain ⟨a, b, c, d, e, f⟩ := ih (j + 1) m hm
          refine ⟨a, by omega, by omega, d, ?_, f⟩
          intro l h1 h2
          by_cases h : l = j
          · subst h; unfold slice; rw [hr]; rfl
          · exact e l (by omega) h2
    · simp at hm

theorem mem_matchesFrom_bwd (i : Nat) : ∀ (n j k : Nat), j ≤ k → k < j + n → i + k ≤ data.length →
    (∀ l, j ≤ l → l ≤ k → (P.freq (slice data i l)).isSome) →
    ∃ m ∈ matchesFrom P data i n j, m.start = i ∧ m.size = k := by
  intro n
  induction n with
  | zero => intro j k h1 h2; omega
  | succ n ih =>
    intro j k h1 h2 h3 h4
    unfold matchesFrom
    rw [if_pos (by omega)]
    obtain ⟨r, hr⟩ := Option.isSome_iff_exists.1 (h4 j (Nat.le_refl _) h1)
    unfold slice at hr
    simp only [hr]
    by_cases h : k = j
    · subst h
      exact ⟨_, List.mem_cons_self, rfl, rfl⟩
    · obtain ⟨m, hm, hs⟩ := ih (j + 1) k (by omega) (by omega) h3 fun l a b => h4 l (by omega) b
      exact ⟨m, List.mem_cons_of_mem _ hm, hs⟩

/-- The matches at the positions `lo … n - 1`. -/
def collected (P : PreParams) (data : List Nat) (lo n : Nat) : List Match :=
  (List.range' lo (n - lo)).flatMap fun i => matchesFrom P data i P.maxLen 1

theorem collected_fwd {lo n : Nat} {m : Match} (hm : m ∈ collected P data lo n) :
    IsMatch P data m ∧ lo ≤ m.start ∧ m.start < n := by
  obtain ⟨i, hi, hm⟩ := List.mem_flatMap.1 hm
  obtain ⟨a, b, c, d, e, f, g⟩ := mem_matchesFrom_fwd i _ _ m hm
  rw [List.mem_range'_1] at hi
  subst a
  exact ⟨⟨⟨b, by omega, d, e⟩, f, g⟩, hi.1, by omega⟩

theorem collected_bwd {lo n s k : Nat} (h1 : lo ≤ s) (h2 : s < n) (h : FreqAt P data s k) :
    ∃ m ∈ collected P data lo n, m.start = s ∧ m.size = k := by
  obtain ⟨m, hm, hs⟩ := mem_matchesFrom_bwd (P := P) (data := data) s P.maxLen 1 k h.1 (by have := h.2.1; omega) h.2.2.1 h.2.2.2
  exact ⟨m, List.mem_flatMap.2 ⟨s, by rw [List.mem_range'_1]; omega, hm⟩, hs⟩

theorem collected_sorted (lo n : Nat) : (collected P data lo n).Pairwise fun a b => a.start ≤ b.start := by
  unfold collected
  generalize n - lo = k
  induction k generalizing lo with
  | zero => simp
  | succ k ih =>
    rw [List.range'_succ, List.flatMap_cons, List.pairwise_append]
    refine ⟨?_, ih _, ?_⟩
    · have : ∀ m ∈ matchesFrom P data lo P.maxLen 1, m.start = lo := fun m hm => (mem_matchesFrom_fwd lo _ _ m hm).1
      exact List.Pairwise.imp_of_mem (R := fun _ _ => True) (fun {a b} ha hb _ => Nat.le_of_eq (by rw [this a ha, this b hb]))
        (List.pairwise_of_forall fun _ _ => trivial)
    · intro a ha b hb
      obtain ⟨i, hi, hb⟩ := List.mem_flatMap.1 hb
      rw [List.mem_range'_1] at hi
      rw [(mem_matchesFrom_fwd lo _ _ a ha).1, (mem_matchesFrom_fwd i _ _ b hb).1]
      omega

theorem collected_snoc {lo n : Nat} (h : lo ≤ n) :
    collected P data lo n ++ matchesFrom P data n P.maxLen 1 = collected P data lo (n + 1) := by
  unfold collected
  rw [show n + 1 - lo = (n - lo) + 1 by omega, List.range'_concat, List.flatMap_append]
  simp [show lo + (n - lo) = n by omega]

/-! ## Pairs -/

/-- The two matches make a collocation. -/
def Pair (P : PreParams) (m1 m2 : Match) : Prop :=
  m1.start + m1.size + P.gap ≤ m2.start ∧ m2.start + m2.size ≤ m1.start + P.span ∧ m1.size + m2.size + 1 ≤ P.symbols

/-- The three matches make a collocation. -/
def Triple (P : PreParams) (m1 m2 m3 : Match) : Prop :=
  m1.start + m1.size + P.gap ≤ m2.start ∧ m2.start + m2.size + P.gap ≤ m3.start ∧
  m3.start + m3.size ≤ m1.start + P.span ∧ m1.size + m2.size + m3.size + 2 ≤ P.symbols ∧
  m2.sup = true ∧ (m1.sup = true ∨ m3.sup = true)

theorem tern_fwd {m1 m2 : Match} (ms : List Match) (h1 : ∀ m ∈ ms, m.ann.length = 1 ∧ m.size = 1) (q : List Int) :
    ∀ e ∈ ternLoop P m1 m2 ms q, ∃ m3 ∈ ms, e = (q ++ m3.ann, [m1.start, m2.start, m3.start]) ∧
      m2.start + m2.size + P.gap ≤ m3.start ∧ m3.start + m3.size ≤ m1.start + P.span ∧
      m1.size + m2.size + m3.size + 2 ≤ P.symbols ∧ (m1.sup = true ∨ m3.sup = true) := by
  induction ms with
  | nil => intro e he; simp [ternLoop] at he
  | cons m3 ms ih =>
    intro e he
    have ih' := ih fun m hm => h1 m (by simp [hm])
    have h3 := h1 m3 (by simp)
    unfold ternLoop at he
    split at he
    · simp at he
    · split at he
      · rename_i hc
        simp only at he
        rcases List.mem_cons.1 he with rfl | he
        · exact ⟨m3, by simp, rfl, by omega, by omega, hc.2.2.1, hc.2.2.2⟩
        · have e1 : (q ++ m3.ann).eraseIdx ((q ++ m3.ann).length - m3.size) = q := by
            obtain ⟨x, hx⟩ := List.length_eq_one_iff.1 h3.1
            rw [hx, h3.2, List.eraseIdx_append_of_length_le (by simp)]
            simp
          rw [e1] at he
          obtain ⟨m, hm, h⟩ := ih' e he
          exact ⟨m, by simp [hm], h⟩
      · obtain ⟨m, hm, h⟩ := ih' e he
        exact ⟨m, by simp [hm], h⟩

theorem tern_bwd {m1 m2 : Match} (ms : List Match) (h1 : ∀ m ∈ ms, m.ann.length = 1 ∧ m.size = 1)
    (hs : ms.Pairwise fun a b => a.start ≤ b.start) (q : List Int) (m3 : Match) (hm : m3 ∈ ms)
    (c1 : m2.start + m2.size + P.gap ≤ m3.start) (c2 : m3.start + m3.size ≤ m1.start + P.span)
    (c3 : m1.size + m2.size + m3.size + 2 ≤ P.symbols) (c4 : m1.sup = true ∨ m3.sup = true) :
    (q ++ m3.ann, [m1.start, m2.start, m3.start]) ∈ ternLoop P m1 m2 ms q := by
  induction ms with
  | nil => simp at hm
  | cons m ms ih =>
    have h0 := h1 m (by simp)
    have h3 := h1 m3 hm
    have ih' := ih (fun m hm => h1 m (by simp [hm])) (List.pairwise_cons.1 hs).2
    have hle : m.start ≤ m3.start := by
      rcases List.mem_cons.1 hm with rfl | hm
      · exact Nat.le_refl _
      · exact (List.pairwise_cons.1 hs).1 _ hm
    unfold ternLoop
    rw [if_neg (by omega)]
    split
    · simp only
      rcases List.mem_cons.1 hm with rfl | hm
      · simp
      · have e1 : (q ++ m.ann).eraseIdx ((q ++ m.ann).length - m.size) = q := by
          obtain ⟨x, hx⟩ := List.length_eq_one_iff.1 h0.1
          rw [hx, h0.2, List.eraseIdx_append_of_length_le (by simp)]
          simp
        rw [e1]
        exact List.mem_cons_of_mem _ (ih' hm)
    · rename_i hc
      rcases List.mem_cons.1 hm with rfl | hm
      · exact absurd ⟨by omega, by omega, c3, c4⟩ hc
      · exact ih' hm

theorem tern_three (m1 m2 : Match) (ms : List Match) : ∀ (p : List Int), ∀ e ∈ ternLoop P m1 m2 ms p, e.2.length = 3 := by
  induction ms with
  | nil => intro p e he; simp [ternLoop] at he
  | cons m3 ms ih =>
    intro p e he
    unfold ternLoop at he
    split at he
    · simp at he
    · split at he
      · simp only at he
        rcases List.mem_cons.1 he with rfl | he
        · rfl
        · exact ih _ e he
      · exact ih _ e he

theorem bin_fwd {m1 : Match} (ms : List Match) : ∀ e ∈ binLoop P m1 ms,
    (∃ m2 ∈ ms, e = (m1.ann ++ [-1] ++ m2.ann, [m1.start, m2.start]) ∧ Pair P m1 m2) ∨
    (e.2.length = 3 ∧ ((∀ m ∈ ms, m.ann.length = 1 ∧ m.size = 1) → ∃ m2 ∈ ms, ∃ m3 ∈ ms,
      e = (m1.ann ++ [-1] ++ m2.ann ++ [-2] ++ m3.ann, [m1.start, m2.start, m3.start]) ∧ Triple P m1 m2 m3)) := by
  induction ms with
  | nil => intro e he; simp [binLoop] at he
  | cons m2 ms ih =>
    intro e he
    have ih' : ∀ e ∈ binLoop P m1 ms,
        (∃ m3 ∈ m2 :: ms, e = (m1.ann ++ [-1] ++ m3.ann, [m1.start, m3.start]) ∧ Pair P m1 m3) ∨
        (e.2.length = 3 ∧ ((∀ m ∈ m2 :: ms, m.ann.length = 1 ∧ m.size = 1) → ∃ m3 ∈ m2 :: ms, ∃ m4 ∈ m2 :: ms,
          e = (m1.ann ++ [-1] ++ m3.ann ++ [-2] ++ m4.ann, [m1.start, m3.start, m4.start]) ∧ Triple P m1 m3 m4)) := by
      intro e he
      rcases ih e he with ⟨m, hm, h⟩ | ⟨hl, h⟩
      · exact .inl ⟨m, by simp [hm], h⟩
      · refine .inr ⟨hl, fun ha => ?_⟩
        obtain ⟨a, ha', b, hb, h⟩ := h fun m hm => ha m (by simp [hm])
        exact ⟨a, by simp [ha'], b, by simp [hb], h⟩
    unfold binLoop at he
    split at he
    · simp at he
    · split at he
      · rename_i hc
        simp only at he
        rcases List.mem_cons.1 he with rfl | he
        · exact .inl ⟨m2, by simp, rfl, by omega, by omega, hc.2.2⟩
        · rcases List.mem_append.1 he with he | he
          · split at he
            · rename_i hsup
              refine .inr ⟨tern_three _ _ _ _ _ he, fun ha => ?_⟩
              obtain ⟨m3, hm, h1, h2, h3, h4, h5⟩ := tern_fwd ms (fun m hm => ha m (by simp [hm])) _ e he
              exact ⟨m2, by simp, m3, by simp [hm], h1, by omega, h2, h3, h4, hsup, h5⟩
            · simp at he
          · exact ih' e he
      · exact ih' e he

theorem bin_bwd {m1 : Match} (ms : List Match) (hs : ms.Pairwise fun a b => a.start ≤ b.start) (m2 : Match) (hm : m2 ∈ ms)
    (h2 : 1 ≤ m2.size) (h : Pair P m1 m2) :
    (m1.ann ++ [-1] ++ m2.ann, [m1.start, m2.start]) ∈ binLoop P m1 ms := by
  obtain ⟨c1, c2, c3⟩ := h
  induction ms with
  | nil => simp at hm
  | cons m ms ih =>
    have hle : m.start ≤ m2.start := by
      rcases List.mem_cons.1 hm with rfl | hm
      · exact Nat.le_refl _
      · exact (List.pairwise_cons.1 hs).1 _ hm
    have ih' := ih (List.pairwise_cons.1 hs).2
    unfold binLoop
    rw [if_neg (by omega)]
    split
    · simp only
      rcases List.mem_cons.1 hm with rfl | hm
      · simp
      · exact List.mem_cons_of_mem _ (List.mem_append_right _ (ih' hm))
    · rename_i hc
      rcases List.mem_cons.1 hm with rfl | hm
      · exact absurd ⟨by omega, by omega, c3⟩ hc
      · exact ih' hm

theorem bin_bwd3 {m1 : Match} (ms : List Match) (hs : ms.Pairwise fun a b => a.start ≤ b.start)
    (h1 : ∀ m ∈ ms, m.ann.length = 1 ∧ m.size = 1) (m2 m3 : Match)
    (hm2 : m2 ∈ ms) (hm3 : m3 ∈ ms) (h : Triple P m1 m2 m3) :
    (m1.ann ++ [-1] ++ m2.ann ++ [-2] ++ m3.ann, [m1.start, m2.start, m3.start]) ∈ binLoop P m1 ms := by
  obtain ⟨c1, c2, c3, c4, c5, c6⟩ := h
  have k2 := (h1 m2 hm2).2
  have k3 := (h1 m3 hm3).2
  induction ms with
  | nil => simp at hm2
  | cons m ms ih =>
    have hle : ∀ x ∈ m :: ms, m.start ≤ x.start := by
      intro x hx
      rcases List.mem_cons.1 hx with rfl | hx
      · exact Nat.le_refl _
      · exact (List.pairwise_cons.1 hs).1 _ hx
    have l2 := hle m2 hm2
    have l3 := hle m3 hm3
    have h1' : ∀ m ∈ ms, m.ann.length = 1 ∧ m.size = 1 := fun m hm => h1 m (by simp [hm])
    have ih' := ih (List.pairwise_cons.1 hs).2 h1'
    have hm3' : m2 = m ∨ m2 ∈ ms → m3 ∈ ms := by
      intro hx
      rcases List.mem_cons.1 hm3 with rfl | hm
      · omega
      · exact hm
    have hm3'' := hm3' (List.mem_cons.1 hm2)
    unfold binLoop
    rw [if_neg (by omega)]
    rcases List.mem_cons.1 hm2 with rfl | hm2
    · rw [if_pos ⟨by omega, by omega, by omega⟩]
      simp only [c5, if_true]
      refine List.mem_cons_of_mem _ (List.mem_append_left _ ?_)
      exact tern_bwd ms h1' (List.pairwise_cons.1 hs).2 _ m3 hm3'' (by omega) (by omega) (by omega) c6
    · split
      · exact List.mem_cons_of_mem _ (List.mem_append_right _ (ih' hm2 hm3''))
      · exact ih' hm2 hm3''

theorem update_fwd (ms : List Match) : ∀ e ∈ updateIndex P ms,
    (∃ m1 ∈ ms, ∃ m2 ∈ ms, e = (m1.ann ++ [-1] ++ m2.ann, [m1.start, m2.start]) ∧ Pair P m1 m2) ∨
    (e.2.length = 3 ∧ ((∀ m ∈ ms, m.ann.length = 1 ∧ m.size = 1) → ∃ m1 ∈ ms, ∃ m2 ∈ ms, ∃ m3 ∈ ms,
      e = (m1.ann ++ [-1] ++ m2.ann ++ [-2] ++ m3.ann, [m1.start, m2.start, m3.start]) ∧ Triple P m1 m2 m3)) := by
  induction ms with
  | nil => intro e he; simp [updateIndex] at he
  | cons m ms ih =>
    intro e he
    rcases List.mem_append.1 he with he | he
    · rcases bin_fwd ms e he with ⟨m2, hm, h⟩ | ⟨hl, h⟩
      · exact .inl ⟨m, by simp, m2, by simp [hm], h⟩
      · refine .inr ⟨hl, fun ha => ?_⟩
        obtain ⟨m2, h2, m3, h3, h⟩ := h fun m hm => ha m (by simp [hm])
        exact ⟨m, by simp, m2, by simp [h2], m3, by simp [h3], h⟩
    · rcases ih e he with ⟨m1, h1, m2, hm, h⟩ | ⟨hl, h⟩
      · exact .inl ⟨m1, by simp [h1], m2, by simp [hm], h⟩
      · refine .inr ⟨hl, fun ha => ?_⟩
        obtain ⟨m1, h1, m2, h2, m3, h3, h⟩ := h fun m hm => ha m (by simp [hm])
        exact ⟨m1, by simp [h1], m2, by simp [h2], m3, by simp [h3], h⟩

theorem update_bwd (ms : List Match) (hs : ms.Pairwise fun a b => a.start ≤ b.start) (m1 m2 : Match) (h1 : m1 ∈ ms)
    (h2 : m2 ∈ ms) (k1 : 1 ≤ m1.size) (k2 : 1 ≤ m2.size) (h : Pair P m1 m2) :
    (m1.ann ++ [-1] ++ m2.ann, [m1.start, m2.start]) ∈ updateIndex P ms := by
  induction ms with
  | nil => simp at h1
  | cons m ms ih =>
    obtain ⟨c1, _⟩ := id h
    have hle : ∀ x ∈ ms, m.start ≤ x.start := (List.pairwise_cons.1 hs).1
    have h2' : m2 ∈ ms := by
      rcases List.mem_cons.1 h2 with rfl | h2
      · rcases List.mem_cons.1 h1 with rfl | h1
        · omega
        · have := hle _ h1; omega
      · exact h2
    rcases List.mem_cons.1 h1 with rfl | h1
    · exact List.mem_append_left _ (bin_bwd ms (List.pairwise_cons.1 hs).2 m2 h2' k2 h)
    · exact List.mem_append_right _ (ih (List.pairwise_cons.1 hs).2 h1 h2')

theorem update_bwd3 (ms : List Match) (hs : ms.Pairwise fun a b => a.start ≤ b.start)
    (ha : ∀ m ∈ ms, m.ann.length = 1 ∧ m.size = 1) (m1 m2 m3 : Match) (h1 : m1 ∈ ms)
    (h2 : m2 ∈ ms) (h3 : m3 ∈ ms) (h : Triple P m1 m2 m3) :
    (m1.ann ++ [-1] ++ m2.ann ++ [-2] ++ m3.ann, [m1.start, m2.start, m3.start]) ∈ updateIndex P ms := by
  induction ms with
  | nil => simp at h1
  | cons m ms ih =>
    obtain ⟨c1, c2, _⟩ := id h
    have k1 := (ha m1 h1).2
    have k2 := (ha m2 h2).2
    have hle : ∀ x ∈ ms, m.start ≤ x.start := (List.pairwise_cons.1 hs).1
    have hge : m.start ≤ m1.start := by
      rcases List.mem_cons.1 h1 with rfl | h1
      · exact Nat.le_refl _
      · exact hle _ h1
    have h2' : m2 ∈ ms := by
      rcases List.mem_cons.1 h2 with rfl | h2
      · omega
      · exact h2
    have h3' : m3 ∈ ms := by
      rcases List.mem_cons.1 h3 with rfl | h3
      · omega
      · exact h3
    have ha' : ∀ m ∈ ms, m.ann.length = 1 ∧ m.size = 1 := fun m hm => ha m (by simp [hm])
    rcases List.mem_cons.1 h1 with rfl | h1
    · exact List.mem_append_left _ (bin_bwd3 ms (List.pairwise_cons.1 hs).2 ha' m2 m3 h2' h3' h)
    · exact List.mem_append_right _ (ih (List.pairwise_cons.1 hs).2 ha' h1 h2' h3')

/-! ## The whole corpus -/

/-- The corpus up to `n`: the matches of the current sentence are at hand, and the sentences before it
(ending before `lo`) have been processed. -/
theorem pre_exact (n : Nat) :
    ∃ lo, lo ≤ n ∧ (∀ i, lo ≤ i → i < n → data[i]? ≠ some eol) ∧
      ((List.range n).foldl (preStep P data) ([], [])).1 = collected P data lo n ∧
      (∀ e ∈ ((List.range n).foldl (preStep P data) ([], [])).2, ∃ lo' n', n' < lo ∧ lo' ≤ n' ∧
        (∀ i, lo' ≤ i → i < n' → data[i]? ≠ some eol) ∧ data[n']? = some eol ∧ e ∈ updateIndex P (collected P data lo' n')) ∧
      (∀ s, s < lo → ∃ lo' n', lo' ≤ s ∧ s ≤ n' ∧ data[n']? = some eol ∧
        ∀ e ∈ updateIndex P (collected P data lo' n'), e ∈ ((List.range n).foldl (preStep P data) ([], [])).2) := by
  induction n with
  | zero => exact ⟨0, Nat.le_refl _, by omega, by simp [collected], by simp, by omega⟩
  | succ n ih =>
    obtain ⟨lo, hlo, hs, hms, hes, hc⟩ := ih
    rw [List.range_succ, List.foldl_append, List.foldl_cons, List.foldl_nil]
    generalize (List.range n).foldl (preStep P data) ([], []) = st at *
    unfold preStep
    split
    · rename_i heol
      refine ⟨n + 1, Nat.le_refl _, by omega, by simp [collected], ?_, ?_⟩
      · intro e he
        rcases List.mem_append.1 he with he | he
        · obtain ⟨a, b, h1, h2⟩ := hes e he
          exact ⟨a, b, by omega, h2⟩
        · rw [hms] at he
          exact ⟨lo, n, by omega, hlo, hs, heol, he⟩
      · intro s hsn
        by_cases h : s < lo
        · obtain ⟨a, b, h1, h2, h3, h4⟩ := hc s h
          exact ⟨a, b, h1, h2, h3, fun e he => List.mem_append_left _ (h4 e he)⟩
        · exact ⟨lo, n, by omega, by omega, heol, fun e he => List.mem_append_right _ (by rw [hms]; exact he)⟩
    · rename_i hne
      refine ⟨lo, by omega, ?_, ?_, hes, hc⟩
      · intro i h1 h2
        by_cases hi : i = n
        · subst hi; exact hne
        · exact hs i h1 (by omega)
      · simp only [hms]
        exact collected_snoc hlo

/-- No sentence ends between the positions. -/
def Within (data : List Nat) (s t : Nat) : Prop := ∀ i, s ≤ i → i < t → data[i]? ≠ some eol

theorem freqAt_within (hfreq : ∀ p r, P.freq p = some r → eol ∉ p) {s n : Nat} (h : FreqAt P data s n) :
    Within data s (s + n) := by
  intro k hk1 hk2 hc
  obtain ⟨r, hr⟩ := Option.isSome_iff_exists.1 (h.2.2.2 n h.1 (Nat.le_refl _))
  apply hfreq _ _ hr
  rw [List.mem_iff_getElem?]
  refine ⟨k - s, ?_⟩
  unfold slice
  rw [List.getElem?_take, if_pos (by omega), List.getElem?_drop, show s + (k - s) = k by omega]
  exact hc

/-- Events come from the sentence of their positions, and each sentence is processed. -/
theorem mem_precompute (hlast : data.getLast? = some eol) (e : Event) :
    (e ∈ precompute P data → ∃ lo n, (∀ i, lo ≤ i → i < n → data[i]? ≠ some eol) ∧ data[n]? = some eol ∧
      e ∈ updateIndex P (collected P data lo n)) ∧
    ∀ s, s < data.length → ∃ lo n, lo ≤ s ∧ s ≤ n ∧ data[n]? = some eol ∧
      (e ∈ updateIndex P (collected P data lo n) → e ∈ precompute P data) := by
  obtain ⟨lo, hlo, hs, hms, hes, hc⟩ := pre_exact (P := P) (data := data) data.length
  have hne : data ≠ [] := by rintro rfl; simp at hlast
  have hpos : 0 < data.length := List.length_pos_iff.mpr hne
  have hlo' : lo = data.length := by
    by_contra h
    apply hs (data.length - 1) (by omega) (by omega)
    rw [List.getLast?_eq_getElem?] at hlast
    exact hlast
  constructor
  · intro he
    obtain ⟨a, b, _, _, h3, h4, h5⟩ := hes e he
    exact ⟨a, b, h3, h4, h5⟩
  · intro s hsn
    obtain ⟨a, b, h1, h2, h3, h4⟩ := hc s (by omega)
    exact ⟨a, b, h1, h2, h3, h4 e⟩

theorem isMatch_len {m : Match} (h : IsMatch P data m) : m.ann.length = m.size := by
  rw [h.ann, List.length_map, slice, List.length_take, List.length_drop]
  have := h.freq.2.2.1
  omega

end Cdec.Extract
