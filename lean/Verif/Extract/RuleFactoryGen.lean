import Verif.Extract.RuleFactoryCore
/-!
# Lemmas for the rule factory: the states reached if no lookup fails
-/
namespace Cdec.Extract
open Spec

/-- The states of the factory, whatever the corpus: `phrase` is followed by the word at `stop`. -/
inductive Gen (F : Factory) (words : List Int) : Bool → Nat → Nat → List Int → Prop
  | word (i : Nat) (h : i < words.length) : Gen F words false i i []
  | xword (i : Nat) (hg : F.I.gap ≤ i) (h : i < words.length) : Gen F words true (i - F.I.gap) i [-1]
  | next {x : Bool} {s e : Nat} {φ : List Int} {w : Int} (h : Gen F words x s e φ) (hw : words[e]? = some w)
    (h1 : (φ ++ [w]).length < F.maxSym) (h2 : e + 1 < words.length) (h3 : e - s < F.I.span) :
    Gen F words x s (e + 1) (φ ++ [w])
  | gap {x : Bool} {s e : Nat} {φ : List Int} {w : Int} {i : Nat} (h : Gen F words x s e φ) (hw : words[e]? = some w)
    (h1 : (φ ++ [w]).length + 1 < F.maxSym) (h2 : ar φ < F.maxNt) (h3 : ar φ + (if x then 0 else 1) < F.maxChunks)
    (h4 : e - s < F.I.span) (h5 : e + 1 + F.I.gap ≤ i) (h6 : i < words.length) (h7 : i - s ≤ F.I.span) :
    Gen F words x s i (φ ++ [w] ++ [-((ar φ + 1 : Nat) : Int)])

variable {F : Factory} {words : List Int}

theorem word_nonneg (hwords : ∀ w ∈ words, 0 ≤ w) {e : Nat} {w : Int} (h : words[e]? = some w) : 0 ≤ w :=
  hwords w (List.mem_of_getElem? h)

theorem Gen.bounds {x : Bool} {s e : Nat} {φ : List Int} (h : Gen F words x s e φ) : s ≤ e ∧ e < words.length := by
  induction h with
  | word i h => omega
  | xword i hg h => omega
  | next => omega
  | gap => omega

/-- Patterns starting with a nonterminal: `-1`, then no other `-1`; the others do not start with one. -/
theorem Gen.shape (hwords : ∀ w ∈ words, 0 ≤ w) {x : Bool} {s e : Nat} {φ : List Int} (h : Gen F words x s e φ) :
    (x = true → ∃ ψ, φ = -1 :: ψ ∧ Low ψ) ∧ (x = false → φ = [] ∧ s = e ∨ ∃ a ψ, φ = a :: ψ ∧ 0 ≤ a) := by
  induction h with
  | word i h => simp
  | xword i hg h => simp [Low]
  | @next x s e φ w h hw h1 h2 h3 ih =>
    have hw0 := word_nonneg hwords hw
    refine ⟨fun hx => ?_, fun hx => ?_⟩
    · obtain ⟨ψ, rfl, hl⟩ := ih.1 hx
      refine ⟨ψ ++ [w], rfl, ?_⟩
      intro y hy hy0
      rcases List.mem_append.1 hy with h | h
      · exact hl y h hy0
      · rw [List.mem_singleton.1 h] at hy0; omega
    · right
      rcases ih.2 hx with ⟨rfl, _⟩ | ⟨a, ψ, rfl, ha⟩
      · exact ⟨w, [], rfl, hw0⟩
      · exact ⟨a, ψ ++ [w], rfl, ha⟩
  | @gap x s e φ w i h hw h1 h2 h3 h4 h5 h6 h7 ih =>
    have hw0 := word_nonneg hwords hw
    refine ⟨fun hx => ?_, fun hx => ?_⟩
    · obtain ⟨ψ, rfl, hl⟩ := ih.1 hx
      refine ⟨ψ ++ [w] ++ [-((ar (-1 :: ψ) + 1 : Nat) : Int)], rfl, ?_⟩
      intro y hy hy0
      rcases List.mem_append.1 hy with h | h
      · rcases List.mem_append.1 h with h | h
        · exact hl y h hy0
        · rw [List.mem_singleton.1 h] at hy0; omega
      · rw [List.mem_singleton.1 h, ar_cons_nt (by omega)]; omega
    · right
      rcases ih.2 hx with ⟨rfl, _⟩ | ⟨a, ψ, rfl, ha⟩
      · exact ⟨w, [-((ar [] + 1 : Nat) : Int)], rfl, hw0⟩
      · exact ⟨a, ψ ++ [w] ++ [-((ar (a :: ψ) + 1 : Nat) : Int)], rfl, ha⟩

/-- Chunks before the last one are not empty, in patterns not starting with a nonterminal. -/
theorem Gen.chunks_ne (hwords : ∀ w ∈ words, 0 ≤ w) {x : Bool} {s e : Nat} {φ : List Int} (h : Gen F words x s e φ) :
    x = false → ∀ c ∈ (chunks φ).dropLast, c ≠ [] := by
  induction h with
  | word i h => intro _ c hc; simp [chunks] at hc
  | xword i hg h => intro hx; cases hx
  | @next x s e φ w h hw h1 h2 h3 ih =>
    intro hx c hc
    rw [chunks_snoc_term (word_nonneg hwords hw), List.dropLast_concat] at hc
    exact ih hx c hc
  | @gap x s e φ w i h hw h1 h2 h3 h4 h5 h6 h7 ih =>
    intro hx c hc
    rw [chunks_snoc_nt (by omega), List.dropLast_concat, chunks_snoc_term (word_nonneg hwords hw)] at hc
    rcases List.mem_append.1 hc with h | h
    · exact ih hx c h
    · rw [List.mem_singleton.1 h]; simp

theorem Gen.chunks_ne' (hwords : ∀ w ∈ words, 0 ≤ w) {s e : Nat} {φ : List Int} (h : Gen F words false s e φ)
    {w : Int} (hw : 0 ≤ w) : ∀ c ∈ chunks (φ ++ [w]), c ≠ [] := by
  intro c hc
  rw [chunks_snoc_term hw] at hc
  rcases List.mem_append.1 hc with h' | h'
  · exact h.chunks_ne hwords rfl c h'
  · rw [List.mem_singleton.1 h']; simp

/-- The order in which the queue treats states. -/
def key (x : Bool) (φ : List Int) : Nat := 2 * (φ.countP fun y => decide (0 ≤ y)) + if x then 1 else 0

theorem key_next (x : Bool) (φ : List Int) {w : Int} (h : 0 ≤ w) : key x (φ ++ [w]) = key x φ + 2 := by
  simp [key, h]; omega

theorem key_nt (x : Bool) (φ : List Int) {y : Int} (h : y < 0) : key x (φ ++ [y]) = key x φ := by
  simp [key, h]

theorem shift_snoc (φ : List Int) (y : Int) : shift (φ ++ [y]) = shift φ ++ shift [y] := by simp [shift]

theorem Gen.ar_suf (hwords : ∀ w ∈ words, 0 ≤ w) {x : Bool} {s e : Nat} {φ : List Int} (h : Gen F words x s e φ)
    (hne : φ ≠ []) : ar φ = ar (suf φ) + if x then 1 else 0 := by
  obtain ⟨h1, h2⟩ := h.shape hwords
  cases x with
  | true =>
    obtain ⟨ψ, rfl, hl⟩ := h1 rfl
    rw [suf, if_pos (by omega), ar_shift _ hl, ar_cons_nt (by omega)]; rfl
  | false =>
    rcases h2 rfl with ⟨rfl, _⟩ | ⟨a, ψ, rfl, ha⟩
    · exact absurd rfl hne
    · rw [suf, if_neg (by omega), ar_cons_word ha]; rfl

theorem Gen.suf_nt (hwords : ∀ w ∈ words, 0 ≤ w) {x : Bool} {s e : Nat} {φ : List Int} (h : Gen F words x s e φ)
    (hne : φ ≠ []) {w : Int} (hw : 0 ≤ w) :
    suf (φ ++ [w] ++ [-((ar φ + 1 : Nat) : Int)]) = suf φ ++ [w] ++ [-((ar (suf φ) + 1 : Nat) : Int)] := by
  obtain ⟨h1, h2⟩ := h.shape hwords
  have har := h.ar_suf hwords hne
  cases x with
  | true =>
    obtain ⟨ψ, rfl, hl⟩ := h1 rfl
    simp only [if_true] at har
    rw [har]
    simp only [List.cons_append, suf, shift, List.map_append, List.map_cons, List.map_nil]
    rw [if_pos (show (-1 : Int) < 0 by omega), if_neg (show ¬ w < 0 by omega), if_pos (by omega)]
    simp only [if_pos (show (-1 : Int) < 0 by omega)]
    congr 2
  | false =>
    rcases h2 rfl with ⟨rfl, _⟩ | ⟨a, ψ, rfl, ha⟩
    · exact absurd rfl hne
    · simp only [if_false, Nat.add_zero, Bool.false_eq_true] at har
      rw [har, List.cons_append, List.cons_append, suf, if_neg (by omega), suf, if_neg (by omega)]

/-- The state of the pattern without its first symbol comes earlier. -/
theorem Gen.suffix (hwords : ∀ w ∈ words, 0 ≤ w) {x : Bool} {s e : Nat} {φ : List Int} (h : Gen F words x s e φ) :
    φ ≠ [] → ∃ x' s', s ≤ s' ∧ Gen F words x' s' e (suf φ) ∧ key x' (suf φ) < key x φ := by
  induction h with
  | word i h => intro h; exact absurd rfl h
  | xword i hg h => intro _; exact ⟨false, i, by omega, .word i h, by simp [suf, shift, key]⟩
  | @next x s e φ w h hw h1 h2 h3 ih =>
    intro _
    have hw0 := word_nonneg hwords hw
    by_cases hφ : φ = []
    · subst hφ
      have hb := h.bounds
      refine ⟨false, e + 1, by omega, ?_, ?_⟩
      · have : suf ([] ++ [w]) = [] := by simp [suf]; omega
        rw [this]; exact .word _ h2
      · rw [key_next _ _ hw0]
        have : suf ([] ++ [w]) = [] := by simp [suf]; omega
        rw [this]; simp [key]
    · obtain ⟨x', s', hs, g, hk⟩ := ih hφ
      refine ⟨x', s', hs, ?_, ?_⟩
      · rw [suf_snoc_word hw0 hφ]
        refine .next g hw ?_ h2 (by omega)
        have : (suf φ).length < φ.length := by
          cases φ with
          | nil => exact absurd rfl hφ
          | cons a ψ => simp only [suf]; split <;> simp [shift]
        simp only [List.length_append] at h1 ⊢; omega
      · rw [suf_snoc_word hw0 hφ, key_next _ _ hw0, key_next _ _ hw0]; omega
  | @gap x s e φ w i h hw h1 h2 h3 h4 h5 h6 h7 ih =>
    intro _
    have hw0 := word_nonneg hwords hw
    by_cases hφ : φ = []
    · subst hφ
      have hb := h.bounds
      have e1 : suf ([] ++ [w] ++ [-((ar [] + 1 : Nat) : Int)]) = [-1] := by
        simp [suf, ar]; omega
      refine ⟨true, i - F.I.gap, by omega, ?_, ?_⟩
      · rw [e1]; exact .xword i (by omega) h6
      · rw [e1, key_nt _ _ (by omega), key_next _ _ hw0]; simp [key]
    · obtain ⟨x', s', hs, g, hk⟩ := ih hφ
      have har := h.ar_suf hwords hφ
      refine ⟨x', s', hs, ?_, ?_⟩
      · rw [h.suf_nt hwords hφ hw0]
        have hlen : (suf φ).length < φ.length := by
          cases φ with
          | nil => exact absurd rfl hφ
          | cons a ψ => simp only [suf]; split <;> simp [shift]
        have hs' := g.bounds
        refine .gap g hw ?_ ?_ ?_ (by omega) h5 h6 (by omega)
        · simp only [List.length_append] at h1 ⊢; omega
        · split at har <;> omega
        · cases x <;> cases x' <;> simp only [if_true, if_false, Bool.false_eq_true] at h3 har ⊢ <;> omega
      · rw [h.suf_nt hwords hφ hw0, key_nt x' _ (y := -((ar (suf φ) + 1 : Nat) : Int)) (by omega),
          key_nt x _ (y := -((ar φ + 1 : Nat) : Int)) (by omega), key_next _ _ hw0, key_next _ _ hw0]; omega

/-! ## The patterns of a sentence -/

theorem chunksAt_le {gap : Nat} : ∀ {cs : List (List Int)} {p e : Nat}, ChunksAt words gap cs p e →
    p < e ∧ e ≤ words.length
  | [], _, _, h => h.elim
  | [c], p, e, ⟨h1, h2, h3⟩ => by
    have := h2.length_le
    rw [List.length_drop] at this
    have := List.length_pos_iff.2 h1
    omega
  | c :: c' :: cs, p, e, ⟨h1, h2, q, h3, h4⟩ => by
    have := chunksAt_le h4
    omega

theorem prefix_snoc_int (t : List Int) (w : Int) (c : List Int) (p : Nat) :
    (c ++ [w]) <+: t.drop p ↔ c <+: t.drop p ∧ t[p + c.length]? = some w := by
  constructor
  · rintro ⟨r, hr⟩
    refine ⟨⟨[w] ++ r, by rw [← hr]; simp⟩, ?_⟩
    have := congrArg (fun l : List Int => l[c.length]?) hr
    simpa [List.getElem?_drop] using this.symm
  · rintro ⟨⟨r, hr⟩, h⟩
    have := congrArg (fun l : List Int => l[c.length]?) hr
    simp only [List.getElem?_drop] at this
    rw [h, List.getElem?_append_right (Nat.le_refl _), Nat.sub_self] at this
    cases r with
    | nil => simp at this
    | cons a r =>
      have : a = w := by simpa using this
      subst this
      exact ⟨r, by rw [← hr]; simp⟩

theorem chunksAt_grow {gap : Nat} (c : List Int) (w : Int) (hc : c ≠ []) : ∀ (C : List (List Int)) (p e : Nat),
    ChunksAt words gap (C ++ [c ++ [w]]) p (e + 1) ↔ ChunksAt words gap (C ++ [c]) p e ∧ words[e]? = some w
  | [], p, e => by
    simp only [List.nil_append, ChunksAt, prefix_snoc_int, List.length_append, List.length_singleton]
    constructor
    · rintro ⟨_, ⟨h1, h2⟩, h3⟩
      have : e = p + c.length := by omega
      subst this
      exact ⟨⟨hc, h1, rfl⟩, h2⟩
    · rintro ⟨⟨_, h1, rfl⟩, h2⟩
      exact ⟨by simp, ⟨h1, h2⟩, by omega⟩
  | [c1], p, e => by
    have ih := chunksAt_grow (gap := gap) c w hc []
    simp only [List.nil_append] at ih
    simp only [List.cons_append, List.nil_append, ChunksAt.eq_3, ih]
    constructor
    · rintro ⟨h1, h2, q, h3, h4, h5⟩; exact ⟨⟨h1, h2, q, h3, h4⟩, h5⟩
    · rintro ⟨⟨h1, h2, q, h3, h4⟩, h5⟩; exact ⟨h1, h2, q, h3, h4, h5⟩
  | c1 :: c2 :: C, p, e => by
    have ih := chunksAt_grow (gap := gap) c w hc (c2 :: C)
    simp only [List.cons_append, ChunksAt.eq_3] at ih ⊢
    constructor
    · rintro ⟨h1, h2, q, h3, h4⟩
      obtain ⟨h5, h6⟩ := (ih q e).1 h4
      exact ⟨⟨h1, h2, q, h3, h5⟩, h6⟩
    · rintro ⟨⟨h1, h2, q, h3, h4⟩, h5⟩; exact ⟨h1, h2, q, h3, (ih q e).2 ⟨h4, h5⟩⟩

theorem chunksAt_snoc {gap : Nat} (w : Int) : ∀ (C : List (List Int)) (p e : Nat), C ≠ [] →
    (ChunksAt words gap (C ++ [[w]]) p (e + 1) ↔ words[e]? = some w ∧ ∃ e', ChunksAt words gap C p e' ∧ e' + gap ≤ e)
  | [], _, _, h => absurd rfl h
  | [c], p, e, _ => by
    have h0 : ∀ q, ([w] : List Int) <+: words.drop q ↔ words[q]? = some w := by
      intro q
      have := prefix_snoc_int words w [] q
      simpa using this
    simp only [List.cons_append, List.nil_append, ChunksAt, List.length_singleton, h0]
    constructor
    · rintro ⟨h1, h2, q, h3, _, h4, h5⟩
      have : q = e := by omega
      subst this
      exact ⟨h4, _, ⟨h1, h2, rfl⟩, h3⟩
    · rintro ⟨h1, e', ⟨h2, h3, rfl⟩, h4⟩
      exact ⟨h2, h3, e, h4, by simp, h1, rfl⟩
  | c :: c' :: C, p, e, _ => by
    have ih := fun q => chunksAt_snoc (gap := gap) w (c' :: C) q e (by simp)
    simp only [List.cons_append, ChunksAt.eq_3] at ih ⊢
    constructor
    · rintro ⟨h1, h2, q, h3, h4⟩
      obtain ⟨h5, e', h6, h7⟩ := (ih q).1 h4
      exact ⟨h5, e', ⟨h1, h2, q, h3, h6⟩, h7⟩
    · rintro ⟨h1, e', ⟨h2, h3, q, h4, h5⟩, h6⟩
      exact ⟨h2, h3, q, h4, (ih q).2 ⟨h1, e', h5, h6⟩⟩

theorem joinFrom_grow (c : List Int) (w : Int) : ∀ (C : List (List Int)) (k : Nat),
    joinFrom k (C ++ [c ++ [w]]) = joinFrom k (C ++ [c]) ++ [w]
  | [], k => rfl
  | [c1], k => by simp [joinFrom]
  | c1 :: c2 :: C, k => by
    have ih := joinFrom_grow c w (c2 :: C) (k + 1)
    simp only [List.cons_append] at ih
    simp only [List.cons_append, joinFrom, ih, List.append_assoc]

theorem joinFrom_snoc (w : Int) : ∀ (C : List (List Int)) (k : Nat), C ≠ [] →
    joinFrom k (C ++ [[w]]) = joinFrom k C ++ [-((k + C.length - 1 : Nat) : Int), w]
  | [], _, h => absurd rfl h
  | [c], k, _ => by simp [joinFrom]
  | c :: c' :: C, k, _ => by
    have ih := joinFrom_snoc w (c' :: C) (k + 1) (by simp)
    simp only [List.cons_append] at ih
    simp only [List.cons_append, joinFrom, ih, List.append_assoc, List.length_cons]
    rw [show k + 1 + (C.length + 1) - 1 = k + (C.length + 1 + 1) - 1 from by omega]

theorem Gen.pattern (hwords : ∀ w ∈ words, 0 ≤ w) {x : Bool} {s e : Nat} {φ : List Int} (h : Gen F words x s e φ) :
    x = false → ∀ w, words[e]? = some w → ∃ cs, ChunksAt words F.I.gap cs s (e + 1) ∧ φ ++ [w] = joinFrom 1 cs ∧
      cs.length = ar φ + 1 ∧ ar φ ≤ F.maxNt ∧ e - s ≤ F.I.span ∧ ((φ ++ [w]).length ≤ F.maxSym ∨ (φ ++ [w]).length = 1) := by
  induction h with
  | word i h =>
    intro _ w hw
    refine ⟨[[w]], ⟨by simp, ?_, rfl⟩, rfl, rfl, by simp [ar], by omega, Or.inr rfl⟩
    have := prefix_snoc_int words w [] i
    simpa [hw] using this
  | xword i hg h => intro h; cases h
  | @next x s e φ w h hw h1 h2 h3 ih =>
    intro hx v hv
    have hw0 := word_nonneg hwords hw
    obtain ⟨cs, a1, a2, a3, a4, a5, a6⟩ := ih hx w hw
    obtain ⟨C, c, rfl⟩ : ∃ C c, cs = C ++ [c] := by
      have : cs ≠ [] := by intro e; subst e; exact a1
      exact ⟨cs.dropLast, cs.getLast this, (List.dropLast_append_getLast this).symm⟩
    have hc : c ≠ [] := by
      have : ∀ (C : List (List Int)) p, ChunksAt words F.I.gap (C ++ [c]) p (e + 1) → c ≠ [] := by
        intro C
        induction C with
        | nil => intro p h; exact h.1
        | cons c1 C ih =>
          intro p h
          cases C with
          | nil => obtain ⟨_, _, q, _, h⟩ := h; exact h.1
          | cons c2 C => obtain ⟨_, _, q, _, h⟩ := h; exact ih q h
      exact this C s a1
    refine ⟨C ++ [c ++ [v]], (chunksAt_grow c v hc C s (e + 1)).2 ⟨a1, hv⟩, ?_, ?_, ?_, ?_, ?_⟩
    · rw [joinFrom_grow, ← a2]
    · rw [ar_snoc_word hw0]; simpa using a3
    · rw [ar_snoc_word hw0]; exact a4
    · omega
    · left; simp only [List.length_append, List.length_singleton] at h1 ⊢; omega
  | @gap x s e φ w i h hw h1 h2 h3 h4 h5 h6 h7 ih =>
    intro hx v hv
    have hw0 := word_nonneg hwords hw
    obtain ⟨cs, a1, a2, a3, a4, a5, a6⟩ := ih hx w hw
    have hne : cs ≠ [] := by intro e; subst e; exact a1
    refine ⟨cs ++ [[v]], (chunksAt_snoc v cs s i hne).2 ⟨hv, e + 1, a1, h5⟩, ?_, ?_, ?_, ?_, ?_⟩
    · rw [joinFrom_snoc _ _ _ hne, ← a2, a3]; simp
    · rw [ar_snoc_nt (by omega), ar_snoc_word hw0, List.length_append, a3]; rfl
    · rw [ar_snoc_nt (by omega), ar_snoc_word hw0]; omega
    · omega
    · left; simp only [List.length_append, List.length_singleton] at h1 ⊢; omega

theorem gen_of_chunks (hch : F.maxChunks = F.maxNt + 1) : ∀ (n : Nat) (cs : List (List Int)) (p e : Nat),
    (joinFrom 1 cs).length ≤ n → ChunksAt words F.I.gap cs p e → cs.length ≤ F.maxNt + 1 → e ≤ p + F.I.span + 1 →
    (∀ w ∈ words, 0 ≤ w) →
    ((joinFrom 1 cs).length ≤ F.maxSym ∨ (joinFrom 1 cs).length = 1) →
    ∃ φ w, e = (e - 1) + 1 ∧ Gen F words false p (e - 1) φ ∧ words[e - 1]? = some w ∧ joinFrom 1 cs = φ ++ [w] ∧
      ar φ + 1 = cs.length := by
  intro n
  induction n with
  | zero =>
    intro cs p e hn h _ _ _ _
    match cs, h with
    | [c], h => exact absurd (List.length_eq_zero_iff.1 (Nat.le_zero.1 hn)) h.1
    | c :: c' :: cs, h => simp [joinFrom] at hn
  | succ n ih =>
    intro cs p e hn h hl hs hwords hm
    have hb := chunksAt_le h
    obtain ⟨e, rfl⟩ : ∃ e', e = e' + 1 := ⟨e - 1, by omega⟩
    simp only [Nat.add_sub_cancel]
    obtain ⟨C, c, rfl⟩ : ∃ C c, cs = C ++ [c] := by
      have : cs ≠ [] := by intro e; subst e; exact h
      exact ⟨cs.dropLast, cs.getLast this, (List.dropLast_append_getLast this).symm⟩
    have hc : c ≠ [] := by
      have : ∀ (C : List (List Int)) p, ChunksAt words F.I.gap (C ++ [c]) p (e + 1) → c ≠ [] := by
        intro C
        induction C with
        | nil => intro p h; exact h.1
        | cons c1 C ih =>
          intro p h
          cases C with
          | nil => obtain ⟨_, _, q, _, h⟩ := h; exact h.1
          | cons c2 C => obtain ⟨_, _, q, _, h⟩ := h; exact ih q h
      exact this C p h
    obtain ⟨c', w, rfl⟩ : ∃ c' w, c = c' ++ [w] := ⟨c.dropLast, c.getLast hc, (List.dropLast_append_getLast hc).symm⟩
    by_cases hc' : c' = []
    · subst hc'
      rw [List.nil_append] at *
      by_cases hC : C = []
      · subst hC
        obtain ⟨_, h2, h3⟩ := h
        have : e = p := by simpa using h3
        subst this
        have := (prefix_snoc_int words w [] e).1 (by simpa using h2)
        exact ⟨[], w, trivial, .word e (by omega), by simpa using this.2, rfl, rfl⟩
      · rw [chunksAt_snoc w C p e hC] at h
        obtain ⟨hw, e', h1, h2⟩ := h
        rw [joinFrom_snoc w C 1 hC] at hn hm ⊢
        rw [List.length_append] at hn hm hl
        simp only [List.length_cons, List.length_nil] at hn hm hl
        have hb' := chunksAt_le h1
        obtain ⟨φ, v, he, g, hv, hj, ha⟩ := ih C p e' (by omega) h1 (by omega) (by omega) hwords (by omega)
        rw [hj] at hm hn ⊢
        simp only [List.length_append, List.length_cons, List.length_nil] at hn hm
        refine ⟨φ ++ [v] ++ [-((ar φ + 1 : Nat) : Int)], w, trivial, ?_, hw, ?_, ?_⟩
        · refine .gap g hv ?_ (by omega) ?_ (by omega) (by omega) (by omega) (by omega)
          · simp only [List.length_append, List.length_singleton]; omega
          · simp only [if_false, Bool.false_eq_true]; omega
        · rw [show 1 + C.length - 1 = ar φ + 1 from by omega]; simp
        · rw [ar_snoc_nt (by omega), ar_snoc_word (word_nonneg hwords hv), List.length_append, List.length_singleton]
          omega
    · rw [chunksAt_grow c' w hc'] at h
      obtain ⟨h1, hw⟩ := h
      rw [joinFrom_grow] at hn hm ⊢
      rw [List.length_append] at hn hm
      simp only [List.length_singleton] at hn hm
      have hb' := chunksAt_le h1
      have hpos : 0 < (joinFrom 1 (C ++ [c'])).length := by
        obtain ⟨a, c'', rfl⟩ : ∃ a c'', c' = c'' ++ [a] :=
          ⟨c'.getLast hc', c'.dropLast, (List.dropLast_append_getLast hc').symm⟩
        rw [joinFrom_grow]; simp
      obtain ⟨φ, v, he, g, hv, hj, ha⟩ := ih (C ++ [c']) p e (by omega) h1 (by simpa using hl) (by omega) hwords (by omega)
      obtain ⟨e, rfl⟩ : ∃ e', e = e' + 1 := ⟨e - 1, he⟩
      simp only [Nat.add_sub_cancel] at g hv
      rw [hj] at hm hn ⊢
      simp only [List.length_append, List.length_singleton] at hm
      refine ⟨φ ++ [v], w, trivial, .next g hv ?_ (by omega) (by omega), hw, rfl, ?_⟩
      · simp only [List.length_append, List.length_singleton]; omega
      rw [ar_snoc_word (word_nonneg hwords hv), ha]; simp

/-- The patterns of the states not starting with a nonterminal are the patterns of the sentence. -/
theorem pattern_iff (hwords : ∀ w ∈ words, 0 ≤ w) (hch : F.maxChunks = F.maxNt + 1) (s : List Int) :
    PatternOf words F.I.gap F.I.span F.maxNt F.maxSym s ↔
      ∃ p e φ w, Gen F words false p e φ ∧ words[e]? = some w ∧ s = φ ++ [w] := by
  constructor
  · rintro ⟨cs, p, e, h1, rfl, h2, h3, h4⟩
    obtain ⟨φ, w, _, g, hw, hj, _⟩ := gen_of_chunks hch _ cs p e (Nat.le_refl _) h1 h2 h3 hwords h4
    exact ⟨p, _, φ, w, g, hw, hj⟩
  · rintro ⟨p, e, φ, w, g, hw, rfl⟩
    obtain ⟨cs, a1, a2, a3, a4, a5, a6⟩ := g.pattern hwords rfl w hw
    exact ⟨cs, p, e + 1, a1, a2, by omega, by omega, a6⟩

end Cdec.Extract
