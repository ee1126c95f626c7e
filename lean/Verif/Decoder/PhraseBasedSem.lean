import Verif.Decoder.PhraseBasedLoop
import Verif.Decoder.ParserFinal
import Mathlib.Data.List.Induction
import Mathlib.Tactic.ByContra
/-! The derivations in the forest of the phrase-based translator. -/
namespace Cdec.Dec.PB
open Cdec.HG Spec
open Cdec.Dec.Parser (shows_iff shows_map)
open Cdec.Dec.Parser.Spec (LTree Shows)
variable {R : Type} {x : Ctx R}

/-- Phrases one after the other, with the coverage they lead to. -/
inductive Run (x : Ctx R) : List (Phrase R) → List Bool → Prop
  | nil : Run x [] x.none
  | snoc {l : List (Phrase R)} {b : List Bool} {i j : Nat} {r : R} : Run x l b → Start x b i → i < j → j ≤ x.n → Free b i j → r ∈ x.rules i j →
      Run x (l ++ [⟨i, j, r⟩]) (setBits b i j)

theorem Run.nil_iff {b : List Bool} (h : Run x [] b) : b = x.none := by
  generalize hl : ([] : List (Phrase R)) = l at h
  cases h with
  | nil => rfl
  | snoc => simp at hl

theorem Run.snoc_iff {l : List (Phrase R)} {s : Phrase R} {b : List Bool} (h : Run x (l ++ [s]) b) :
    ∃ b', Run x l b' ∧ Start x b' s.i ∧ s.i < s.j ∧ s.j ≤ x.n ∧ Free b' s.i s.j ∧ s.r ∈ x.rules s.i s.j ∧ b = setBits b' s.i s.j := by
  generalize hl : l ++ [s] = l' at h
  cases h with
  | nil => simp at hl
  | snoc h1 h2 h3 h4 h5 h6 =>
    obtain ⟨rfl, e⟩ := List.append_inj' hl rfl
    rw [List.cons.injEq] at e
    obtain ⟨rfl, _⟩ := e
    exact ⟨_, h1, h2, h3, h4, h5, h6, rfl⟩

theorem Run.unique {l : List (Phrase R)} : ∀ {b b' : List Bool}, Run x l b → Run x l b' → b = b' := by
  induction l using List.reverseRecOn with
  | nil => intro b b' h h'; rw [h.nil_iff, h'.nil_iff]
  | append_singleton l s ih =>
    intro b b' h h'
    obtain ⟨c, h1, _, _, _, _, _, rfl⟩ := h.snoc_iff
    obtain ⟨c', h1', _, _, _, _, _, rfl⟩ := h'.snoc_iff
    rw [ih h1 h1']

theorem Run.len {l : List (Phrase R)} {b : List Bool} (h : Run x l b) : b.length = x.n := by
  induction h with
  | nil => simp [Ctx.none]
  | snoc _ _ _ _ _ _ ih => rw [setBits_length, ih]

theorem Run.ne {l : List (Phrase R)} {b : List Bool} (h : Run x l b) (hl : l ≠ []) : b ≠ x.none := by
  cases h with
  | nil => exact absurd rfl hl
  | snoc h1 _ h3 h4 _ _ => exact setBits_ne_empty h3 (by rw [h1.len]; exact h4)

theorem covered_snoc (l : List (Phrase R)) (s : Phrase R) (p : Nat) : Covered (l ++ [s]) p ↔ Covered l p ∨ (s.i ≤ p ∧ p < s.j) := by
  unfold Covered
  constructor
  · rintro ⟨t, ht, h⟩
    rcases List.mem_append.1 ht with ht | ht
    · exact .inl ⟨t, ht, h⟩
    · rw [List.mem_singleton.1 ht] at h; exact .inr h
  · rintro (⟨t, ht, h⟩ | h)
    · exact ⟨t, by simp [ht], h⟩
    · exact ⟨s, by simp, h⟩

theorem Run.covered {l : List (Phrase R)} {b : List Bool} (h : Run x l b) (p : Nat) : bit b p = true ↔ Covered l p := by
  induction h with
  | nil => rw [Ctx.none, bit_replicate_false]; simp [Covered]
  | snoc h1 _ h3 h4 _ _ ih =>
    rw [bit_setBits _ _ _ _ (by omega), covered_snoc, Bool.or_eq_true, ih, decide_eq_true_eq, h1.len]
    simp only
    constructor
    · rintro (h | h)
      · exact .inl h
      · exact .inr ⟨h.1, h.2.1⟩
    · rintro (h | h)
      · exact .inl h
      · exact .inr ⟨h.1, h.2, by omega⟩

theorem Run.bit_false {l : List (Phrase R)} {b : List Bool} (h : Run x l b) (p : Nat) : bit b p = false ↔ ¬ Covered l p := by
  rw [← h.covered p]
  simp

/-- The specification of translations and the runs are the same. -/
theorem translation_iff (l : List (Phrase R)) : Translation x.rules x.n x.dist l ↔ l ≠ [] ∧ Run x l (List.replicate x.n true) := by
  constructor
  · intro h
    refine ⟨h.ne, ?_⟩
    have key : ∀ k ≤ l.length, ∃ b, Run x (l.take k) b := by
      intro k
      induction k with
      | zero => intro _; exact ⟨_, .nil⟩
      | succ k ih =>
        intro hk
        obtain ⟨b, hb⟩ := ih (by omega)
        obtain ⟨s1, s2, s3⟩ := h.span l[k] (List.getElem_mem (by omega))
        obtain ⟨gap, g1, g2, g3⟩ := h.near k (by omega)
        rw [List.take_succ_eq_append_getElem (by omega)]
        have hnot : ¬ Covered (l.take k) l[k].i := h.once k (by omega) _ (Nat.le_refl _) s1
        refine ⟨_, hb.snoc ⟨gap, ⟨fun p hp => (hb.covered p).2 (g1 p hp), ?_, (hb.bit_false gap).2 g2⟩, g3, Nat.lt_of_lt_of_le s1 s2, (hb.bit_false _).2 hnot⟩ s1 s2 ?_ s3⟩
        · rw [hb.len]
          by_contra hc
          have := bit_lt ((hb.covered x.n).2 (g1 x.n (by omega)))
          rw [hb.len] at this
          omega
        · intro p h1 h2
          exact (hb.bit_false p).2 (h.once k (by omega) p h1 h2)
    obtain ⟨b, hb⟩ := key l.length (Nat.le_refl _)
    rw [List.take_length] at hb
    have : b = List.replicate x.n true := by
      apply ext_bits
      · rw [hb.len]; simp
      · intro p
        rw [bit_replicate_true]
        by_cases hp : p < x.n
        · rw [(hb.covered p).2 (h.all p hp)]; simp [hp]
        · rw [bit_oob (by rw [hb.len]; omega)]; simp [hp]
    rwa [this] at hb
  · rintro ⟨hne, h⟩
    have hall : ∀ p < x.n, Covered l p := by
      intro p hp
      rw [← h.covered p, bit_replicate_true]
      simpa using hp
    have key : ∀ (l : List (Phrase R)) (b : List Bool), Run x l b →
        (∀ s ∈ l, s.i < s.j ∧ s.j ≤ x.n ∧ s.r ∈ x.rules s.i s.j) ∧
        (∀ k (h : k < l.length), (∀ p, l[k].i ≤ p → p < l[k].j → ¬ Covered (l.take k) p) ∧
          ∃ gap, (∀ p < gap, Covered (l.take k) p) ∧ ¬ Covered (l.take k) gap ∧ l[k].i ≤ gap + x.dist) := by
      intro l b hr
      induction hr with
      | nil => simp
      | @snoc l b i j r h1 h2 h3 h4 h5 h6 ih =>
        refine ⟨?_, ?_⟩
        · intro s hs
          rcases List.mem_append.1 hs with hs | hs
          · exact ih.1 s hs
          · rw [List.mem_singleton.1 hs]
            exact ⟨h3, h4, h6⟩
        · intro k hk
          by_cases hkl : k < l.length
          · have := ih.2 k hkl
            rw [List.getElem_append_left hkl, List.take_append_of_le_length (by omega)]
            exact this
          · have hkl' : k = l.length := by
              rw [List.length_append, List.length_singleton] at hk
              omega
            subst hkl'
            rw [List.getElem_concat_length rfl, List.take_left']
            swap
            · rfl
            refine ⟨?_, ?_⟩
            · intro p p1 p2
              exact (h1.bit_false p).1 (h5 p p1 p2)
            · obtain ⟨g, g1, g2, _⟩ := h2
              exact ⟨g, fun p hp => (h1.covered p).1 (g1.lo p hp), (h1.bit_false g).1 g1.hi, g2⟩
    obtain ⟨k1, k2⟩ := key l _ h
    exact ⟨hne, k1, fun k hk => (k2 k hk).1, fun k hk => (k2 k hk).2, hall⟩

/-! ### Reachable states -/

section
variable (hf : Fst.Ok x.fst) {P : List Key} {ucs : List (List Bool)} (hQ : QInv x P [] ucs)
include hf hQ

theorem has_prefix {i j : Nat} (hj : j ≤ x.n) (h : x.fst.has (words x.ws i j) = true) : ∀ d, i ≤ j - d → x.fst.has (words x.ws i (j - d)) = true := by
  intro d
  induction d with
  | zero => intro _; exact h
  | succ d ih =>
    intro hd
    by_cases h0 : j - (d + 1) = j - d
    · rw [h0]; exact ih (by omega)
    · have := ih (by omega)
      rw [show j - d = (j - (d + 1)) + 1 by omega, words_succ _ _ _ hd (by unfold Ctx.n at hj; omega)] at this
      exact hf.pre _ _ this

theorem reach_span {b : List Bool} {i j : Nat} (hb : b ∈ ucs) (hs : Start x b i) (hij : i ≤ j) (hj : j ≤ x.n) (hfr : Free b i j)
    (hh : x.fst.has (words x.ws i j) = true) : (b, i, j) ∈ P := by
  have key : ∀ d, i + d ≤ j → (b, i, i + d) ∈ P := by
    intro d
    induction d with
    | zero =>
      intro _
      have := hQ.starts b hb i hs
      simpa using this
    | succ d ih =>
      intro hd
      have h1 := has_prefix hf hQ hj hh (j - (i + d + 1)) (by omega)
      rw [show j - (j - (i + d + 1)) = i + d + 1 by omega] at h1
      have := hQ.ext b i (i + d) (ih (by omega)) (by omega) h1 (hfr (i + d) (by omega) (by omega))
      simpa [Nat.add_assoc] using this
  have := key (j - i) (by omega)
  rwa [show i + (j - i) = j by omega] at this

theorem run_ucs {l : List (Phrase R)} {b : List Bool} (h : Run x l b) : b ∈ ucs := by
  induction h with
  | nil => exact (hQ.seen _).2 (.inl rfl)
  | @snoc l b i j r h1 h2 h3 h4 h5 h6 ih =>
    have hd : x.rules i j ≠ [] := List.ne_nil_of_mem h6
    have hk := reach_span hf hQ ih h2 (by omega) h4 h5 (hf.data _ hd)
    refine (hQ.seen _).2 (.inr ⟨(b, i, j), hk, ?_, rfl⟩)
    simpa [Ctx.hasData] using hd

theorem run_key {l : List (Phrase R)} {b : List Bool} {i j : Nat} (h : Run x l b) (h2 : Start x b i) (h3 : i < j) (h4 : j ≤ x.n) (h5 : Free b i j)
    (h6 : x.rules i j ≠ []) : (b, i, j) ∈ P ∧ x.hasData (b, i, j) = true :=
  ⟨reach_span hf hQ (run_ucs hf hQ h) h2 (by omega) h4 h5 (hf.data _ h6), by simpa [Ctx.hasData] using h6⟩

theorem count_lt {k : Key} (hk : k ∈ P) (hd : x.hasData k = true) : k.1.count true < (out k).count true := by
  obtain ⟨s, hs, rfl⟩ := hQ.pok k hk
  have := hasData_lt hf hd
  rw [hs.mass_out]
  unfold mass
  omega

omit hf in
theorem key_facts {k : Key} (hk : k ∈ P) : Start x k.1 k.2.1 ∧ k.2.2 ≤ x.n ∧ Free k.1 k.2.1 k.2.2 := by
  obtain ⟨s, hs, rfl⟩ := hQ.pok k hk
  exact ⟨hs.start, hs.jn, hs.free⟩

theorem ucs_run (N : Nat) : ∀ b ∈ ucs, b.count true ≤ N → ∃ l, Run x l b := by
  induction N with
  | zero =>
    intro b hb hN
    rcases (hQ.seen b).1 hb with rfl | ⟨k, hk, hd, rfl⟩
    · exact ⟨[], .nil⟩
    · have := count_lt hf hQ hk hd
      omega
  | succ N ih =>
    intro b hb hN
    rcases (hQ.seen b).1 hb with rfl | ⟨k, hk, hd, rfl⟩
    · exact ⟨[], .nil⟩
    · have := count_lt hf hQ hk hd
      obtain ⟨l, hl⟩ := ih k.1 (hQ.known k (by simpa using hk)) (by omega)
      obtain ⟨h1, h2, h3⟩ := key_facts hQ hk
      have hne : x.rules k.2.1 k.2.2 ≠ [] := by simpa [Ctx.hasData] using hd
      obtain ⟨r, hr⟩ := List.exists_mem_of_ne_nil _ hne
      exact ⟨_, hl.snoc h1 (hasData_lt hf hd) h2 h3 hr⟩

end

/-! ### Derivations -/

theorem app_eq {β : Type} {F : Hypergraph β} {e : Nat} {ts : List Nat} {a : β} : F.app e = some (ts, a) ↔ ∃ ed, F.edges[e]? = some ed ∧ ed.tails = ts ∧ ed.val = a := by
  unfold Hypergraph.app
  rw [Option.map_eq_some_iff]
  constructor
  · rintro ⟨ed, h1, h2⟩
    rw [Prod.mk.injEq] at h2
    exact ⟨ed, h1, h2⟩
  · rintro ⟨ed, h1, h2, h3⟩
    exact ⟨ed, h1, by rw [h2, h3]⟩

/-- The tree `t` is shown by a derivation of `v`. -/
def DShows {β : Type} (F : Hypergraph β) (v : Nat) (t : LTree β) : Prop := ∃ T, IsDeriv F v T ∧ Shows F T t

theorem dshows_iff {β : Type} {F : Hypergraph β} {v : Nat} {val : β} {ts : List (LTree β)} :
    DShows F v (.node val ts) ↔ ∃ tl, some (tl, val) ∈ F.apps v ∧ List.Forall₂ (DShows F) tl ts := by
  constructor
  · rintro ⟨⟨e, ch⟩, hd, hs⟩
    obtain ⟨he, hch⟩ := isDeriv_iff.1 hd
    obtain ⟨y, hy, hyv, hts⟩ := shows_iff.1 hs
    refine ⟨y.tails, List.mem_map.2 ⟨e, he, app_eq.2 ⟨y, hy, rfl, hyv⟩⟩, ?_⟩
    have htl : F.tails e = y.tails := by
      unfold Hypergraph.tails
      rw [hy]
    rw [htl] at hch
    clear htl hy hyv hs hd he
    generalize y.tails = tl at hch
    induction hch generalizing ts with
    | nil => cases hts; exact .nil
    | cons h _ ih =>
      cases hts with
      | cons h1 h2 => exact .cons ⟨_, h, h1⟩ (ih h2)
  · rintro ⟨tl, hm, hts⟩
    obtain ⟨e, he, ha⟩ := List.mem_map.1 hm
    obtain ⟨y, hy, hyt, hyv⟩ := app_eq.1 ha
    have htl : F.tails e = tl := by
      unfold Hypergraph.tails
      rw [hy]; exact hyt
    have : ∃ ch, List.Forall₂ (IsDeriv F) tl ch ∧ List.Forall₂ (Shows F) ch ts := by
      clear htl hyt hm ha
      induction hts with
      | nil => exact ⟨[], .nil, .nil⟩
      | cons h _ ih =>
        obtain ⟨T, h1, h2⟩ := h
        obtain ⟨ch, h3, h4⟩ := ih
        exact ⟨T :: ch, .cons h1 h3, .cons h2 h4⟩
    obtain ⟨ch, h1, h2⟩ := this
    exact ⟨.node e ch, isDeriv_iff.2 ⟨he, htl ▸ h1⟩, shows_iff.2 ⟨y, hy, hyv, h2⟩⟩

theorem tree_snoc {l : List (Phrase R)} (hl : l ≠ []) (s : Phrase R) : tree (l ++ [s]) = .node .concat [tree l, leaf s] := by
  cases l with
  | nil => exact absurd rfl hl
  | cons a l => simp [tree]

/-- Trees tell their phrases. -/
theorem tree_inj (l : List (Phrase R)) : ∀ l', l ≠ [] → l' ≠ [] → tree l = tree l' → l = l' := by
  have leaf_inj : ∀ s s' : Phrase R, leaf s = leaf s' → s = s' := by
    rintro ⟨i, j, r⟩ ⟨i', j', r'⟩ h
    simp only [leaf, LTree.node.injEq, Val.phrase.injEq, and_true] at h
    obtain ⟨rfl, rfl, rfl⟩ := h
    rfl
  induction l using List.reverseRecOn with
  | nil => intro l' h; exact absurd rfl h
  | append_singleton l s ih =>
    intro l' _ hl' he
    rcases List.eq_nil_or_concat l' with rfl | ⟨l', s', rfl⟩
    · exact absurd rfl hl'
    rw [List.concat_eq_append] at he ⊢
    by_cases h1 : l = []
    · subst h1
      by_cases h2 : l' = []
      · subst h2
        have : leaf s = leaf s' := he
        rw [leaf_inj _ _ this]
      · rw [tree_snoc h2] at he
        have : leaf s = .node .concat [tree l', leaf s'] := he
        simp [leaf] at this
    · by_cases h2 : l' = []
      · subst h2
        rw [tree_snoc h1] at he
        have : LTree.node .concat [tree l, leaf s] = leaf s' := he
        simp [leaf] at this
      · rw [tree_snoc h1, tree_snoc h2] at he
        simp only [LTree.node.injEq, List.cons.injEq, and_true, true_and] at he
        rw [ih l' h1 h2 he.1, leaf_inj _ _ he.2]

section
variable (hf : Fst.Ok x.fst) {P : List Key} {ucs : List (List Bool)} (hQ : QInv x P [] ucs) {g : Hypergraph (Val R)} {c : List Bool → Option Nat} {tags : List Tag}
  (hF : FInv x P g c tags) {F : Hypergraph (Val R)} (hA : ∀ w < g.nodes.length, F.apps w = g.apps w)
include hf hQ hF hA

omit hf hQ in
theorem apps_phr {k : Key} (hk : .phr k ∈ tags) : F.apps (tags.idxOf (.phr k)) = phraseApps x k.2.1 k.2.2 := by
  rw [hA _ (by rw [← hF.len]; exact idx_lt hk), hF.phr k hk]

omit hf hQ in
theorem apps_cov {C : List Bool} (hC : .cov C ∈ tags) : F.apps (tags.idxOf (.cov C)) = covApps x tags.idxOf P C := by
  rw [hA _ (by rw [← hF.len]; exact idx_lt hC), hF.cov C hC]

omit hf hQ in
theorem phr_shows {k : Key} (hk : .phr k ∈ tags) (t : LTree (Val R)) :
    DShows F (tags.idxOf (.phr k)) t ↔ ∃ r ∈ x.rules k.2.1 k.2.2, t = leaf ⟨k.2.1, k.2.2, r⟩ := by
  obtain ⟨val, ts⟩ := t
  rw [dshows_iff, apps_phr hF hA hk]
  unfold phraseApps
  constructor
  · rintro ⟨tl, hm, hts⟩
    obtain ⟨r, hr, e⟩ := List.mem_map.1 hm
    simp only [Option.some.injEq, Prod.mk.injEq] at e
    obtain ⟨rfl, rfl⟩ := e
    cases hts
    exact ⟨r, hr, rfl⟩
  · rintro ⟨r, hr, e⟩
    simp only [leaf, LTree.node.injEq] at e
    obtain ⟨rfl, rfl⟩ := e
    exact ⟨[], List.mem_map.2 ⟨r, hr, rfl⟩, .nil⟩

/-- The node of a coverage that is not empty. -/
theorem cov_tag {k : Key} (hk : k ∈ P) (hne : k.1 ≠ x.none) : Tag.cov k.1 ∈ tags := by
  have hb := hQ.known k (by simpa using hk)
  rcases (hQ.seen _).1 hb with h | h
  · exact absurd h hne
  · exact (hF.mem_cov _).2 h

omit hA in
theorem mem_covApps {C : List Bool} {tl : List Nat} {val : Val R} : some (tl, val) ∈ covApps x tags.idxOf P C ↔
    (∃ k ∈ P, x.hasData k = true ∧ out k = C ∧ k.1 = x.none ∧ ∃ r ∈ x.rules k.2.1 k.2.2, tl = [] ∧ val = .phrase r k.2.1 k.2.2) ∨
    (∃ k ∈ P, x.hasData k = true ∧ out k = C ∧ k.1 ≠ x.none ∧ tl = [tags.idxOf (.cov k.1), tags.idxOf (.phr k)] ∧ val = .concat) := by
  unfold covApps
  rw [List.mem_flatMap]
  constructor
  · rintro ⟨k, hk, hm⟩
    split at hm
    · rename_i hc
      unfold contrib at hm
      split at hm
      · rename_i hn
        obtain ⟨r, hr, e⟩ := List.mem_map.1 hm
        simp only [Option.some.injEq, Prod.mk.injEq] at e
        exact .inl ⟨k, hk, hc.1, hc.2, hn, r, hr, e.1.symm, e.2.symm⟩
      · rename_i hn
        simp only [List.mem_singleton, Option.some.injEq, Prod.mk.injEq] at hm
        exact .inr ⟨k, hk, hc.1, hc.2, hn, hm.1, hm.2⟩
    · simp at hm
  · rintro (⟨k, hk, h1, h2, h3, r, hr, rfl, rfl⟩ | ⟨k, hk, h1, h2, h3, rfl, rfl⟩)
    · refine ⟨k, hk, ?_⟩
      rw [if_pos ⟨h1, h2⟩]
      unfold contrib
      rw [if_pos h3]
      exact List.mem_map.2 ⟨r, hr, rfl⟩
    · refine ⟨k, hk, ?_⟩
      rw [if_pos ⟨h1, h2⟩]
      unfold contrib
      rw [if_neg h3]
      simp

/-- The derivations of the node of a coverage are the runs to the coverage. -/
theorem cov_shows (N : Nat) : ∀ C, C.count true ≤ N → .cov C ∈ tags → ∀ t, DShows F (tags.idxOf (.cov C)) t ↔ ∃ l, l ≠ [] ∧ Run x l C ∧ t = tree l := by
  induction N with
  | zero =>
    intro C hC hm
    obtain ⟨k, hk, hd, rfl⟩ := (hF.mem_cov C).1 hm
    have := count_lt hf hQ hk hd
    omega
  | succ N ih =>
    rintro C hC hm ⟨val, ts⟩
    rw [dshows_iff, apps_cov hF hA hm]
    constructor
    · rintro ⟨tl, ha, hts⟩
      rcases (mem_covApps hf hQ hF).1 ha with ⟨k, hk, hd, rfl, hn, r, hr, rfl, rfl⟩ | ⟨k, hk, hd, rfl, hn, rfl, rfl⟩
      · obtain ⟨h1, h2, h3⟩ := key_facts hQ hk
        cases hts
        refine ⟨[⟨k.2.1, k.2.2, r⟩], by simp, ?_, rfl⟩
        have := Run.snoc (l := []) (b := k.1) (by rw [hn]; exact .nil) h1 (hasData_lt hf hd) h2 h3 hr
        exact this
      · cases hts with
        | @cons _ t1 _ _ d1 hts =>
        cases hts with
        | @cons _ t2 _ _ d2 hts =>
        cases hts
        have hlt := count_lt hf hQ hk hd
        obtain ⟨l, hl, hr, rfl⟩ := (ih k.1 (by omega) (cov_tag hf hQ hF hA hk hn) t1).1 d1
        obtain ⟨r, hrr, rfl⟩ := (phr_shows hF hA ((hF.mem_phr k).2 ⟨hk, hd, hn⟩) t2).1 d2
        obtain ⟨h1, h2, h3⟩ := key_facts hQ hk
        exact ⟨l ++ [⟨k.2.1, k.2.2, r⟩], by simp, hr.snoc h1 (hasData_lt hf hd) h2 h3 hrr, (tree_snoc hl _).symm⟩
    · rintro ⟨l, hl, hr, e⟩
      rcases List.eq_nil_or_concat l with rfl | ⟨l, s, rfl⟩
      · exact absurd rfl hl
      rw [List.concat_eq_append] at hr e
      obtain ⟨b, h1, h2, h3, h4, h5, h6, rfl⟩ := hr.snoc_iff
      obtain ⟨hk, hd⟩ := run_key hf hQ h1 h2 h3 h4 h5 (List.ne_nil_of_mem h6)
      have hlt := count_lt hf hQ hk hd
      by_cases hn : l = []
      · subst hn
        have hb := h1.nil_iff
        have e' : LTree.node val ts = leaf s := e
        simp only [leaf, LTree.node.injEq] at e'
        obtain ⟨rfl, rfl⟩ := e'
        exact ⟨[], (mem_covApps hf hQ hF).2 (.inl ⟨(b, s.i, s.j), hk, hd, rfl, hb, s.r, h6, rfl, rfl⟩), .nil⟩
      · have hb := h1.ne hn
        rw [tree_snoc hn] at e
        simp only [LTree.node.injEq] at e
        obtain ⟨rfl, rfl⟩ := e
        refine ⟨_, (mem_covApps hf hQ hF).2 (.inr ⟨(b, s.i, s.j), hk, hd, rfl, hb, rfl, rfl⟩), ?_⟩
        refine .cons ?_ (.cons ?_ .nil)
        · exact (ih b (by simp only at hlt; have : setBits b s.i s.j = out (b, s.i, s.j) := rfl; rw [this] at hC; omega) (cov_tag hf hQ hF hA hk hb) _).2 ⟨l, hn, h1, rfl⟩
        · exact (phr_shows hF hA ((hF.mem_phr (b, s.i, s.j)).2 ⟨hk, hd, hb⟩) _).2 ⟨s.r, h6, rfl⟩

theorem cov_shows' {C : List Bool} (hm : .cov C ∈ tags) (t : LTree (Val R)) : DShows F (tags.idxOf (.cov C)) t ↔ ∃ l, l ≠ [] ∧ Run x l C ∧ t = tree l :=
  cov_shows hf hQ hF hA _ C (Nat.le_refl _) hm t

omit hA in
/-- No edge is there twice. -/
theorem covApps_nodup (hnd : ∀ i j, (x.rules i j).Nodup) (C : List Bool) : (covApps x tags.idxOf P C).Nodup := by
  have hPnd : P.Nodup := (List.nodup_append.1 hQ.nodup).1
  unfold covApps
  rw [List.nodup_flatMap]
  have hpn : ∀ i j, (phraseApps x i j).Nodup := by
    intro i j
    refine (hnd i j).map ?_
    intro a b h
    simp only [Option.some.injEq, Prod.mk.injEq, Val.phrase.injEq, true_and, and_true] at h
    exact h
  refine ⟨?_, ?_⟩
  · intro k _
    split
    · unfold contrib
      split
      · exact hpn _ _
      · simp
    · simp
  · refine List.Pairwise.imp_of_mem ?_ hPnd
    intro k k' hk hk' hne a ha ha'
    simp only [Function.onFun] at ha ha'
    split at ha
    · rename_i hc
      split at ha'
      · rename_i hc'
        unfold contrib at ha ha'
        split at ha <;> rename_i hn <;> split at ha' <;> rename_i hn'
        · have h1 := (hc.2.trans hc'.2.symm)
          obtain ⟨s, hs, rfl⟩ := hQ.pok k hk
          obtain ⟨s', hs', rfl⟩ := hQ.pok k' hk'
          unfold out at h1
          rw [hn, hn'] at h1
          obtain ⟨e1, e2⟩ := setBits_empty_inj (hasData_lt hf hc.1) hs.jn (hasData_lt hf hc'.1) hs'.jn h1
          apply hne
          exact Prod.ext (hn.trans hn'.symm) (Prod.ext e1 e2)
        · obtain ⟨r, _, rfl⟩ := List.mem_map.1 ha
          simp at ha'
        · obtain ⟨r, _, rfl⟩ := List.mem_map.1 ha'
          simp at ha
        · simp only [List.mem_singleton] at ha ha'
          rw [ha] at ha'
          simp only [Option.some.injEq, Prod.mk.injEq, List.cons.injEq, and_true] at ha'
          have := idx_inj ((hF.mem_phr k).2 ⟨hk, hc.1, hn⟩) ha'.2
          rw [Tag.phr.injEq] at this
          exact hne this
      · simp at ha'
    · simp at ha

theorem apps_inj {v e e' : Nat} (h : (F.apps v).Nodup) (he : e ∈ F.inE v) (he' : e' ∈ F.inE v) (ha : F.app e = F.app e') : e = e' :=
  List.inj_on_of_nodup_map h he he' ha

theorem phr_unique (hnd : ∀ i j, (x.rules i j).Nodup) {k : Key} (hk : .phr k ∈ tags) {T T' : Tree} {t : LTree (Val R)} (h : IsDeriv F (tags.idxOf (.phr k)) T)
    (h' : IsDeriv F (tags.idxOf (.phr k)) T') (hs : Shows F T t) (hs' : Shows F T' t) : T = T' := by
  obtain ⟨e, ch⟩ := T
  obtain ⟨e', ch'⟩ := T'
  obtain ⟨val, ts⟩ := t
  obtain ⟨he, hch⟩ := isDeriv_iff.1 h
  obtain ⟨he', hch'⟩ := isDeriv_iff.1 h'
  obtain ⟨y, hy, hyv, hts⟩ := shows_iff.1 hs
  obtain ⟨y', hy', hyv', hts'⟩ := shows_iff.1 hs'
  have ap : F.apps (tags.idxOf (.phr k)) = phraseApps x k.2.1 k.2.2 := apps_phr hF hA hk
  have hnn : (F.apps (tags.idxOf (.phr k))).Nodup := by
    rw [ap]
    refine (hnd _ _).map ?_
    intro a b h
    simp only [Option.some.injEq, Prod.mk.injEq, Val.phrase.injEq, true_and, and_true] at h
    exact h
  have tl : ∀ e y, e ∈ F.inE (tags.idxOf (.phr k)) → F.edges[e]? = some y → y.tails = [] := by
    intro e y he hy
    have : F.app e ∈ F.apps (tags.idxOf (.phr k)) := List.mem_map.2 ⟨e, he, rfl⟩
    rw [ap] at this
    obtain ⟨r, _, e1⟩ := List.mem_map.1 this
    obtain ⟨y2, h1, h2, _⟩ := app_eq.1 e1.symm
    rw [hy] at h1
    rw [Option.some.inj h1]
    exact h2
  have t1 := tl e y he hy
  have t2 := tl e' y' he' hy'
  have hee : e = e' := by
    apply apps_inj hf hQ hF hA hnn he he'
    rw [app_eq.2 ⟨y, hy, rfl, hyv⟩, app_eq.2 ⟨y', hy', rfl, hyv'⟩, t1, t2]
  have f1 : F.tails e = [] := by unfold Hypergraph.tails; rw [hy]; exact t1
  have f2 : F.tails e' = [] := by unfold Hypergraph.tails; rw [hy']; exact t2
  rw [f1] at hch
  rw [f2] at hch'
  cases hch
  cases hch'
  rw [hee]

theorem cov_unique (hnd : ∀ i j, (x.rules i j).Nodup) (N : Nat) : ∀ C, C.count true ≤ N → .cov C ∈ tags → ∀ T T' t, IsDeriv F (tags.idxOf (.cov C)) T →
    IsDeriv F (tags.idxOf (.cov C)) T' → Shows F T t → Shows F T' t → T = T' := by
  induction N with
  | zero =>
    intro C hC hm
    obtain ⟨k, hk, hd, rfl⟩ := (hF.mem_cov C).1 hm
    have := count_lt hf hQ hk hd
    omega
  | succ N ih =>
    rintro C hC hm ⟨e, ch⟩ ⟨e', ch'⟩ ⟨val, ts⟩ h h' hs hs'
    obtain ⟨he, hch⟩ := isDeriv_iff.1 h
    obtain ⟨he', hch'⟩ := isDeriv_iff.1 h'
    obtain ⟨y, hy, hyv, hts⟩ := shows_iff.1 hs
    obtain ⟨y', hy', hyv', hts'⟩ := shows_iff.1 hs'
    have ap := apps_cov hF hA hm
    have hnn : (F.apps (tags.idxOf (.cov C))).Nodup := by rw [ap]; exact covApps_nodup hf hQ hF hnd C
    have ha : F.app e = some (y.tails, val) := app_eq.2 ⟨y, hy, rfl, hyv⟩
    have ha' : F.app e' = some (y'.tails, val) := app_eq.2 ⟨y', hy', rfl, hyv'⟩
    have hm1 : some (y.tails, val) ∈ covApps x tags.idxOf P C := by
      rw [← ap, ← ha]
      exact List.mem_map.2 ⟨e, he, rfl⟩
    have hm2 : some (y'.tails, val) ∈ covApps x tags.idxOf P C := by
      rw [← ap, ← ha']
      exact List.mem_map.2 ⟨e', he', rfl⟩
    have f1 : F.tails e = y.tails := by unfold Hypergraph.tails; rw [hy]
    have f2 : F.tails e' = y'.tails := by unfold Hypergraph.tails; rw [hy']
    rw [f1] at hch
    rw [f2] at hch'
    rcases (mem_covApps hf hQ hF).1 hm1 with ⟨k, hk, hd, ho, hn, r, hr, e1, e2⟩ | ⟨k, hk, hd, ho, hn, e1, e2⟩
    · rcases (mem_covApps hf hQ hF).1 hm2 with ⟨k', hk', hd', ho', hn', r', hr', e1', e2'⟩ | ⟨k', hk', hd', ho', hn', e1', e2'⟩
      · have hee := apps_inj hf hQ hF hA hnn he he' (by rw [ha, ha', e1, e1'])
        rw [e1] at hch
        rw [e1'] at hch'
        cases hch
        cases hch'
        rw [hee]
      · rw [e2] at e2'
        simp at e2'
    · rcases (mem_covApps hf hQ hF).1 hm2 with ⟨k', hk', hd', ho', hn', r', hr', e1', e2'⟩ | ⟨k', hk', hd', ho', hn', e1', e2'⟩
      · rw [e2] at e2'
        simp at e2'
      · rw [e1] at hch
        rw [e1'] at hch'
        match hch, hts with
        | .cons (l₁ := _) a1 (.cons a2 .nil), .cons (l₂ := _) b1 (.cons b2 .nil) =>
          match hch', hts' with
          | .cons a1' (.cons a2' .nil), .cons b1' (.cons b2' .nil) =>
            have hct := cov_tag hf hQ hF hA hk hn
            have hct' := cov_tag hf hQ hF hA hk' hn'
            have hpt := (hF.mem_phr k).2 ⟨hk, hd, hn⟩
            have hpt' := (hF.mem_phr k').2 ⟨hk', hd', hn'⟩
            obtain ⟨l, hl, hr, ht1⟩ := (cov_shows' hf hQ hF hA hct _).1 ⟨_, a1, b1⟩
            obtain ⟨l', hl', hr', ht1'⟩ := (cov_shows' hf hQ hF hA hct' _).1 ⟨_, a1', b1'⟩
            have hll := tree_inj l l' hl hl' (ht1.symm.trans ht1')
            subst hll
            have hb := hr.unique hr'
            obtain ⟨r, _, ht2⟩ := (phr_shows hF hA hpt _).1 ⟨_, a2, b2⟩
            obtain ⟨r', _, ht2'⟩ := (phr_shows hF hA hpt' _).1 ⟨_, a2', b2'⟩
            have hlf := ht2.symm.trans ht2'
            simp only [leaf, LTree.node.injEq, Val.phrase.injEq, and_true] at hlf
            have hkk : k = k' := Prod.ext hb (Prod.ext hlf.2.1 hlf.2.2)
            subst hkk
            have hlt := count_lt hf hQ hk hd
            have hee := apps_inj hf hQ hF hA hnn he he' (by rw [ha, ha', e1, e1'])
            rw [hee, ih k.1 (by rw [← ho] at hC; omega) hct _ _ _ a1 a1' b1 b1', phr_unique hf hQ hF hA hnd hpt a2 a2' b2 b2']

end

end Cdec.Dec.PB
