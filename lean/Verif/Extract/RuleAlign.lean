import Verif.Extract.RuleSound
/-!
# All the extracts of one occurrence
-/
namespace Cdec.Extract
open Spec RuleSpec

theorem sourceLow_iff {E : XEnv} (hE : LinksOK E) {p : Nat} (hp : p < E.src.length) :
    E.spans.sourceLow.getD p (-1) ≠ -1 ↔ SrcAligned E p := by
  obtain ⟨hs, _⟩ := getLinksSpans_ok E.src.length E.tgt.length E.links hE
  rcases hs.entry p hp with ⟨h1, _, h3⟩ | ⟨a, b, h1, _, h3, _, _⟩
  · constructor
    · intro h; exact absurd h1 h
    · rintro ⟨l, hl, e⟩
      exact absurd (by subst e; exact hl) (h3 l.2)
  · constructor
    · intro _; exact ⟨_, h3, rfl⟩
    · intro _ h
      have : ((a : Nat) : Int) = -1 := by rw [← h1]; exact h
      omega

/-- A successful search, in natural numbers. -/
theorem fix_found {E : XEnv} (hE : LinksOK E) {minS minT mx : Int} {lo hi arb : Bool} {sl sh : Nat} (h1 : sl ≤ sh) (h2 : sh ≤ E.src.length) {r : Fix}
    (h : findFixPoint (E.fixParams minS minT mx lo hi arb) E.spans (E.src.length + 1) sl sh (-1, -1) = some (some r)) :
    ∃ a b c d : Nat, r = ⟨c, d, a, b⟩ ∧ a ≤ sl ∧ sh ≤ b ∧ b ≤ E.src.length ∧ c < d ∧ d ≤ E.tgt.length ∧ (d : Int) - c ≤ E.maxSpan ∧
      ((sh : Int) - sl ≤ E.maxSpan → (b : Int) - a ≤ E.maxSpan) ∧ Consistent E.links a b c d ∧ EdgesLinked E.links a b c d ∧
      (a < sl → lo = true ∧ minS ≤ (sl : Int) - a) ∧ (sh < b → hi = true ∧ minS ≤ (b : Int) - sh) ∧
      ((if a < sl then 1 else 0) + (if sh < b then 1 else 0) ≤ max 0 mx) := by
  obtain ⟨c1, c2, c3, c4, c5, c6, c7, c8, c9⟩ := C43_consistent (E.fixParams minS minT mx lo hi arb) E.links hE sl sh (by omega) (by omega) (by simp only [XEnv.fixParams]; omega) r h
  obtain ⟨tl, th, bl, bh⟩ := r
  simp only [XEnv.fixParams] at c1 c2 c3 c4 c5 c6 c7 c8 c9
  obtain ⟨a, rfl⟩ := Int.eq_ofNat_of_zero_le c2.1
  obtain ⟨b, rfl⟩ := Int.eq_ofNat_of_zero_le (show (0 : Int) ≤ bh by omega)
  obtain ⟨c, rfl⟩ := Int.eq_ofNat_of_zero_le c3.1
  obtain ⟨d, rfl⟩ := Int.eq_ofNat_of_zero_le (show (0 : Int) ≤ th by omega)
  refine ⟨a, b, c, d, rfl, by omega, by omega, by omega, by omega, by omega, c4, c5, c1, c9, ?_, ?_, ?_⟩
  · intro h; exact c6 (by omega)
  · intro h; exact c7 (by omega)
  · simpa using c8

theorem fix_total {E : XEnv} (hE : LinksOK E) {minS minT mx : Int} {lo hi arb : Bool} {sl sh : Nat} (h1 : sl ≤ sh) (h2 : sh ≤ E.src.length) :
    findFixPoint (E.fixParams minS minT mx lo hi arb) E.spans (E.src.length + 1) sl sh (-1, -1) ≠ none :=
  C43_terminates (E.fixParams minS minT mx lo hi arb) E.links hE sl sh (by omega) (by omega) (by simp only [XEnv.fixParams]; omega)

theorem extendPhrase_length (phrase : List Int) (L R : Bool) :
    (extendPhrase phrase L R).length = (if L then 1 else 0) + phrase.length + (if R then 1 else 0) := by
  unfold extendPhrase
  cases L <;> cases R <;> simp [renumber_length] <;> omega

/-- What is known of the extracts with or without a nonterminal at either end. -/
def Sound (E : XEnv) (phrase : List Int) (m c : Nat) (ms : List (Nat × Nat)) (L R : Bool) (xs : List Extracted) : Prop :=
  xs = [] ∨ ∃ a b t sg tg, (if L then a < m else a = m) ∧ (if R then chunksEnd ((m, c) :: ms) < b else b = chunksEnd ((m, c) :: ms)) ∧
    sg = (if L then [(a, m)] else []) ++ natGaps ((m, c) :: ms) ++ (if R then [(chunksEnd ((m, c) :: ms), b)] else []) ∧
    Batch E (extendPhrase phrase L R) (a, b) t sg tg xs

/-- One gap at an end. -/
theorem edgeGap_found {E : XEnv} (hE : LinksOK E) {extend : Bool} {edge a b : Nat} (h1 : a ≤ b) (h2 : b ≤ E.src.length) (he : edge < E.src.length) {gs : List (Int × Int)}
    (h : edgeGap E extend edge a b = some gs) :
    (extend = false ∧ gs = []) ∨ (extend = true ∧ ∃ t : Nat × Nat, gs = castGaps [t] ∧ (E.tight = true → SrcAligned E edge) ∧
      Consistent E.links a b t.1 t.2 ∧ EdgesLinked E.links a b t.1 t.2 ∧ t.1 < t.2 ∧ t.2 ≤ E.tgt.length) := by
  unfold edgeGap at h
  cases extend with
  | false => left; simp at h; exact ⟨rfl, h⟩
  | true =>
    right
    rw [if_pos rfl] at h
    split at h
    · cases h
    · rename_i ht
      split at h
      · rename_i r hr
        cases h
        obtain ⟨a', b', c, d, rfl, g1, g2, g3, g4, g5, g6, g7, g8, g9, g10, g11, g12⟩ := fix_found hE h1 h2 hr
        have e1 : a' = a := by
          by_contra hne
          have := (g10 (by omega)).1
          cases this
        have e2 : b' = b := by
          by_contra hne
          have := (g11 (by omega)).1
          cases this
        subst e1 e2
        refine ⟨rfl, (c, d), rfl, ?_, g8, g9, g4, g5⟩
        intro htt
        rw [htt] at ht
        simp only [Bool.true_and, decide_eq_true_eq] at ht
        rw [Int.toNat_natCast] at ht
        exact (sourceLow_iff hE he).1 ht
      · cases h

theorem extendLow_some {E : XEnv} (hmin : 1 ≤ E.minGap) {startsX extend : Bool} {low : Nat} {x : Int} (h : extendLow E startsX extend low = some x) :
    (extend = false ∧ x = low) ∨ (extend = true ∧ startsX = false ∧ 0 ≤ x ∧ x + E.minGap ≤ low) := by
  unfold extendLow at h
  cases extend with
  | false => left; simp at h; exact ⟨rfl, h.symm⟩
  | true =>
    right
    rw [if_pos rfl] at h
    split at h
    · cases h
    · rename_i hc
      rw [Bool.or_eq_true, decide_eq_true_eq, not_or] at hc
      refine ⟨rfl, by simpa using hc.1, ?_⟩
      simp only [] at h
      split at h
      · rw [Option.map_eq_some_iff] at h
        obtain ⟨i, hi, rfl⟩ := h
        have := List.mem_of_find?_eq_some hi
        rw [Int.ofNat_eq_natCast]
        rw [List.mem_reverse, List.mem_range] at this
        omega
      · cases h
        omega

theorem extendHigh_some {E : XEnv} (hmin : 1 ≤ E.minGap) {endsX extend : Bool} {high : Nat} {x : Int} (h : extendHigh E endsX extend high = some x) :
    (extend = false ∧ x = high) ∨ (extend = true ∧ endsX = false ∧ x ≤ E.src.length ∧ high + E.minGap ≤ x) := by
  unfold extendHigh at h
  cases extend with
  | false => left; simp at h; exact ⟨rfl, h.symm⟩
  | true =>
    right
    rw [if_pos rfl] at h
    split at h
    · cases h
    · rename_i hc
      rw [Bool.or_eq_true, decide_eq_true_eq, not_or] at hc
      refine ⟨rfl, by simpa using hc.1, ?_⟩
      simp only [] at h
      split at h
      · rw [Option.map_eq_some_iff] at h
        obtain ⟨i, hi, rfl⟩ := h
        have := List.mem_of_find?_eq_some hi
        rw [Int.ofNat_eq_natCast]
        rw [List.mem_range'_1] at this
        omega
      · cases h
        omega

/-- What is known of the phrase after `GetGaps`. -/
structure Base (E : XEnv) (phrase : List Int) (m c : Nat) (ms : List (Nat × Nat)) (L R : Bool) (a b : Nat) (sg tg : List (Nat × Nat)) : Prop where
  low : if L then a < m else a = m
  high : if R then chunksEnd ((m, c) :: ms) < b else b = chunksEnd ((m, c) :: ms)
  high' : b ≤ E.src.length
  gaps : sg = (if L then [(a, m)] else []) ++ natGaps ((m, c) :: ms) ++ if R then [(chunksEnd ((m, c) :: ms), b)] else []
  length : sg.length = tg.length
  found : ∀ (k : Nat) g u, sg[k]? = some g → tg[k]? = some u → Found E g u
  min_gap : ∀ g ∈ sg, E.minGap ≤ (g.2 : Int) - g.1

theorem getElem?_append3 {α : Type} {l1 l2 l3 : List α} {k : Nat} {x : α} (h : (l1 ++ l2 ++ l3)[k]? = some x) :
    l1[k]? = some x ∨ (l1.length ≤ k ∧ l2[k - l1.length]? = some x) ∨ (l1.length + l2.length ≤ k ∧ l3[k - l1.length - l2.length]? = some x) := by
  rw [List.getElem?_append] at h
  split at h
  · rw [List.getElem?_append] at h
    split at h
    · exact Or.inl h
    · exact Or.inr (Or.inl ⟨by omega, h⟩)
  · rename_i hk
    rw [List.length_append] at hk h
    exact Or.inr (Or.inr ⟨by omega, by rw [Nat.sub_sub]; exact h⟩)

/-- Adding found gaps at the ends. -/
theorem append_found {E : XEnv} {g1 g2 g3 u1 u2 u3 : List (Nat × Nat)} (l1 : g1.length = u1.length) (l2 : g2.length = u2.length)
    (h1 : ∀ (k : Nat) g u, g1[k]? = some g → u1[k]? = some u → Found E g u)
    (h2 : ∀ (k : Nat) g u, g2[k]? = some g → u2[k]? = some u → Found E g u)
    (h3 : ∀ (k : Nat) g u, g3[k]? = some g → u3[k]? = some u → Found E g u) :
    ∀ (k : Nat) g u, (g1 ++ g2 ++ g3)[k]? = some g → (u1 ++ u2 ++ u3)[k]? = some u → Found E g u := by
  intro k g u hg hu
  have lt : ∀ {α : Type} {l : List α} {k : Nat} {x : α}, l[k]? = some x → k < l.length := fun h => (List.getElem?_eq_some_iff.1 h).1
  rcases getElem?_append3 hg with a | ⟨a1, a⟩ | ⟨a1, a⟩ <;> rcases getElem?_append3 hu with b | ⟨b1, b⟩ | ⟨b1, b⟩
  · exact h1 _ _ _ a b
  · have := lt a; omega
  · have := lt a; omega
  · have := lt b; omega
  · rw [l1] at a; exact h2 _ _ _ a b
  · have := lt a; omega
  · have := lt b; omega
  · have := lt b; omega
  · rw [l1, l2] at a; exact h3 _ _ _ a b

theorem chain_lt : ∀ (ms : List (Nat × Nat)) (m c : Nat), Chain ((m, c) :: ms) → m < chunksEnd ((m, c) :: ms)
  | [], m, c, h => by simp only [chunksEnd, List.getLastD_cons, List.getLastD_nil]; simp only [Chain] at h; omega
  | (m', c') :: ms, m, c, h => by
    rw [chunksEnd_cons]
    have := chain_lt ms m' c' h.2.2
    have := h.2.1
    omega

theorem readLow_aligned {E : XEnv} (hE : LinksOK E) {junk p : Int} {q : Nat} (hp : p = q) (hq : q < E.src.length) (h : readLow E junk p ≠ -1) : SrcAligned E q := by
  subst hp
  unfold readLow at h
  rw [if_pos ⟨by omega, by omega⟩, Int.toNat_natCast] at h
  exact (sourceLow_iff hE hq).1 h

theorem low_flag {L left : Bool} {a a' m : Nat} {q : Prop} (h1 : if L then a < m else a = m) (h2 : if left then a' < a ∧ q else a' = a) :
    if (L || left) then a' < m else a' = m := by
  cases L <;> cases left <;> simp at h1 h2 ⊢ <;> omega

theorem high_flag {R right : Bool} {b b' m : Nat} {q : Prop} (h1 : if R then m < b else b = m) (h2 : if right then b < b' ∧ q else b' = b) :
    if (R || right) then m < b' else b' = m := by
  cases R <;> cases right <;> simp at h1 h2 ⊢ <;> omega

theorem gaps_flag {L left R right : Bool} {a a' b b' m e : Nat} {p q : Prop} {sg inner : List (Nat × Nat)} (h1 : if L then a < m else a = m)
    (h2 : if left then a' < a ∧ p else a' = a) (h3 : if R then e < b else b = e) (h4 : if right then b < b' ∧ q else b' = b)
    (h5 : left = true → L = false) (h6 : right = true → R = false)
    (h : sg = (if L then [(a, m)] else []) ++ inner ++ if R then [(e, b)] else []) :
    (if left then [(a', a)] else []) ++ sg ++ (if right then [(b, b')] else []) =
      (if (L || left) then [(a', m)] else []) ++ inner ++ if (R || right) then [(e, b')] else [] := by
  subst h
  cases L <;> cases left <;> cases R <;> cases right <;> simp at h1 h2 h3 h4 h5 h6 ⊢ <;> simp [h1, h2, h3, h4]

/-- The extracts for the extended phrase. -/
theorem extremities_sound {E : XEnv} (hE : LinksOK E) (hmin : 1 ≤ E.minGap) (junk : Int) {phrase : List Int} {m c : Nat} {ms : List (Nat × Nat)}
    (hocc : Occurs E.src E.minGap phrase ((m, c) :: ms)) {L R : Bool} {a b : Nat} {sg tg : List (Nat × Nat)} (hbase : Base E phrase m c ms L R a b sg tg)
    (left right : Bool) :
    ∃ xs, extremities E junk ((m, c) :: ms) (extendPhrase phrase L R) a b (castGaps tg) L R left right = some xs ∧
      Sound E phrase m c ms (L || left) (R || right) xs ∧ (xs ≠ [] → (left = true → L = false) ∧ (right = true → R = false)) := by
  have nil : ∃ xs, some [] = some xs ∧ Sound E phrase m c ms (L || left) (R || right) xs ∧ (xs ≠ [] → (left = true → L = false) ∧ (right = true → R = false)) :=
    ⟨[], rfl, Or.inl rfl, fun h => absurd rfl h⟩
  have hmlt := chain_lt ms m c (occurs_chain hocc)
  have hend := occurs_end hocc
  have ham : a ≤ m := by have := hbase.low; cases L <;> simp at this <;> omega
  have hbe : chunksEnd ((m, c) :: ms) ≤ b := by have := hbase.high; cases R <;> simp at this <;> omega
  have hbl := hbase.high'
  unfold extremities
  simp only []
  generalize hdl : (if left = true then (1 : Int) else 0) = dl
  generalize hdr : (if right = true then (1 : Int) else 0) = dr
  split
  · exact nil
  rename_i htight
  split
  swap
  · exact nil
  rename_i xl xh hxl hxh
  have exl := extendLow_some hmin hxl
  have exh := extendHigh_some hmin hxh
  split
  · exact nil
  rename_i hlim
  have hx0 : 0 ≤ xl ∧ xl ≤ a ∧ (b : Int) ≤ xh ∧ xh ≤ E.src.length := by
    rcases exl with ⟨_, e⟩ | ⟨_, _, e1, e2⟩ <;> rcases exh with ⟨_, e'⟩ | ⟨_, _, e1', e2'⟩ <;> omega
  obtain ⟨xl, rfl⟩ := Int.eq_ofNat_of_zero_le hx0.1
  obtain ⟨xh, rfl⟩ := Int.eq_ofNat_of_zero_le (show (0 : Int) ≤ xh by omega)
  have ht := fix_total hE (minS := 1) (minT := 1) (mx := dl + dr) (lo := left) (hi := right) (arb := true)
    (sl := xl) (sh := xh) (by omega) (by omega)
  split
  swap
  · exact nil
  swap
  · rename_i h; exact absurd h ht
  rename_i r hr
  obtain ⟨a', b', c', d', rfl, g1, g2, g3, g4, g5, g6, g7, g8, g9, g10, g11, g12⟩ := fix_found hE (by omega) (by omega) hr
  simp only []
  split
  swap
  · exact nil
  rename_i gl gr hgl hgr
  have egr : ((b' : Int) - 1) = ((b' - 1 : Nat) : Int) := by omega
  rw [egr] at hgr
  have fl := edgeGap_found hE (by omega) (by omega) (by omega) hgl
  have fr := edgeGap_found hE (by omega) (by omega) (by omega) hgr
  rw [Bool.and_eq_true, Bool.or_eq_true, decide_eq_true_eq, decide_eq_true_eq, not_and, not_or] at htight
  -- the two ends
  obtain ⟨tl, hlow, hgl', hnl, hLl, hla, hdl'⟩ : ∃ tl : List (Nat × Nat), (if left then a' < a ∧ a - a' ≥ E.minGap else a' = a) ∧ gl = castGaps tl ∧
      (if left then [(a', a)] else []).length = tl.length ∧
      (∀ (k : Nat) g u, (if left then [(a', a)] else [])[k]? = some g → tl[k]? = some u → Found E g u) ∧ (E.tight = true → SrcAligned E a') ∧
      (left = true → L = false) := by
    rcases fl with ⟨e, rfl⟩ | ⟨e, t, rfl, h1, h2, h3, h4⟩
    · subst e
      have ea : xl = a := by rcases exl with ⟨_, e⟩ | ⟨e, _⟩ <;> [omega; cases e]
      have ea' : a' = a := by
        by_contra hne
        have := (g10 (by omega)).1
        cases this
      refine ⟨[], by simpa using ea', rfl, rfl, by simp, ?_, by simp⟩
      intro htt
      have := (htight htt).1
      simp only [Bool.false_eq_true, if_false] at hdl
      exact readLow_aligned hE (by omega) (by omega) this
    · subst e
      rcases exl with ⟨e, _⟩ | ⟨_, e1, e2, e3⟩
      · cases e
      refine ⟨[t], by simp only [if_true]; omega, rfl, rfl, ?_, h1, fun _ => e1⟩
      intro k g u hg hu
      cases k with
      | succ k => simp at hg
      | zero =>
        simp only [if_true, List.getElem?_cons_zero, Option.some.injEq] at hg hu
        subst hg hu
        refine ⟨h2, h3, h4, ?_⟩
        intro htt
        simp only [if_true] at hdl
        exact ⟨h1 htt, readLow_aligned hE (q := a - 1) (by omega) (by omega) (htight htt).1⟩
  obtain ⟨tr, hhigh, hgr', hnr, hRr, hra, hdr'⟩ : ∃ tr : List (Nat × Nat), (if right then b < b' ∧ b' - b ≥ E.minGap else b' = b) ∧ gr = castGaps tr ∧
      (if right then [(b, b')] else []).length = tr.length ∧
      (∀ (k : Nat) g u, (if right then [(b, b')] else [])[k]? = some g → tr[k]? = some u → Found E g u) ∧ (E.tight = true → SrcAligned E (b' - 1)) ∧
      (right = true → R = false) := by
    rcases fr with ⟨e, rfl⟩ | ⟨e, t, rfl, h1, h2, h3, h4⟩
    · subst e
      have ea : xh = b := by rcases exh with ⟨_, e⟩ | ⟨e, _⟩ <;> [omega; cases e]
      have ea' : b' = b := by
        by_contra hne
        have := (g11 (by omega)).1
        cases this
      refine ⟨[], by simpa using ea', rfl, rfl, by simp, ?_, by simp⟩
      intro htt
      have := (htight htt).2
      simp only [Bool.false_eq_true, if_false] at hdr
      exact readLow_aligned hE (by omega) (by omega) this
    · subst e
      rcases exh with ⟨e, _⟩ | ⟨_, e1, e2, e3⟩
      · cases e
      refine ⟨[t], by simp only [if_true]; omega, rfl, rfl, ?_, h1, fun _ => e1⟩
      intro k g u hg hu
      cases k with
      | succ k => simp at hg
      | zero =>
        simp only [if_true, List.getElem?_cons_zero, Option.some.injEq] at hg hu
        subst hg hu
        refine ⟨h2, h3, h4, ?_⟩
        intro htt
        simp only [if_true] at hdr
        exact ⟨readLow_aligned hE (q := b) (by omega) (by omega) (htight htt).2, h1 htt⟩
  rw [extend_extend phrase L R left right hdl' hdr']
  have ecast : gl ++ castGaps tg ++ gr = castGaps (tl ++ tg ++ tr) := by rw [hgl', hgr']; simp [castGaps]
  rw [ecast]
  have eflag : (if (left || L) = true then 1 else 0) = (if (L || left) = true then 1 else 0) := by rw [Bool.or_comm]
  rw [eflag]
  have hb1 := hbase.low
  have hb2 := hbase.high
  have hb3 := hbase.gaps
  have hlen3 := hbase.length
  have hsl : (extendPhrase phrase (L || left) (R || right)).length ≤ E.maxSymbols := by
    rw [← extend_extend phrase L R left right hdl' hdr', extendPhrase_length]
    have e1 : ((if left = true then 1 else 0 : Nat) : Int) = dl := by rw [← hdl]; split <;> rfl
    have e2 : ((if right = true then 1 else 0 : Nat) : Int) = dr := by rw [← hdr]; split <;> rfl
    omega
  have hntn : ((if left then [(a', a)] else []) ++ sg ++ if right then [(b, b')] else []).length ≤ E.maxNT := by
    have e0 : (castGaps tg).length = tg.length := by simp [castGaps]
    have e1 : ((if left then [(a', a)] else [] : List (Nat × Nat)).length : Int) = dl := by rw [← hdl]; split <;> rfl
    have e2 : ((if right then [(b, b')] else [] : List (Nat × Nat)).length : Int) = dr := by rw [← hdr]; split <;> rfl
    rw [List.length_append, List.length_append]
    omega
  obtain ⟨xs, hxs, hbatch⟩ := addExtracts_any hE hocc (L || left) (R || right) a' b'
    (low_flag hb1 hlow) (high_flag hb2 hhigh) (by omega)
    ((if left then [(a', a)] else []) ++ sg ++ if right then [(b, b')] else []) (tl ++ tg ++ tr)
    (gaps_flag hb1 hlow hb2 hhigh hdl' hdr' hb3)
    (by simp only [List.length_append, hnl, hnr, hlen3])
    (c', d') ⟨g8, g9, ⟨g4, g5⟩, fun h => ⟨hla h, hra h⟩⟩
    (append_found hnl hlen3 hLl hbase.found hRr)
    (g7 (by omega)) g6 hntn hsl (by
      intro g hg
      rw [List.mem_append, List.mem_append] at hg
      rcases hg with (hg | hg) | hg
      · cases left
        · simp at hg
        · simp only [if_true, List.mem_singleton] at hg hlow; subst hg; simp only []; omega
      · exact hbase.min_gap g hg
      · cases right
        · simp at hg
        · simp only [if_true, List.mem_singleton] at hg hhigh; subst hg; simp only []; omega)
  rcases hbatch with rfl | hbatch
  · exact ⟨[], hxs, Or.inl rfl, fun h => absurd rfl h⟩
  exact ⟨xs, hxs, Or.inr ⟨a', b', _, _, _, low_flag hb1 hlow, high_flag hb2 hhigh, gaps_flag hb1 hlow hb2 hhigh hdl' hdr' hb3, hbatch⟩, fun _ => ⟨hdl', hdr'⟩⟩

end Cdec.Extract
