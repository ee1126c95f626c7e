import Verif.Decoder.SplitLemmas
/-!
# C79: The compound splitter's forest holds exactly the allowed splits of a word, each once
-/
namespace Cdec.Dec
open Cdec.HG
open Cdec.Dec.Parser.Spec (LTree Shows)

/-! ### What a split is -/

/-- `Unlinked w f y`: the part `w` may be written `y`, without its linking element; lengths are in bytes.  `e`, `n` and `s` are 101, 110 and 115. -/
inductive Unlinked : List UInt8 → Fugen → List UInt8 → Prop
  | es {y : List UInt8} : 3 < y.length → Unlinked (y ++ [101, 115]) .s y
  | s {y : List UInt8} : 3 < y.length → (∀ z, y = z ++ [101] → z.length ≤ 3) → Unlinked (y ++ [115]) .s y
  | n {y : List UInt8} : 3 < y.length → Unlinked (y ++ [101, 110]) .n (y ++ [101])

/-- A part of a word: its characters, the linking element it lost, and what is written. -/
abbrev Piece := List (List UInt8) × Option Fugen × List UInt8

/-- The part is written as it is or, if it is not the last one, without its linking element. -/
def Piece.Ok (last : Prop) (p : Piece) : Prop :=
  (p.2.1 = none ∧ p.2.2 = p.1.flatten) ∨ (¬ last ∧ ∃ f, p.2.1 = some f ∧ Unlinked p.1.flatten f p.2.2)

/-- A split of the word with the given characters: the parts make up the word, and there is one part or each has at least three characters. -/
structure IsSplit (chars : List (List UInt8)) (ps : List Piece) : Prop where
  ne : ps ≠ []
  whole : (ps.map (·.1)).flatten = chars
  size : ps.length = 1 ∨ ∀ p ∈ ps, 3 ≤ p.1.length
  ok : ∀ k p, ps[k]? = some p → Piece.Ok (k + 1 = ps.length) p

/-- The derivation: the parts are attached from left to right, after position `i`. -/
def splitTree : Nat → LTree SplitVal → List Piece → LTree SplitVal
  | _, t, [] => t
  | i, t, p :: ps => splitTree (i + p.1.length) (.node (.part i (i + p.1.length) p.2.1 p.2.2) [t]) ps

/-! ### Lemmas -/

theorem splitTree_snoc (p : Piece) : ∀ (ps : List Piece) (i : Nat) (t : LTree SplitVal), splitTree i t (ps ++ [p]) =
    .node (.part (i + (ps.map (·.1)).flatten.length) (i + (ps.map (·.1)).flatten.length + p.1.length) p.2.1 p.2.2) [splitTree i t ps]
  | [], i, t => by simp [splitTree]
  | q :: ps, i, t => by
    rw [List.cons_append, splitTree, splitTree_snoc p ps, splitTree]
    simp only [List.map_cons, List.flatten_cons, List.length_append, Nat.add_assoc]

theorem unlink_iff (w : List UInt8) (f : Fugen) (y : List UInt8) : unlink w = some (f, y) ↔ Unlinked w f y := by
  have snoc : ∀ l : List UInt8, l ≠ [] → ∃ z a, l = z ++ [a] := fun l h => ⟨l.dropLast, l.getLast h, (List.dropLast_append_getLast _).symm⟩
  by_cases hlen : w.length < 2
  · constructor
    · intro h
      unfold unlink minSize at h
      simp only [] at h
      rw [if_neg (by omega), if_neg (by omega), if_neg (by omega)] at h
      cases h
    · intro h
      cases h <;> simp at hlen <;> omega
  · obtain ⟨v, b, rfl⟩ := snoc w (by rintro rfl; simp at hlen)
    obtain ⟨z, a, rfl⟩ := snoc v (by rintro rfl; simp at hlen)
    have hl : (z ++ [a] ++ [b]).length = z.length + 2 := by simp
    have t1 : (z ++ [a] ++ [b]).take (z.length + 2 - 1) = z ++ [a] := by
      rw [List.take_left' (by simp)]
    have t2 : (z ++ [a] ++ [b]).take (z.length + 2 - 2) = z := by
      rw [List.append_assoc, List.take_left' (by simp)]
    have last : (z ++ [a] ++ [b]).getD (z.length + 2 - 1) 0 = b := by
      rw [List.getD_eq_getElem?_getD, List.getElem?_append_right (by simp)]
      simp
    have last2 : (z ++ [a] ++ [b]).getD (z.length + 2 - 2) 0 = a := by
      rw [List.getD_eq_getElem?_getD, List.append_assoc, List.getElem?_append_right (by simp)]
      simp
    unfold unlink minSize
    simp only [hl, last, last2, t1, t2]
    clear last last2 t1 t2
    constructor
    · intro h
      split at h
      · rename_i hc
        cases h
        obtain ⟨h1, rfl, rfl⟩ := hc
        rw [List.append_assoc]
        exact .es (by omega)
      · rename_i hc
        split at h
        · rename_i hc2
          cases h
          obtain ⟨h1, rfl⟩ := hc2
          refine .s (by simp; omega) ?_
          intro z' hz
          obtain ⟨rfl, ha⟩ := List.append_inj' hz rfl
          cases ha
          by_contra hcc
          exact hc ⟨by omega, rfl, rfl⟩
        · split at h
          · rename_i hc3
            cases h
            obtain ⟨h1, rfl, rfl⟩ := hc3
            rw [List.append_assoc]
            exact .n (by omega)
          · cases h
    · intro h
      generalize hw : z ++ [a] ++ [b] = w at h
      cases h with
      | es h1 =>
        rw [List.append_assoc] at hw
        obtain ⟨rfl, ha⟩ := List.append_inj' hw rfl
        cases ha
        rw [if_pos ⟨by omega, rfl, rfl⟩]
      | s h1 h2 =>
        obtain ⟨rfl, ha⟩ := List.append_inj' hw rfl
        cases ha
        simp only [List.length_append, List.length_singleton] at h1
        rw [if_neg, if_pos ⟨by omega, rfl⟩]
        rintro ⟨h3, _, rfl⟩
        have := h2 z rfl
        omega
      | @n y h1 =>
        rw [List.append_assoc] at hw
        obtain ⟨rfl, ha⟩ := List.append_inj' hw rfl
        cases ha
        rw [if_neg (by rintro ⟨_, h, _⟩; cases h), if_neg (by rintro ⟨_, h⟩; cases h), if_pos ⟨by omega, rfl, rfl⟩]

theorem unlinked_pos {w y : List UInt8} {f : Fugen} (h : Unlinked w f y) : y.length ≠ 0 := by
  cases h with
  | es h => omega
  | s h => omega
  | n h => simp

/-- The characters from `i` to `j`. -/
def slice (chars : List (List UInt8)) (i j : Nat) : List (List UInt8) := (chars.drop i).take (j - i)

theorem take_slice (chars : List (List UInt8)) (i j : Nat) (h : i ≤ j) : chars.take i ++ slice chars i j = chars.take j := by
  unfold slice
  have : chars.take j = (chars.take j).take i ++ (chars.take j).drop i := (List.take_append_drop _ _).symm
  rw [this, List.take_take, Nat.min_eq_left h, List.drop_take]

theorem mem_partVals (chars : List (List UInt8)) (i j : Nat) (x : SplitVal) :
    x ∈ partVals chars i j ↔ ∃ a o, x = .part i j a o ∧ Piece.Ok (j = chars.length) (slice chars i j, a, o) := by
  have hp : paste chars i j = (slice chars i j).flatten := rfl
  unfold partVals Piece.Ok
  rw [hp]
  simp only [List.mem_cons]
  constructor
  · rintro (rfl | h)
    · exact ⟨_, _, rfl, .inl ⟨rfl, rfl⟩⟩
    · split at h
      · rename_i hj
        split at h
        · rename_i f alt hu
          split at h
          · rw [List.mem_singleton] at h
            exact ⟨_, _, h, .inr ⟨hj, f, rfl, (unlink_iff _ _ _).1 hu⟩⟩
          · cases h
        · cases h
      · cases h
  · rintro ⟨a, o, rfl, ⟨h1, h2⟩ | ⟨h1, f, h2, h3⟩⟩
    · subst h1; subst h2
      exact .inl rfl
    · subst h2
      right
      rw [if_pos h1, (unlink_iff _ _ _).2 h3]
      simp only []
      rw [if_pos (unlinked_pos h3)]
      simp

/-- What a node stands for: splits of the characters before its position. -/
structure PreSplit (chars : List (List UInt8)) (j : Nat) (ps : List Piece) : Prop where
  whole : (ps.map (·.1)).flatten = chars.take j
  size : (j = chars.length ∧ ps.length = 1) ∨ ∀ p ∈ ps, 3 ≤ p.1.length
  ok : ∀ k p, ps[k]? = some p → Piece.Ok (j = chars.length ∧ k + 1 = ps.length) p

theorem ok_congr {P Q : Prop} (h : P ↔ Q) (p : Piece) : Piece.Ok P p ↔ Piece.Ok Q p := by
  unfold Piece.Ok; rw [h]

theorem preSplit_end (chars : List (List UInt8)) (hn : chars.length ≠ 0) (ps : List Piece) : PreSplit chars chars.length ps ↔ IsSplit chars ps := by
  constructor
  · intro ⟨h1, h2, h3⟩
    rw [List.take_length] at h1
    refine ⟨?_, h1, ?_, fun k p hk => (ok_congr (by simp) p).1 (h3 k p hk)⟩
    · rintro rfl; simp at h1; exact hn (by rw [h1]; rfl)
    · exact h2.imp (·.2) id
  · intro ⟨_, h1, h2, h3⟩
    refine ⟨by rw [List.take_length]; exact h1, h2.imp (fun h => ⟨rfl, h⟩) id, fun k p hk => (ok_congr (by simp) p).2 (h3 k p hk)⟩

theorem flatten_snoc (ps : List Piece) (p : Piece) : ((ps ++ [p]).map (·.1)).flatten = (ps.map (·.1)).flatten ++ p.1 := by simp

theorem mem_le_flatten {ps : List Piece} {p : Piece} (h : p ∈ ps) : p.1.length ≤ (ps.map (·.1)).flatten.length := by
  induction ps with
  | nil => cases h
  | cons q ps ih =>
    rw [List.map_cons, List.flatten_cons, List.length_append]
    rcases List.mem_cons.1 h with rfl | h
    · omega
    · have := ih h; omega

theorem preSplit_snoc (chars : List (List UInt8)) (hn : chars.length ≠ 0) (j : Nat) (hj : j ∈ positions chars.length) (hj0 : j ≠ 0) (ps : List Piece) (p : Piece) :
    PreSplit chars j (ps ++ [p]) ↔ ∃ i, PartSpan chars.length i j ∧ PreSplit chars i ps ∧ p.1 = slice chars i j ∧ Piece.Ok (j = chars.length) p := by
  have hj' := (mem_positions _ _).1 hj
  have hjn : j ≤ chars.length := by omega
  constructor
  · rintro ⟨h1, h2, h3⟩
    rw [flatten_snoc] at h1
    have hlen : (ps.map (·.1)).flatten.length + p.1.length = j := by
      have := congrArg List.length h1
      rw [List.length_append, List.length_take] at this
      omega
    have hbig : ps ≠ [] → (∀ q ∈ ps, 3 ≤ q.1.length) ∧ 3 ≤ p.1.length ∧ 3 ≤ (ps.map (·.1)).flatten.length := by
      intro hne
      rcases h2 with ⟨_, h2⟩ | h2
      · have := List.length_pos_iff.2 hne
        simp at h2
        exact absurd h2 hne
      · obtain ⟨q, hq⟩ := List.exists_mem_of_ne_nil _ hne
        refine ⟨fun q hq => h2 q (by simp [hq]), h2 p (by simp), ?_⟩
        have := mem_le_flatten hq
        have := h2 q (by simp [hq])
        omega
    have hpre : (ps.map (·.1)).flatten = chars.take (ps.map (·.1)).flatten.length := by
      have := congrArg (List.take (ps.map (·.1)).flatten.length) h1
      rw [List.take_left, List.take_take, Nat.min_eq_left (by omega)] at this
      exact this
    refine ⟨(ps.map (·.1)).flatten.length, ⟨?_, hj, ?_⟩, ⟨hpre, ?_, ?_⟩, ?_, ?_⟩
    · rw [mem_positions]
      by_cases hne : ps = []
      · left; subst hne; rfl
      · have := hbig hne; omega
    · by_cases hne : ps = []
      · subst hne
        rcases hj' with h | h | h
        · exact absurd h hj0
        · exact .inl ⟨rfl, h⟩
        · exact .inr (by simp; omega)
      · have := hbig hne; omega
    · right
      intro q hq
      exact (hbig (List.ne_nil_of_mem hq)).1 q hq
    · intro k q hk
      have hkl := (List.getElem?_eq_some_iff.1 hk).1
      have := h3 k q (by rw [List.getElem?_append_left hkl]; exact hk)
      refine (ok_congr ?_ q).1 this
      have hlt : (ps.map (·.1)).flatten.length < chars.length := by
        have := hbig (List.ne_nil_of_length_pos (by omega)); omega
      simp only [List.length_append, List.length_singleton]
      omega
    · have := take_slice chars (ps.map (·.1)).flatten.length j (by omega)
      rw [← hpre, ← h1] at this
      exact (List.append_cancel_left this).symm
    · have := h3 ps.length p (by simp)
      exact (ok_congr (by simp) p).1 this
  · rintro ⟨i, ⟨h1, _, h3⟩, ⟨g1, g2, g3⟩, h5, h6⟩
    have hi' := (mem_positions _ _).1 h1
    have hij : i < j := by omega
    have hps0 : i = 0 → ps = [] := by
      rintro rfl
      cases ps with
      | nil => rfl
      | cons q ps =>
        rw [List.take_zero] at g1
        have hq : q.1.length = 0 := by
          have := mem_le_flatten (ps := q :: ps) (p := q) (by simp)
          rw [g1] at this
          simpa using this
        rcases g2 with ⟨h, _⟩ | h
        · omega
        · have := h q (by simp); omega
    refine ⟨?_, ?_, ?_⟩
    · rw [flatten_snoc, g1, h5, take_slice _ _ _ (by omega)]
    · have hlen : p.1.length = j - i := by rw [h5]; unfold slice; simp; omega
      rcases h3 with ⟨rfl, rfl⟩ | h3
      · left; exact ⟨rfl, by rw [hps0 rfl]; rfl⟩
      · right
        intro q hq
        rcases List.mem_append.1 hq with hq | hq
        · rcases g2 with ⟨h, _⟩ | h
          · omega
          · exact h q hq
        · rw [List.mem_singleton] at hq; subst hq; omega
    · intro k q hk
      rw [List.getElem?_append] at hk
      split at hk
      · rename_i hkl
        refine (ok_congr ?_ q).1 (g3 k q hk)
        simp only [List.length_append, List.length_singleton]
        omega
      · rename_i hkl
        cases hd : k - ps.length with
        | zero =>
          rw [hd] at hk
          simp at hk
          subst hk
          refine (ok_congr ?_ p).1 h6
          simp only [List.length_append, List.length_singleton]
          omega
        | succ d => rw [hd] at hk; simp at hk

theorem split_lang (chars : List (List UInt8)) (hn : chars.length ≠ 0) : ∀ j ∈ positions chars.length, ∀ t,
    Lang ((positions chars.length).map (splitEdges chars)) ((positions chars.length).idxOf j) t ↔ ∃ ps, PreSplit chars j ps ∧ t = splitTree 0 (.node .wordBreak []) ps := by
  intro j
  induction j using Nat.strongRecOn with
  | ind j ih =>
    intro hj t
    obtain ⟨x, ch⟩ := t
    rw [lang_iff, split_getD chars j hj]
    simp only [mem_splitEdges chars hn j hj]
    by_cases hj0 : j = 0
    · subst hj0
      constructor
      · rintro ⟨ts, ⟨_, e⟩ | ⟨i, ⟨_, _, h⟩, _⟩, h2⟩
        · cases e
          cases h2
          exact ⟨[], ⟨by simp, .inr (by simp), by simp⟩, rfl⟩
        · omega
      · rintro ⟨ps, ⟨h1, h2, _⟩, e⟩
        have : ps = [] := by
          cases ps with
          | nil => rfl
          | cons q ps =>
            rw [List.take_zero] at h1
            have hq : q.1.length = 0 := by
              have := mem_le_flatten (ps := q :: ps) (p := q) (by simp)
              rw [h1] at this
              simpa using this
            rcases h2 with ⟨h, _⟩ | h
            · omega
            · have := h q (by simp); omega
        subst this
        cases e
        exact ⟨[], .inl ⟨rfl, rfl⟩, .nil⟩
    · constructor
      · rintro ⟨ts, ⟨h, _⟩ | ⟨i, h1, h2, h3⟩, h4⟩
        · exact absurd h hj0
        · subst h2
          obtain ⟨u, rfl, hu⟩ := forall2_one.1 h4
          obtain ⟨a, o, rfl, hok⟩ := (mem_partVals chars i j x).1 h3
          have hi' := (mem_positions _ _).1 h1.1
          have hj' := (mem_positions _ _).1 hj
          have hij : i < j := by have := h1.2.2; omega
          obtain ⟨ps, hp, rfl⟩ := (ih i hij h1.1 u).1 hu
          refine ⟨ps ++ [(slice chars i j, a, o)], (preSplit_snoc chars hn j hj hj0 _ _).2 ⟨i, h1, hp, rfl, hok⟩, ?_⟩
          rw [splitTree_snoc]
          have e1 : (ps.map (·.1)).flatten.length = i := by rw [hp.whole]; simp; omega
          have e2 : (slice chars i j).length = j - i := by unfold slice; simp; omega
          simp only [e1, e2]
          rw [show 0 + i = i by omega, show i + (j - i) = j by omega]
      · rintro ⟨ps', hp', e⟩
        have hne : ps' ≠ [] := by
          rintro rfl
          have := congrArg List.length hp'.whole
          rw [List.length_take] at this
          simp only [List.map_nil, List.flatten_nil, List.length_nil] at this
          omega
        obtain ⟨ps, p, rfl⟩ : ∃ ps p, ps' = ps ++ [p] := ⟨ps'.dropLast, ps'.getLast hne, (List.dropLast_append_getLast _).symm⟩
        obtain ⟨i, h1, hp, h5, h6⟩ := (preSplit_snoc chars hn j hj hj0 _ _).1 hp'
        have hi' := (mem_positions _ _).1 h1.1
        have hj' := (mem_positions _ _).1 hj
        have hij : i < j := by have := h1.2.2; omega
        rw [splitTree_snoc] at e
        have e1 : (ps.map (·.1)).flatten.length = i := by rw [hp.whole]; simp; omega
        have e2 : p.1.length = j - i := by rw [h5]; unfold slice; simp; omega
        simp only [e1, e2] at e
        rw [show 0 + i = i by omega, show i + (j - i) = j by omega] at e
        cases e
        refine ⟨[(positions chars.length).idxOf i], .inr ⟨i, h1, rfl, (mem_partVals _ _ _ _).2 ⟨_, _, rfl, ?_⟩⟩, forall2_one.2 ⟨_, rfl, (ih i hij h1.1 _).2 ⟨ps, hp, rfl⟩⟩⟩
        rw [← h5]; exact h6

theorem split_core (cat goalCat : Int) (chars : List (List UInt8)) (hne : chars ≠ []) : ∃ g spec, splitTrellis cat goalCat chars = some g ∧ Shape g spec ∧ WF g ∧ 0 < g.nodes.length ∧
    spec = (positions chars.length).map (splitEdges chars) ++ [[([(positions chars.length).idxOf chars.length], SplitVal.goal)]] ∧
    (∀ s, (∃ T, IsDeriv g g.goal T ∧ Shows g T s) ↔ ∃ ps, IsSplit chars ps ∧ s = .node .goal [splitTree 0 (.node .wordBreak []) ps]) ∧
    ∀ v, ((spec.getD v []).map (·.2)).Nodup := by
  have hn : chars.length ≠ 0 := fun h => hne (List.length_eq_zero_iff.1 h)
  obtain ⟨g, h1, h2⟩ := split_shape cat goalCat chars hn
  obtain ⟨g', f1, f2, f3, _, f5, f6⟩ := h2.final (split_topo chars hn) (by simp [positions]) goalCat .goal
  have hlast : ((positions chars.length).map (splitEdges chars)).length - 1 = (positions chars.length).idxOf chars.length := by
    have hnd := sorted_nodup (positions_sorted _ hn)
    unfold positions at hnd ⊢
    rw [List.idxOf_append_of_notMem]
    · simp
    · intro h
      exact (List.nodup_append.1 hnd).2.2 _ h _ (by simp) rfl
  rw [hlast] at f2 f6
  refine ⟨g', _, by rw [h1, f1], f2, f3, f5, rfl, ?_, ?_⟩
  · intro s
    rw [f6]
    have hm : chars.length ∈ positions chars.length := by rw [mem_positions]; simp
    constructor
    · rintro ⟨t, h, rfl⟩
      obtain ⟨ps, hp, rfl⟩ := (split_lang chars hn _ hm t).1 h
      exact ⟨ps, (preSplit_end chars hn ps).1 hp, rfl⟩
    · rintro ⟨ps, hp, rfl⟩
      exact ⟨_, (split_lang chars hn _ hm _).2 ⟨ps, (preSplit_end chars hn ps).2 hp, rfl⟩, rfl⟩
  · intro v
    by_cases hv : v < (positions chars.length).length
    · rw [getD_append_left' _ _ _ (by simpa using hv), List.getD_eq_getElem?_getD, List.getElem?_map, List.getElem?_eq_getElem hv]
      exact splitEdges_nodup _ _
    · by_cases hv2 : v = (positions chars.length).length
      · subst hv2
        rw [List.getD_eq_getElem?_getD, List.getElem?_append_right (by simp)]
        simp
      · rw [List.getD_eq_getElem?_getD, List.getElem?_eq_none (by simp; omega)]; simp

/-! ### The property -/

/-- The derivations are exactly those of the splits of the word. -/
theorem C79_splits (cat goalCat : Int) (chars : List (List UInt8)) (hne : chars ≠ []) : ∃ g, splitTrellis cat goalCat chars = some g ∧ WF g ∧ 0 < g.nodes.length ∧
    ∀ s, (∃ T, IsDeriv g g.goal T ∧ Shows g T s) ↔ ∃ ps, IsSplit chars ps ∧ s = .node .goal [splitTree 0 (.node .wordBreak []) ps] := by
  obtain ⟨g, _, h1, _, h3, h4, _, h5, _⟩ := split_core cat goalCat chars hne
  exact ⟨g, h1, h3, h4, h5⟩

/-- Each split has exactly one derivation. -/
theorem C79_once (cat goalCat : Int) (chars : List (List UInt8)) (hne : chars ≠ []) : ∃ g, splitTrellis cat goalCat chars = some g ∧
    ∀ ps, IsSplit chars ps → ∃! T, IsDeriv g g.goal T ∧ Shows g T (.node .goal [splitTree 0 (.node .wordBreak []) ps]) := by
  obtain ⟨g, spec, h1, h2, h3, h4, _, h5, h6⟩ := split_core cat goalCat chars hne
  refine ⟨g, h1, ?_⟩
  intro ps hp
  obtain ⟨T, hT, hs⟩ := (h5 _).2 ⟨ps, hp, rfl⟩
  exact ⟨T, ⟨hT, hs⟩, fun T' ⟨hT', hs'⟩ => h2.once h6 hT' hT hs' hs⟩

/-- For the empty word the assertion fails. -/
theorem C79_empty_fails (cat goalCat : Int) : splitTrellis cat goalCat [] = none := rfl

/-- The word itself is always among the splits, and the edge of the full word is found. -/
theorem C79_whole (chars : List (List UInt8)) (hne : chars ≠ []) : IsSplit chars [(chars, none, chars.flatten)] := by
  refine ⟨by simp, by simp, .inl rfl, ?_⟩
  intro k p hk
  cases k with
  | zero => simp at hk; subst hk; exact .inl ⟨rfl, rfl⟩
  | succ k => simp at hk

theorem foldl_max (key : Nat → Option Nat) (b : Nat) (n : Nat) (hk : key b = some n) : ∀ (l : List Nat) (s : Option (Nat × Nat)),
    (s = some (b, n) ∨ (b ∈ l ∧ ∀ x m, s = some (x, m) → m < n)) → (∀ x ∈ l, ∀ m, key x = some m → m < n ∨ x = b) →
    l.foldl (fullStep key) s = some (b, n) := by
  intro l
  induction l with
  | nil =>
    intro s h _
    rcases h with h | ⟨h, _⟩
    · exact h
    · cases h
  | cons x l ih =>
    intro s h hall
    rw [List.foldl_cons]
    apply ih _ _ (fun y hy => hall y (by simp [hy]))
    unfold fullStep
    have hx' := hall x (by simp)
    rcases h with rfl | ⟨hm, hs⟩
    · left
      cases hx : key x with
      | none => rfl
      | some j =>
        simp only []
        rcases hx' j hx with h | rfl
        · rw [if_neg (by omega)]
        · rw [hk] at hx
          cases hx
          rw [if_neg (by omega)]
    · by_cases hxb : x = b
      · subst hxb
        left
        rw [hk]
        cases s with
        | none => rfl
        | some p =>
          obtain ⟨y, m⟩ := p
          simp only []
          rw [if_pos (hs y m rfl)]
      · right
        refine ⟨(List.mem_cons.1 hm).resolve_left fun h => hxb h.symm, ?_⟩
        cases hx : key x with
        | none => exact hs
        | some j =>
          have hj := (hx' j hx).resolve_right hxb
          cases s with
          | none =>
            intro y m e
            cases e
            exact hj
          | some p =>
            obtain ⟨y, m⟩ := p
            simp only []
            have := hs y m rfl
            intro y' m' e
            split at e
            · cases e; exact hj
            · cases e; exact this

/-- The edge of the full word. -/
theorem C79_full_word (cat goalCat : Int) (chars : List (List UInt8)) (hne : chars ≠ []) : ∃ g e x, splitTrellis cat goalCat chars = some g ∧ fullWordEdge g = some e ∧
    g.edges[e]? = some x ∧ x.val = .part 0 chars.length none chars.flatten := by
  have hn : chars.length ≠ 0 := fun h => hne (List.length_eq_zero_iff.1 h)
  obtain ⟨g, spec, h1, h2, h3, h4, hspec, h5, h6⟩ := split_core cat goalCat chars hne
  have hm : chars.length ∈ positions chars.length := by rw [mem_positions]; simp
  have h0m : 0 ∈ positions chars.length := by rw [mem_positions]; simp
  have hil := List.idxOf_lt_length_iff.2 hm
  have i0 : (positions chars.length).idxOf 0 = 0 := by simp [positions]
  have gd : ∀ v ∈ positions chars.length, spec.getD ((positions chars.length).idxOf v) [] = splitEdges chars v := by
    intro v hv
    rw [hspec, getD_append_left' _ _ _ (by simpa using List.idxOf_lt_length_iff.2 hv), split_getD chars v hv]
  have hslice : slice chars 0 chars.length = chars := by simp [slice]
  have hmem : ([0], SplitVal.part 0 chars.length none chars.flatten) ∈ spec.getD ((positions chars.length).idxOf chars.length) [] := by
    rw [gd _ hm, mem_splitEdges chars hn _ hm]
    refine .inr ⟨0, ⟨h0m, hm, .inl ⟨rfl, rfl⟩⟩, by rw [i0], (mem_partVals _ _ _ _).2 ⟨_, _, rfl, .inl ⟨rfl, ?_⟩⟩⟩
    simp only [hslice]
  obtain ⟨e, he, x, hx, ht, hv⟩ := h2.edge' hmem
  simp only [] at ht hv
  refine ⟨g, e, x, h1, ?_, hx, hv⟩
  have hcount : ∀ e', e' ∈ (g.node 0).outEdges ↔ 0 ∈ g.tails e' := by
    intro e'
    have := h2.inv.outc 0 h4 e'
    have e1 : g.node 0 = g.nodes[0] := by unfold Hypergraph.node; rw [List.getD_eq_getElem?_getD, List.getElem?_eq_getElem h4]; rfl
    rw [e1, ← List.count_pos_iff, ← List.count_pos_iff, this]
  unfold fullWordEdge
  rw [foldl_max (b := e) (n := chars.length)]
  · rfl
  · unfold partEnd
    rw [hx]
    simp only [hv]
  · right
    exact ⟨(hcount e).2 (by rw [ht]; simp), by simp⟩
  · intro e' he' m hm'
    unfold partEnd at hm'
    cases hy : g.edges[e']? with
    | none => rw [hy] at hm'; cases hm'
    | some y =>
      rw [hy] at hm'
      have h0 : 0 ∈ y.tails := by
        have := (hcount e').1 he'
        unfold Hypergraph.tails at this
        rw [hy] at this
        exact this
      obtain ⟨v, hv1, hv2⟩ := h2.edge_all hy
      obtain ⟨yid, yh, yt, yv⟩ := y
      cases yv with
      | wordBreak => cases hm'
      | goal => cases hm'
      | part i j a o =>
        simp only [Option.some.injEq] at hm'
        subst hm'
        simp only [] at h0 hv2
        -- the node of the edge
        have hvl : v < spec.length := by
          by_contra hc
          rw [List.getD_eq_getElem?_getD, List.getElem?_eq_none (by omega)] at hv2
          cases hv2
        have hvp : v < (positions chars.length).length := by
          by_contra hc
          have : v = (positions chars.length).length := by rw [hspec] at hvl; simp at hvl; omega
          rw [hspec, List.getD_eq_getElem?_getD, List.getElem?_append_right (by simp; omega)] at hv2
          simp [this] at hv2
        have ev : v = (positions chars.length).idxOf (positions chars.length)[v] := ((sorted_nodup (positions_sorted _ hn)).idxOf_getElem v hvp).symm
        have hvm : (positions chars.length)[v] ∈ positions chars.length := List.getElem_mem _
        rw [ev, gd _ hvm, mem_splitEdges chars hn _ hvm] at hv2
        rcases hv2 with ⟨_, h⟩ | ⟨i', h7, h8, h9⟩
        · cases h
        · obtain ⟨a', o', e2, hok⟩ := (mem_partVals _ _ _ _).1 h9
          simp only [SplitVal.part.injEq] at e2
          obtain ⟨rfl, rfl, rfl, rfl⟩ := e2
          simp only [] at h8
          rw [h8, List.mem_singleton] at h0
          have hi0 : i = 0 := by
            have h10 := idxOf_lt_iff (positions_sorted _ hn) h0m h7.1
            by_contra hc
            have := h10.2 (by omega)
            omega
          subst hi0
          have hvm' := (mem_positions _ _).1 hvm
          by_cases hjn : (positions chars.length)[v] = chars.length
          · right
            rcases hok with ⟨rfl, ho⟩ | ⟨h, _⟩
            · rw [hjn, hslice] at ho
              simp only [] at ho
              subst ho
              have hve : v = (positions chars.length).idxOf chars.length := ev.trans (congrArg (fun k => (positions chars.length).idxOf k) hjn)
              rw [← hve] at he
              -- payloads at a node differ
              have hnd := h6 v
              have e3 : ((g.inE v).map fun e => (g.edges[e]?).map (·.val)) = (spec.getD v []).map fun a => some a.2 := by
                have := congrArg (List.map (Option.map fun a : List Nat × SplitVal => a.2)) (h2.apps v)
                unfold Hypergraph.apps Hypergraph.app at this
                rw [List.map_map, List.map_map] at this
                rw [show (fun a : List Nat × SplitVal => some a.2) = (Option.map fun a : List Nat × SplitVal => a.2) ∘ some from rfl, ← this]
                apply List.map_congr_left
                intro e _
                simp only [Function.comp_apply, Option.map_map]
                rfl
              have hnd' : ((g.inE v).map fun e => (g.edges[e]?).map (·.val)).Nodup := by
                rw [e3, show (fun a : List Nat × SplitVal => some a.2) = some ∘ (fun a : List Nat × SplitVal => a.2) from rfl, ← List.map_map]
                exact hnd.map (Option.some_injective _)
              apply List.inj_on_of_nodup_map hnd' hv1 he
              rw [hx, hy]
              simp [hv, hjn]
            · exact absurd hjn h
          · left; omega

/-! ### Characters -/

theorem utf8Len_take (fuel : Nat) : ∀ (s : List UInt8) (cs : List (List UInt8)), splitUtf8 fuel s = some cs → cs.flatten = s ∧ ∀ c ∈ cs, ∃ b, c.head? = some b ∧ c.length ≤ utf8Len b := by
  induction fuel with
  | zero =>
    intro s cs h
    cases s with
    | nil => cases h; simp
    | cons b bs => cases h
  | succ fuel ih =>
    intro s cs h
    cases s with
    | nil => cases h; simp
    | cons b bs =>
      rw [splitUtf8] at h
      split at h
      · cases h
      · rename_i hb
        obtain ⟨cs', h1, rfl⟩ := Option.map_eq_some_iff.1 h
        obtain ⟨h2, h3⟩ := ih _ _ h1
        refine ⟨by rw [List.flatten_cons, h2, List.take_append_drop], ?_⟩
        intro c hc
        rcases List.mem_cons.1 hc with rfl | hc
        · refine ⟨b, ?_, by simp; omega⟩
          cases hl : utf8Len b with
          | zero => exact absurd hl hb
          | succ n => simp
        · exact h3 c hc

/-- The characters of a word make up the word, and none is longer than its first byte says. -/
theorem C79_characters (s : List UInt8) (cs : List (List UInt8)) (h : splitUtf8 s.length s = some cs) :
    cs.flatten = s ∧ ∀ c ∈ cs, ∃ b, c.head? = some b ∧ c.length ≤ utf8Len b := utf8Len_take _ _ _ h

/-- The assertion fails only on a byte that starts no character. -/
theorem C79_characters_total (s : List UInt8) (h : ∀ b ∈ s, utf8Len b ≠ 0) : ∃ cs, splitUtf8 s.length s = some cs := by
  have key : ∀ (fuel : Nat) (s : List UInt8), s.length ≤ fuel → (∀ b ∈ s, utf8Len b ≠ 0) → ∃ cs, splitUtf8 fuel s = some cs := by
    intro fuel
    induction fuel with
    | zero =>
      intro s hs _
      cases s with
      | nil => exact ⟨_, rfl⟩
      | cons b bs => simp at hs
    | succ fuel ih =>
      intro s hs hb
      cases s with
      | nil => exact ⟨_, rfl⟩
      | cons b bs =>
        have h0 := hb b (by simp)
        obtain ⟨cs, hcs⟩ := ih ((b :: bs).drop (utf8Len b)) (by rw [List.length_drop]; simp only [List.length_cons] at hs ⊢; omega)
          (fun c hc => hb c (List.mem_of_mem_drop hc))
        exact ⟨_, by rw [splitUtf8, if_neg h0, hcs]; rfl⟩
  exact key _ s (Nat.le_refl _) h

/-- Non-vacuity: "blumenkohl" as "blume" (its linking "n" removed) and "kohl". -/
example : IsSplit ("blumenkohl".toUTF8.toList.map fun b => [b])
    [("blumen".toUTF8.toList.map (fun b => [b]), some .n, "blume".toUTF8.toList), ("kohl".toUTF8.toList.map (fun b => [b]), none, "kohl".toUTF8.toList)] := by
  refine ⟨by decide, by decide +kernel, .inr (by decide +kernel), ?_⟩
  intro k p hk
  match k, hk with
  | 0, hk =>
    cases hk
    exact .inr ⟨by simp, .n, rfl, (unlink_iff _ _ _).1 (by decide +kernel)⟩
  | 1, hk =>
    cases hk
    exact .inl ⟨rfl, by decide +kernel⟩
  | k + 2, hk => cases hk

end Cdec.Dec
