import Verif.Extract.DataArray
import Mathlib.Data.List.Basic
import Mathlib.Order.Basic
/-!
# Lemmas on data arrays
-/
namespace Cdec.Extract

/-- The text with end-of-line words, as the user sees it. -/
def textOf (lines : List (List String)) : List String := lines.flatMap (· ++ [eolStr])

/-- The two word tables are inverse to each other and know the reserved words. -/
structure WordsOK (d : DataArray) : Prop where
  iff : ∀ w i, d.word2id w = some i ↔ d.id2word[i]? = some w
  null : d.id2word[0]? = some nullWordStr
  eol : d.id2word[1]? = some eolStr

theorem WordsOK.init : WordsOK initDataArray := by
  refine ⟨?_, rfl, rfl⟩
  intro w i
  simp only [initDataArray, setId]
  have hne : nullWordStr ≠ eolStr := by decide
  match i with
  | 0 =>
    by_cases h : w = eolStr
    · subst h; simp [hne]
    · by_cases h2 : w = nullWordStr
      · subst h2; simp [h]
      · simp [h, h2]; exact fun e => h2 e.symm
  | 1 =>
    by_cases h : w = eolStr
    · subst h; simp
    · by_cases h2 : w = nullWordStr
      · subst h2; simp [h]; exact fun e => h e.symm
      · simp [h, h2]; exact fun e => h e.symm
  | i + 2 =>
    by_cases h : w = eolStr
    · subst h; simp
    · by_cases h2 : w = nullWordStr
      · subst h2; simp [h]
      · simp [h, h2]

/-- The state after adding words relates to the state before. -/
structure Ext (d d' : DataArray) (ws : List String) (ids : List Nat) : Prop where
  ok : WordsOK d'
  mono : ∀ (i : Nat) w, d.id2word[i]? = some w → d'.id2word[i]? = some w
  starts : d'.sentenceStart = d.sentenceStart
  dec : ∃ xs, d'.data = d.data ++ xs ∧ xs.map (d'.id2word[·]?) = ws.map some
  sid : d'.sentenceId = d.sentenceId ++ ids
  known : ∀ w, w ∈ d'.id2word → w ∈ d.id2word ∨ w ∈ ws

theorem addWord_ext (i : Nat) {d : DataArray} (h : WordsOK d) (w : String) : Ext d (addWord i d w) [w] [i] := by
  unfold addWord
  cases hw : d.word2id w with
  | some k =>
    simp only [Option.isNone_some, Bool.false_eq_true, if_false, hw, Option.getD_some]
    refine ⟨⟨h.iff, h.null, h.eol⟩, fun _ _ e => e, rfl, ⟨[k], rfl, ?_⟩, rfl, ?_⟩
    · simp [(h.iff w k).1 hw]
    · intro x hx; exact Or.inl hx
  | none =>
    simp only [Option.isNone_none, if_true, setId, Option.getD_some]
    have fresh : ∀ j : Nat, d.id2word[j]? ≠ some w := by
      intro j e; rw [(h.iff w j).2 e] at hw; cases hw
    have lift : ∀ (j : Nat) x, d.id2word[j]? = some x → (d.id2word ++ [w])[j]? = some x := by
      intro j x e
      have hj := (List.getElem?_eq_some_iff.1 e).1
      rw [List.getElem?_append_left hj]; exact e
    refine ⟨⟨?_, lift _ _ h.null, lift _ _ h.eol⟩, lift, rfl, ⟨[d.id2word.length], rfl, by simp⟩, rfl, ?_⟩
    swap
    · intro x hx
      rcases List.mem_append.1 hx with h' | h'
      · exact Or.inl h'
      · exact Or.inr h'
    intro x j
    show (if x = w then some d.id2word.length else d.word2id x) = some j ↔ (d.id2word ++ [w])[j]? = some x
    by_cases hx : x = w
    · subst hx
      rw [if_pos rfl, Option.some.injEq]
      constructor
      · rintro rfl; simp
      · intro e
        rcases Nat.lt_or_ge j d.id2word.length with hj | hj
        · rw [List.getElem?_append_left hj] at e
          exact absurd e (fresh j)
        · rw [List.getElem?_append_right hj] at e
          have := (List.getElem?_eq_some_iff.1 e).1
          simp at this; omega
    · rw [if_neg hx, h.iff]
      constructor
      · exact lift j x
      · intro e
        rcases Nat.lt_or_ge j d.id2word.length with hj | hj
        · rw [List.getElem?_append_left hj] at e; exact e
        · rw [List.getElem?_append_right hj] at e
          have := (List.getElem?_eq_some_iff.1 e).1
          have hj' : j - d.id2word.length = 0 := by simp at this; omega
          rw [hj'] at e
          simp at e; exact absurd e.symm hx

theorem Ext.trans {d d1 d2 : DataArray} {ws1 ws2 : List String} {i1 i2 : List Nat} (h1 : Ext d d1 ws1 i1)
    (h2 : Ext d1 d2 ws2 i2) : Ext d d2 (ws1 ++ ws2) (i1 ++ i2) := by
  obtain ⟨xs, e1, f1⟩ := h1.dec
  obtain ⟨ys, e2, f2⟩ := h2.dec
  refine ⟨h2.ok, fun j w e => h2.mono j w (h1.mono j w e), h2.starts.trans h1.starts, ⟨xs ++ ys, ?_, ?_⟩, ?_, ?_⟩
  · rw [e2, e1, List.append_assoc]
  · rw [List.map_append, List.map_append, f2]
    congr 1
    have hl := congrArg List.length f1
    simp only [List.length_map] at hl
    apply List.ext_getElem?
    intro k
    have hk := congrArg (fun l : List (Option String) => l[k]?) f1
    simp only [List.getElem?_map] at hk ⊢
    cases hx : xs[k]? with
    | none =>
      have : ws1[k]? = none := by
        rw [List.getElem?_eq_none_iff] at hx ⊢; omega
      simp [this]
    | some x =>
      rw [hx] at hk
      cases hw : ws1[k]? with
      | none => rw [hw] at hk; simp at hk
      | some w =>
        rw [hw] at hk
        simp only [Option.map_some, Option.some.injEq] at hk ⊢
        exact h2.mono x w hk
  · rw [h2.sid, h1.sid, List.append_assoc]
  · intro w hw
    rcases h2.known w hw with h | h
    · rcases h1.known w h with h' | h'
      · exact Or.inl h'
      · exact Or.inr (List.mem_append.2 (Or.inl h'))
    · exact Or.inr (List.mem_append.2 (Or.inr h))

theorem addWords_ext (i : Nat) (ws : List String) : ∀ {d : DataArray}, WordsOK d →
    Ext d (ws.foldl (addWord i) d) ws (ws.map fun _ => i) := by
  induction ws with
  | nil => intro d h; exact ⟨h, fun _ _ e => e, rfl, ⟨[], by simp, rfl⟩, by simp, fun _ h => Or.inl h⟩
  | cons w ws ih =>
    intro d h
    have h1 := addWord_ext i h w
    exact h1.trans (ih h1.ok)

/-- State after some lines. -/
structure LinesInv (lines : List (List String)) (d : DataArray) : Prop where
  ok : WordsOK d
  dec : d.data.map (d.id2word[·]?) = (textOf lines).map some
  starts : d.sentenceStart = (List.range lines.length).map fun i => (textOf (lines.take i)).length
  sid : d.sentenceId = lines.zipIdx.flatMap fun li => List.replicate (li.1.length + 1) li.2
  known : ∀ w, w ∈ d.id2word → w = nullWordStr ∨ w = eolStr ∨ ∃ l ∈ lines, w ∈ l

theorem textOf_append (a b : List (List String)) : textOf (a ++ b) = textOf a ++ textOf b := by
  simp [textOf]

theorem lines_inv (lines : List (List String)) : LinesInv lines (lines.zipIdx.foldl addLine initDataArray) := by
  have gen : ∀ k, k ≤ lines.length →
      LinesInv (lines.take k) ((lines.take k).zipIdx.foldl addLine initDataArray) := by
    intro k
    induction k with
    | zero => intro _; exact ⟨WordsOK.init, rfl, rfl, rfl, fun w h => by simpa [initDataArray, or_comm] using h⟩
    | succ k ih =>
      intro hk
      have inv := ih (by omega)
      have hkl : k < lines.length := by omega
      have hl : lines.take (k + 1) = lines.take k ++ [lines[k]] := by
        rw [List.take_succ, List.getElem?_eq_getElem hkl]; rfl
      have hlen : (lines.take k).length = k := by rw [List.length_take]; omega
      have hz : (lines.take (k + 1)).zipIdx = (lines.take k).zipIdx ++ [(lines[k], k)] := by
        rw [hl, List.zipIdx_append]; simp [hlen]
      rw [hz, List.foldl_append, List.foldl_cons, List.foldl_nil]
      generalize (lines.take k).zipIdx.foldl addLine initDataArray = d at inv
      generalize lines[k] = l at hl hz
      have e := addWords_ext k l (d := { d with sentenceStart := d.sentenceStart ++ [d.data.length] })
        ⟨inv.ok.iff, inv.ok.null, inv.ok.eol⟩
      simp only [addLine]
      generalize l.foldl (addWord k) { d with sentenceStart := d.sentenceStart ++ [d.data.length] } = d' at e
      obtain ⟨xs, e1, f1⟩ := e.dec
      have hdl : d.data.length = (textOf (lines.take k)).length := by
        have := congrArg List.length inv.dec
        simpa using this
      refine ⟨⟨e.ok.iff, e.ok.null, e.ok.eol⟩, ?_, ?_, ?_, ?_⟩
      · simp only [e1, List.map_append, hl, textOf_append, f1]
        have h1 : d.data.map (d'.id2word[·]?) = (textOf (lines.take k)).map some := by
          rw [← inv.dec]
          apply List.map_congr_left
          intro x hx
          have hmem : d.id2word[x]? ∈ (textOf (lines.take k)).map some := by
            rw [← inv.dec]; exact List.mem_map_of_mem hx
          obtain ⟨w, _, hw⟩ := List.mem_map.1 hmem
          rw [← hw, e.mono x w hw.symm]
        rw [h1]
        simp [textOf, e.ok.eol]
      · simp only [e.starts, inv.starts, hdl]
        rw [hl, List.length_append, hlen, List.length_singleton, List.range_succ, List.map_append]
        congr 1
        · apply List.map_congr_left
          intro i hi
          have := List.mem_range.1 hi
          rw [List.take_append_of_le_length (by omega)]
        · simp [hlen]
      · simp only [e.sid, inv.sid]
        rw [hl, List.zipIdx_append, List.flatMap_append]
        simp [hlen, List.replicate_succ', List.map_const']
      · intro w hw
        rw [hl]
        rcases e.known w hw with h | h
        · rcases inv.known w h with h | h | ⟨l', h1, h2⟩
          · exact Or.inl h
          · exact Or.inr (Or.inl h)
          · exact Or.inr (Or.inr ⟨l', List.mem_append.2 (Or.inl h1), h2⟩)
        · exact Or.inr (Or.inr ⟨l, by simp, h⟩)
  have := gen lines.length (Nat.le_refl _)
  rwa [List.take_length] at this

end Cdec.Extract
