import Verif.Mteval.SentenceScores
import Verif.Mteval.ScoresLemmas
import Verif.Props.C30
import Mathlib.Data.Finset.Card
import Mathlib.Data.Finset.Dedup
import Mathlib.Data.List.Nodup
import Mathlib.Tactic.FieldSimp
import Mathlib.Tactic.Linarith
import Mathlib.Tactic.Positivity
/-! # Lemmas about sentence scores -/
namespace Cdec.Scores

/-! ## Text without a newline -/

theorem readLinks_line (ps : List (Nat × Nat)) : readLinks (linksText ps) = some ps := by
  induction ps with
  | nil => unfold readLinks linksText; rfl
  | cons p ps ih =>
    have step : ∀ rest r, (∀ c ∈ rest.head?, isDigit c = false) → skipSpaces rest = r → readLinks r = some ps →
        readLinks (showLink p ++ rest) = some (p :: ps) := by
      intro rest r h1 h2 h3
      have hl := readLink_show p rest h1
      obtain ⟨c, cs, hc, hd⟩ := showNat_head p.1 ('-' :: showNat p.2 ++ rest)
      have he : showLink p ++ rest = c :: cs := by rw [← hc, showLink]; simp
      rw [he] at hl ⊢
      unfold readLinks
      have hne : ¬ (c = '\n' ∨ c = '\r') := by
        rintro (rfl | rfl) <;> exact absurd hd (by decide)
      simp only [if_neg hne]
      split
      · rename_i h'; rw [hl] at h'; simp at h'
      · rename_i q r' h'
        rw [hl] at h'
        simp only [Option.some.injEq, Prod.mk.injEq] at h'
        rw [← h'.1, ← h'.2, h2, h3]; rfl
    cases ps with
    | nil =>
      have := step [] [] (by simp) (by rw [skipSpaces]; intro cs h; simp at h) ih
      rwa [List.append_nil] at this
    | cons q ps =>
      rw [linksText]
      refine step _ (linksText (q :: ps)) (by intro c hc; simp at hc; subst hc; decide) ?_ ih
      rw [skipSpaces]
      have : ∃ t, linksText (q :: ps) = showNat q.1 ++ t := by
        cases ps with
        | nil => exact ⟨_, by rw [linksText, showLink]⟩
        | cons r ps => exact ⟨_, by rw [linksText, showLink, List.append_assoc]⟩
      obtain ⟨t, ht⟩ := this
      obtain ⟨c, cs, hc, hd⟩ := showNat_head q.1 t
      rw [ht, hc]; exact skipSpaces_digit c cs hd

theorem bar_notin_line (ps : List (Nat × Nat)) : '|' ∉ linksText ps := fun h => bar_notin_text ps (by simp [h])

/-- A line without a newline is read as the line with one. -/
theorem read_line (ps : List (Nat × Nat)) : readPharaoh (linksText ps) = readPharaoh (linksText ps ++ ['\n']) := by
  rw [readPharaoh, readPharaoh, afterBar_none _ (bar_notin_line ps), afterBar_none _ (bar_notin_text ps)]
  simp only [Option.getD_none]
  rw [readLinks_line, readLinks_text]

theorem read_grid (ps : List (Nat × Nat)) : ∃ r, readPharaoh (linksText ps) = some r ∧ r.Valid ∧
    ∀ i j, Link r i j ↔ (i, j) ∈ ps := by
  obtain ⟨r, h1, h2, h3, _⟩ := C30_reads_links ps [] (.inl rfl)
  exact ⟨r, by rw [read_line]; exact h1, h2, h3⟩

/-! ## Counting -/

theorem nodup_cells (w h : ℕ) : (cells w h).Nodup := by
  unfold cells
  rw [List.nodup_flatMap]
  refine ⟨fun i _ => List.Nodup.map (fun a b h => by simpa using h) List.nodup_range, ?_⟩
  refine List.Pairwise.imp ?_ List.nodup_range
  intro a b hab
  simp only [List.disjoint_left, Function.onFun, List.mem_map]
  rintro p ⟨x, _, rfl⟩ ⟨y, _, h⟩
  exact hab (by simpa using (congrArg Prod.fst h).symm)

/-- The links of a grid, in the order of the loops. -/
def linkList (g : Grid Bool) : List (ℕ × ℕ) := (cells g.w g.h).filter fun p => decide (g.get p.1 p.2 = some true)

theorem linkList_toFinset (g : Grid Bool) (ps : List (ℕ × ℕ)) (h : ∀ i j, Link g i j ↔ (i, j) ∈ ps) :
    (linkList g).toFinset = ps.toFinset := by
  ext p
  rw [List.mem_toFinset, List.mem_toFinset, linkList, List.mem_filter, mem_cells, ← h p.1 p.2]
  simp only [decide_eq_true_eq]
  exact ⟨fun x => x.2, fun x => ⟨link_range x, x⟩⟩

theorem linkList_nodup (g : Grid Bool) : (linkList g).Nodup := (nodup_cells _ _).filter _

theorem linkList_card (g : Grid Bool) (ps : List (ℕ × ℕ)) (h : ∀ i j, Link g i j ↔ (i, j) ∈ ps) :
    (linkList g).length = ps.toFinset.card := by
  rw [← linkList_toFinset g ps h, List.toFinset_card_of_nodup (linkList_nodup g)]

theorem hypLoop_eq (g : Grid Bool) (hv : g.Valid) : hypLoop g = some ((linkList g).length : ℤ) := by
  have aux : ∀ (l : List (ℕ × ℕ)), (∀ p ∈ l, p.1 < g.w ∧ p.2 < g.h) → ∀ (a : ℤ),
      l.foldlM (fun p c => (g.get c.1 c.2).map fun b => if b then p + 1 else p) a =
        some (a + ((l.filter fun p => decide (g.get p.1 p.2 = some true)).length : ℤ)) := by
    intro l
    induction l with
    | nil => intro _ a; simp
    | cons c l ih =>
      intro hl a
      obtain ⟨h1, h2⟩ := hl c (by simp)
      obtain ⟨b, hb⟩ := Grid.get_some hv h1 h2
      have ih := ih fun p hp => hl p (by simp [hp])
      rw [List.foldlM_cons, hb]
      simp only [Option.map_some]
      show List.foldlM _ _ l = _
      rw [ih, List.filter_cons, hb]
      cases b
      · simp
      · simp; ring
  rw [hypLoop, aux _ (fun p hp => mem_cells.1 hp)]
  simp [linkList]

theorem safe_eq (g : Grid Bool) (hv : g.Valid) (i j : ℕ) : safe g i j = some (decide (g.get i j = some true)) := by
  unfold safe
  split
  · rename_i h
    obtain ⟨b, hb⟩ := Grid.get_some hv h.1 h.2
    rw [hb]; cases b <;> rfl
  · rename_i h
    rw [Grid.get_none h]; rfl

theorem refLoop_eq (g q : Grid Bool) (hv : g.Valid) (hq : q.Valid) :
    refLoop g q = some (((linkList g).length : ℤ),
      (((linkList g).filter fun p => decide (q.get p.1 p.2 = some true)).length : ℤ)) := by
  have aux : ∀ (l : List (ℕ × ℕ)), (∀ p ∈ l, p.1 < g.w ∧ p.2 < g.h) → ∀ (a : ℤ × ℤ),
      l.foldlM (fun s p => (g.get p.1 p.2).bind fun b =>
        if b then (safe q p.1 p.2).map fun c => (s.1 + 1, if c then s.2 + 1 else s.2) else some s) a =
        some (a.1 + ((l.filter fun p => decide (g.get p.1 p.2 = some true)).length : ℤ),
          a.2 + (((l.filter fun p => decide (g.get p.1 p.2 = some true)).filter
            fun p => decide (q.get p.1 p.2 = some true)).length : ℤ)) := by
    intro l
    induction l with
    | nil => intro _ a; simp
    | cons c l ih =>
      intro hl a
      obtain ⟨h1, h2⟩ := hl c (by simp)
      obtain ⟨b, hb⟩ := Grid.get_some hv h1 h2
      have ih := ih fun p hp => hl p (by simp [hp])
      rw [List.foldlM_cons, hb]
      cases b
      · simp only [Option.bind_some, Bool.false_eq_true, if_false]
        show List.foldlM _ _ l = _
        rw [ih, List.filter_cons, hb]
        simp
      · rw [Option.bind_some, if_pos rfl, safe_eq q hq, Option.map_some]
        show List.foldlM _ _ l = _
        rw [ih, List.filter_cons, hb]
        simp only [decide_true, if_true, List.filter_cons]
        by_cases hc : q.get c.1 c.2 = some true
        · simp [hc]; constructor <;> ring
        · simp [hc]; ring
  rw [refLoop, aux _ (fun p hp => mem_cells.1 hp)]
  simp [linkList]

theorem hits_card (g q : Grid Bool) (ps qs : List (ℕ × ℕ)) (h : ∀ i j, Link g i j ↔ (i, j) ∈ ps)
    (h' : ∀ i j, Link q i j ↔ (i, j) ∈ qs) :
    ((linkList g).filter fun p => decide (q.get p.1 p.2 = some true)).length = (ps.toFinset ∩ qs.toFinset).card := by
  rw [← List.toFinset_card_of_nodup ((linkList_nodup g).filter _)]
  congr 1
  ext p
  have e : ∀ p : ℕ × ℕ, q.get p.1 p.2 = some true ↔ p ∈ qs := fun p => h' p.1 p.2
  simp only [List.mem_toFinset, List.mem_filter, decide_eq_true_eq, Finset.mem_inter, e]
  rw [← List.mem_toFinset, linkList_toFinset g ps h, List.mem_toFinset]

/-! ## The best reference -/

/-- `r` is the first of the elements with the smallest score. -/
def FirstBest {β : Type} (score : β → ℚ) (l : List β) (r : β) : Prop :=
  ∃ pre post, l = pre ++ r :: post ∧ (∀ x ∈ pre, score r < score x) ∧ ∀ x ∈ post, score r ≤ score x

theorem bestLoop_some {β : Type} (score : β → ℚ) : ∀ (l done : List β) (b : β), FirstBest score done b →
    ∃ r, bestLoop score l (some b) = some r ∧ FirstBest score (done ++ l) r
  | [], done, b, h => ⟨b, rfl, by simpa using h⟩
  | x :: l, done, b, h => by
    rw [bestLoop]
    obtain ⟨pre, post, e, h1, h2⟩ := h
    by_cases hx : score x < score b
    · rw [if_pos hx]
      have := bestLoop_some score l (done ++ [x]) x ⟨done, [], rfl, by
        intro y hy
        rw [e, List.mem_append, List.mem_cons] at hy
        rcases hy with hy | rfl | hy
        · exact lt_trans hx (h1 y hy)
        · exact hx
        · exact lt_of_lt_of_le hx (h2 y hy), by simp⟩
      simpa using this
    · rw [if_neg hx]
      have := bestLoop_some score l (done ++ [x]) b ⟨pre, post ++ [x], by rw [e]; simp, h1, by
        intro y hy
        rw [List.mem_append, List.mem_singleton] at hy
        rcases hy with hy | rfl
        · exact h2 y hy
        · exact not_lt.1 hx⟩
      simpa using this

theorem bestLoop_ok {β : Type} (score : β → ℚ) (l : List β) (h : l ≠ []) :
    ∃ r, bestLoop score l none = some r ∧ FirstBest score l r := by
  cases l with
  | nil => exact absurd rfl h
  | cons x l =>
    rw [bestLoop]
    exact bestLoop_some score l [x] x ⟨[], [], rfl, by simp, by simp⟩

end Cdec.Scores
