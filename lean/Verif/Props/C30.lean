import Verif.Util.AlignIO
import Verif.Util.FoldM
import Verif.Props.C31
/-! # C30: alignment text round trip -/
namespace Cdec

/-- The Pharaoh notation for a list of links: `x-y` separated by single spaces. -/
def linksText : List (Nat × Nat) → List Char
  | [] => []
  | [p] => showLink p
  | p :: q :: ps => showLink p ++ ' ' :: linksText (q :: ps)

theorem linksText_snoc (ps : List (Nat × Nat)) (p : Nat × Nat) :
    linksText (ps ++ [p]) = linksText ps ++ (if ps ≠ [] then [' '] else []) ++ showLink p := by
  induction ps with
  | nil => simp [linksText]
  | cons q ps ih =>
    cases ps with
    | nil => simp [linksText]
    | cons r ps =>
      simp only [List.cons_append] at ih ⊢
      rw [linksText, ih, linksText]
      simp

/-- What the writer writes. -/
theorem write_spec (g : Grid Bool) (hv : g.Valid) :
    writePharaoh g = some (linksText ((cells g.w g.h).filter fun p => decide (g.get p.1 p.2 = some true)) ++ ['\n']) := by
  obtain ⟨st, h1, h2, h3⟩ := foldlM_inv (fun (st : Bool × List Char) (p : Nat × Nat) => (g.get p.1 p.2).map fun b =>
    if b then (true, st.2 ++ (if st.1 then [' '] else []) ++ showLink p) else st)
    (fun d st => st.1 = decide (d.filter (fun p => decide (g.get p.1 p.2 = some true)) ≠ []) ∧
      st.2 = linksText (d.filter fun p => decide (g.get p.1 p.2 = some true)))
    (cells g.w g.h) [] (false, []) ⟨by simp, by simp [linksText]⟩ (by
      intro d p rest st he hI
      have hp : p ∈ cells g.w g.h := by
        have : cells g.w g.h = d ++ p :: rest := by simpa using he
        rw [this]; simp
      obtain ⟨hp1, hp2⟩ := mem_cells.1 hp
      obtain ⟨b, hb⟩ := Grid.get_some hv hp1 hp2
      refine ⟨_, by rw [hb]; rfl, ?_⟩
      rw [List.filter_append]
      cases b with
      | false => simp [hb, hI.1, hI.2]
      | true =>
        simp only [if_true, List.filter_cons, hb, decide_true, List.filter_nil]
        refine ⟨by simp, ?_⟩
        rw [linksText_snoc, hI.2, hI.1]
        simp only [decide_eq_true_eq])
  rw [writePharaoh, writeCells, h1]
  simp only [List.nil_append] at h3
  simp [h3]

theorem showNat_head (n : Nat) (rest : List Char) : ∃ c cs, showNat n ++ rest = c :: cs ∧ isDigit c = true := by
  cases h : showNat n with
  | nil => exact absurd h (showNat_ne_nil n)
  | cons c cs => exact ⟨c, cs ++ rest, rfl, showNat_isDigit n c (by rw [h]; simp)⟩

theorem skipSpaces_digit (c : Char) (cs : List Char) (h : isDigit c = true) : skipSpaces (c :: cs) = c :: cs := by
  unfold skipSpaces
  split
  · rename_i h2; rw [List.cons.injEq] at h2; rw [h2.1] at h; exact absurd h (by decide)
  · rfl

theorem readLink_show (p : Nat × Nat) (rest : List Char) (h : ∀ c ∈ rest.head?, isDigit c = false) :
    readLink (showLink p ++ rest) = some (p, skipSpaces rest) := by
  have h1 : readNat 0 (showLink p ++ rest) = (p.1, '-' :: (showNat p.2 ++ rest)) := by
    rw [showLink, List.append_assoc, List.cons_append]
    exact readNat_showNat _ _ (by intro c hc; simp at hc; subst hc; decide)
  rw [readLink, h1]
  simp only [if_true]
  rw [readNat_showNat _ _ h]

theorem readLinks_text (ps : List (Nat × Nat)) : readLinks (linksText ps ++ ['\n']) = some ps := by
  induction ps with
  | nil => unfold readLinks linksText; simp
  | cons p ps ih =>
    have step : ∀ rest r, (∀ c ∈ rest.head?, isDigit c = false) → skipSpaces rest = r → readLinks r = some ps →
        readLinks (showLink p ++ rest) = some (p :: ps) := by
      intro rest r h1 h2 h3
      have hl := readLink_show p rest h1
      obtain ⟨c, cs, hc, hd⟩ := showNat_head p.1 ('-' :: showNat p.2 ++ rest)
      have he : showLink p ++ rest = c :: cs := by rw [← hc, showLink]; simp
      rw [he] at hl ⊢
      unfold readLinks
      have hne : ¬ (c = '\n' ∨ c = '\r') := by
        rintro (rfl | rfl) <;> exact absurd hd (by decide)
      simp only [if_neg hne]
      split
      · rename_i h'; rw [hl] at h'; simp at h'
      · rename_i q r' h'
        rw [hl] at h'
        simp only [Option.some.injEq, Prod.mk.injEq] at h'
        rw [← h'.1, ← h'.2, h2, h3]; rfl
    cases ps with
    | nil =>
      refine step ['\n'] ['\n'] (by intro c hc; simp at hc; subst hc; decide) ?_ ih
      rw [skipSpaces]; intro cs h; simp at h
    | cons q ps =>
      rw [linksText, List.append_assoc]
      refine step _ (linksText (q :: ps) ++ ['\n']) (by intro c hc; simp at hc; subst hc; decide) ?_ ih
      rw [List.cons_append, skipSpaces]
      have : ∃ t, linksText (q :: ps) ++ ['\n'] = showNat q.1 ++ t := by
        cases ps with
        | nil => exact ⟨_, by rw [linksText, showLink, List.append_assoc]⟩
        | cons r ps => exact ⟨_, by rw [linksText, showLink, List.append_assoc, List.append_assoc]⟩
      obtain ⟨t, ht⟩ := this
      obtain ⟨c, cs, hc, hd⟩ := showNat_head q.1 t
      rw [ht, hc]; exact skipSpaces_digit c cs hd

theorem afterBar_none (s : List Char) (h : '|' ∉ s) : afterBar s = none := by
  induction s with
  | nil => rfl
  | cons c cs ih =>
    simp only [List.mem_cons, not_or] at h
    rw [afterBar, ih h.2, if_neg]
    intro hp
    obtain ⟨t, ht⟩ := List.isPrefixOf_iff_prefix.1 hp
    apply h.2
    simp only [barSep, List.cons_append, List.nil_append, List.cons.injEq] at ht
    rw [← ht.2]; simp

theorem afterBar_sep (pre s : List Char) (h : '|' ∉ s) : afterBar (pre ++ barSep ++ s) = some s := by
  induction pre with
  | nil =>
    have h0 := afterBar_none s h
    have hp : ¬ (barSep.isPrefixOf (' ' :: s) = true) := by
      intro hp
      obtain ⟨t, ht⟩ := List.isPrefixOf_iff_prefix.1 hp
      simp only [barSep, List.cons_append, List.nil_append, List.cons.injEq, true_and] at ht
      apply h; rw [← ht]; simp
    have hq : ∀ t, ¬ (barSep.isPrefixOf ('|' :: t) = true) := by
      intro t; simp [barSep, List.isPrefixOf]
    have e : ([] : List Char) ++ barSep ++ s = ' ' :: '|' :: '|' :: '|' :: ' ' :: s := rfl
    rw [e]
    have h1 : afterBar (' ' :: s) = none := by rw [afterBar, h0]; simp only [if_neg hp]
    have h2 : afterBar ('|' :: ' ' :: s) = none := by rw [afterBar, h1]; simp only [if_neg (hq _)]
    have h3 : afterBar ('|' :: '|' :: ' ' :: s) = none := by rw [afterBar, h2]; simp only [if_neg (hq _)]
    have h4 : afterBar ('|' :: '|' :: '|' :: ' ' :: s) = none := by rw [afterBar, h3]; simp only [if_neg (hq _)]
    rw [afterBar, h4]
    simp [barSep, List.isPrefixOf]
  | cons c pre ih =>
    rw [List.cons_append, List.cons_append, afterBar, ih]

theorem bar_notin_text (ps : List (Nat × Nat)) : '|' ∉ linksText ps ++ ['\n'] := by
  have hn : ∀ n, '|' ∉ showNat n := fun n h => absurd (showNat_isDigit n _ h) (by decide)
  have hl : ∀ p, '|' ∉ showLink p := by
    intro p; simp [showLink, hn]
  induction ps with
  | nil => simp [linksText]
  | cons p ps ih =>
    cases ps with
    | nil => simp [linksText, hl]
    | cons q ps =>
      rw [linksText]
      simp only [List.mem_append, List.mem_cons] at ih ⊢
      simp only [not_or] at ih ⊢
      exact ⟨⟨hl p, by decide, ih.1⟩, ih.2⟩

theorem maxOf_ge (f : Nat × Nat → Nat) (ps : List (Nat × Nat)) (m : Nat) :
    m ≤ ps.foldl (fun m p => if f p > m then f p else m) m ∧
    ∀ p ∈ ps, f p ≤ ps.foldl (fun m p => if f p > m then f p else m) m := by
  induction ps generalizing m with
  | nil => simp
  | cons q ps ih =>
    rw [List.foldl_cons]
    have h := ih (if f q > m then f q else m)
    refine ⟨Nat.le_trans ?_ h.1, fun p hp => ?_⟩
    · split <;> omega
    · rcases List.mem_cons.1 hp with rfl | hp
      · refine Nat.le_trans ?_ h.1; split <;> omega
      · exact h.2 p hp

theorem maxOf_attained (f : Nat × Nat → Nat) (ps : List (Nat × Nat)) (m : Nat) :
    ps.foldl (fun m p => if f p > m then f p else m) m = m ∨
    ∃ p ∈ ps, ps.foldl (fun m p => if f p > m then f p else m) m = f p := by
  induction ps generalizing m with
  | nil => simp
  | cons q ps ih =>
    rw [List.foldl_cons]
    rcases ih (if f q > m then f q else m) with h | ⟨p, hp, h⟩
    · rw [h]
      split
      · exact .inr ⟨q, by simp, rfl⟩
      · exact .inl rfl
    · exact .inr ⟨p, by simp [hp], h⟩

/-- C30, reader.  A line that ends with the Pharaoh notation of any list of links (repetitions and any
order allowed), alone or after any text followed by `" ||| "`, is read as a grid with exactly these
links; the grid is as small as possible (but at least 1×1). -/
theorem C30_reads_links (ps : List (Nat × Nat)) (pre : List Char)
    (hpre : pre = [] ∨ ∃ q, pre = q ++ [' ', '|', '|', '|', ' ']) :
    ∃ r, readPharaoh (pre ++ (linksText ps ++ ['\n'])) = some r ∧ r.Valid ∧
      (∀ i j, Link r i j ↔ (i, j) ∈ ps) ∧
      (r.w = 1 ∨ ∃ p ∈ ps, r.w = p.1 + 1) ∧ (r.h = 1 ∨ ∃ p ∈ ps, r.h = p.2 + 1) := by
  have hs : (afterBar (pre ++ (linksText ps ++ ['\n']))).getD (pre ++ (linksText ps ++ ['\n'])) =
      linksText ps ++ ['\n'] := by
    rcases hpre with rfl | ⟨q, rfl⟩
    · rw [List.nil_append, afterBar_none _ (bar_notin_text ps)]; rfl
    · have := afterBar_sep q (linksText ps ++ ['\n']) (bar_notin_text ps)
      rw [barSep] at this
      rw [this]; rfl
  rw [readPharaoh, hs, readLinks_text, Option.bind_some]
  obtain ⟨r, h1, h2, h3, h4, h5⟩ := foldlM_inv (fun (g : Grid Bool) (p : Nat × Nat) => g.set p.1 p.2 true)
    (fun d g => g.w = maxOf Prod.fst ps + 1 ∧ g.h = maxOf Prod.snd ps + 1 ∧ g.Valid ∧
      ∀ i j, Link g i j ↔ (i, j) ∈ d) ps []
    (Grid.new (maxOf Prod.fst ps + 1) (maxOf Prod.snd ps + 1) false)
    (by
      refine ⟨rfl, rfl, Grid.valid_new _ _ _, fun i j => ?_⟩
      simp only [List.not_mem_nil, iff_false]
      intro hl
      have hr := link_range hl
      have := Grid.get_new (maxOf Prod.fst ps + 1) (maxOf Prod.snd ps + 1) false hr.1 hr.2
      rw [Link, this] at hl; simp at hl)
    (by
      intro d p rest g he ⟨hw, hh, hv, hl⟩
      have hp : p ∈ ps := by
        have : ps = d ++ p :: rest := by simpa using he
        rw [this]; simp
      have m1 := (maxOf_ge Prod.fst ps 0).2 p hp
      have m2 := (maxOf_ge Prod.snd ps 0).2 p hp
      obtain ⟨g', hg, w', h', v', l'⟩ := Grid.set_some hv (i := p.1) (j := p.2)
        (by rw [hw, maxOf]; omega) (by rw [hh, maxOf]; omega) true
      refine ⟨g', hg, by rw [w', hw], by rw [h', hh], v', fun i j => ?_⟩
      unfold Link at hl ⊢
      rw [l' i j, List.mem_append, List.mem_singleton]
      by_cases hc : i = p.1 ∧ j = p.2
      · rw [if_pos hc]; simp [hc.1, hc.2]
      · rw [if_neg hc, hl i j]
        refine ⟨.inl, fun h => h.elim id fun h => absurd ?_ hc⟩
        rw [← h]; simp)
  refine ⟨r, h1, h4, by simpa using h5, ?_, ?_⟩
  · rcases maxOf_attained Prod.fst ps 0 with h | ⟨p, hp, h⟩
    · left; rw [h2, maxOf, h]
    · right; exact ⟨p, hp, by rw [h2, maxOf, h]⟩
  · rcases maxOf_attained Prod.snd ps 0 with h | ⟨p, hp, h⟩
    · left; rw [h3, maxOf, h]
    · right; exact ⟨p, hp, by rw [h3, maxOf, h]⟩

/-- C30.  For every grid, writing it in Pharaoh format succeeds, reading the text succeeds, and the result
has the same links (its size may differ: trailing empty rows and columns are not represented). -/
theorem C30_round_trip (g : Grid Bool) (hv : g.Valid) :
    ∃ text r, writePharaoh g = some text ∧ readPharaoh text = some r ∧ r.Valid ∧
      ∀ i j, Link r i j ↔ Link g i j := by
  obtain ⟨r, h1, h2, h3, _, _⟩ := C30_reads_links
    ((cells g.w g.h).filter fun p => decide (g.get p.1 p.2 = some true)) [] (.inl rfl)
  refine ⟨_, r, write_spec g hv, h1, h2, fun i j => ?_⟩
  rw [h3 i j, List.mem_filter, mem_cells]
  simp only [decide_eq_true_eq]
  exact ⟨fun h => h.2, fun h => ⟨link_range h, h⟩⟩

/-- Non-vacuity: a 3×12 grid with the links 0-11 and 2-0. -/
example : (⟨3, 12, (List.range 36).map fun k => k == 33 || k == 2⟩ : Grid Bool).Valid ∧
    writePharaoh ⟨3, 12, (List.range 36).map fun k => k == 33 || k == 2⟩ = some "0-11 2-0\n".toList := by
  refine ⟨rfl, ?_⟩
  decide +kernel

end Cdec
