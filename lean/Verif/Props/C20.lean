import Mathlib.Data.List.Forall2
import Mathlib.Tactic.ByContra
import Verif.Decoder.RuleIO
import Verif.Props.C27
/-!
# C20: saving and loading a rule
-/
namespace Cdec.Dec
variable {W : Type} [DecidableEq W]

namespace Spec

/-- A symbol of the source side in the saving process (dictionary `d`) and in the loading one (`d'`): both are terminals or
both categories, and they have the same name. -/
def SameSource (d d' : Dict W) (c c' : Int) : Prop :=
  (0 < c ↔ 0 < c') ∧ (c < 0 ↔ c' < 0) ∧ ∃ w, d.words[c.natAbs - 1]? = some w ∧ d'.words[c'.natAbs - 1]? = some w

/-- A symbol of the target side: the same variable, or words with the same name. -/
def SameTarget (d d' : Dict W) (c c' : Int) : Prop :=
  (c ≤ 0 ∧ c' = c) ∨ (0 < c ∧ 0 < c' ∧ ∃ w, d.words[c.natAbs - 1]? = some w ∧ d'.words[c'.natAbs - 1]? = some w)

/-- The symbols of the rule are known, and its left-hand side is a category. -/
structure Known (d : Dict W) (r : Rule) : Prop where
  lhs : r.lhs < 0 ∧ r.lhs.natAbs ≤ d.words.length
  f : ∀ c ∈ r.f, c ≠ 0 ∧ c.natAbs ≤ d.words.length
  e : ∀ c ∈ r.e, 0 < c → c.natAbs ≤ d.words.length

end Spec
open Spec

theorem ntMask_cons (c : Int) (l : List Int) : ntMask (c :: l) = (ntMask l <<< 1) ||| (if c ≤ 0 then 1#64 else 0#64) := rfl

theorem ntMask_high (l : List Int) (i : Nat) (hi : l.length ≤ i) : (ntMask l).getLsbD i = false := by
  induction l generalizing i with
  | nil => simp [ntMask]
  | cons c l ih =>
    simp only [List.length_cons] at hi
    rw [ntMask_cons, BitVec.getLsbD_or, BitVec.getLsbD_shiftLeft]
    have := ih (i - 1) (by omega)
    rw [this]
    split <;> simp <;> omega

theorem ntMask_and (c : Int) (l : List Int) : (ntMask (c :: l) &&& 1#64 ≠ 0#64) ↔ c ≤ 0 := by
  have hb : (ntMask (c :: l) &&& 1#64 ≠ 0#64) ↔ (ntMask (c :: l)).getLsbD 0 = true := by
    constructor
    · intro h
      by_contra hc
      apply h
      apply BitVec.eq_of_getLsbD_eq
      intro i hi
      rw [BitVec.getLsbD_and]
      by_cases h0 : i = 0
      · subst h0; rw [Bool.not_eq_true] at hc; rw [hc]; simp
      · simp; omega
    · intro h he
      have := congrArg (fun x => x.getLsbD 0) he
      simp only [BitVec.getLsbD_and, h] at this
      simp at this
  rw [hb, ntMask_cons, BitVec.getLsbD_or, BitVec.getLsbD_shiftLeft]
  by_cases hc : c ≤ 0 <;> simp [hc]

theorem ntMask_shift (c : Int) (l : List Int) (hl : l.length < 64) : ntMask (c :: l) >>> 1 = ntMask l := by
  apply BitVec.eq_of_getLsbD_eq
  intro i hi
  rw [BitVec.getLsbD_ushiftRight, ntMask_cons, BitVec.getLsbD_or, BitVec.getLsbD_shiftLeft]
  by_cases h63 : i = 63
  · subst h63
    rw [ntMask_high l 63 (by omega)]
    split <;> simp
  · have h1 : 1 + i < 64 := by omega
    have h2 : 1 + i - 1 = i := by omega
    split <;> simp [h1, h2] <;> omega

/-- What a non-frozen `convert` does: the word has the returned id, and words keep their ids. -/
theorem convert_spec (d : Dict W) (hd : d.Inv) (w : W) :
    let c := d.convert w false
    c.1.Inv ∧ 1 ≤ c.2 ∧ c.1.words[c.2 - 1]? = some w ∧ d.words <+: c.1.words := by
  intro c
  have hi : c.1.Inv := d.inv_convert hd w false
  refine ⟨hi, ?_⟩
  cases hf : d.find w with
  | some i =>
    have hc : c = (d, i) := by simp [c, Dict.convert, hf]
    have := (hd w i).1 hf
    rw [hc]
    exact ⟨this.1, this.2, List.prefix_rfl⟩
  | none =>
    have hc : c = (⟨d.words ++ [w], (w, (d.words ++ [w]).length) :: d.d⟩, (d.words ++ [w]).length) := by simp [c, Dict.convert, hf]
    rw [hc]
    refine ⟨by simp, by simp, List.prefix_append _ _⟩

theorem wordOf_known (bad0 : W) (d : Dict W) (n : Nat) (h1 : 1 ≤ n) (h2 : n ≤ d.words.length) :
    ∃ w, wordOf bad0 d (n : Int) = some w ∧ d.words[n - 1]? = some w := by
  refine ⟨d.words[n - 1]'(by omega), ?_, by simp⟩
  simp only [wordOf, Dict.toWord]
  rw [if_neg (by omega), if_neg (by omega)]
  simp

theorem prefix_get {α : Type} {a b : List α} (h : a <+: b) {i : Nat} {x : α} (hx : a[i]? = some x) : b[i]? = some x := by
  obtain ⟨t, rfl⟩ := h
  rw [List.getElem?_append_left (List.getElem?_eq_some_iff.1 hx).1]
  exact hx

theorem SameSource.mono {d d' d'' : Dict W} (h : d'.words <+: d''.words) {c c' : Int} (hs : SameSource d d' c c') : SameSource d d'' c c' := by
  obtain ⟨h1, h2, w, h3, h4⟩ := hs
  exact ⟨h1, h2, w, h3, prefix_get h h4⟩

theorem f_round (bad0 : W) (d d2 : Dict W) (hd2 : d2.Inv) (f : List Int) (hlen : f.length ≤ 64)
    (hk : ∀ c ∈ f, c ≠ 0 ∧ c.natAbs ≤ d.words.length) (rest : List (Item W)) :
    ∃ l f' d', saveF bad0 d f = some l ∧ loadF f.length (ntMask f) d2 (l ++ rest) = some (f', d', rest) ∧ d'.Inv ∧ d2.words <+: d'.words ∧
      List.Forall₂ (SameSource d d') f f' := by
  induction f generalizing d2 with
  | nil => exact ⟨[], [], d2, rfl, rfl, hd2, List.prefix_rfl, .nil⟩
  | cons c f ih =>
    simp only [List.length_cons] at hlen
    obtain ⟨hc0, hcn⟩ := hk c (by simp)
    have habs : (if c < 0 then -c else c) = (c.natAbs : Int) := by split <;> omega
    obtain ⟨w, hw1, hw2⟩ := wordOf_known bad0 d c.natAbs (by omega) hcn
    obtain ⟨hi, hge, hcw, hpre⟩ := convert_spec d2 hd2 w
    obtain ⟨l, f', d', h1, h2, h3, h4, h5⟩ := ih (d2.convert w false).1 hi (by omega) (fun x hx => hk x (by simp [hx]))
    refine ⟨.str w :: l, ((d2.convert w false).2 : Int) * (if c ≤ 0 then -1 else 1) :: f', d', ?_, ?_, h3, hpre.trans h4, ?_⟩
    · simp only [saveF, habs, hw1, h1]
    · simp only [List.length_cons, loadF, List.cons_append, ntMask_shift c f (by omega), h2, ntMask_and]
    · refine .cons ⟨?_, ?_, w, hw2, ?_⟩ h5
      · split <;> omega
      · split <;> omega
      · have : (((d2.convert w false).2 : Int) * (if c ≤ 0 then -1 else 1)).natAbs = (d2.convert w false).2 := by split <;> omega
        rw [this]
        exact prefix_get h4 hcw

theorem e_round (bad0 : W) (d d2 : Dict W) (hd2 : d2.Inv) (e : List Int) (hlen : e.length ≤ 64)
    (hk : ∀ c ∈ e, 0 < c → c.natAbs ≤ d.words.length) (rest : List (Item W)) :
    ∃ l e' d', saveE bad0 d e = some l ∧ loadE e.length (ntMask e) d2 (l ++ rest) = some (e', d', rest) ∧ d'.Inv ∧ d2.words <+: d'.words ∧
      List.Forall₂ (SameTarget d d') e e' := by
  induction e generalizing d2 with
  | nil => exact ⟨[], [], d2, rfl, rfl, hd2, List.prefix_rfl, .nil⟩
  | cons c e ih =>
    simp only [List.length_cons] at hlen
    by_cases hc : c ≤ 0
    · obtain ⟨l, e', d', h1, h2, h3, h4, h5⟩ := ih d2 hd2 (by omega) (fun x hx => hk x (by simp [hx]))
      refine ⟨.num c :: l, c :: e', d', ?_, ?_, h3, h4, .cons (.inl ⟨hc, rfl⟩) h5⟩
      · simp only [saveE, hc, if_true, h1]
      · simp only [List.length_cons, loadE, List.cons_append, ntMask_shift c e (by omega), ntMask_and, hc, if_true, h2]
    · have hcn := hk c (by simp) (by omega)
      have habs : c = (c.natAbs : Int) := by omega
      obtain ⟨w, hw1, hw2⟩ := wordOf_known bad0 d c.natAbs (by omega) hcn
      rw [← habs] at hw1
      obtain ⟨hi, hge, hcw, hpre⟩ := convert_spec d2 hd2 w
      obtain ⟨l, e', d', h1, h2, h3, h4, h5⟩ := ih (d2.convert w false).1 hi (by omega) (fun x hx => hk x (by simp [hx]))
      refine ⟨.str w :: l, ((d2.convert w false).2 : Int) :: e', d', ?_, ?_, h3, hpre.trans h4, ?_⟩
      · simp only [saveE, hc, if_false, hw1, h1]
      · simp only [List.length_cons, loadE, List.cons_append, ntMask_shift c e (by omega), ntMask_and, hc, if_false, h2]
      · refine .cons (.inr ⟨by omega, by omega, w, hw2, ?_⟩) h5
        rw [Int.natAbs_natCast]
        exact prefix_get h4 hcw

/-- C20.  A rule of at most 64 symbols on each side with a left-hand side, saved in a process with dictionary `d`, is
loaded in any process (dictionary `d2`), with the loading stopping exactly at the end of what was saved: the left-hand side,
each source symbol and each target symbol have the same name and the same kind, the variables and the arity are equal, and the
words the loading process knew keep their ids. -/
theorem C20_round_trip (bad0 : W) (d d2 : Dict W) (hd2 : d2.Inv) (r : Rule) (hf : r.f.length ≤ 64) (he : r.e.length ≤ 64)
    (hk : Known d r) :
    ∃ ar, saveRule bad0 d r = some ar ∧ ∀ rest, ∃ r' d', loadRule d2 (ar ++ rest) = some (r', d', rest) ∧ d2.words <+: d'.words ∧
      SameSource d d' r.lhs r'.lhs ∧ List.Forall₂ (SameSource d d') r.f r'.f ∧ List.Forall₂ (SameTarget d d') r.e r'.e ∧ r'.arity = r.arity := by
  obtain ⟨hl1, hl2⟩ := hk.lhs
  obtain ⟨w, hw1, hw2⟩ := wordOf_known bad0 d r.lhs.natAbs (by omega) hl2
  rw [show ((r.lhs.natAbs : Nat) : Int) = -r.lhs by omega] at hw1
  obtain ⟨hi, hge, hcw, hpre⟩ := convert_spec d2 hd2 w
  obtain ⟨lf, _, _, h1, _⟩ := f_round bad0 d (d2.convert w false).1 hi r.f hf hk.f []
  obtain ⟨le, _, _, h2, _⟩ := e_round bad0 d d2 hd2 r.e he hk.e []
  refine ⟨[.str w, .size r.f.length, .mask (ntMask r.f)] ++ lf ++ [.size r.e.length, .mask (ntMask r.e)] ++ le ++ [.num r.arity], ?_, ?_⟩
  · simp only [saveRule, hf, he, and_self, if_true, hw1, h1, h2]
  · intro rest
    obtain ⟨lf', f', d3, g1, g2, g3, g4, g5⟩ := f_round bad0 d (d2.convert w false).1 hi r.f hf hk.f
      (.size r.e.length :: .mask (ntMask r.e) :: (le ++ .num r.arity :: rest))
    obtain ⟨le', e', d4, k1, k2, k3, k4, k5⟩ := e_round bad0 d d3 g3 r.e he hk.e (.num r.arity :: rest)
    rw [h1] at g1
    cases g1
    rw [h2] at k1
    cases k1
    refine ⟨⟨-((d2.convert w false).2 : Int), f', e', r.arity⟩, d4, ?_, (hpre.trans g4).trans k4, ?_, ?_, k5, rfl⟩
    · simp only [List.append_assoc, List.cons_append, List.nil_append, loadRule, g2, k2]
    · refine ⟨by simp only []; omega, by simp only []; omega, w, hw2, ?_⟩
      simp only [Int.natAbs_neg, Int.natAbs_natCast]
      exact prefix_get k4 (prefix_get g4 hcw)
    · exact g5.imp fun _ _ h => SameSource.mono k4 h

theorem inv_inj {d : Dict W} (hd : d.Inv) {w : W} {i j : Nat} (hi : d.words[i]? = some w) (hj : d.words[j]? = some w) : i = j := by
  have h1 := (hd w (i + 1)).2 ⟨by omega, by simpa using hi⟩
  have h2 := (hd w (j + 1)).2 ⟨by omega, by simpa using hj⟩
  rw [h1] at h2
  simp at h2
  exact h2

theorem convert_known (d : Dict W) (hd : d.Inv) (w : W) (i : Nat) (h : d.words[i]? = some w) : d.convert w false = (d, i + 1) := by
  have := (hd w (i + 1)).2 ⟨by omega, by simpa using h⟩
  simp [Dict.convert, this]

/-- In the same process the rule comes back exactly. -/
theorem C20_same_process (bad0 : W) (d : Dict W) (hd : d.Inv) (r : Rule) (hf : r.f.length ≤ 64) (he : r.e.length ≤ 64)
    (hk : Known d r) :
    ∃ ar, saveRule bad0 d r = some ar ∧ ∀ rest, ∃ d', loadRule d (ar ++ rest) = some (r, d', rest) ∧ d.words <+: d'.words := by
  obtain ⟨ar, h1, h2⟩ := C20_round_trip bad0 d d hd r hf he hk
  refine ⟨ar, h1, fun rest => ?_⟩
  obtain ⟨r', d', g1, g2, g3, g4, g5, g6⟩ := h2 rest
  refine ⟨d', ?_, g2⟩
  -- the dictionary after loading still is a bijection
  have hd' : d'.Inv := by
    obtain ⟨hl1, hl2⟩ := hk.lhs
    obtain ⟨w, hw1, hw2⟩ := wordOf_known bad0 d r.lhs.natAbs (by omega) hl2
    rw [show ((r.lhs.natAbs : Nat) : Int) = -r.lhs by omega] at hw1
    obtain ⟨hi, -⟩ := convert_spec d hd w
    obtain ⟨le, _, _, e2, _⟩ := e_round bad0 d d hd r.e he hk.e []
    obtain ⟨lf', f', d3, a1, a2, a3, a4, a5⟩ := f_round bad0 d (d.convert w false).1 hi r.f hf hk.f
      (.size r.e.length :: .mask (ntMask r.e) :: (le ++ .num r.arity :: rest))
    obtain ⟨le', e', d4, k1, k2, k3, k4, k5⟩ := e_round bad0 d d3 a3 r.e he hk.e (.num r.arity :: rest)
    rw [e2] at k1
    cases k1
    simp only [saveRule, hf, he, and_self, if_true, hw1, a1, e2, Option.some.injEq] at h1
    subst h1
    simp only [List.append_assoc, List.cons_append, List.nil_append, loadRule, a2, k2, Option.some.injEq, Prod.mk.injEq] at g1
    rw [← g1.2.1]
    exact k3
  have hsrc : ∀ c c', SameSource d d' c c' → c ≠ 0 → c' = c := by
    rintro c c' ⟨p1, p2, w, p3, p4⟩ hc0
    have := inv_inj hd' (prefix_get g2 p3) p4
    omega
  have htgt : ∀ c c', SameTarget d d' c c' → c' = c := by
    rintro c c' (⟨_, h⟩ | ⟨p1, p2, w, p3, p4⟩)
    · exact h
    · have := inv_inj hd' (prefix_get g2 p3) p4
      omega
  have hF : r'.f = r.f := by
    have : ∀ {l l' : List Int}, List.Forall₂ (SameSource d d') l l' → (∀ c ∈ l, c ≠ 0) → l' = l := by
      intro l l' h
      induction h with
      | nil => intro _; rfl
      | cons hc _ ih => intro hn; rw [hsrc _ _ hc (hn _ (by simp)), ih (fun c hc => hn c (by simp [hc]))]
    exact this g4 (fun c hc => (hk.f c hc).1)
  have hE : r'.e = r.e := by
    have : ∀ {l l' : List Int}, List.Forall₂ (SameTarget d d') l l' → l' = l := by
      intro l l' h
      induction h with
      | nil => rfl
      | cons hc _ ih => rw [htgt _ _ hc, ih]
    exact this g5
  have hL := hsrc _ _ g3 (by have := hk.lhs.1; omega)
  rw [g1]
  cases r
  cases r'
  simp only at hF hE hL g6
  rw [hF, hE, hL, g6]

/-- A side of more than 64 symbols is not saved. -/
theorem C20_too_long (bad0 : W) (d : Dict W) (r : Rule) (h : 64 < r.f.length ∨ 64 < r.e.length) : saveRule bad0 d r = none := by
  unfold saveRule
  rw [if_neg (by omega)]

/-- Without a left-hand side (such as the rules of `CreateLexicalRule`) the rule is saved, but it is never loaded with that
left-hand side: a category named as the reserved word takes its place. -/
theorem C20_no_lhs_fails (bad0 : W) (d d2 : Dict W) (hd2 : d2.Inv) (r : Rule) (h : r.lhs = 0) (ar rest : List (Item W)) (r' : Rule) (d' : Dict W)
    (hs : saveRule bad0 d r = some ar) (hl : loadRule d2 (ar ++ rest) = some (r', d', rest)) : r'.lhs < 0 := by
  unfold saveRule at hs
  split at hs
  · simp only [h, wordOf, Dict.toWord] at hs
    split at hs
    · cases hs
      simp only [List.append_assoc, List.cons_append, List.nil_append, loadRule] at hl
      split at hl
      · split at hl
        · cases hl
          rename_i w _ _ _ _ _ _ _ _ _ _ _ _ _ _ _ _
          have := (convert_spec d2 hd2 w).2.1
          simp only []
          omega
        · cases hl
      · cases hl
    · cases hs
  · cases hs

example : let d : Dict Nat := ⟨[10, 20, 30], [(10, 1), (20, 2), (30, 3)]⟩
    let r : Rule := ⟨-1, [-1, 2, -1], [-1, 3, 0], 2⟩
    Known d r ∧ saveRule 0 d r = some [.str 10, .size 3, .mask 5, .str 10, .str 20, .str 10, .size 3, .mask 5, .num (-1), .str 30, .num 0, .num 2] ∧
      (loadRule (⟨[30], [(30, 1)]⟩ : Dict Nat) [.str 10, .size 3, .mask 5, .str 10, .str 20, .str 10, .size 3, .mask 5, .num (-1), .str 30, .num 0, .num 2]).map (·.1) =
        some ⟨-2, [-2, 3, -2], [-1, 1, 0], 2⟩ := by
  refine ⟨⟨by decide, by decide, by decide⟩, by decide, by decide⟩

example : (saveRule 0 (⟨[10], [(10, 1)]⟩ : Dict Nat) ⟨0, [1], [1], 0⟩).bind (loadRule ⟨[10], [(10, 1)]⟩) |>.map (·.1) |> (· = some ⟨-2, [1], [1], 0⟩) := by decide

end Cdec.Dec
