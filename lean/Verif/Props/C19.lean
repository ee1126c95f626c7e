import Verif.Decoder.Subst
/-!
# C19: substitution builds the yield from those of the antecedents
-/
namespace Cdec.Dec

namespace Spec

/-- `out` is the target side `e` with every variable, written `-k`, replaced by the `k`-th value. -/
inductive Replaced (vals : List (List Int)) : List Int → List Int → Prop
  | nil : Replaced vals [] []
  | word {w : Int} {e out : List Int} : 0 < w → Replaced vals e out → Replaced vals (w :: e) (w :: out)
  | var {k : Nat} {v e out : List Int} : vals[k]? = some v → Replaced vals e out → Replaced vals (-(k : Int) :: e) (v ++ out)

/-- `out` is the source side `f` with its categories replaced, from left to right, by the values. -/
inductive ReplacedInOrder : List (List Int) → List Int → List Int → Prop
  | nil : ReplacedInOrder [] [] []
  | word {vals : List (List Int)} {w : Int} {f out : List Int} : 0 < w → ReplacedInOrder vals f out → ReplacedInOrder vals (w :: f) (w :: out)
  | cat {vals : List (List Int)} {c : Int} {v f out : List Int} : c ≤ 0 → ReplacedInOrder vals f out → ReplacedInOrder (v :: vals) (c :: f) (v ++ out)

/-- The number of terminals of a side. -/
def terminals (l : List Int) : Nat := l.countP fun c => decide (0 < c)

/-- The number of variables of a side. -/
def numVars (l : List Int) : Nat := l.countP fun c => decide (c ≤ 0)

/-- The variables of a target side are `0, -1, ..., -(n-1)`, each once, in some order. -/
def Linear (e : List Int) (n : Nat) : Prop := ((e.filter fun c => decide (c ≤ 0)).map fun c => (-c).toNat).Perm (List.range n)

end Spec
open Spec

theorem eStep_none (vals : List (List Int)) (e : List Int) : e.foldl (eStep vals) none = none := by
  induction e with
  | nil => rfl
  | cons c e ih => exact ih

theorem eLoop (vals : List (List Int)) (e : List Int) (vc : Nat) (acc : List Int) (r : Nat × List Int) :
    e.foldl (eStep vals) (some (vc, acc)) = some r ↔ ∃ out, Replaced vals e out ∧ r = (vc + numVars e, acc ++ out) := by
  induction e generalizing vc acc with
  | nil =>
    simp only [List.foldl_nil, Option.some.injEq]
    constructor
    · rintro rfl
      exact ⟨[], .nil, by simp [numVars]⟩
    · rintro ⟨out, h, rfl⟩
      cases h
      simp [numVars]
  | cons c e ih =>
    simp only [List.foldl_cons, eStep]
    by_cases hc : c < 1
    · have hv : numVars (c :: e) = numVars e + 1 := by simp [numVars, show c ≤ 0 by omega]
      obtain ⟨k, rfl⟩ : ∃ k : Nat, c = -(k : Int) := ⟨(-c).toNat, by omega⟩
      have hk : (-(-(k : Int))).toNat = k := by omega
      rw [if_pos hc, hk]
      cases hg : vals[k]? with
      | none =>
        simp only [eStep_none]
        constructor
        · intro h; cases h
        · rintro ⟨out, h, _⟩
          exfalso
          generalize he : -(k : Int) :: e = l at h
          cases h with
          | nil => cases he
          | word hw _ => cases he; omega
          | @var k' v e' out' hv' _ =>
            have h1 := (List.cons.inj he).1
            have : k' = k := by omega
            subst this
            rw [hg] at hv'
            cases hv'
      | some v =>
        simp only [ih]
        constructor
        · rintro ⟨out, h, rfl⟩
          exact ⟨v ++ out, .var hg h, by rw [hv, List.append_assoc, show vc + 1 + numVars e = vc + (numVars e + 1) by omega]⟩
        · rintro ⟨out, h, rfl⟩
          generalize he : -(k : Int) :: e = l at h
          cases h with
          | nil => cases he
          | word hw _ => have := (List.cons.inj he).1; omega
          | @var k' v' e' out' hv' h' =>
            have h1 := (List.cons.inj he).1
            have h2 := (List.cons.inj he).2
            have : k' = k := by omega
            subst this
            subst h2
            rw [hg] at hv'
            cases hv'
            exact ⟨out', h', by rw [hv, List.append_assoc, show vc + 1 + numVars e = vc + (numVars e + 1) by omega]⟩
    · have hv : numVars (c :: e) = numVars e := by simp [numVars, show ¬ c ≤ 0 by omega]
      rw [if_neg hc, ih]
      constructor
      · rintro ⟨out, h, rfl⟩
        exact ⟨c :: out, .word (by omega) h, by simp [hv]⟩
      · rintro ⟨out, h, rfl⟩
        cases h with
        | word _ h => exact ⟨_, h, by simp [hv]⟩
        | var _ _ => exfalso; omega

/-- `ESubstitute` returns exactly the target side with the variables replaced, when there are as many variables as
values. -/
theorem C19_target (e : List Int) (vals : List (List Int)) (out : List Int) :
    eSubst e vals = some out ↔ Replaced vals e out ∧ numVars e = vals.length := by
  unfold eSubst
  constructor
  · intro h
    split at h
    · cases h
    · rename_i vc o heq
      obtain ⟨out', h1, h2⟩ := (eLoop vals e 0 [] (vc, o)).1 heq
      simp only [Nat.zero_add, List.nil_append, Prod.mk.injEq] at h2
      obtain ⟨rfl, rfl⟩ := h2
      split at h
      · cases h
        exact ⟨h1, by assumption⟩
      · cases h
  · rintro ⟨h1, h2⟩
    have := (eLoop vals e 0 [] (0 + numVars e, [] ++ out)).2 ⟨out, h1, rfl⟩
    rw [this]
    simp [h2]

theorem fStep_none (vals : List (List Int)) (f : List Int) : f.foldl (fStep vals) none = none := by
  induction f with
  | nil => rfl
  | cons c e ih => exact ih

theorem fLoop (vals : List (List Int)) (f : List Int) (vc : Nat) (hvc : vc ≤ vals.length) (acc : List Int) (out : List Int) :
    f.foldl (fStep vals) (some (vc, acc)) = some (vals.length, acc ++ out) ↔ ReplacedInOrder (vals.drop vc) f out := by
  induction f generalizing vc acc out with
  | nil =>
    simp only [List.foldl_nil, Option.some.injEq, Prod.mk.injEq]
    constructor
    · rintro ⟨rfl, h⟩
      have : out = [] := by
        have := congrArg List.length h
        simp at this
        exact this
      subst this
      rw [List.drop_length]
      exact .nil
    · intro h
      generalize hd : vals.drop vc = d at h
      cases h
      have := congrArg List.length hd
      simp at this
      exact ⟨by omega, by simp⟩
  | cons c f ih =>
    simp only [List.foldl_cons, fStep]
    by_cases hc : c < 1
    · rw [if_pos hc]
      cases hg : vals[vc]? with
      | none =>
        simp only [fStep_none]
        constructor
        · intro h; cases h
        · intro h
          have hl : vals.length ≤ vc := List.getElem?_eq_none_iff.1 hg
          rw [List.drop_eq_nil_of_le hl] at h
          cases h
          omega
      | some v =>
        obtain ⟨hlt, hv⟩ := List.getElem?_eq_some_iff.1 hg
        have hdrop : vals.drop vc = v :: vals.drop (vc + 1) := by rw [← hv]; exact List.drop_eq_getElem_cons hlt
        simp only []
        rw [hdrop]
        constructor
        · intro h
          -- what was added begins with `v`
          have hpre : ∀ (g : List Int) (k : Nat) (a : List Int) (r : Nat × List Int), g.foldl (fStep vals) (some (k, a)) = some r → a <+: r.2 := by
            intro g
            induction g with
            | nil => intro k a r h; simp at h; subst h; exact List.prefix_rfl
            | cons x g ihg =>
              intro k a r h
              simp only [List.foldl_cons, fStep] at h
              split at h
              · split at h
                · rw [fStep_none] at h; cases h
                · exact List.IsPrefix.trans (List.prefix_append _ _) (ihg _ _ _ h)
              · exact List.IsPrefix.trans (List.prefix_append _ _) (ihg _ _ _ h)
          obtain ⟨o, ho⟩ := hpre f (vc + 1) (acc ++ v) _ h
          simp only [List.append_assoc, List.append_cancel_left_eq] at ho
          subst ho
          refine .cat (by omega) ((ih (vc + 1) (by omega) (acc ++ v) o).1 ?_)
          rw [h, List.append_assoc]
        · intro h
          cases h with
          | word hw _ => omega
          | @cat vals' c' v' f' out' _ h' =>
            have := (ih (vc + 1) (by omega) (acc ++ v) out').2 h'
            rw [this, List.append_assoc]
    · rw [if_neg hc]
      constructor
      · intro h
        have hpre : ∀ (g : List Int) (k : Nat) (a : List Int) (r : Nat × List Int), g.foldl (fStep vals) (some (k, a)) = some r → a <+: r.2 := by
          intro g
          induction g with
          | nil => intro k a r h; simp at h; subst h; exact List.prefix_rfl
          | cons x g ihg =>
            intro k a r h
            simp only [List.foldl_cons, fStep] at h
            split at h
            · split at h
              · rw [fStep_none] at h; cases h
              · exact List.IsPrefix.trans (List.prefix_append _ _) (ihg _ _ _ h)
            · exact List.IsPrefix.trans (List.prefix_append _ _) (ihg _ _ _ h)
        obtain ⟨o, ho⟩ := hpre f vc (acc ++ [c]) _ h
        simp only [List.append_assoc, List.append_cancel_left_eq] at ho
        subst ho
        refine .word (by omega) ((ih vc hvc (acc ++ [c]) o).1 ?_)
        rw [h, List.append_assoc]
      · intro h
        generalize hd : vals.drop vc = d at h
        cases h with
        | @word _ _ _ out' _ h' =>
          subst hd
          have := (ih vc hvc (acc ++ [c]) out').2 h'
          rw [this, List.append_assoc]
          rfl
        | cat hc' _ => omega

/-- `FSubstitute` returns exactly the source side with the categories replaced from left to right. -/
theorem C19_source (f : List Int) (vals : List (List Int)) (out : List Int) :
    fSubst f vals = some out ↔ ReplacedInOrder vals f out := by
  have h := fLoop vals f 0 (Nat.zero_le _) [] out
  rw [List.drop_zero, List.nil_append] at h
  rw [← h]
  unfold fSubst
  constructor
  · intro h
    split at h
    · cases h
    · rename_i vc o heq
      split at h
      · rename_i e
        cases h
        rw [heq, e]
      · cases h
  · intro h
    rw [h]
    simp

theorem Spec.Replaced.length {vals : List (List Int)} {e out : List Int} (h : Replaced vals e out) :
    out.length = terminals e + (((e.filter fun c => decide (c ≤ 0)).map fun c => (vals.getD (-c).toNat []).length).sum) := by
  induction h with
  | nil => rfl
  | @word w e out hw _ ih =>
    have h1 : ¬ w ≤ 0 := by omega
    simp only [List.length_cons, ih, terminals, List.countP_cons, hw, decide_true, if_true, List.filter_cons, h1, decide_false, Bool.false_eq_true, if_false]
    omega
  | @var k v e out hv _ ih =>
    have h1 : (-(k : Int)) ≤ 0 := by omega
    have h2 : ¬ (0 : Int) < -(k : Int) := by omega
    have h3 : (- -(k : Int)).toNat = k := by omega
    have h4 : vals.getD k [] = v := by rw [List.getD_eq_getElem?_getD, hv]; rfl
    simp only [List.length_append, ih, terminals, List.countP_cons, h2, decide_false, Bool.false_eq_true, if_false, List.filter_cons, h1,
      decide_true, if_true, List.map_cons, List.sum_cons, h3, h4, Nat.add_zero]
    omega

theorem range_sum (vals : List (List Int)) :
    ((List.range vals.length).map fun k => (vals.getD k []).length).sum = (vals.map List.length).sum := by
  congr 1
  apply List.ext_getElem
  · simp
  · intro i h1 h2
    simp at h1
    simp [List.getD_eq_getElem?_getD, h1]

/-- On a rule whose target side uses each variable once, `ESubstitute` succeeds, and the result is as long as the
terminals and the values together. -/
theorem C19_target_length (e : List Int) (vals : List (List Int)) (h : Linear e vals.length) :
    ∃ out, eSubst e vals = some out ∧ Replaced vals e out ∧ out.length = terminals e + (vals.map List.length).sum := by
  have hex : ∀ e : List Int, (∀ c ∈ e, c ≤ 0 → (-c).toNat < vals.length) → ∃ out, Replaced vals e out := by
    intro e
    induction e with
    | nil => intro _; exact ⟨[], .nil⟩
    | cons c e ih =>
      intro hb
      obtain ⟨out, ho⟩ := ih (fun x hx => hb x (by simp [hx]))
      by_cases hc : c ≤ 0
      · have hlt := hb c (by simp) hc
        have hr := Replaced.var (k := (-c).toNat) (List.getElem?_eq_getElem hlt) ho
        rw [show -(((-c).toNat : Nat) : Int) = c by omega] at hr
        exact ⟨_, hr⟩
      · exact ⟨c :: out, .word (by omega) ho⟩
  obtain ⟨out, ho⟩ := hex e (fun c hc hc0 => by
    have : (-c).toNat ∈ List.range vals.length := h.subset (List.mem_map.2 ⟨c, List.mem_filter.2 ⟨hc, by simpa using hc0⟩, rfl⟩)
    simpa using this)
  have hcount : numVars e = vals.length := by
    have := h.length_eq
    rw [List.length_map, List.length_range] at this
    rw [← this, numVars, List.countP_eq_length_filter]
  refine ⟨out, (C19_target e vals out).2 ⟨ho, hcount⟩, ho, ?_⟩
  rw [ho.length]
  congr 1
  have := (h.map fun k => (vals.getD k []).length).sum_nat
  rw [List.map_map] at this
  exact this.trans (range_sum vals)

/-- The same for the source side, whose categories number as many as the values. -/
theorem C19_source_length (f : List Int) (vals : List (List Int)) (h : numVars f = vals.length) :
    ∃ out, fSubst f vals = some out ∧ ReplacedInOrder vals f out ∧ out.length = terminals f + (vals.map List.length).sum := by
  suffices hs : ∃ out, ReplacedInOrder vals f out ∧ out.length = terminals f + (vals.map List.length).sum by
    obtain ⟨out, h1, h2⟩ := hs
    exact ⟨out, (C19_source f vals out).2 h1, h1, h2⟩
  induction f generalizing vals with
  | nil =>
    have : vals = [] := List.length_eq_zero_iff.1 (by rw [← h]; rfl)
    subst this
    exact ⟨[], .nil, rfl⟩
  | cons c f ih =>
    by_cases hc : c ≤ 0
    · have hv : numVars (c :: f) = numVars f + 1 := by simp [numVars, hc]
      cases vals with
      | nil => rw [hv] at h; simp at h
      | cons v vals =>
        rw [hv] at h
        obtain ⟨out, h1, h2⟩ := ih vals (by simpa using h)
        refine ⟨v ++ out, .cat hc h1, ?_⟩
        have ht : terminals (c :: f) = terminals f := by simp [terminals, show ¬ 0 < c by omega]
        rw [List.length_append, h2, ht, List.map_cons, List.sum_cons]
        omega
    · have hv : numVars (c :: f) = numVars f := by simp [numVars, hc]
      obtain ⟨out, h1, h2⟩ := ih vals (by rw [← hv]; exact h)
      refine ⟨c :: out, .word (by omega) h1, ?_⟩
      have ht : terminals (c :: f) = terminals f + 1 := by simp [terminals, show 0 < c by omega]
      rw [List.length_cons, h2, ht]
      omega

example : Linear [7, -1, 8, 0] 2 ∧ eSubst [7, -1, 8, 0] [[1, 2], [3]] = some [7, 3, 8, 1, 2] ∧
    fSubst [-5, 9, -6] [[1, 2], [3]] = some [1, 2, 9, 3] ∧ numVars [-5, 9, -6] = 2 := by
  refine ⟨?_, by decide, by decide, by decide⟩
  exact List.Perm.swap 0 1 []

end Cdec.Dec
