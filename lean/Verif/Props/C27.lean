import Verif.Util.Dict
/-! # C27: the word dictionary is a bijection -/
namespace Cdec
variable {W : Type} [DecidableEq W]

/-- Invariant: the map and the word table are inverse to each other. -/
def Dict.Inv (s : Dict W) : Prop := ∀ w i, s.find w = some i ↔ 1 ≤ i ∧ s.words[i - 1]? = some w

theorem Dict.inv_empty : (Dict.empty : Dict W).Inv := by
  intro w i; simp [Dict.find, Dict.empty]

theorem Dict.find_convert (s : Dict W) (h : s.Inv) (w : W) (hw : s.find w = none) (u : W) :
    (s.convert w false).1.find u = if u = w then some (s.words.length + 1) else s.find u := by
  have hc : (s.convert w false).1 = ⟨s.words ++ [w], (w, s.words.length + 1) :: s.d⟩ := by
    simp [Dict.convert, hw]
  rw [hc]
  simp only [Dict.find, List.lookup_cons]
  by_cases huw : u = w
  · subst huw; simp
  · have : (u == w) = false := by simpa using huw
    simp [this, huw]

theorem Dict.inv_convert (s : Dict W) (h : s.Inv) (w : W) (f : Bool) : (s.convert w f).1.Inv := by
  cases hw : s.find w with
  | some i => simpa [Dict.convert, hw] using h
  | none =>
    cases f with
    | true => simpa [Dict.convert, hw] using h
    | false =>
      intro u i
      rw [Dict.find_convert s h w hw u]
      have hwords : (s.convert w false).1.words = s.words ++ [w] := by simp [Dict.convert, hw]
      rw [hwords]
      by_cases huw : u = w
      · subst huw
        rw [if_pos rfl, Option.some.injEq]
        constructor
        · rintro rfl; simp
        · rintro ⟨h1, h2⟩
          by_cases hlt : i - 1 < s.words.length
          · rw [List.getElem?_append_left hlt] at h2
            have := (h u i).2 ⟨h1, h2⟩
            rw [hw] at this; simp at this
          · by_cases heq : i - 1 = s.words.length
            · omega
            · rw [List.getElem?_eq_none (by simp; omega)] at h2; simp at h2
      · rw [if_neg huw, h u i]
        by_cases hlt : i - 1 < s.words.length
        · rw [List.getElem?_append_left hlt]
        · rw [List.getElem?_eq_none (l := s.words) (by omega)]
          constructor
          · rintro ⟨_, h2⟩; simp at h2
          · rintro ⟨h1, h2⟩
            exfalso
            by_cases heq : i - 1 = s.words.length
            · rw [heq, List.getElem?_append_right (by omega)] at h2
              simp at h2; exact huw h2.symm
            · rw [List.getElem?_eq_none (by simp; omega)] at h2; simp at h2

theorem Dict.inv_run (s : Dict W) (h : s.Inv) (cs : List (W × Bool)) : (s.run cs).Inv := by
  induction cs generalizing s with
  | nil => exact h
  | cons c cs ih => exact ih _ (s.inv_convert h c.1 c.2)

theorem Dict.find_mono_convert (s : Dict W) (h : s.Inv) (w : W) (f : Bool) (u : W) (i : Nat)
    (hu : s.find u = some i) : (s.convert w f).1.find u = some i := by
  cases hw : s.find w with
  | some j => simpa [Dict.convert, hw] using hu
  | none =>
    cases f with
    | true => simpa [Dict.convert, hw] using hu
    | false =>
      rw [Dict.find_convert s h w hw u, if_neg, hu]
      rintro rfl
      rw [hw] at hu; simp at hu

theorem Dict.find_mono_run (s : Dict W) (h : s.Inv) (cs : List (W × Bool)) (u : W) (i : Nat)
    (hu : s.find u = some i) : (s.run cs).find u = some i := by
  induction cs generalizing s with
  | nil => exact hu
  | cons c cs ih => exact ih _ (s.inv_convert h c.1 c.2) (s.find_mono_convert h c.1 c.2 u i hu)

/-- C27.  In the state `s` reached by any history of calls (frozen or not) on a new dictionary:
an unfrozen `Convert(w)` returns a positive id from which `w` is recovered, now and after any further
history; any later `Convert(w)`, frozen or not, returns the same id and leaves the dictionary as it is;
two words never share an id; a frozen call on an unknown word returns 0, changes nothing, and the
word stays unknown. -/
theorem C27_dictionary (bad0 : W) (hist : List (W × Bool)) (w : W) :
    let s := Dict.empty.run hist
    let r := s.convert w false
    1 ≤ r.2 ∧ r.2 ≤ r.1.words.length ∧ r.1.toWord bad0 r.2 = some w ∧
    (∀ later f, let s' := r.1.run later
      s'.convert w f = (s', r.2) ∧ s'.toWord bad0 r.2 = some w ∧
      (∀ w', w' ≠ w → (s'.convert w' f).2 ≠ r.2)) ∧
    ((∀ i, s.toWord bad0 (i + 1) ≠ some w) → s.convert w true = (s, 0)) ∧
    (∀ f, (∃ i, s.toWord bad0 (i + 1) = some w) → (s.convert w f).1 = s) ∧
    s.toWord bad0 0 = some bad0 := by
  intro s r
  have hs : s.Inv := Dict.inv_run _ Dict.inv_empty hist
  have hr : r.1.Inv := s.inv_convert hs w false
  have hf : r.1.find w = some r.2 := by
    cases hw : s.find w with
    | some i =>
      have : r = (s, i) := by simp [r, Dict.convert, hw]
      rw [this]; exact hw
    | none =>
      have h1 := s.find_convert hs w hw w
      rw [if_pos rfl] at h1
      have h2 : r.2 = s.words.length + 1 := by simp [r, Dict.convert, hw]
      rw [h2]; exact h1
  have hback : ∀ (t : Dict W), t.Inv → t.find w = some r.2 → 1 ≤ r.2 ∧ t.toWord bad0 r.2 = some w := by
    intro t ht h
    obtain ⟨h1, h2⟩ := (ht w r.2).1 h
    exact ⟨h1, by rw [Dict.toWord, if_neg (by omega), h2]⟩
  obtain ⟨h1, h2⟩ := hback r.1 hr hf
  refine ⟨h1, ?_, h2, ?_, ?_, ?_, rfl⟩
  · have := ((hr w r.2).1 hf).2
    have := (List.getElem?_eq_some_iff.1 this).1
    omega
  · intro later f s'
    have hs' : s'.Inv := Dict.inv_run _ hr later
    have hf' := r.1.find_mono_run hr later w r.2 hf
    refine ⟨by simp only [Dict.convert, show s'.find w = _ from hf'], (hback s' hs' hf').2, ?_⟩
    intro w' hne heq
    cases hw : s'.find w' with
    | some j =>
      have : (s'.convert w' f).2 = j := by simp [Dict.convert, hw]
      rw [this] at heq
      subst heq
      have e1 := ((hs' w' _).1 hw).2
      have e2 := ((hs' w _).1 hf').2
      rw [e1] at e2
      exact hne (Option.some.inj e2)
    | none =>
      cases f with
      | true =>
        have : (s'.convert w' true).2 = 0 := by simp [Dict.convert, hw]
        omega
      | false =>
        have : (s'.convert w' false).2 = s'.words.length + 1 := by simp [Dict.convert, hw]
        have e2 := ((hs' w _).1 hf').2
        have := (List.getElem?_eq_some_iff.1 e2).1
        omega
  · intro hno
    have : s.find w = none := by
      cases hw : s.find w with
      | none => rfl
      | some i =>
        obtain ⟨e1, e2⟩ := (hs w i).1 hw
        exact absurd (by rw [Dict.toWord, if_neg (by omega)]; simpa using e2) (hno (i - 1))
    simp [Dict.convert, this]
  · rintro f ⟨i, hi⟩
    rw [Dict.toWord, if_neg (by omega)] at hi
    have := (hs w (i + 1)).2 ⟨by omega, hi⟩
    simp [Dict.convert, this]

/-- Non-vacuity: a history with a repeated word and frozen calls. -/
example : (Dict.empty.run [("a", false), ("b", true), ("b", false), ("a", false)]).words = ["a", "b"] ∧
    ((Dict.empty.run [("a", false), ("b", false)]).convert "c" true).2 = 0 ∧
    ((Dict.empty.run [("a", false), ("b", false)]).convert "b" true).2 = 2 := by decide

end Cdec
