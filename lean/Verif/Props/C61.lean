import Verif.Mteval.ErrorRates
import Verif.Mteval.EditLemmas
/-!
# C61: the word and character error statistics are those of the closest reference
-/
namespace Cdec.ErrorRates

open Cdec.Edit

variable {α : Type _} [DecidableEq α]

/-- The statistics of the closest reference, the first one if there are several: its edit distance and its length. -/
def Closest (hyp : List α) (refs : List (List α)) (f : Nat × Nat) : Prop :=
  ∃ pre r post, refs = pre ++ r :: post ∧ IsEditDistance hyp r f.1 ∧ f.2 = r.length ∧
    (∀ x ∈ pre, ∀ d, IsEditDistance hyp x d → f.1 < d) ∧ (∀ x ∈ post, ∀ d, IsEditDistance hyp x d → f.1 ≤ d)

theorem dist_iff (a b : List α) (d : Nat) : IsEditDistance a b d ↔ d = levenshtein a b := by
  rw [levenshtein_eq]
  constructor
  · intro h
    exact Nat.le_antisymm (h.2 _ (isEditDistance_ed a b).1) ((isEditDistance_ed a b).2 _ h.1)
  · rintro rfl; exact isEditDistance_ed a b

/-- The state after `done`: `best` and the fields are those of the closest of the references seen. -/
theorem loop_closest (hyp : List α) : ∀ (refs : List (List α)) (done : List (List α)) (i : Nat) (f : Nat × Nat),
    i ≠ 0 → Closest hyp done f → Closest hyp (done ++ refs) (werLoop hyp i refs f.1 f) ∧
      Closest hyp (done ++ refs) (cerLoop hyp refs f.1 f)
  | [], done, i, f, _, h => by simpa [werLoop, cerLoop] using h
  | r :: refs, done, i, f, hi, h => by
    have hd : IsEditDistance hyp r (levenshtein hyp r) := (dist_iff _ _ _).mpr rfl
    obtain ⟨pre, q, post, e, h1, h2, h3, h4⟩ := h
    rw [werLoop, cerLoop]
    simp only [hi, or_false]
    by_cases hlt : levenshtein hyp r < f.1
    · simp only [hlt, if_true]
      have : Closest hyp (done ++ [r]) (levenshtein hyp r, r.length) := by
        refine ⟨done, r, [], rfl, hd, rfl, ?_, by simp⟩
        intro x hx d hxd
        rw [e, List.mem_append, List.mem_cons] at hx
        simp only
        rcases hx with hx | rfl | hx
        · have := h3 x hx d hxd; omega
        · rw [dist_iff] at h1 hxd; omega
        · have := h4 x hx d hxd; omega
      have := loop_closest hyp refs (done ++ [r]) (i + 1) _ (by omega) this
      simpa using this
    · simp only [hlt, if_false]
      have : Closest hyp (done ++ [r]) f := by
        refine ⟨pre, q, post ++ [r], by rw [e]; simp, h1, h2, h3, ?_⟩
        intro x hx d hxd
        rw [List.mem_append, List.mem_singleton] at hx
        rcases hx with hx | rfl
        · exact h4 x hx d hxd
        · rw [dist_iff] at hxd; omega
      have := loop_closest hyp refs (done ++ [r]) (i + 1) _ (by omega) this
      simpa using this

/-- WER: for every hypothesis and every non-empty list of references. -/
theorem C61_wer (hyp : List α) (refs : List (List α)) (h : refs ≠ []) : Closest hyp refs (wer hyp refs) := by
  cases refs with
  | nil => exact absurd rfl h
  | cons r refs =>
    unfold wer
    rw [werLoop]
    simp only [or_true, if_true]
    have : Closest hyp [r] (levenshtein hyp r, r.length) :=
      ⟨[], r, [], rfl, (dist_iff _ _ _).mpr rfl, rfl, by simp, by simp⟩
    have := (loop_closest hyp refs [r] 1 _ (by decide) this).1
    simpa using this

theorem cer_skip (hyp : List α) : ∀ (refs : List (List α)) (best : Nat) (f : Nat × Nat),
    (∀ r ∈ refs, best ≤ levenshtein hyp r) → cerLoop hyp refs best f = f
  | [], _, _, _ => rfl
  | r :: refs, best, f, h => by
    rw [cerLoop]
    rw [if_neg (by have := h r (by simp); omega)]
    exact cer_skip hyp refs best f fun x hx => h x (by simp [hx])

/-- CER: right when some reference is at a distance smaller than the length of the hypothesis. Missing: the other
cases, in which it fails, see below. -/
theorem C61_cer_partial (hyp : List α) (refs : List (List α)) (h : ∃ r ∈ refs, levenshtein hyp r < hyp.length) :
    Closest hyp refs (cer hyp refs) := by
  unfold cer
  have aux : ∀ (refs done : List (List α)), (∀ r ∈ done, hyp.length ≤ levenshtein hyp r) →
      (∃ r ∈ refs, levenshtein hyp r < hyp.length) → Closest hyp (done ++ refs) (cerLoop hyp refs hyp.length (0, 0)) := by
    intro refs
    induction refs with
    | nil => rintro _ _ ⟨r, hr, _⟩; simp at hr
    | cons r refs ih =>
      intro done hdone h
      rw [cerLoop]
      by_cases hlt : levenshtein hyp r < hyp.length
      · rw [if_pos hlt]
        have : Closest hyp (done ++ [r]) (levenshtein hyp r, r.length) := by
          refine ⟨done, r, [], rfl, (dist_iff _ _ _).mpr rfl, rfl, ?_, by simp⟩
          intro x hx d hd
          rw [dist_iff] at hd
          have := hdone x hx
          simp only; omega
        have := (loop_closest hyp refs (done ++ [r]) 1 _ (by decide) this).2
        simpa using this
      · rw [if_neg hlt]
        obtain ⟨q, hq, hql⟩ := h
        have hq' : q ∈ refs := by
          rcases List.mem_cons.mp hq with rfl | hq
          · exact absurd hql hlt
          · exact hq
        have := ih (done ++ [r]) (by
          intro x hx
          rw [List.mem_append, List.mem_singleton] at hx
          rcases hx with hx | rfl
          · exact hdone x hx
          · omega) ⟨q, hq', hql⟩
        simpa using this
  simpa using aux refs [] (by simp) h

/-- When no reference is closer than that, CER reports the statistics `0, 0`, as if there had been no error, although
the distances are at least the length of the hypothesis. -/
theorem C61_cer_fails (hyp : List α) (refs : List (List α)) (h : ∀ r ∈ refs, hyp.length ≤ levenshtein hyp r) :
    cer hyp refs = (0, 0) := cer_skip hyp refs _ _ h

/-- The strings `a` and `b`. -/
example : cer ['a'] [['b']] = (0, 0) ∧ wer ['a'] [['b']] = (1, 1) ∧ ¬ Closest ['a'] [['b']] (cer ['a'] [['b']]) := by
  refine ⟨by decide +kernel, by decide +kernel, ?_⟩
  rintro ⟨pre, r, post, e, h1, h2, -⟩
  have hmem : r ∈ [['b']] := by rw [e]; simp
  rw [List.mem_singleton] at hmem
  subst hmem
  rw [show cer ['a'] [['b']] = (0, 0) from by decide +kernel] at h2
  simp at h2

example : wer [1, 2, 3] [[1, 5, 6], [1, 2], [2, 3]] = (1, 2) := by decide +kernel

end Cdec.ErrorRates
