import Verif.Klm.HashedBuildInv
/-!
# The tables built from an ARPA file answer like the file
-/

namespace Cdec.Klm.LM
open Search

variable {K : Type} [AddCommGroup K] [DecidableEq K] {a : Spec.Arpa K} {s s' : Search K}

theorem look_cons2 (x y : Word) (t : List Word) : a.look (x :: y :: t) =
    if (x :: y :: t).length ≤ a.order then (a.sect (x :: y :: t).length).lookup (x :: y :: t)
    else none := rfl

theorem lookup_none_of_not_mem (D : List (List Word × K × K)) (g : List Word)
    (h : g ∉ D.map (·.1)) : D.lookup g = none := by
  induction D with
  | nil => rfl
  | cons d t ih =>
    simp only [List.map_cons, List.mem_cons, not_or] at h
    simp only [List.lookup, beq_eq_false_iff_ne.mpr h.1]
    exact ih h.2

theorem BInv.section {n : Nat} (E : List (List Word × K × K)) :
    ∀ (D : List (List Word × K × K)) (s s' : Search K), BInv a s n D →
      (∀ g ∈ E, g.1.length = n) → ((D ++ E).map (·.1)).Nodup → readSection s E = some s' →
      BInv a s' n (D ++ E) := by
  induction E with
  | nil =>
    intro D s s' v _ _ h
    simp only [readSection, Option.some.injEq] at h
    subst h
    simpa using v
  | cons d t ih =>
    intro D s s' v hl hN h
    obtain ⟨ng, p, b⟩ := d
    simp only [readSection] at h
    cases h1 : readNGram s ng p b with
    | none => rw [h1] at h; simp at h
    | some s1 =>
      rw [h1] at h
      have hD : D.lookup ng = none := by
        apply lookup_none_of_not_mem
        intro hm
        rw [List.map_append, List.nodup_append] at hN
        exact hN.2.2 ng hm ng (by simp) rfl
      have v1 := v.step (hl (ng, p, b) (by simp)) hD h1
      have := ih (D ++ [(ng, p, b)]) s1 s' v1 (fun g hg => hl g (by simp [hg]))
        (by simpa using hN) h
      simpa using this

theorem seen_next (hr : a.Regular) {n : Nat} (h2 : 2 ≤ n) (hn : n ≤ a.order) (g : List Word) :
    seen a (n + 1) [] g = seen a n (a.sect n) g := by
  unfold seen
  by_cases h : g.length < n
  · rw [if_pos h, if_pos (by omega)]
  · rw [if_neg h]
    by_cases he : g.length = n
    · rw [if_pos he, if_pos (by omega)]
      match g, he with
      | [], he => simp at he; omega
      | [_], he => simp at he; omega
      | x :: y :: t, he =>
        rw [look_cons2, if_pos (by omega), he]
    · rw [if_neg he, if_neg (by omega)]
      split <;> rfl

theorem BInv.next (hr : a.Regular) {n : Nat} (v : BInv a s n (a.sect n)) (hn : n + 1 ≤ a.order) :
    BInv a s (n + 1) [] := by
  have hs := seen_next hr v.two v.le
  refine ⟨v.order, by have := v.two; omega, hn, ?_, ?_, ?_, v.suffix, v.context, v.noext⟩
  · intro g p b h; rw [hs] at h; exact v.listed g p b h
  · intro x c e h
    rw [hs]
    rcases v.held x c e h with h1 | ⟨h1, h2, h3, h4⟩
    · exact Or.inl h1
    · exact Or.inr ⟨h1, by omega, h3, h4⟩
  · intro g; rw [hs]; exact v.long g

theorem BInv.start (hr : a.Regular) (sign : Word → Bool) : BInv a (readUnigrams a sign) 2 [] := by
  have h2 := hr.two
  have hget : ∀ g e, (readUnigrams a sign).get g = some e →
      ∃ w, g = [w] ∧ e = { readEntry (a.uni w).1 (a.uni w).2 with indep := sign w } := by
    intro g e h
    match g with
    | [] => simp [Search.get] at h
    | [w] => exact ⟨w, rfl, by simpa [Search.get, readUnigrams] using h.symm⟩
    | x :: y :: t =>
      simp only [get_cons2, readUnigrams] at h
      split at h <;> simp at h
  have hhas : ∀ g, (readUnigrams a sign).Has g → ∃ w, g = [w] := by
    intro g h
    rcases (has_iff _ g).mp h with ⟨_, p, hp⟩ | ⟨_, e, he⟩
    · simp [readUnigrams] at hp
    · obtain ⟨w, hw, _⟩ := hget g e he
      exact ⟨w, hw⟩
  refine ⟨rfl, le_refl _, h2, ?_, ?_, ?_, ?_, ?_, ?_⟩
  · intro g p b h _
    unfold seen at h
    match g with
    | [] => simp [Spec.Arpa.look] at h
    | [w] =>
      simp only [List.length_singleton, show (1 : Nat) < 2 by omega, if_true, Spec.Arpa.look,
        Option.some.injEq] at h
      refine ⟨_, rfl, ?_, ?_⟩ <;> simp [readUnigrams, readEntry, h]
    | x :: y :: t =>
      simp only [List.length_cons, show ¬ t.length + 1 + 1 < 2 by omega, if_false, List.lookup] at h
      split at h <;> simp at h
  · intro x c e h
    obtain ⟨w, hw, he⟩ := hget _ e h
    left
    rw [hw, he]
    simp [seen, Spec.Arpa.look, readEntry]
  · intro g
    unfold seen
    simp only [readUnigrams]
    by_cases hg : g.length = a.order
    · simp [hg, show ¬ a.order < 2 by omega]
    · simp [hg]
  · intro l y hl h
    obtain ⟨w, hw⟩ := hhas _ h
    have := congrArg List.length hw
    cases l with
    | nil => exact absurd rfl hl
    | cons x t => simp at this
  · intro x c hc h
    obtain ⟨w, hw⟩ := hhas _ h
    have := congrArg List.length hw
    cases c with
    | nil => exact absurd rfl hc
    | cons x t => simp at this
  · intro c e h hx
    obtain ⟨w, hw, he⟩ := hget _ e h
    rw [he] at hx ⊢
    simpa [readEntry] using hx

theorem BInv.sections (hr : a.Regular) (m : Nat) : ∀ (n : Nat) (s s' : Search K), 1 ≤ m →
    n + m = a.order + 1 → BInv a s n [] → readSections a s n m = some s' →
    BInv a s' a.order (a.sect a.order) := by
  induction m with
  | zero => intro n s s' h; omega
  | succ m ih =>
    intro n s s' _ hnm v h
    simp only [readSections] at h
    cases h1 : readSection s (a.sect n) with
    | none => rw [h1] at h; simp at h
    | some s1 =>
      rw [h1] at h
      have v1 := BInv.section (a.sect n) [] s s1 v (hr.length n v.two v.le)
        (by simpa using hr.once n v.two v.le) h1
      rw [List.nil_append] at v1
      cases m with
      | zero =>
        simp only [readSections, Option.some.injEq] at h
        subst h
        have : n = a.order := by omega
        rw [← this]; exact v1
      | succ m => exact ih (n + 1) s1 s' (by omega) (by omega) (v1.next hr (by omega)) h

theorem build_inv (hr : a.Regular) {sign : Word → Bool} (h : buildHashed a sign = some s) :
    BInv a s a.order (a.sect a.order) := by
  have := hr.two
  exact BInv.sections hr (a.order - 1) 2 _ s (by omega) (by omega) (BInv.start hr sign) h

theorem build_wf (hr : a.Regular) {sign : Word → Bool} (h : buildHashed a sign = some s) : s.WF := by
  have v := build_inv hr h
  exact ⟨⟨by rw [v.order]; exact hr.two, v.suffix, v.noext⟩, v.context⟩

theorem seen_all (hr : a.Regular) (g : List Word) : seen a a.order (a.sect a.order) g = a.look g := by
  have := hr.two
  unfold seen
  split
  · rfl
  · match g with
    | [] => simp at *; omega
    | [_] => simp at *; omega
    | x :: y :: t =>
      rw [look_cons2]
      split
      · next h => rw [if_pos (by omega), h]
      · rw [if_neg (by omega)]

theorem build_bo (hr : a.Regular) {sign : Word → Bool} (h : buildHashed a sign = some s)
    (g : List Word) : s.boOf g = a.backoff g := by
  have v := build_inv hr h
  have h2 := hr.two
  by_cases hg : g = []
  · subst hg
    unfold Search.boOf Spec.Arpa.backoff
    simp [Search.get, Spec.Arpa.look]
  · by_cases hl : g.length < a.order
    · exact v.bo_eq hg hl
    · unfold Search.boOf Spec.Arpa.backoff
      rw [if_neg hl, get_none_of_long s (by omega) (by rw [v.order]; omega)]
      rfl

/-- Every score of the tables is the score of the file. -/
theorem build_sc (hr : a.Regular) {sign : Word → Bool} (h : buildHashed a sign = some s)
    (x : Word) : ∀ (m : Nat) (c : List Word), c.length = m → s.sc x c = a.score x c := by
  have v := build_inv hr h
  have h2 := hr.two
  have hseen := seen_all hr
  intro m
  induction m with
  | zero =>
    intro c hc
    have hc0 : c = [] := List.length_eq_zero_iff.mp hc
    subst hc0
    have hg : s.get [x] = some (s.uni x) := rfl
    have hp := v.prob_eq (by simp; omega) hg
    rw [← hp]
    unfold Search.sc
    rw [Spec.score.eq_def]
    have : s.probOf [x] = some (s.uni x).prob := by
      unfold Search.probOf
      rw [if_neg (by rw [v.order]; simp; omega), hg]; rfl
    simp [this]
  | succ m ih =>
    intro c hc
    have hcne : c ≠ [] := by intro h; rw [h] at hc; simp at hc
    have hdrop : c.dropLast.length = m := by rw [List.length_dropLast]; omega
    -- when the n-gram is not held it is not listed
    have hmiss : s.probOf (x :: c) = none → s.sc x c = s.boOf c + s.sc x c.dropLast := by
      intro hp
      unfold Search.sc
      rw [Spec.score.eq_def]
      cases c with
      | nil => exact absurd rfl hcne
      | cons y t => simp [hp]
    have hback : s.probOf (x :: c) = none → a.look (x :: c) = none → s.sc x c = a.score x c := by
      intro h3 h4
      rw [hmiss h3, arpa_unlisted hcne h4, ih _ hdrop, build_bo hr h]
    have hhit : ∀ p, s.probOf (x :: c) = some p → s.sc x c = p := by
      intro p hp
      unfold Search.sc
      rw [Spec.score.eq_def]
      simp [hp]
    by_cases hl : (x :: c).length = s.order
    · have hpo : s.probOf (x :: c) = (a.look (x :: c)).map (·.1) := by
        unfold Search.probOf
        rw [if_pos hl, v.long, if_pos (by rw [hl, v.order]), hseen]
      cases hk : a.look (x :: c) with
      | none => exact hback (by rw [hpo, hk]; rfl) hk
      | some q => rw [arpa_listed hk]; exact hhit _ (by rw [hpo, hk]; rfl)
    · have hpo : s.probOf (x :: c) = (s.get (x :: c)).map (·.prob) := by
        unfold Search.probOf; rw [if_neg hl]
      cases hg : s.get (x :: c) with
      | none =>
        refine hback (by rw [hpo, hg]; rfl) ?_
        cases hk : a.look (x :: c) with
        | none => rfl
        | some q =>
          exfalso
          by_cases ho : (x :: c).length < a.order
          · obtain ⟨e, he, _⟩ := v.listed (x :: c) q.1 q.2 (by rw [hseen, hk]) ho
            rw [hg] at he; simp at he
          · cases c with
            | nil => exact absurd rfl hcne
            | cons y t =>
              rw [v.order] at hl
              rw [look_cons2, if_neg (by omega)] at hk; simp at hk
      | some e =>
        rw [hhit e.prob (by rw [hpo, hg]; rfl)]
        rcases v.held x c e hg with h1 | ⟨_, _, _, h4⟩
        · rw [hseen] at h1; exact (arpa_listed h1).symm
        · exact h4

theorem build_score (hr : a.Regular) {sign : Word → Bool} (h : buildHashed a sign = some s)
    (x : Word) (c : List Word) : s.sc x c = a.score x c := build_sc hr h x c.length c rfl

theorem build_string (hr : a.Regular) {sign : Word → Bool} (h : buildHashed a sign = some s)
    (f v : List Word) : s.ss f v = Spec.stringScore a.prob a.backoff f v := by
  induction f with
  | nil => rfl
  | cons x t ih =>
    show s.sc x (t ++ v) + s.ss t v = a.score x (t ++ v) + _
    rw [ih, build_score hr h]

end Cdec.Klm.LM
