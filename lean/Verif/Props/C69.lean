import Verif.Props.C67
/-!
# C69: loading an ARPA file

Which files are accepted, and what the tables hold.  `Search.uni`, `Search.mid` and
`Search.long` are the tables themselves.
-/

namespace Cdec.Klm.LM

variable {K : Type} [AddCommGroup K] [DecidableEq K]

/-- Every file is accepted in which the context of every n-gram of order 3 or more is
listed, and no back-off is given at the highest order. -/
theorem C69_accepts (a : Spec.Arpa K) (hr : a.Regular) (sign : Word → Bool)
    (hb : ∀ g ∈ a.sect a.order, g.2.2 = 0)
    (hc : ∀ n, 3 ≤ n → n ≤ a.order → ∀ g ∈ a.sect n, (a.look g.1.tail).isSome) :
    ∃ s, buildHashed a sign = some s := build_accepts hr sign hb hc

/-- A file is rejected that lists an n-gram whose context cannot be found. -/
theorem C69_context (a : Spec.Arpa K) (hr : a.Regular) (sign : Word → Bool)
    (s : Search K) (hs : buildHashed a sign = some s) (x : Word) (c : List Word) (hc : c ≠ [])
    (hl : (a.look (x :: c)).isSome) : ∃ e, s.get c = some e ∧ e.ext = true := by
  have v := build_inv hr hs
  have h2 := hr.two
  obtain ⟨q, hq⟩ := Option.isSome_iff_exists.mp hl
  refine v.context x c hc ((has_iff s _).mpr ?_)
  have hlo : (x :: c).length ≤ a.order := by
    cases c with
    | nil => exact absurd rfl hc
    | cons y t =>
      rw [look_cons2] at hq
      by_contra h
      rw [if_neg h] at hq; simp at hq
  by_cases h : (x :: c).length = a.order
  · exact Or.inl ⟨by rw [v.order]; exact h, q.1, by rw [v.long, if_pos h, seen_all hr, hq]; rfl⟩
  · obtain ⟨e, he, _⟩ := v.listed (x :: c) q.1 q.2 (by rw [seen_all hr, hq]) (by omega)
    exact Or.inr ⟨by rw [v.order]; exact h, e, he⟩

/-- Every listed n-gram is found, with its listed probability and back-off. -/
theorem C69_listed (a : Spec.Arpa K) (hr : a.Regular) (sign : Word → Bool)
    (s : Search K) (hs : buildHashed a sign = some s) :
    (∀ w, (s.uni w).prob = (a.uni w).1 ∧ (s.uni w).bo = (a.uni w).2) ∧
    (∀ n g p b, 2 ≤ n → n < a.order → (g, p, b) ∈ a.sect n →
      ∃ e, s.mid (n - 2) g = some e ∧ e.prob = p ∧ e.bo = b) ∧
    (∀ g p b, (g, p, b) ∈ a.sect a.order → s.long g = some p) := by
  have v := build_inv hr hs
  have h2 := hr.two
  have hlook : ∀ n g p b, 2 ≤ n → n ≤ a.order → (g, p, b) ∈ a.sect n → a.look g = some (p, b) := by
    intro n g p b hn1 hn2 hm
    have hlen : g.length = n := hr.length n hn1 hn2 _ hm
    have hlk : ∀ D : List (List Word × K × K), (D.map (·.1)).Nodup → (g, p, b) ∈ D →
        D.lookup g = some (p, b) := by
      clear hm hlen
      intro D
      induction D with
      | nil => intro _ h; simp at h
      | cons d t ih =>
        intro hN h
        obtain ⟨k, q⟩ := d
        simp only [List.map_cons, List.nodup_cons] at hN
        simp only [List.lookup]
        rcases List.mem_cons.mp h with h3 | h3
        · simp only [Prod.mk.injEq] at h3
          rw [h3.1, ← h3.2]; simp
        · have : g ≠ k := by
            rintro rfl
            exact hN.1 (List.mem_map.mpr ⟨(g, p, b), h3, rfl⟩)
          rw [beq_eq_false_iff_ne.mpr this]
          exact ih hN.2 h3
    have hg := hlk _ (hr.once n hn1 hn2) hm
    match g, hlen, hg with
    | [], hlen, _ => simp at hlen; omega
    | [_], hlen, _ => simp at hlen; omega
    | x :: y :: t, hlen, hg =>
      rw [look_cons2, if_pos (by omega), hlen]
      exact hg
  refine ⟨fun w => ?_, ?_, ?_⟩
  · obtain ⟨e, h1, h3, h4⟩ := v.listed [w] (a.uni w).1 (a.uni w).2 (by rw [seen_all hr]; rfl)
      (by simp; omega)
    have : s.uni w = e := by simpa [Search.get] using h1
    rw [this]; exact ⟨h3, h4⟩
  · intro n g p b hn1 hn2 hm
    have hlen : g.length = n := hr.length n hn1 (by omega) _ hm
    obtain ⟨e, h1, h3⟩ := v.listed g p b (by rw [seen_all hr]; exact hlook n g p b hn1 (by omega) hm)
      (by omega)
    refine ⟨e, ?_, h3⟩
    match g, hlen with
    | [], hlen => simp at hlen; omega
    | [_], hlen => simp at hlen; omega
    | x :: y :: t, hlen =>
      simp only [List.length_cons] at hlen
      rw [Search.get_cons2, if_pos (by rw [v.order]; omega)] at h1
      rw [show n - 2 = t.length by omega]; exact h1
  · intro g p b hm
    have hlen : g.length = a.order := hr.length _ h2 (le_refl _) _ hm
    rw [v.long, if_pos hlen, seen_all hr, hlook _ g p b h2 (le_refl _) hm]; rfl

/-- What is found but not listed is a blank, and stands for the probability that backing
off gives; it has no back-off of its own.  At the highest order there are none. -/
theorem C69_blank (a : Spec.Arpa K) (hr : a.Regular) (sign : Word → Bool)
    (s : Search K) (hs : buildHashed a sign = some s) :
    (∀ x y t e, t.length + 2 < a.order → s.mid t.length (x :: y :: t) = some e →
      a.look (x :: y :: t) = none → e.prob = a.score x (y :: t) ∧ e.bo = 0) ∧
    (∀ g p, s.long g = some p → ∃ b, a.look g = some (p, b)) := by
  have v := build_inv hr hs
  constructor
  · intro x y t e hl he hn
    rcases v.held x (y :: t) e (by rw [Search.get_cons2, if_pos (by rw [v.order]; exact hl)]; exact he)
      with h | ⟨_, _, h1, h2⟩
    · rw [seen_all hr, hn] at h; simp at h
    · exact ⟨h2, h1⟩
  · intro g p h
    rw [v.long] at h
    by_cases hl : g.length = a.order
    · rw [if_pos hl, seen_all hr] at h
      cases hk : a.look g with
      | none => rw [hk] at h; simp at h
      | some q =>
        rw [hk] at h
        simp only [Option.map_some, Option.some.injEq] at h
        exact ⟨q.2, by rw [← h]⟩
    · rw [if_neg hl] at h; simp at h

/-- The marks used to cut a search short are right.  An n-gram that is not marked as
extending to the left has no held extension to the left, and an n-gram that is not marked
as a context is the context of nothing and has no back-off. -/
theorem C69_marks (a : Spec.Arpa K) (hr : a.Regular) (sign : Word → Bool)
    (s : Search K) (hs : buildHashed a sign = some s) (g : List Word) (e : Entry K)
    (he : s.get g = some e) :
    (e.indep = true → ∀ y, s.probOf (g ++ [y]) = none) ∧
    (e.ext = false → e.bo = 0 ∧ ∀ x, s.probOf (x :: g) = none) := by
  have v := build_inv hr hs
  have hg : g ≠ [] := by rintro rfl; simp [Search.get] at he
  constructor
  · intro hi y
    cases h : s.probOf (g ++ [y]) with
    | none => rfl
    | some p =>
      obtain ⟨e', h1, h2⟩ := v.suffix g y hg (by unfold Search.Has; rw [h]; rfl)
      rw [he] at h1; cases h1; rw [hi] at h2; simp at h2
  · intro hx
    refine ⟨v.noext g e he hx, fun x => ?_⟩
    cases h : s.probOf (x :: g) with
    | none => rfl
    | some p =>
      obtain ⟨e', h1, h2⟩ := v.context x g hg (by unfold Search.Has; rw [h]; rfl)
      rw [he] at h1; cases h1; rw [hx] at h2; simp at h2

/-- The hypotheses are met by `sampleArpa`, where the suffix `2 3` of the trigram `<s> 2 3` is
a blank with the probability `-2 + -4` of backing off from `2`. -/
example : ∃ s, buildHashed sampleArpa (fun _ => true) = some s ∧
    (s.mid 0 [3, 2]).map (fun e => (e.prob, e.bo, e.ext, e.indep)) = some (-6, 0, false, false) ∧
    sampleArpa.look [3, 2] = none := by
  refine ⟨((buildHashed sampleArpa (fun _ => true)).get (by decide)), ?_, by decide, by decide⟩
  simp

/-- A file without the context of a trigram is rejected. -/
example : buildHashed { sampleArpa with sect := fun n =>
    if n = 2 then [([4, 3], -2, 0)] else if n = 3 then [([3, 2, 1], -1, 0)] else [] }
    (fun _ => true) |>.isNone := by decide

end Cdec.Klm.LM
