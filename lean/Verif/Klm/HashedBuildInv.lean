import Verif.Klm.HashedBuildLemmas
/-!
# The tables built from an ARPA file
-/

namespace Cdec.Klm.LM
open Search

variable {K : Type} [AddCommGroup K] [DecidableEq K] {a : Spec.Arpa K} {s s' : Search K}

/-- What has been read of the file: the sections below `n`, and `D` of section `n`. -/
def seen (a : Spec.Arpa K) (n : Nat) (D : List (List Word × K × K)) (g : List Word) : Option (K × K) :=
  if g.length < n then a.look g else if g.length = n then D.lookup g else none

structure BInv (a : Spec.Arpa K) (s : Search K) (n : Nat) (D : List (List Word × K × K)) : Prop where
  order : s.order = a.order
  two : 2 ≤ n
  le : n ≤ a.order
  listed : ∀ g p b, seen a n D g = some (p, b) → g.length < a.order →
    ∃ e, s.get g = some e ∧ e.prob = p ∧ e.bo = b
  held : ∀ x c e, s.get (x :: c) = some e → seen a n D (x :: c) = some (e.prob, e.bo) ∨
    (seen a n D (x :: c) = none ∧ c.length + 1 < n ∧ e.bo = 0 ∧ e.prob = a.score x c)
  long : ∀ g, s.long g = if g.length = a.order then (seen a n D g).map (·.1) else none
  suffix : ∀ l y, l ≠ [] → s.Has (l ++ [y]) → ∃ e, s.get l = some e ∧ e.indep = false
  context : ∀ x c, c ≠ [] → s.Has (x :: c) → s.Ext c
  noext : ∀ c e, s.get c = some e → e.ext = false → e.bo = 0

omit [DecidableEq K] in
theorem arpa_listed {x : Word} {c : List Word} {p b : K} (h : a.look (x :: c) = some (p, b)) :
    a.score x c = p := by
  unfold Spec.Arpa.score
  rw [Spec.score.eq_def]
  simp [Spec.Arpa.prob, h]

omit [DecidableEq K] in
theorem arpa_unlisted {x : Word} {c : List Word} (hc : c ≠ []) (h : a.look (x :: c) = none) :
    a.score x c = a.backoff c + a.score x c.dropLast := by
  unfold Spec.Arpa.score
  rw [Spec.score.eq_def]
  cases c with
  | nil => exact absurd rfl hc
  | cons y t => simp [Spec.Arpa.prob, h]

theorem BInv.seen_lt {n : Nat} {D : List (List Word × K × K)} {g : List Word}
    (h : g.length < n) : seen a n D g = a.look g := by
  unfold seen; rw [if_pos h]

theorem BInv.bo_eq {n : Nat} {D : List (List Word × K × K)} (v : BInv a s n D) {g : List Word}
    (hg : g ≠ []) (hl : g.length < n) : s.boOf g = a.backoff g := by
  have hs := BInv.seen_lt (a := a) (D := D) hl
  have hlo : g.length < a.order := Nat.lt_of_lt_of_le hl v.le
  unfold Search.boOf Spec.Arpa.backoff
  rw [if_pos hlo]
  cases g with
  | nil => exact absurd rfl hg
  | cons x c =>
    cases hget : s.get (x :: c) with
    | none =>
      cases hlk : a.look (x :: c) with
      | none => rfl
      | some q =>
        obtain ⟨e, h1, _⟩ := v.listed (x :: c) q.1 q.2 (by rw [hs, hlk]) hlo
        rw [hget] at h1; simp at h1
    | some e =>
      rcases v.held x c e hget with h | ⟨h, _, h2, _⟩
      · rw [hs] at h; simp [h]
      · rw [hs] at h; simp [h, h2]

theorem BInv.prob_eq {n : Nat} {D : List (List Word × K × K)} (v : BInv a s n D) {x : Word}
    {c : List Word} {e : Entry K} (hl : c.length + 1 < n) (h : s.get (x :: c) = some e) :
    e.prob = a.score x c := by
  rcases v.held x c e h with h1 | ⟨_, _, _, h2⟩
  · rw [BInv.seen_lt (by simpa using hl)] at h1
    exact (arpa_listed h1).symm
  · exact h2

theorem has_iff (s : Search K) (g : List Word) : s.Has g ↔
    (g.length = s.order ∧ ∃ p, s.long g = some p) ∨ (g.length ≠ s.order ∧ ∃ e, s.get g = some e) := by
  unfold Search.Has Search.probOf
  by_cases h : g.length = s.order
  · simp [h, Option.isSome_iff_exists]
  · simp [h, Option.isSome_iff_exists]

theorem lookup_append_single (D : List (List Word × K × K)) (ng : List Word) (q : K × K)
    (g : List Word) : (D ++ [(ng, q)]).lookup g =
      match D.lookup g with
      | some r => some r
      | none => if g = ng then some q else none := by
  induction D with
  | nil =>
    simp only [List.nil_append, List.lookup]
    by_cases h : g = ng
    · simp [h]
    · simp [h, beq_eq_false_iff_ne.mpr h]
  | cons d t ih =>
    obtain ⟨k, r⟩ := d
    simp only [List.cons_append, List.lookup]
    cases hk : g == k with
    | true => rfl
    | false => exact ih

theorem seen_snoc {n : Nat} {D : List (List Word × K × K)} {ng : List Word} {p b : K}
    (hn : ng.length = n) (hD : D.lookup ng = none) (g : List Word) :
    seen a n (D ++ [(ng, p, b)]) g = if g = ng then some (p, b) else seen a n D g := by
  unfold seen
  by_cases h : g = ng
  · subst h
    rw [if_neg (by omega), if_pos hn, lookup_append_single, hD]
    simp
  · rw [if_neg h]
    by_cases hl : g.length < n
    · simp [hl]
    · simp only [if_neg hl]
      by_cases he : g.length = n
      · simp only [if_pos he]
        rw [lookup_append_single]
        cases D.lookup g with
        | some r => rfl
        | none => simp [h]
      · simp [he]

/-- An n-gram's shorter prefixes are held. -/
theorem BInv.prefix {n : Nat} {D : List (List Word × K × K)} (v : BInv a s n D) {l t : List Word}
    (hl : l ≠ []) (h : ∃ e, s.get (l ++ t) = some e) : ∃ e, s.get l = some e := by
  induction t using List.reverseRecOn with
  | nil => simpa using h
  | append_singleton t y ih =>
    apply ih
    obtain ⟨e, he⟩ := h
    rw [← List.append_assoc] at he
    have hlen : (l ++ t ++ [y]).length ≠ s.order := by
      intro hc
      rw [get_none_of_long s (by
        cases l with
        | nil => exact absurd rfl hl
        | cons x u => simp only [List.length_append, List.length_cons, List.length_nil]; omega) (by omega)] at he
      simp at he
    obtain ⟨e', h1, _⟩ := v.suffix (l ++ t) y (by simp [hl]) ((has_iff s _).mpr (Or.inr ⟨hlen, e, he⟩))
    exact ⟨e', h1⟩

/-- One n-gram. -/
theorem BInv.step {n : Nat} {D : List (List Word × K × K)} (v : BInv a s n D) {ng : List Word}
    {p b : K} (hn : ng.length = n) (hD : D.lookup ng = none)
    (hr : readNGram s ng p b = some s') : BInv a s' n (D ++ [(ng, p, b)]) := by
  have hv2 := v.two
  have hvle := v.le
  have hvo := v.order
  -- the n-gram is new
  have hngs : seen a n D ng = none := by
    unfold seen; rw [if_neg (by omega), if_pos hn, hD]
  obtain ⟨x, c, hxc⟩ : ∃ x c, ng = x :: c := by
    cases ng with
    | nil => simp at hn; omega
    | cons x c => exact ⟨x, c, rfl⟩
  have hcl : c.length + 1 = n := by rw [← hn, hxc]; rfl
  have hngget : s.get ng = none := by
    cases h : s.get ng with
    | none => rfl
    | some e =>
      rw [hxc] at h
      rcases v.held x c e h with h1 | ⟨_, h2, _⟩
      · rw [← hxc, hngs] at h1; simp at h1
      · omega
  unfold readNGram at hr
  split at hr
  · simp at hr
  -- the insertion
  obtain ⟨s1, hs1, o1, l1, g1⟩ : ∃ s1 : Search K,
      (if ng.length = s.order then { s with long := fun x => if x = ng then some p else s.long x }
        else s.ins ng (readEntry p b)) = s1 ∧ s1.order = s.order ∧
      (∀ g, s1.long g = if g = ng ∧ n = a.order then some p else s.long g) ∧
      (∀ g, s1.get g = if g = ng ∧ n < a.order then some (readEntry p b) else s.get g) := by
    by_cases h : ng.length = s.order
    · refine ⟨_, if_pos h, rfl, ?_, ?_⟩
      · intro g
        have : n = a.order := by omega
        simp [this]
      · intro g
        rw [if_neg (by omega)]
        match g with
        | [] => rfl
        | [w] => rfl
        | _ :: _ :: _ => rfl
    · refine ⟨_, if_neg h, rfl, ?_, ?_⟩
      · intro g
        rw [if_neg (by omega)]; rfl
      · intro g
        rw [get_ins s ng (by omega) (by omega)]
        have : n < a.order := by omega
        simp [this]
  rw [hs1] at hr
  clear hs1
  have hne : ∀ j, j ≤ n - 1 → ng.take j ≠ ng := by
    intro j hj hc
    have := congrArg List.length hc
    rw [List.length_take] at this; omega
  have g1take : ∀ j, j ≤ n - 1 → s1.get (ng.take j) = s.get (ng.take j) := by
    intro j hj
    rw [g1, if_neg (fun hc => hne j hj hc.1)]
  -- the lower entries
  obtain ⟨f1, f2, f3, f4, ⟨e0, f5⟩, f6, f7⟩ := findLower_spec ng (n - 1) s1 (by omega) (by omega)
    (by omega)
  have hnm : ng.length - 1 = n - 1 := by omega
  obtain ⟨s2, b0, hfl⟩ : ∃ s2 b0, findLower s1 ng (n - 1) = (s2, b0) := ⟨_, _, rfl⟩
  simp only [hnm, hfl] at f1 f2 f3 f4 f5 f6 f7 hr
  have htk : ∀ k, 1 ≤ k → ng.take k = x :: c.take (k - 1) := by
    intro k hk
    obtain ⟨k', rfl⟩ : ∃ k', k = k' + 1 := ⟨k - 1, by omega⟩
    rw [hxc]; simp
  have htail : ng.tail = c := by rw [hxc]; rfl
  -- what `s2` holds
  have g2 : ∀ g e, s2.get g = some e → (g = ng ∧ n < a.order ∧ e = readEntry p b) ∨
      (∃ j, b0 < j ∧ j ≤ n - 1 ∧ g = ng.take j ∧ s.get g = none ∧ e = ⟨0, 0, 0, false, true⟩) ∨
      s.get g = some e := by
    intro g e h
    by_cases hj : ∃ j, b0 < j ∧ j ≤ n - 1 ∧ g = ng.take j
    · obtain ⟨j, j1, j2, rfl⟩ := hj
      obtain ⟨k1, k2⟩ := f6 j j1 j2
      rw [k2] at h
      rw [g1take j j2] at k1
      exact Or.inr (Or.inl ⟨j, j1, j2, rfl, k1, by simpa using h.symm⟩)
    · rw [f7 g (fun j a b hc => hj ⟨j, a, b, hc⟩), g1] at h
      by_cases hg : g = ng ∧ n < a.order
      · rw [if_pos hg] at h
        exact Or.inl ⟨hg.1, hg.2, by simpa using h.symm⟩
      · rw [if_neg hg] at h
        exact Or.inr (Or.inr h)
  have g2old : ∀ g e, s.get g = some e → s2.get g = some e := by
    intro g e h
    rw [f7, g1, if_neg]
    · exact h
    · rintro ⟨rfl, _⟩; rw [hngget] at h; simp at h
    · rintro j j1 j2 rfl
      have := (f6 j j1 j2).1
      rw [g1take j j2, h] at this; simp at this
  have g2ng : n < a.order → s2.get ng = some (readEntry p b) := by
    intro h
    rw [f7, g1, if_pos ⟨rfl, h⟩]
    intro j _ j2 hc
    exact hne j j2 hc.symm
  have g2take : ∀ j, b0 ≤ j → j ≤ n - 1 → ∃ e, s2.get (ng.take j) = some e := by
    intro j j1 j2
    by_cases h : j = b0
    · subst h
      rw [g1take j j2] at f5
      exact ⟨e0, g2old _ _ f5⟩
    · exact ⟨_, (f6 j (by omega) j2).2⟩
  have hbasis : s2.get (ng.take b0) = some e0 := by
    rw [g1take b0 f2] at f5
    exact g2old _ _ f5
  have hunl : ∀ j, b0 < j → j ≤ n - 1 → a.look (ng.take j) = none := by
    intro j j1 j2
    have hl : (ng.take j).length = j := by rw [List.length_take]; omega
    cases h : a.look (ng.take j) with
    | none => rfl
    | some q =>
      obtain ⟨e, h1, _⟩ := v.listed (ng.take j) q.1 q.2
        (by rw [BInv.seen_lt (by omega), h]) (by omega)
      have := (f6 j j1 j2).1
      rw [g1take j j2, h1] at this; simp at this
  -- the probabilities of the blanks
  have hctx0 : ctxEntry s2 (ng.take b0) = some e0 := by
    rw [ctxEntry_get s2 _ (by rw [List.length_take]; omega), hbasis]
  unfold adjustLower at hr
  rw [hctx0] at hr
  simp only [] at hr
  have hT0 : e0.prob = a.score x (c.take (b0 - 1)) := by
    rw [g1take b0 f2, htk b0 f1] at f5
    exact v.prob_eq (by rw [List.length_take]; omega) f5
  have hbo2 : ∀ g : List Word, g ≠ [] → g.length < n → s2.boOf g = a.backoff g := by
    intro g hg hl
    rw [← v.bo_eq hg hl]
    unfold Search.boOf
    cases h : s2.get g with
    | none =>
      cases h' : s.get g with
      | none => rfl
      | some e => rw [g2old g e h'] at h; simp at h
    | some e =>
      rcases g2 g e h with ⟨rfl, _⟩ | ⟨j, _, _, _, h1, h2⟩ | h1
      · omega
      · rw [h1, h2]; rfl
      · rw [h1]
  have hrec : ∀ j, b0 ≤ j → j < b0 + (ng.length - 1 - b0) →
      a.score x (c.take (j + 1 - 1)) = a.score x (c.take (j - 1)) + s2.boOf (ng.tail.take j) := by
    intro j j1 j2
    have hcj : (c.take j).length = j := by rw [List.length_take]; omega
    have hcne : c.take j ≠ [] := by
      intro h; rw [h] at hcj; simp at hcj; omega
    have hd : (c.take j).dropLast = c.take (j - 1) := by
      rw [List.dropLast_eq_take, hcj, List.take_take, Nat.min_eq_left (by omega)]
    have hlk := hunl (j + 1) (by omega) (by omega)
    rw [htk (j + 1) (by omega), Nat.add_sub_cancel] at hlk
    rw [htail, hbo2 _ hcne (by omega), Nat.add_sub_cancel, arpa_unlisted hcne hlk, hd, add_comm]
  obtain ⟨c1, c2, c3, c4⟩ := fillBlanks_spec ng (fun k => a.score x (c.take (k - 1)))
    (ng.length - 1 - b0) s2 b0 f1 (by omega) (by omega) hrec
  rw [← hT0] at c1 c2 c3 c4
  generalize fillBlanks s2 ng e0.prob b0 (ng.length - 1 - b0) = s3 at *
  obtain ⟨d1, d2, d3⟩ := markExtends_spec ng s3 b0 f1 (ng.length - b0) (by omega)
  generalize markExtends s3 ng b0 (ng.length - b0) = s4 at *
  -- the activation
  obtain ⟨hs', ⟨ec, hec⟩⟩ : s' = s4.setExt c ∧ ∃ e, s4.get c = some e := by
    unfold activate at hr
    rw [htail] at hr
    match c, hcl, hr with
    | [], hcl, _ => simp at hcl; omega
    | [w], _, hr => exact ⟨by simpa using hr.symm, _, rfl⟩
    | y :: z :: t, hcl, hr =>
      simp only [] at hr
      have hg : s4.get (y :: z :: t) = s4.mid t.length (y :: z :: t) := by
        rw [get_cons2, if_pos]
        rw [d1.order, c1.order, f3, o1]
        simp at hcl; omega
      cases h : s4.mid t.length (y :: z :: t) with
      | none => rw [h] at hr; simp at hr
      | some e =>
        rw [h] at hr
        exact ⟨by simpa using hr.symm, e, by rw [hg, h]⟩
  have hcne : c ≠ [] := by
    intro h; rw [h] at hcl; simp at hcl; omega
  have u5 : Upg s4 s' := by rw [hs']; exact upg_setExt s4 c hcne
  have g5 : ∀ g, s'.get g =
      if g = c then (s4.get g).map (fun e => { e with ext := true }) else s4.get g := by
    intro g; rw [hs']; exact get_setExt s4 c hcne g
  have p5 : ∀ g e', s'.get g = some e' → ∃ e, s4.get g = some e ∧ e'.prob = e.prob := by
    intro g e' h
    rw [g5] at h
    by_cases hg : g = c
    · rw [if_pos hg] at h
      cases h4 : s4.get g with
      | none => rw [h4] at h; simp at h
      | some e => rw [h4] at h; simp at h; exact ⟨e, rfl, by rw [← h]⟩
    · rw [if_neg hg] at h; exact ⟨e', h, rfl⟩
  have U : Upg s2 s' := (c1.trans d1).trans u5
  have P : ∀ g e', s'.get g = some e' → (∀ k, b0 < k → k ≤ n - 1 → g ≠ ng.take k) →
      ∃ e, s2.get g = some e ∧ e'.prob = e.prob := by
    intro g e' h hg
    obtain ⟨e4, h4, q4⟩ := p5 g e' h
    obtain ⟨e3, h3, q3⟩ := d2 g e4 h4
    obtain ⟨e2, h2, q2⟩ := c2 g e3 h3 (fun k k1 k2 => hg k k1 (by omega))
    exact ⟨e2, h2, q4.trans (q3.trans q2)⟩
  have PB : ∀ k, b0 < k → k ≤ n - 1 → ∀ e', s'.get (ng.take k) = some e' →
      e'.prob = a.score x (c.take (k - 1)) := by
    intro k k1 k2 e' h
    obtain ⟨e4, h4, q4⟩ := p5 _ e' h
    obtain ⟨e3, h3, q3⟩ := d2 _ e4 h4
    rw [q4, q3]
    exact c3 k k1 (by omega) e3 h3
  have uo : s'.order = a.order := by rw [U.order, f3, o1, hvo]
  have hold : ∀ g e, s.get g = some e → ∃ e', s'.get g = some e' ∧ e'.prob = e.prob ∧ e'.bo = e.bo ∧
      (e.ext = true → e'.ext = true) ∧ (e.indep = false → e'.indep = false) := by
    intro g e h
    obtain ⟨e', h1, h2, h3, h4⟩ := U.fwd g e (g2old g e h)
    obtain ⟨e2, k1, k2⟩ := P g e' h1 (fun k k1 k2 hc => by
      have := (f6 k k1 k2).1
      rw [g1take k k2, ← hc, h] at this; simp at this)
    rw [g2old g e h] at k1
    cases k1
    exact ⟨e', h1, k2, h2, h3, h4⟩
  have hseen := seen_snoc (a := a) (p := p) (b := b) hn hD
  -- held n-grams, by where they come from
  have hHas : ∀ g, s'.Has g → g = ng ∨ (∃ j, b0 < j ∧ j ≤ n - 1 ∧ g = ng.take j) ∨ s.Has g := by
    intro g h
    rcases (has_iff s' g).mp h with ⟨h1, q, h2⟩ | ⟨h1, e', h2⟩
    · rw [U.long, f4, l1] at h2
      by_cases hg : g = ng
      · exact Or.inl hg
      · rw [if_neg (fun hc => hg hc.1)] at h2
        exact Or.inr (Or.inr ((has_iff s g).mpr (Or.inl ⟨by omega, q, h2⟩)))
    · obtain ⟨e, h3, _⟩ := U.bwd h2
      rcases g2 g e h3 with ⟨k, _⟩ | ⟨j, j1, j2, j3, _⟩ | k
      · exact Or.inl k
      · exact Or.inr (Or.inl ⟨j, j1, j2, j3⟩)
      · exact Or.inr (Or.inr ((has_iff s g).mpr (Or.inr ⟨by omega, e, k⟩)))
  have hmark : ∀ j, b0 ≤ j → j ≤ n - 1 → ∃ e, s'.get (ng.take j) = some e ∧ e.indep = false := by
    intro j j1 j2
    obtain ⟨e, h⟩ := g2take j j1 j2
    obtain ⟨e4, h4, _⟩ := (c1.trans d1).fwd _ e h
    obtain ⟨e5, h5, _, _, h6⟩ := u5.fwd _ e4 h4
    exact ⟨e5, h5, h6 (d3 j j1 (by omega) e4 h4)⟩
  refine ⟨uo, hv2, hvle, ?_, ?_, ?_, ?_, ?_, ?_⟩
  · -- listed
    intro g p' b' h hl
    rw [hseen] at h
    by_cases hg : g = ng
    · rw [if_pos hg] at h
      simp only [Option.some.injEq, Prod.mk.injEq] at h
      obtain ⟨rfl, rfl⟩ := h
      subst hg
      obtain ⟨e', k1, k2, _⟩ := U.fwd g _ (g2ng (by omega))
      obtain ⟨e2, m1, m2⟩ := P g e' k1 (fun k k1 k2 hc => hne k k2 hc.symm)
      rw [g2ng (by omega)] at m1
      cases m1
      exact ⟨e', k1, m2, k2⟩
    · rw [if_neg hg] at h
      obtain ⟨e, k1, k2, k3⟩ := v.listed g p' b' h hl
      obtain ⟨e', m1, m2, m3, _⟩ := hold g e k1
      exact ⟨e', m1, m2.trans k2, m3.trans k3⟩
  · -- held
    intro y d e' h
    obtain ⟨e2, k1, k2, _⟩ := U.bwd h
    rw [hseen]
    rcases g2 _ e2 k1 with ⟨hg, hlt, he⟩ | ⟨j, j1, j2, hg, hnone, he⟩ | hg
    · left
      rw [if_pos hg]
      obtain ⟨e2', m1, m2⟩ := P _ e' h (fun k _ k2 hc => hne k k2 (hc.symm.trans hg))
      rw [k1] at m1
      cases m1
      rw [m2, k2, he]; rfl
    · right
      have hj1 : 1 ≤ j := by omega
      have hlen : d.length + 1 = j := by
        have := congrArg List.length hg
        rw [List.length_take, List.length_cons] at this; omega
      rw [if_neg (fun hc => hne j j2 (hg.symm.trans hc))]
      refine ⟨?_, by omega, by rw [k2, he], ?_⟩
      · rw [BInv.seen_lt (by simp; omega), hg]
        exact hunl j j1 j2
      · have hp := PB j j1 j2 e' (by rw [← hg]; exact h)
        rw [htk j hj1] at hg
        simp only [List.cons.injEq] at hg
        rw [hp, hg.1, hg.2]
    · obtain ⟨e'', m1, m2, m3, _⟩ := hold _ e2 hg
      rw [h] at m1
      cases m1
      rw [if_neg (fun hc => by rw [hc, hngget] at hg; simp at hg), m2, m3]
      exact v.held y d e2 hg
  · -- long
    intro g
    rw [U.long, f4, l1, v.long, hseen]
    by_cases hg : g = ng
    · rw [if_pos hg]
      by_cases ho : n = a.order
      · simp [hg, ho, hn]
      · have : ng.length ≠ a.order := by omega
        simp [hg, ho, this]
    · simp [hg]
  · -- suffix
    intro l y hl h
    rcases hHas _ h with hg | ⟨j, j1, j2, hg⟩ | hg
    · have : l = ng.take (n - 1) := by
        rw [← hg]
        have hll : l.length = n - 1 := by
          have := congrArg List.length hg; simp at this; omega
        rw [← hll, List.take_left]
      rw [this]
      exact hmark (n - 1) f2 (le_refl _)
    · have hll : l.length = j - 1 := by
        have := congrArg List.length hg
        rw [List.length_take] at this; simp at this; omega
      have : l = ng.take (j - 1) := by
        have h1 : l = (l ++ [y]).take (j - 1) := by rw [← hll, List.take_left]
        rw [h1, hg, List.take_take, Nat.min_eq_left (by omega)]
      rw [this]
      exact hmark (j - 1) (by omega) (by omega)
    · obtain ⟨e, k1, k2⟩ := v.suffix l y hl hg
      obtain ⟨e', m1, _, _, _, m2⟩ := hold l e k1
      exact ⟨e', m1, m2 k2⟩
  · -- context
    intro y d hd h
    rcases hHas _ h with hg | ⟨j, j1, j2, hg⟩ | hg
    · have : d = c := by rw [hxc] at hg; simpa using (List.cons.inj hg).2
      subst this
      refine ⟨{ ec with ext := true }, ?_, rfl⟩
      rw [g5, if_pos rfl, hec]; rfl
    · have hdc : d = c.take (j - 1) := by
        rw [htk j (by omega)] at hg
        exact (List.cons.inj hg).2
      -- the context is held, because the context of the n-gram is
      have hheld : ∃ e, s2.get (c.take (j - 1)) = some e := by
        obtain ⟨e2, k1, _⟩ := (c1.trans d1).bwd hec
        rcases g2 c e2 k1 with ⟨hc, _⟩ | ⟨i, i1, i2, hc, _⟩ | hc
        · exact absurd (congrArg List.length hc) (by omega)
        · have hi : i = n - 1 := by
            have := congrArg List.length hc
            rw [List.length_take] at this; omega
          have : c.take (j - 1) = ng.take (j - 1) := by
            rw [hc, List.take_take, Nat.min_eq_left (by omega)]
          rw [this]
          exact g2take (j - 1) (by omega) (by omega)
        · obtain ⟨e, he⟩ := v.prefix (l := c.take (j - 1)) (t := c.drop (j - 1))
            (by rw [← hdc]; exact hd) (by rw [List.take_append_drop]; exact ⟨e2, hc⟩)
          exact ⟨e, g2old _ _ he⟩
      obtain ⟨e2, he2⟩ := hheld
      obtain ⟨e3, he3, _⟩ := c1.fwd _ e2 he2
      have hx := c4 (j - 1) (by omega) (by omega) e3 (by rw [htail]; exact he3)
      obtain ⟨e5, he5, _, hx5, _⟩ := (d1.trans u5).fwd _ e3 he3
      rw [hdc]
      exact ⟨e5, he5, hx5 hx⟩
    · obtain ⟨e, k1, k2⟩ := v.context y d hd hg
      obtain ⟨e', m1, _, _, m2, _⟩ := hold d e k1
      exact ⟨e', m1, m2 k2⟩
  · -- noext
    intro g e' h hx
    obtain ⟨e2, k1, k2, k3, _⟩ := U.bwd h
    have hx2 : e2.ext = false := by
      cases h2 : e2.ext with
      | false => rfl
      | true => rw [k3 h2] at hx; simp at hx
    rw [k2]
    rcases g2 g e2 k1 with ⟨_, _, he⟩ | ⟨j, _, _, _, _, he⟩ | hg
    · rw [he] at hx2 ⊢
      simpa [readEntry] using hx2
    · rw [he]
    · exact v.noext g e2 hg hx2

end Cdec.Klm.LM
