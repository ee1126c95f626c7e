import Verif.Decoder.NgramFeatLemmas
/-!
# The features fired along a string are the counts of its n-grams
-/
namespace Cdec.NgramFeat
variable {c : Cfg}

theorem pureLoop_spec (f : Nat) (a : List Nat) : ∀ (path : List Nat) (cur : Nat) (rest : List Nat) (p : Feats), cur ≠ 0 →
    (∀ x ∈ a, x ≠ 0) → (∀ x, rest.head? = some x → x = 0) →
    pureLoop c path cur (a ++ rest) p f = 1 ∧ (∃ j ≤ a.length, c.fd (c.name (path ++ cur :: a.take j).reverse) = f) ∨
    pureLoop c path cur (a ++ rest) p f = p f ∧ ¬ ∃ j ≤ a.length, c.fd (c.name (path ++ cur :: a.take j).reverse) = f := by
  induction a with
  | nil =>
    intro path cur rest p hc _ hr
    have e : pureLoop c path cur rest p = p.set (c.fd (c.name (path ++ [cur]).reverse)) 1 := by
      unfold pureLoop
      rw [if_neg hc]
      cases rest with
      | nil => rfl
      | cons x xs =>
        have := hr x rfl
        subst this
        unfold pureLoop
        simp
    simp only [List.nil_append]
    rw [e]
    unfold Feats.set
    by_cases hf : f = c.fd (c.name (path ++ [cur]).reverse)
    · left
      refine ⟨by rw [if_pos hf], 0, Nat.le_refl _, by simp only [List.take_nil]; exact hf.symm⟩
    · right
      refine ⟨by rw [if_neg hf], fun ⟨j, _, h⟩ => hf ?_⟩
      simp only [List.take_nil] at h
      exact h.symm
  | cons x a ih =>
    intro path cur rest p hc ha hr
    have e : pureLoop c path cur (x :: a ++ rest) p = pureLoop c (path ++ [cur]) x (a ++ rest)
        (p.set (c.fd (c.name (path ++ [cur]).reverse)) 1) := by
      rw [pureLoop.eq_def, if_neg hc]
      rfl
    rw [e]
    have hi := ih (path ++ [cur]) x rest (p.set (c.fd (c.name (path ++ [cur]).reverse)) 1) (ha x (by simp))
      (fun y hy => ha y (by simp [hy])) hr
    have conv : ∀ j, path ++ [cur] ++ x :: a.take j = path ++ cur :: (x :: a).take (j + 1) := by intro j; simp
    rcases hi with ⟨h1, j, hj, h2⟩ | ⟨h1, h2⟩
    · left
      refine ⟨h1, j + 1, by simp; omega, ?_⟩
      rw [← conv]; exact h2
    · rw [h1]
      unfold Feats.set
      by_cases hf : f = c.fd (c.name (path ++ [cur]).reverse)
      · left
        exact ⟨by rw [if_pos hf], 0, by simp, by simp only [List.take_zero]; exact hf.symm⟩
      · right
        refine ⟨by rw [if_neg hf], fun ⟨j, hj, h⟩ => ?_⟩
        cases j with
        | zero => simp only [List.take_zero] at h; exact hf h.symm
        | succ j => exact h2 ⟨j, by simp at hj; omega, by rw [conv]; exact h⟩

/-- What is before the first word: `<s>` when the order is 2. -/
def before (c : Cfg) : List Nat := if c.order = 2 then [c.sos] else []

/-- The state after `q`, latest word first: the words of the history and then nothing to be seen. -/
theorem state_rev (ho : 1 ≤ c.order) (q : List Nat) : ∃ rest, (incr c (beginState c) q).1.reverse =
    (before c ++ q).reverse.take (c.order - 1) ++ rest ∧ ∀ x, rest.head? = some x → x = 0 := by
  rw [incr_drop q _ (begin_len ho)]
  unfold beginState before
  by_cases h1 : c.order - 1 = 0
  · have : c.order = 1 := by omega
    rw [if_pos h1, this]
    exact ⟨[], by simp, by simp⟩
  · rw [if_neg h1]
    by_cases h2 : c.order = 2
    · rw [if_pos h2, h2]
      refine ⟨[], ?_, by simp⟩
      simp only [Nat.sub_self, List.replicate_zero, List.append_nil, Nat.reduceSub]
      rcases List.eq_nil_or_concat q with rfl | ⟨q', x, rfl⟩
      · simp
      · simp
    · rw [if_neg h2]
      simp only [List.nil_append]
      by_cases hq : q.length ≤ c.order - 1
      · cases q with
        | nil =>
          refine ⟨(c.sos :: List.replicate (c.order - 2) 0).reverse, by simp, ?_⟩
          intro x hx
          obtain ⟨m, hm⟩ : ∃ m, c.order - 2 = m + 1 := ⟨c.order - 3, by omega⟩
          rw [hm] at hx
          simp [List.replicate_succ] at hx
          rw [← hx]
          cases m <;> simp [List.replicate_succ]
        | cons y q =>
          simp only [List.length_cons] at hq
          refine ⟨(List.replicate (c.order - 2 - q.length) 0), ?_, ?_⟩
          · rw [List.length_cons, List.cons_append, List.drop_succ_cons, List.drop_append_of_le_length (by simp; omega),
              List.reverse_append, List.drop_replicate, List.reverse_replicate, List.take_of_length_le (by simp; omega)]
          · intro x hx
            rw [List.head?_replicate] at hx
            split at hx
            · cases hx
            · simpa using hx.symm
      · refine ⟨[], ?_, by simp⟩
        have hl : (c.sos :: List.replicate (c.order - 2) 0).length = c.order - 1 := by simp; omega
        rw [List.drop_append, List.drop_of_length_le (by rw [hl]; omega), List.nil_append, hl, List.reverse_drop,
          List.append_nil]
        congr 1
        omega

theorem pureFire_spec (ho : 1 ≤ c.order) (q z : List Nat) (w f : Nat) (hw : w ≠ 0) (hq : ∀ x ∈ before c ++ q, x ≠ 0) :
    (pureFire c (incr c (beginState c) q).1 w f = 1 ∧ EndsAt c (before c ++ q ++ w :: z) (before c ++ q).length f) ∨
    (pureFire c (incr c (beginState c) q).1 w f = 0 ∧ ¬ EndsAt c (before c ++ q ++ w :: z) (before c ++ q).length f) := by
  obtain ⟨rest, h1, h2⟩ := state_rev ho q
  generalize hH : before c ++ q = H at *
  unfold pureFire
  rw [h1]
  have gram : ∀ j, j ≤ H.length → ((H ++ w :: z).drop (H.length + 1 - (j + 1))).take (j + 1) =
      (w :: H.reverse.take j).reverse := by
    intro j hj
    rw [show H.length + 1 - (j + 1) = H.length - j by omega, List.drop_append_of_le_length (by omega), List.reverse_cons,
      List.take_reverse, List.reverse_reverse]
    have hl : (H.drop (H.length - j)).length = j := by simp; omega
    rw [List.take_append, List.take_of_length_le (by omega), hl]
    simp
  have hiff : (∃ j ≤ (H.reverse.take (c.order - 1)).length,
      c.fd (c.name ([] ++ w :: (H.reverse.take (c.order - 1)).take j).reverse) = f) ↔ EndsAt c (H ++ w :: z) H.length f := by
    constructor
    · rintro ⟨j, hj, h⟩
      simp only [List.length_take, List.length_reverse] at hj
      refine ⟨j + 1, by omega, by omega, by omega, ?_⟩
      rw [gram j (by omega), ← h, List.nil_append, List.take_take]
      congr 5
      omega
    · rintro ⟨n, n1, n2, n3, h⟩
      obtain ⟨j, rfl⟩ : ∃ j, n = j + 1 := ⟨n - 1, by omega⟩
      refine ⟨j, by simp; omega, ?_⟩
      rw [gram j (by omega)] at h
      rw [List.nil_append, List.take_take, ← h]
      congr 5
      omega
  rcases pureLoop_spec (c := c) f (H.reverse.take (c.order - 1)) [] w rest 0 hw
    (fun x hx => hq x (List.mem_reverse.1 (List.mem_of_mem_take hx))) h2 with ⟨h, hj⟩ | ⟨h, hj⟩
  · exact Or.inl ⟨h, hiff.1 hj⟩
  · exact Or.inr ⟨h, fun hx => hj (hiff.2 hx)⟩

theorem incr_count (ho : 1 ≤ c.order) (f : Nat) (z : List Nat) : ∀ q : List Nat, (∀ x ∈ before c ++ q, x ≠ 0) → (∀ x ∈ z, x ≠ 0) →
    IsCount c (before c ++ q ++ z) (before c ++ q).length f ((incr c (incr c (beginState c) q).1 z).2 f) := by
  induction z with
  | nil =>
    intro q _ _
    refine ⟨[], by simp, fun i => ?_, by simp [incr]⟩
    simp
    omega
  | cons w z ih =>
    intro q hq hz
    have hw : w ≠ 0 := hz w (by simp)
    have e1 : (incr c (beginState c) (q ++ [w])).1 = extend c (incr c (beginState c) q).1 w := by
      rw [incr_append]; rfl
    obtain ⟨is, i1, i2, i3⟩ := ih (q ++ [w]) (by
      intro x hx
      rw [← List.append_assoc] at hx
      rcases List.mem_append.1 hx with h | h
      · exact hq x h
      · simp at h; rw [h]; exact hw) (fun x hx => hz x (by simp [hx]))
    rw [e1] at i3
    have e2 : before c ++ (q ++ [w]) ++ z = before c ++ q ++ w :: z := by simp
    have e3 : (before c ++ (q ++ [w])).length = (before c ++ q).length + 1 := by simp; omega
    rw [e2, e3] at i2
    have e4 : (incr c (incr c (beginState c) q).1 (w :: z)).2 f =
        pureFire c (incr c (beginState c) q).1 w f + (incr c (extend c (incr c (beginState c) q).1 w) z).2 f := by
      rfl
    rw [e4, i3]
    have hlen : (before c ++ q).length < (before c ++ q ++ w :: z).length := by simp
    rcases pureFire_spec ho q z w f hw hq with ⟨h, hE⟩ | ⟨h, hE⟩
    · refine ⟨(before c ++ q).length :: is, ?_, fun i => ?_, ?_⟩
      · rw [List.nodup_cons]
        exact ⟨fun hm => by have := ((i2 _).1 hm).1; omega, i1⟩
      · rw [List.mem_cons, i2]
        constructor
        · rintro (rfl | ⟨a, b, d⟩)
          · exact ⟨Nat.le_refl _, hlen, hE⟩
          · exact ⟨by omega, b, d⟩
        · rintro ⟨a, b, d⟩
          by_cases hi : i = (before c ++ q).length
          · exact Or.inl hi
          · exact Or.inr ⟨by omega, b, d⟩
      · rw [h, List.length_cons]; omega
    · refine ⟨is, i1, fun i => ?_, ?_⟩
      · rw [i2]
        constructor
        · rintro ⟨a, b, d⟩; exact ⟨by omega, b, d⟩
        · rintro ⟨a, b, d⟩
          by_cases hi : i = (before c ++ q).length
          · subst hi; exact absurd d hE
          · exact ⟨by omega, b, d⟩
      · rw [h]; omega

/-- The state and the features of a string without `<s>` that is longer than the context. -/
theorem run_incr (ho : 1 ≤ c.order) (y : List Nat) (hg : Good c y) (hs : c.sos ∉ y) (hc : (run c y).complete = true) :
    ∃ u v, y = u ++ v ∧ u.length = c.order - 1 ∧ (run c y).unscored = u ∧ (run c y).state = (incr c u v).1 ∧
      (run c y).feats = (incr c u v).2 := by
  obtain ⟨u, v, e, hv, hu, hnc, hrd⟩ := (run_split ho y hg).2 hc
  have hsu : c.sos ∉ u := fun hm => hs (by rw [e]; exact List.mem_append_left _ hm)
  have hsv : c.sos ∉ v := fun hm => hs (by rw [e]; exact List.mem_append_right _ hm)
  obtain ⟨v0, vs, rfl⟩ := List.exists_cons_of_ne_nil hv
  have hgu : Good c u := by rw [e] at hg; exact hg.left
  have heu : c.eos ∉ u := by rw [e] at hg; exact hg.no_eos
  have hev : ∀ x z, v0 :: vs = x ++ c.eos :: z → z = [] := fun x z hh => hg.2 (u ++ x) z (by rw [e, hh]; simp)
  have r1 := sim_run ho u hgu
  have n1 : (run c u).numScored = u.length := by
    have := (feedsP_state (c := c) u (start c) hsu).2
    simpa [run, start] using this
  have hlen : u.length = c.order - 1 := by
    have h1 := r1.lt hnc
    rcases hrd with h2 | h2
    · rw [hnc] at h2; cases h2
    · omega
  have st1 : (run c u).state = u := by
    have := (feedsP_state (c := c) u (start c) hsu).1
    unfold run
    rw [this]
    exact incr_full u _ start_len hlen
  have q1 := feedsP_ready (c := c) (v0 :: vs) (run c u) hrd (not_eos r1 heu) hsv hev
  have e1 : run c y = feedsP c (run c u) (v0 :: vs) := by rw [e]; unfold run; rw [feedsP_append]
  refine ⟨u, v0 :: vs, e, hlen, hu, ?_, ?_⟩
  · rw [e1, q1.1, st1]
  · rw [e1, q1.2.1, st1, ((run_split ho u hgu).1 hnc).2, zero_add]

/-- The final transition when it adds the markers. -/
theorem final_adds (ho : 1 ≤ c.order) (hm : c.addMarkers = true) (he : c.cluster c.eos = c.eos) (hne : c.eos ≠ c.sos)
    (k : Cache) (hk : k.Sound c) (y : List Nat) (hs : c.sos ∉ y) (hy : c.eos ∉ y) (s : NState) (T : Feats) (h : Out c y s T) :
    ∃ k' g, finalTraversal c k s = some (k', g) ∧ T + g = (incr c (beginState c) (y ++ [c.eos])).2 := by
  have hg : Good c y := ⟨fun a b e => absurd (by rw [e]; simp) hs, fun a b e => absurd (by rw [e]; simp) hy⟩
  obtain ⟨V, hV⟩ : ∃ V : Vars, V = ⟨beginState c, 0, [], false, false, true, 0, 0⟩ := ⟨_, rfl⟩
  have h0 : absorb (feedsP c (start c) (dummyState c).unscored) (dummyState c) = V := by rw [hV]; rfl
  have hu : c.sos ∉ s.unscored ∧ (∀ a b, s.unscored = a ++ c.eos :: b → b = []) ∧ c.eos ∉ s.unscored := by
    have hsub : ∀ x ∈ s.unscored, x ∈ y := by
      intro x hx
      rw [h.unscored] at hx
      cases hc : (run c y).complete with
      | false => rw [((run_split ho y hg).1 hc).1] at hx; exact hx
      | true =>
        obtain ⟨u, v, e, _, hu, _⟩ := run_incr ho y hg hs hc
        rw [hu] at hx; rw [e]; exact List.mem_append_left _ hx
    exact ⟨fun hx => hs (hsub _ hx), fun a b e => absurd (hsub c.eos (by rw [e]; simp)) hy, fun hx => hy (hsub _ hx)⟩
  have q := feedsP_ready (c := c) s.unscored V (by rw [hV]; exact Or.inl rfl) (by rw [hV]) hu.1 hu.2.1
  obtain ⟨q1, q2, q3, q4, q5, q6⟩ := q
  have qc : (feedsP c V s.unscored).complete = true := by
    by_cases hx : s.unscored = []
    · rw [hx, hV]; rfl
    · exact q4 hx
  obtain ⟨W, hW⟩ : ∃ W : Vars, W = absorb (feedsP c V s.unscored) s := ⟨_, rfl⟩
  have key : W.state = (incr c (beginState c) y).1 ∧ T + W.feats = (incr c (beginState c) y).2 ∧ W.complete = true ∧
      W.sawEos = false ∧ W.unscored = [] := by
    have hse : s.eos = false := by
      cases hx : s.eos with
      | false => rfl
      | true => exact absurd (h.eos hx) hy
    have hVs : V.state = beginState c := by rw [hV]
    have hVf : V.feats = 0 := by rw [hV]
    have hVu : V.unscored = [] := by rw [hV]
    rw [hVs] at q1 q2
    rw [hVf, zero_add] at q2
    rw [hVu] at q3
    cases hc : (run c y).complete with
    | false =>
      obtain ⟨j1, j2⟩ := (run_split ho y hg).1 hc
      have hf : s.full = false := by rw [h.full, hc]
      have hT : T = 0 := by rw [h.feats, j2]
      rw [h.unscored, j1] at q1 q2 qc q3 hW
      rw [hW]
      unfold absorb
      rw [hf, hT]
      simp only [Bool.false_eq_true, if_false]
      exact ⟨q1, by rw [zero_add]; exact q2, qc, hse, q3⟩
    | true =>
      obtain ⟨u, v, e, hl, hu', h1, h2⟩ := run_incr ho y hg hs hc
      have hf : s.full = true := by rw [h.full, hc]
      rw [h.unscored, hu'] at q1 q2 qc q3 hW
      rw [hW]
      unfold absorb
      rw [hf]
      simp only [if_true]
      have hb : (incr c (beginState c) u).1 = u := incr_full u _ (begin_len ho) hl
      rw [e, incr_append, hb]
      refine ⟨by rw [h.lm, h1], ?_, trivial, hse, q3⟩
      rw [q2, h.feats, h2, add_comm]
  obtain ⟨k1, k2, k3, k4, k5⟩ := key
  have hfeed := feedP_word (c := c) true W c.eos hne k4
  rw [k3] at hfeed
  simp only [Bool.true_or, if_true] at hfeed
  have hloop : loopP c [dummyState c, s] (start c) [.nt 0, .nt 1, .word c.eos] = some (feedP c true W c.eos) := by
    unfold loopP
    simp only [List.getElem?_cons_zero]
    rw [h0]
    unfold loopP
    simp only [List.getElem?_cons_succ, List.getElem?_cons_zero]
    rw [← hW]
    unfold loopP
    rw [he]
    rfl
  obtain ⟨k', g1, g2⟩ := lookupLoop_pure _ _ k _ _ hk hloop
  refine ⟨k', (feedP c true W c.eos).feats, ?_, ?_⟩
  · unfold finalTraversal
    rw [if_pos hm, g1]
    simp only
    rw [if_pos]
    rw [hfeed]; exact k5
  · rw [hfeed, incr_append]
    simp only [incr, add_zero]
    rw [← add_assoc, k2, k1]

/-- A string with explicit markers. -/
theorem run_explicit (ho : 1 ≤ c.order) (v : List Nat) (hg : Good c (c.sos :: v)) :
    (run c (c.sos :: v)).feats = (incr c (beginState c) v).2 := by
  have e := run_snoc (c := c) [] c.sos
  rw [feedP_sos false _ (by rfl)] at e
  simp only [List.nil_append] at e
  have e1 : run c (c.sos :: v) = feedsP c (run c [c.sos]) v := by unfold run; rw [← feedsP_append]; rfl
  have hst : (run c [c.sos]).state = beginState c ∧ (run c [c.sos]).feats = 0 ∧ (run c [c.sos]).sawEos = false ∧
      Ready c (run c [c.sos]) := by
    rw [e]
    by_cases h : c.order - 2 + 1 ≥ c.order
    · simp [h, run, feedsP, start, Ready]
    · simp only [h, decide_false, Bool.or_false]
      refine ⟨rfl, rfl, rfl, Or.inr ?_⟩
      show c.order - 2 + 1 + 1 ≥ c.order
      omega
  have hsv : c.sos ∉ v := by
    have h3 : Good c (c.sos :: [] ++ v) := hg
    exact h3.no_sos
  have q := feedsP_ready (c := c) v (run c [c.sos]) hst.2.2.2 hst.2.2.1 hsv
    (fun a b h => hg.2 (c.sos :: a) b (by rw [h]; rfl))
  rw [e1, q.2.1, hst.1, hst.2.1, zero_add]

end Cdec.NgramFeat
