import Verif.Klm.HashedBuildSpec
/-!
# Which files are accepted
-/

namespace Cdec.Klm.LM
open Search

variable {K : Type} [AddCommGroup K] [DecidableEq K] {a : Spec.Arpa K} {s s' : Search K}

theorem fillBlanks_upg (ng : List Word) (m : Nat) : ∀ (s : Search K) (p : K) (b : Nat), 1 ≤ b →
    b + m < ng.length → Upg s (fillBlanks s ng p b m) := by
  induction m with
  | zero => intro s p b _ _; exact Upg.rfl s
  | succ m ih =>
    intro s p b hb hl
    have hcne : ng.tail.take b ≠ [] := by
      intro h
      have := congrArg List.length h
      rw [List.length_take, List.length_tail, List.length_nil] at this; omega
    have htne : ng.take (b + 1) ≠ [] := by
      intro h
      have := congrArg List.length h
      rw [List.length_take, List.length_nil] at this; omega
    simp only [fillBlanks]
    refine Upg.trans ?_ (ih _ _ _ (by omega) (by omega))
    refine Upg.trans ?_ (upg_upd _ _ htne _ (fun _ => ⟨rfl, id, id⟩))
    cases ctxEntry s (ng.tail.take b) with
    | none => exact Upg.rfl s
    | some e => exact upg_setExt s _ hcne

/-- An n-gram whose context is held is accepted. -/
theorem BInv.accept {n : Nat} {D : List (List Word × K × K)} (v : BInv a s n D) {ng : List Word}
    {p b : K} (hn : ng.length = n) (hD : D.lookup ng = none) (hb : n = a.order → b = 0)
    (hc : 3 ≤ n → ∃ e, s.get ng.tail = some e) : ∃ s', readNGram s ng p b = some s' := by
  have hv2 := v.two
  have hvle := v.le
  have hvo := v.order
  have hngs : seen a n D ng = none := by
    unfold seen; rw [if_neg (by omega), if_pos hn, hD]
  unfold readNGram
  rw [if_neg (by rintro ⟨h1, h2⟩; exact h2 (hb (by omega)))]
  obtain ⟨s1, hs1, o1, g1⟩ : ∃ s1 : Search K,
      (if ng.length = s.order then { s with long := fun x => if x = ng then some p else s.long x }
        else s.ins ng (readEntry p b)) = s1 ∧ s1.order = s.order ∧
      (∀ g e, g.length < n → s.get g = some e → s1.get g = some e) := by
    by_cases h : ng.length = s.order
    · refine ⟨_, if_pos h, rfl, ?_⟩
      intro g e _ hg
      match g, hg with
      | [w], hg => exact hg
      | _ :: _ :: _, hg => exact hg
    · refine ⟨_, if_neg h, rfl, ?_⟩
      intro g e hl hg
      rw [get_ins s ng (by omega) (by omega), if_neg (by rintro rfl; omega)]
      exact hg
  rw [hs1]
  clear hs1
  simp only []
  obtain ⟨f1, f2, f3, f4, ⟨e0, f5⟩, f6, f7⟩ := findLower_spec ng (ng.length - 1) s1 (by omega)
    (by omega) (by omega)
  obtain ⟨s2, b0, hfl⟩ : ∃ s2 b0, findLower s1 ng (ng.length - 1) = (s2, b0) := ⟨_, _, rfl⟩
  simp only [hfl] at f1 f2 f3 f4 f5 f6 f7 ⊢
  have hold : ∀ g e, s1.get g = some e → s2.get g = some e := by
    intro g e h
    rw [f7 g (fun j j1 j2 hc => by
      have := (f6 j j1 j2).1
      rw [← hc, h] at this; simp at this)]
    exact h
  have hctx : ctxEntry s2 (ng.take b0) = some e0 := by
    rw [ctxEntry_get s2 _ (by rw [List.length_take]; omega)]
    exact hold _ _ f5
  simp only [adjustLower, hctx]
  have U : Upg s2 (markExtends (fillBlanks s2 ng e0.prob b0 (ng.length - 1 - b0)) ng b0
      (ng.length - b0)) :=
    (fillBlanks_upg ng _ s2 _ b0 f1 (by omega)).trans
      (markExtends_spec ng _ b0 f1 (ng.length - b0) (by omega)).1
  generalize markExtends (fillBlanks s2 ng e0.prob b0 (ng.length - 1 - b0)) ng b0
      (ng.length - b0) = s4 at U ⊢
  unfold activate
  match ht : ng.tail with
  | [] =>
    have := congrArg List.length ht
    rw [List.length_tail] at this; simp at this; omega
  | [w] => exact ⟨_, rfl⟩
  | y :: z :: t =>
    have hl : t.length + 2 + 1 = n := by
      have := congrArg List.length ht
      rw [List.length_tail] at this; simp at this; omega
    obtain ⟨e, he⟩ := hc (by omega)
    rw [ht] at he
    obtain ⟨e', he', _⟩ := U.fwd _ e (hold _ _ (g1 _ e (by simp; omega) he))
    rw [get_cons2, if_pos (by rw [U.order, f3, o1]; omega)] at he'
    simp only [he']
    exact ⟨_, rfl⟩

theorem BInv.accept_section {n : Nat} (E : List (List Word × K × K)) :
    ∀ (D : List (List Word × K × K)) (s : Search K), BInv a s n D →
      (∀ g ∈ E, g.1.length = n) → ((D ++ E).map (·.1)).Nodup →
      (n = a.order → ∀ g ∈ E, g.2.2 = 0) → (3 ≤ n → ∀ g ∈ E, (a.look g.1.tail).isSome) →
      ∃ s', readSection s E = some s' := by
  induction E with
  | nil => intro D s _ _ _ _ _; exact ⟨s, rfl⟩
  | cons d t ih =>
    intro D s v hl hN hb hc
    obtain ⟨ng, p, b⟩ := d
    have hD : D.lookup ng = none := by
      apply lookup_none_of_not_mem
      intro hm
      rw [List.map_append, List.nodup_append] at hN
      exact hN.2.2 ng hm ng (by simp) rfl
    have hn : ng.length = n := hl (ng, p, b) (by simp)
    obtain ⟨s1, h1⟩ := v.accept (p := p) (b := b) hn hD (fun h => hb h (ng, p, b) (by simp)) (by
      intro h3
      obtain ⟨q, hq⟩ := Option.isSome_iff_exists.mp (hc h3 (ng, p, b) (by simp))
      simp only [] at hq
      have hlt : ng.tail.length < n := by rw [List.length_tail]; omega
      obtain ⟨e, he, _⟩ := v.listed ng.tail q.1 q.2 (by rw [BInv.seen_lt hlt, hq])
        (by have := v.le; omega)
      exact ⟨e, he⟩)
    have v1 := v.step hn hD h1
    obtain ⟨s', hs'⟩ := ih (D ++ [(ng, p, b)]) s1 v1 (fun g hg => hl g (by simp [hg]))
      (by simpa using hN) (fun h g hg => hb h g (by simp [hg])) (fun h g hg => hc h g (by simp [hg]))
    exact ⟨s', by simp only [readSection, h1]; exact hs'⟩

theorem BInv.accept_sections (hr : a.Regular) (hb : ∀ g ∈ a.sect a.order, g.2.2 = 0)
    (hc : ∀ n, 3 ≤ n → n ≤ a.order → ∀ g ∈ a.sect n, (a.look g.1.tail).isSome) (m : Nat) :
    ∀ (n : Nat) (s : Search K), n + m = a.order + 1 → (1 ≤ m → BInv a s n []) →
      ∃ s', readSections a s n m = some s' := by
  induction m with
  | zero => intro n s _ _; exact ⟨s, rfl⟩
  | succ m ih =>
    intro n s hnm hv
    have v := hv (by omega)
    obtain ⟨s1, h1⟩ := BInv.accept_section (a := a) (n := n) (a.sect n) [] s v
      (hr.length n v.two v.le) (by simpa using hr.once n v.two v.le)
      (fun h => by rw [h]; exact hb) (fun h => hc n h v.le)
    have v1 := BInv.section (a.sect n) [] s s1 v (hr.length n v.two v.le)
        (by simpa using hr.once n v.two v.le) h1
    rw [List.nil_append] at v1
    obtain ⟨s', h'⟩ := ih (n + 1) s1 (by omega) (fun h => v1.next hr (by omega))
    exact ⟨s', by simp only [readSections, h1]; exact h'⟩

theorem build_accepts (hr : a.Regular) (sign : Word → Bool)
    (hb : ∀ g ∈ a.sect a.order, g.2.2 = 0)
    (hc : ∀ n, 3 ≤ n → n ≤ a.order → ∀ g ∈ a.sect n, (a.look g.1.tail).isSome) :
    ∃ s, buildHashed a sign = some s := by
  have := hr.two
  exact BInv.accept_sections hr hb hc (a.order - 1) 2 _ (by omega) (fun _ => BInv.start hr sign)

end Cdec.Klm.LM
