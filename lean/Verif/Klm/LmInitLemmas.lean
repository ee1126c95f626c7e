import Verif.Klm.LmInterp
import Mathlib.Algebra.BigOperators.Group.List.Basic
import Mathlib.Algebra.BigOperators.Field
import Mathlib.Algebra.Order.Field.Rat
import Mathlib.Tactic.Ring
import Mathlib.Tactic.FieldSimp
import Mathlib.Tactic.Linarith
/-!
Lemmas about the initial probabilities.
-/
namespace Cdec.Klm.Builder

/-- The context of a group. -/
def headCtx (G : List AdjRec) : Gram := (G.head?.map (·.context)).getD []

theorem ctxGroups_spec : ∀ recs : List AdjRec, recs.Pairwise (fun a b => a.context.reverse ≤ b.context.reverse) →
    (ctxGroups recs).flatten = recs ∧ (∀ G ∈ ctxGroups recs, G ≠ [] ∧ ∀ r ∈ G, r.context = headCtx G) ∧
    (ctxGroups recs).Pairwise fun a b => (headCtx a).reverse < (headCtx b).reverse := by
  intro recs
  induction recs with
  | nil => intro _; simp [ctxGroups]
  | cons r rs ih =>
    intro h
    obtain ⟨h1, h2⟩ := List.pairwise_cons.1 h
    obtain ⟨i1, i2, i3⟩ := ih h2
    cases hg : ctxGroups rs with
    | nil =>
      rw [hg] at i1
      simp at i1
      subst i1
      simp [ctxGroups, headCtx]
    | cons G gs =>
      rw [hg] at i1 i2 i3
      cases G with
      | nil => exact absurd rfl (i2 [] (by simp)).1
      | cons q qs =>
        have hq : q ∈ rs := by rw [← i1]; simp
        rw [ctxGroups, hg]
        by_cases he : r.context = q.context
        · simp only [if_pos he]
          refine ⟨by simpa using congrArg (r :: ·) i1, ?_, ?_⟩
          · intro G hG
            rcases List.mem_cons.1 hG with rfl | hG
            · refine ⟨by simp, ?_⟩
              intro x hx
              rcases List.mem_cons.1 hx with rfl | hx
              · simp [headCtx]
              · have := (i2 _ (by simp)).2 x hx
                rw [this]
                simp [headCtx, he]
            · exact i2 G (by simp [hG])
          · obtain ⟨p1, p2⟩ := List.pairwise_cons.1 i3
            refine List.pairwise_cons.2 ⟨?_, p2⟩
            intro b hb
            have := p1 b hb
            simpa [headCtx, he] using this
        · simp only [if_neg he]
          refine ⟨by simpa using congrArg (r :: ·) i1, ?_, ?_⟩
          · intro G hG
            rcases List.mem_cons.1 hG with rfl | hG
            · simp [headCtx]
            · exact i2 G hG
          · refine List.pairwise_cons.2 ⟨?_, i3⟩
            have hlt : r.context.reverse < q.context.reverse :=
              lt_of_le_of_ne (h1 q hq) (fun e => he (List.reverse_injective e))
            intro b hb
            rcases List.mem_cons.1 hb with rfl | hb
            · simpa [headCtx] using hlt
            · have := (List.pairwise_cons.1 i3).1 b hb
              exact lt_trans (by simpa [headCtx] using hlt) this

/-- The records with a context. -/
def withCtx (recs : List AdjRec) (h : Gram) : List AdjRec := recs.filter fun r => decide (r.context = h)

theorem filter_groups {gs : List (List AdjRec)} (h2 : ∀ G ∈ gs, G ≠ [] ∧ ∀ r ∈ G, r.context = headCtx G)
    (h3 : gs.Pairwise fun a b => (headCtx a).reverse < (headCtx b).reverse) {G : List AdjRec} (hG : G ∈ gs) :
    withCtx gs.flatten (headCtx G) = G := by
  unfold withCtx
  induction gs with
  | nil => simp at hG
  | cons F fs ih =>
    obtain ⟨p1, p2⟩ := List.pairwise_cons.1 h3
    rw [List.flatten_cons, List.filter_append]
    rcases List.mem_cons.1 hG with rfl | hG
    · rw [List.filter_eq_self.2, List.filter_eq_nil_iff.2, List.append_nil]
      · intro r hr
        obtain ⟨F, hF, hrF⟩ := List.mem_flatten.1 hr
        simp only [decide_eq_true_eq]
        intro e
        have := p1 F hF
        rw [← (h2 F (by simp [hF])).2 r hrF, e] at this
        exact lt_irrefl _ this
      · intro r hr
        simpa using (h2 G (by simp)).2 r hr
    · rw [List.filter_eq_nil_iff.2, List.nil_append]
      · exact ih (fun F hF => h2 F (by simp [hF])) p2 hG
      · intro r hr
        simp only [decide_eq_true_eq]
        intro e
        have := p1 G hG
        rw [← (h2 F (by simp)).2 r hr, e] at this
        exact lt_irrefl _ this

/-- The back-off weight of a context. -/
def gammaOf (d : Discount) (recs : List AdjRec) (h : Gram) : Rat := (ctxSums d (withCtx recs h)).gamma
/-- The sum of the counts of a context. -/
def denOf (recs : List AdjRec) (h : Gram) : Rat := (((withCtx recs h).map (·.count)).sum : Nat)

theorem withCtx_of_mem {recs : List AdjRec} (hs : recs.Pairwise fun a b => a.context.reverse ≤ b.context.reverse)
    {G : List AdjRec} (hG : G ∈ ctxGroups recs) : withCtx recs (headCtx G) = G := by
  obtain ⟨s1, s2, s3⟩ := ctxGroups_spec recs hs
  have := filter_groups s2 s3 hG
  rw [s1] at this
  exact this

theorem mergeRight_eq {recs : List AdjRec} (hs : recs.Pairwise fun a b => a.context.reverse ≤ b.context.reverse)
    (interp : Bool) (d : Discount) (i : Nat) (h : ¬ (i = 0 ∧ (!interp) = true)) :
    mergeRight interp d i recs = (recs.filter (·.keep)).map fun r =>
      ⟨r.words, d.apply r.count / denOf recs r.context, gammaOf d recs r.context⟩ := by
  obtain ⟨s1, s2, s3⟩ := ctxGroups_spec recs hs
  unfold mergeRight
  rw [if_neg h]
  unfold addRight
  conv_rhs => rw [← s1]
  rw [List.zipWith_map_right, List.zipWith_self, List.filter_flatten, List.map_flatten, List.map_map]
  congr 1
  rw [s1]
  apply List.map_congr_left
  intro G hG
  simp only [Function.comp]
  apply List.map_congr_left
  intro r hr
  have hr' := (List.mem_filter.1 hr).1
  have hc := (s2 G hG).2 r hr'
  unfold denOf gammaOf
  rw [hc, withCtx_of_mem hs hG]
  rfl

theorem addRight_eq {recs : List AdjRec} (hs : recs.Pairwise fun a b => a.context.reverse ≤ b.context.reverse) (d : Discount) :
    (addRight d recs).map (fun s => (s.ctx, s.gamma)) =
      ((ctxGroups recs).map headCtx).map fun h => (h, gammaOf d recs h) := by
  unfold addRight
  rw [List.map_map, List.map_map]
  apply List.map_congr_left
  intro G hG
  simp only [Function.comp]
  unfold gammaOf
  rw [withCtx_of_mem hs hG]
  rfl

theorem mem_contexts {recs : List AdjRec} (hs : recs.Pairwise fun a b => a.context.reverse ≤ b.context.reverse) (h : Gram) :
    h ∈ (ctxGroups recs).map headCtx ↔ ∃ r ∈ recs, r.context = h := by
  obtain ⟨s1, s2, s3⟩ := ctxGroups_spec recs hs
  rw [List.mem_map]
  constructor
  · rintro ⟨G, hG, rfl⟩
    obtain ⟨hne, hc⟩ := s2 G hG
    obtain ⟨r, rs, rfl⟩ := List.exists_cons_of_ne_nil hne
    exact ⟨r, by rw [← s1]; exact List.mem_flatten.2 ⟨_, hG, by simp⟩, hc r (by simp)⟩
  · rintro ⟨r, hr, rfl⟩
    rw [← s1] at hr
    obtain ⟨G, hG, hrG⟩ := List.mem_flatten.1 hr
    exact ⟨G, hG, ((s2 G hG).2 r hrG).symm⟩

/-- Discounts as they come from the estimator: nothing is taken from a count of 0, and at most the count itself. -/
structure DiscountOk (d : Discount) : Prop where
  zero : d.amount 0 = 0
  nonneg : ∀ j ≤ 3, 0 ≤ d.amount j
  le : ∀ j ≤ 3, d.amount j ≤ j

theorem DiscountOk.get_nonneg {d : Discount} (h : DiscountOk d) (c : Nat) : 0 ≤ d.get c := h.nonneg _ (min_le_right _ _)

theorem DiscountOk.apply_nonneg {d : Discount} (h : DiscountOk d) (c : Nat) : 0 ≤ d.apply c := by
  unfold Discount.apply Discount.get
  have h1 := h.le (min c 3) (min_le_right _ _)
  have h2 : ((min c 3 : Nat) : Rat) ≤ c := by exact_mod_cast min_le_left _ _
  linarith

/-- What a record gives to the back-off weight. -/
def toBackoff (d : Discount) (r : AdjRec) : Rat := if r.marked then (r.count : Rat) else d.get r.count

theorem sum_split {d : Discount} (hz : d.amount 0 = 0) (G : List AdjRec) :
    (ctxSums d G).gamma = (G.map (toBackoff d)).sum / (((G.map (·.count)).sum : Nat) : Rat) := by
  unfold ctxSums
  simp only []
  congr 1
  induction G with
  | nil => simp
  | cons r G ih =>
    rw [List.map_cons (f := toBackoff d), List.sum_cons (a := toBackoff d r), ← ih]
    unfold toBackoff
    by_cases hm : r.marked = true
    · simp only [AdjRec.cutoff, hm, if_true, List.map_cons, List.sum_cons, Nat.sub_zero, lt_irrefl, false_and, decide_false,
        Bool.false_eq_true, not_false_eq_true, List.filter_cons_of_neg]
      push_cast
      ring
    · have hm : r.marked = false := by simpa using hm
      simp only [hm, Bool.false_eq_true, if_false]
      have hc : r.cutoff = r.count := by simp [AdjRec.cutoff, hm]
      rw [List.map_cons, List.sum_cons, hc, Nat.sub_self, Nat.zero_add]
      rcases Nat.eq_zero_or_pos r.count with h0 | hp
      · simp only [List.filter_cons, hc, h0, lt_irrefl, false_and, decide_false, Bool.false_eq_true, if_false]
        have : d.get 0 = 0 := hz
        rw [this]; ring
      · have hcases : min r.count 3 = 1 ∨ min r.count 3 = 2 ∨ min r.count 3 = 3 := by omega
        have hg : ∀ j, min r.count 3 = j → d.get r.count = d.get j := by
          intro j hj
          unfold Discount.get
          rw [← hj]
          congr 1
          omega
        rcases hcases with h | h | h <;>
        · simp only [List.filter_cons, hc, hp, h, true_and, decide_true, decide_false, if_true, Bool.false_eq_true, if_false, List.length_cons,
            Nat.reduceEqDiff, OfNat.one_ne_ofNat, OfNat.ofNat_ne_one]
          rw [hg _ h]
          push_cast
          ring

theorem gammaOf_eq {d : Discount} (hz : d.amount 0 = 0) (recs : List AdjRec) (h : Gram) :
    gammaOf d recs h = ((withCtx recs h).map (toBackoff d)).sum / denOf recs h := sum_split hz _

/-- The probability mass of a context and its back-off weight add up to one. -/
theorem mass_eq {d : Discount} (hz : d.amount 0 = 0) {recs : List AdjRec} {h : Gram} (hd : denOf recs h ≠ 0)
    (hk : ∀ r ∈ recs, r.keep = true → r.marked = false) :
    (((withCtx recs h).filter (·.keep)).map fun r => d.apply r.count / denOf recs h).sum + gammaOf d recs h = 1 := by
  rw [gammaOf_eq hz]
  have hsum : ∀ l : List AdjRec, (∀ r ∈ l, r.keep = true → r.marked = false) →
      ((l.filter (·.keep)).map fun r => d.apply r.count / denOf recs h).sum + (l.map (toBackoff d)).sum / denOf recs h =
        (((l.map (·.count)).sum : Nat) : Rat) / denOf recs h := by
    intro l
    induction l with
    | nil => simp
    | cons r l ih =>
      intro hl
      have ih := ih fun q hq => hl q (by simp [hq])
      have hr := hl r (by simp)
      simp only [List.filter_cons, List.map_cons, List.sum_cons, Nat.cast_add, add_div]
      rw [← ih]
      by_cases hkr : r.keep = true
      · rw [if_pos hkr]
        simp only [List.map_cons, List.sum_cons, toBackoff, hr hkr, Bool.false_eq_true, if_false]
        unfold Discount.apply
        rw [sub_div]
        ring
      · rw [if_neg hkr]
        have : toBackoff d r = r.count := by
          unfold toBackoff
          by_cases hm : r.marked = true
          · rw [if_pos hm]
          · rw [if_neg hm]
            have h0 : r.count = 0 := by
              unfold AdjRec.keep AdjRec.cutoff at hkr
              rw [if_neg hm] at hkr
              simp only [decide_eq_true_eq] at hkr
              omega
            rw [h0]
            simpa [Discount.get] using hz
        rw [this]
        ring
  rw [hsum (withCtx recs h) fun r hr => hk r (List.mem_filter.1 hr).1]
  exact div_self hd

end Cdec.Klm.Builder
