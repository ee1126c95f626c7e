import Verif.Train.ConvexHullSpec
import Mathlib.Tactic.Linarith
import Mathlib.Tactic.Ring
import Mathlib.Algebra.Order.Field.Basic
/-! # Lemmas about upper envelopes -/
namespace Cdec.Mert
open Spec
variable {K : Type} [Field K] [LinearOrder K] [IsStrictOrderedRing K]

theorem le_isect (u t : Pt K) (h : u.m < t.m) (x : K) : x ≤ (t.b - u.b) / (u.m - t.m) ↔ lineAt t x ≤ lineAt u x := by
  have hn : u.m - t.m < 0 := sub_neg.mpr h
  rw [le_div_iff_of_neg hn]
  unfold lineAt
  constructor <;> intro h1 <;> nlinarith

theorem isect_le (u t : Pt K) (h : u.m < t.m) (x : K) : (t.b - u.b) / (u.m - t.m) ≤ x ↔ lineAt u x ≤ lineAt t x := by
  have hn : u.m - t.m < 0 := sub_neg.mpr h
  rw [div_le_iff_of_neg hn]
  unfold lineAt
  constructor <;> intro h1 <;> nlinarith

omit [IsStrictOrderedRing K] in
theorem lineAt_setx (p : Pt K) (v : WithBot K) (x : K) : lineAt { p with x := v } x = lineAt p x := rfl

/-- A stack of segments, top first. -/
def WF : List (Pt K) → Prop
  | [] => True
  | [p] => p.x = ⊥
  | t :: u :: st => u.m < t.m ∧ t.x = (((t.b - u.b) / (u.m - t.m) : K) : WithBot K) ∧ u.x < t.x ∧ WF (u :: st)

omit [IsStrictOrderedRing K] in
theorem WF.tail {t : Pt K} {st : List (Pt K)} (h : WF (t :: st)) : WF st := by
  cases st with
  | nil => trivial
  | cons u st => exact h.2.2.2

/-- All slopes of the stack are below `m`. -/
theorem WF.slopes {t : Pt K} {st : List (Pt K)} (h : WF (t :: st)) : ∀ u ∈ st, u.m < t.m := by
  induction st generalizing t with
  | nil => simp
  | cons u st ih =>
    intro v hv
    obtain ⟨h1, _, _, h4⟩ := h
    rcases List.mem_cons.1 hv with rfl | hv
    · exact h1
    · exact lt_trans (ih h4 v hv) h1

/-- Every line of `P` is, at every point, below some line of `S`. -/
def Dom (P S : List (Pt K)) : Prop := ∀ p ∈ P, ∀ x : K, ∃ s ∈ S, lineAt p x ≤ lineAt s x

omit [IsStrictOrderedRing K] in
theorem Dom.trans {P S T : List (Pt K)} (h : Dom P S) (h' : Dom S T) : Dom P T := by
  intro p hp x
  obtain ⟨s, hs, h1⟩ := h p hp x
  obtain ⟨t, ht, h2⟩ := h' s hs x
  exact ⟨t, ht, le_trans h1 h2⟩

omit [IsStrictOrderedRing K] in
theorem Dom.of_subset {P S : List (Pt K)} (h : ∀ p ∈ P, p ∈ S) : Dom P S := fun p hp _ => ⟨p, h p hp, le_refl _⟩

theorem popWhile_spec (l : Pt K) (st : List (Pt K)) (d : WithBot K) (hw : WF st) (hm : ∀ t ∈ st, t.m < l.m) :
    WF ({ l with x := (popWhile l st d).2 } :: (popWhile l st d).1) ∧
      Dom st ({ l with x := (popWhile l st d).2 } :: (popWhile l st d).1) ∧
      (∀ t ∈ (popWhile l st d).1, t ∈ st) := by
  induction st generalizing d with
  | nil => exact ⟨rfl, fun p hp => absurd hp (by simp), by simp [popWhile]⟩
  | cons t st ih =>
    simp only [popWhile]
    by_cases hlt : t.x < (((l.b - t.b) / (t.m - l.m) : K) : WithBot K)
    · rw [if_pos hlt]
      refine ⟨⟨hm t (by simp), rfl, hlt, hw⟩, Dom.of_subset (fun p hp => by simp at hp ⊢; right; exact hp), by simp⟩
    · rw [if_neg hlt]
      have ih' := ih (((l.b - t.b) / (t.m - l.m) : K) : WithBot K) hw.tail (fun u hu => hm u (by simp [hu]))
      refine ⟨ih'.1, ?_, fun u hu => by simp [ih'.2.2 u hu]⟩
      have hl : ∀ (p : Pt K) (x : K), lineAt p x ≤ lineAt l x → ∃ s ∈ ({ l with x := (popWhile l st (((l.b - t.b) / (t.m - l.m) : K) : WithBot K)).2 } :: (popWhile l st (((l.b - t.b) / (t.m - l.m) : K) : WithBot K)).1), lineAt p x ≤ lineAt s x :=
        fun p x h => ⟨_, List.mem_cons_self, h⟩
      intro p hp x
      rcases List.mem_cons.1 hp with rfl | hp
      · cases st with
        | nil =>
          exfalso
          apply hlt
          have : p.x = ⊥ := hw
          rw [this]
          exact WithBot.bot_lt_coe _
        | cons u st =>
          obtain ⟨h1, h2, h3, h4⟩ := hw
          rcases le_total x ((p.b - u.b) / (u.m - p.m)) with hx | hx
          · obtain ⟨s, hs, h5⟩ := ih'.2.1 u (by simp) x
            exact ⟨s, hs, le_trans ((le_isect u p h1 x).1 hx) h5⟩
          · apply hl
            rw [← isect_le p l (hm p (by simp))]
            have h5 : (((l.b - p.b) / (p.m - l.m) : K) : WithBot K) ≤ p.x := not_lt.1 hlt
            rw [h2, WithBot.coe_le_coe] at h5
            exact le_trans h5 hx
      · exact ih'.2.1 p hp x

/-- The step of the sort keeps the stack well formed, and drops only dominated lines. -/
theorem sortStep_spec (st : List (Pt K)) (l : Pt K) (hw : WF st) (hm : ∀ t ∈ st, t.m ≤ l.m) :
    WF (sortStep st l) ∧ Dom (l :: st) (sortStep st l) ∧
      (∀ s ∈ sortStep st l, ∃ p ∈ l :: st, s.m = p.m ∧ s.b = p.b ∧ s.prov = p.prov) := by
  cases st with
  | nil =>
    refine ⟨rfl, ?_, fun s hs => ⟨l, by simp, ?_⟩⟩
    · intro p hp x
      simp at hp
      subst hp
      exact ⟨_, List.mem_singleton.2 rfl, le_refl _⟩
    · simp [sortStep] at hs
      subst hs
      exact ⟨rfl, rfl, rfl⟩
  | cons t st =>
    simp only [sortStep]
    by_cases h1 : t.m = l.m
    · rw [if_pos h1]
      by_cases h2 : l.b ≤ t.b
      · rw [if_pos h2]
        refine ⟨hw, ?_, fun s hs => ⟨s, by simp at hs ⊢; tauto, rfl, rfl, rfl⟩⟩
        intro p hp x
        rcases List.mem_cons.1 hp with rfl | hp
        · refine ⟨t, by simp, ?_⟩
          unfold lineAt
          rw [h1]
          linarith
        · exact ⟨p, hp, le_refl _⟩
      · rw [if_neg h2]
        have := popWhile_spec l st ⊥ hw.tail (fun u hu => by rw [← h1]; exact hw.slopes u hu)
        refine ⟨this.1, ?_, ?_⟩
        · intro p hp x
          simp only [List.mem_cons] at hp
          rcases hp with rfl | rfl | hp
          · exact ⟨_, List.mem_cons_self, le_refl _⟩
          · refine ⟨_, List.mem_cons_self, ?_⟩
            rw [lineAt_setx]
            unfold lineAt
            rw [h1]
            linarith [not_le.1 h2]
          · exact this.2.1 p hp x
        · intro s hs
          rcases List.mem_cons.1 hs with rfl | hs
          · exact ⟨l, by simp, rfl, rfl, rfl⟩
          · exact ⟨s, by simp [this.2.2 s hs], rfl, rfl, rfl⟩
    · rw [if_neg h1]
      have htm : t.m < l.m := lt_of_le_of_ne (hm t (by simp)) h1
      have := popWhile_spec l (t :: st) ⊥ hw (fun u hu => by
        rcases List.mem_cons.1 hu with rfl | hu
        · exact htm
        · exact lt_trans (hw.slopes u hu) htm)
      refine ⟨this.1, ?_, ?_⟩
      · intro p hp x
        rcases List.mem_cons.1 hp with rfl | hp
        · exact ⟨_, List.mem_cons_self, le_refl _⟩
        · exact this.2.1 p hp x
      · intro s hs
        rcases List.mem_cons.1 hs with rfl | hs
        · exact ⟨l, by simp, rfl, rfl, rfl⟩
        · exact ⟨s, List.mem_cons_of_mem _ (this.2.2 s hs), rfl, rfl, rfl⟩

/-- The whole loop. -/
theorem foldl_sortStep_spec (ls : List (Pt K)) (st : List (Pt K)) (hs : ls.Pairwise (fun a b => a.m ≤ b.m)) (hw : WF st)
    (hm : ∀ t ∈ st, ∀ l ∈ ls, t.m ≤ l.m) :
    WF (ls.foldl sortStep st) ∧ Dom (ls ++ st) (ls.foldl sortStep st) ∧
      (∀ s ∈ ls.foldl sortStep st, ∃ p ∈ ls ++ st, s.m = p.m ∧ s.b = p.b ∧ s.prov = p.prov) := by
  induction ls generalizing st with
  | nil => exact ⟨hw, Dom.of_subset (by simp), fun s h => ⟨s, by simpa using h, rfl, rfl, rfl⟩⟩
  | cons l ls ih =>
    obtain ⟨w, d, o⟩ := sortStep_spec st l hw (fun t ht => hm t ht l (by simp))
    have hp := List.pairwise_cons.1 hs
    obtain ⟨w', d', o'⟩ := ih (sortStep st l) hp.2 w (by
      intro t ht l' hl'
      obtain ⟨p, hp1, hpm, _⟩ := o t ht
      rw [hpm]
      rcases List.mem_cons.1 hp1 with rfl | hp1
      · exact hp.1 l' hl'
      · exact hm p hp1 l' (by simp [hl']))
    refine ⟨w', ?_, ?_⟩
    · intro p hp1 x
      simp only [List.cons_append, List.mem_cons, List.mem_append] at hp1
      rcases hp1 with rfl | h1 | h1
      · obtain ⟨s, hs1, h2⟩ := d p (by simp) x
        obtain ⟨s', hs', h3⟩ := d' s (by simp [hs1]) x
        exact ⟨s', hs', le_trans h2 h3⟩
      · exact d' p (by simp [h1]) x
      · obtain ⟨s, hs1, h2⟩ := d p (by simp [h1]) x
        obtain ⟨s', hs', h3⟩ := d' s (by simp [hs1]) x
        exact ⟨s', hs', le_trans h2 h3⟩
    · intro s hs1
      obtain ⟨p, hp1, e⟩ := o' s hs1
      rcases List.mem_append.1 hp1 with h1 | h1
      · exact ⟨p, by simp [h1], e⟩
      · obtain ⟨p', hp', e'⟩ := o p h1
        refine ⟨p', ?_, e.1.trans e'.1, e.2.1.trans e'.2.1, e.2.2.trans e'.2.2⟩
        simp only [List.mem_cons, List.cons_append, List.mem_append] at hp' ⊢
        tauto

/-! ## The value of a list of lines -/

omit [IsStrictOrderedRing K] in
theorem le_value {pts : List (Pt K)} {p : Pt K} (h : p ∈ pts) (x : K) : ((lineAt p x : K) : WithBot K) ≤ value pts x := by
  induction pts with
  | nil => simp at h
  | cons q pts ih =>
    show _ ≤ max _ (value pts x)
    rcases List.mem_cons.1 h with rfl | h
    · exact le_max_left _ _
    · exact le_trans (ih h) (le_max_right _ _)

omit [IsStrictOrderedRing K] in
theorem value_le {pts : List (Pt K)} {x : K} {v : WithBot K} (h : ∀ p ∈ pts, ((lineAt p x : K) : WithBot K) ≤ v) : value pts x ≤ v := by
  induction pts with
  | nil => exact bot_le
  | cons q pts ih =>
    show max _ (value pts x) ≤ _
    exact max_le (h q (by simp)) (ih fun p hp => h p (by simp [hp]))

omit [IsStrictOrderedRing K] in
theorem value_attained {pts : List (Pt K)} (h : pts ≠ []) (x : K) : ∃ p ∈ pts, value pts x = ((lineAt p x : K) : WithBot K) := by
  induction pts with
  | nil => exact absurd rfl h
  | cons q pts ih =>
    show ∃ p ∈ q :: pts, max _ (value pts x) = _
    by_cases hp : pts = []
    · subst hp
      exact ⟨q, by simp, max_eq_left bot_le⟩
    · obtain ⟨p, hp1, hp2⟩ := ih hp
      rcases le_total ((lineAt q x : K) : WithBot K) (value pts x) with hl | hl
      · exact ⟨p, by simp [hp1], by rw [max_eq_right hl, hp2]⟩
      · exact ⟨q, by simp, max_eq_left hl⟩

omit [IsStrictOrderedRing K] in
theorem value_eq_of_dom {P S : List (Pt K)} (h : Dom P S) (h' : Dom S P) (x : K) : value P x = value S x := by
  apply le_antisymm
  · apply value_le
    intro p hp
    obtain ⟨s, hs, h1⟩ := h p hp x
    exact le_trans (WithBot.coe_le_coe.2 h1) (le_value hs x)
  · apply value_le
    intro p hp
    obtain ⟨s, hs, h1⟩ := h' p hp x
    exact le_trans (WithBot.coe_le_coe.2 h1) (le_value hs x)

omit [IsStrictOrderedRing K] in
theorem value_append (P S : List (Pt K)) (x : K) : value (P ++ S) x = max (value P x) (value S x) := by
  induction P with
  | nil => exact (max_eq_right bot_le).symm
  | cons p P ih =>
    show max _ (value (P ++ S) x) = max (max _ (value P x)) _
    rw [ih, max_assoc]

omit [IsStrictOrderedRing K] in
theorem value_perm {P S : List (Pt K)} (h : P.Perm S) (x : K) : value P x = value S x :=
  value_eq_of_dom (Dom.of_subset fun _ hp => h.subset hp) (Dom.of_subset fun _ hp => h.symm.subset hp) x

/-! ## Well-formed stacks are segmented -/

/-- Below the top. -/
theorem WF.below {p : Pt K} {st : List (Pt K)} (h : WF (p :: st)) {x : K} (hx : p.x ≤ (x : WithBot K)) :
    ∀ q ∈ st, lineAt q x ≤ lineAt p x := by
  induction st generalizing p with
  | nil => simp
  | cons u st ih =>
    obtain ⟨h1, h2, h3, h4⟩ := h
    have hu : lineAt u x ≤ lineAt p x := by
      rw [← isect_le u p h1]
      rw [h2] at hx
      exact WithBot.coe_le_coe.1 hx
    intro q hq
    rcases List.mem_cons.1 hq with rfl | hq
    · exact hu
    · exact le_trans (ih h4 (le_trans (le_of_lt h3) hx) q hq) hu

/-- Above a point of the stack. -/
theorem WF.above (post : List (Pt K)) {p : Pt K} {pre : List (Pt K)} (h : WF (post ++ p :: pre)) {x : K}
    (hx : ∀ q, post.getLast? = some q → (x : WithBot K) ≤ q.x) : (∀ q ∈ post, lineAt q x ≤ lineAt p x) ∧
      (∀ q, (post ++ [p]).head? = some q → post ≠ [] → (x : WithBot K) ≤ q.x) := by
  induction post with
  | nil => simp
  | cons t post ih =>
    cases post with
    | nil =>
      simp only [List.cons_append, List.nil_append] at h
      obtain ⟨h1, h2, h3, h4⟩ := h
      have hx' := hx t (by simp)
      refine ⟨fun q hq => ?_, fun q hq _ => ?_⟩
      · simp at hq
        subst hq
        rw [← le_isect p q h1]
        rw [h2] at hx'
        exact WithBot.coe_le_coe.1 hx'
      · simp at hq
        subst hq
        exact hx'
    | cons u post =>
      simp only [List.cons_append] at h
      obtain ⟨h1, h2, h3, h4⟩ := h
      have ih' := ih h4 (fun q hq => hx q (by simpa [List.getLast?_cons_cons] using hq))
      have hxu : (x : WithBot K) ≤ u.x := ih'.2 u (by simp) (by simp)
      have hxt : (x : WithBot K) ≤ t.x := le_trans hxu (le_of_lt h3)
      refine ⟨fun q hq => ?_, fun q hq _ => ?_⟩
      · rcases List.mem_cons.1 hq with rfl | hq
        · refine le_trans ?_ (ih'.1 u (by simp))
          rw [← le_isect u q h1]
          rw [h2] at hxt
          exact WithBot.coe_le_coe.1 hxt
        · exact ih'.1 q hq
      · simp at hq
        subst hq
        exact hxt

omit [IsStrictOrderedRing K] in
theorem WF.drop (post : List (Pt K)) {st : List (Pt K)} (h : WF (post ++ st)) : WF st := by
  induction post with
  | nil => exact h
  | cons t post ih => exact ih h.tail

omit [IsStrictOrderedRing K] in
theorem WF.pairwise {st : List (Pt K)} (h : WF st) : st.Pairwise (fun p q => q.x < p.x) := by
  induction st with
  | nil => simp
  | cons t st ih =>
    refine List.pairwise_cons.2 ⟨?_, ih h.tail⟩
    cases st with
    | nil => simp
    | cons u st =>
      obtain ⟨_, _, h3, h4⟩ := h
      intro q hq
      rcases List.mem_cons.1 hq with rfl | hq
      · exact h3
      · exact lt_trans ((List.pairwise_cons.1 (ih h4)).1 q hq) h3

omit [IsStrictOrderedRing K] in
theorem WF.bottom {st : List (Pt K)} (h : WF st) : ∀ p, st.getLast? = some p → p.x = ⊥ := by
  induction st with
  | nil => simp
  | cons t st ih =>
    cases st with
    | nil => intro p hp; simp at hp; subst hp; exact h
    | cons u st => intro p hp; exact ih h.tail p (by simpa [List.getLast?_cons_cons] using hp)

theorem WF.segmented {st : List (Pt K)} (h : WF st) : Segmented st.reverse := by
  refine ⟨fun p hp => h.bottom p (by simpa using hp), ?_, ?_⟩
  · rw [List.pairwise_reverse]
    exact h.pairwise
  · intro k p hk x hpx hnx q hq
    obtain ⟨hlt, hget⟩ := List.getElem?_eq_some_iff.1 hk
    have e : st.reverse = st.reverse.take k ++ p :: st.reverse.drop (k + 1) := by
      rw [← hget, List.getElem_cons_drop, List.take_append_drop]
    have e' : st = (st.reverse.drop (k + 1)).reverse ++ p :: (st.reverse.take k).reverse := by
      have := congrArg List.reverse e
      rw [List.reverse_reverse] at this
      rw [List.reverse_append, List.reverse_cons, List.append_assoc] at this
      exact this
    have hw : WF ((st.reverse.drop (k + 1)).reverse ++ p :: (st.reverse.take k).reverse) := by rw [← e']; exact h
    rw [e] at hq
    rcases List.mem_append.1 hq with hq | hq
    · exact (WF.drop _ hw).below hpx q (by simpa using hq)
    · rcases List.mem_cons.1 hq with rfl | hq
      · exact le_refl _
      · refine (WF.above _ hw (x := x) ?_).1 q (by simpa using hq)
        intro r hr
        apply hnx r
        rw [List.getLast?_reverse, List.head?_drop] at hr
        exact hr

/-- `Sort` on values. -/
theorem envelope_spec (ls : List (Pt K)) (hs : ls.Pairwise (fun a b => a.m ≤ b.m)) :
    Segmented (envelope ls) ∧ (∀ x, value (envelope ls) x = value ls x) ∧
      (∀ s ∈ envelope ls, ∃ p ∈ ls, s.m = p.m ∧ s.b = p.b ∧ s.prov = p.prov) := by
  obtain ⟨w, d, o⟩ := foldl_sortStep_spec ls [] hs trivial (by simp)
  rw [List.append_nil] at d o
  refine ⟨w.segmented, fun x => ?_, fun s hs => o s (by simpa [envelope] using hs)⟩
  unfold envelope
  rw [value_perm (List.reverse_perm _)]
  symm
  refine value_eq_of_dom d ?_ x
  intro s hs y
  obtain ⟨p, hp, e⟩ := o s hs
  exact ⟨p, hp, le_of_eq (by unfold lineAt; rw [e.1, e.2.1])⟩

/-! ## Merging -/

/-- The segments agree with `f`. -/
def SegF (f : K → K) : List (Pt K) → Prop
  | [] => True
  | p :: ps => (∀ x : K, p.x ≤ (x : WithBot K) → (((x : K) : WithBot K) : WithTop (WithBot K)) ≤ nextVal (p :: ps) → lineAt p x = f x) ∧
      ((p.x : WithTop (WithBot K)) < nextVal (p :: ps)) ∧ SegF f ps

omit [IsStrictOrderedRing K] in
theorem SegF.cover {f : K → K} {p : Pt K} {ps : List (Pt K)} (h : SegF f (p :: ps)) {x : K} (hx : p.x ≤ (x : WithBot K)) :
    ∃ q ∈ p :: ps, lineAt q x = f x := by
  induction ps generalizing p with
  | nil => exact ⟨p, by simp, h.1 x hx le_top⟩
  | cons q ps ih =>
    rcases le_total (x : WithBot K) q.x with hq | hq
    · exact ⟨p, by simp, h.1 x hx (WithTop.coe_le_coe.2 hq)⟩
    · obtain ⟨r, hr, e⟩ := ih h.2.2 hq
      exact ⟨r, by simp [hr], e⟩

/-- A nonempty segmented list is described by a function. -/
def Env (f : K → K) (l : List (Pt K)) : Prop :=
  SegF f l ∧ l ≠ [] ∧ (∀ p, l.head? = some p → p.x = ⊥) ∧ ∀ p ∈ l, ∀ x, lineAt p x ≤ f x

omit [IsStrictOrderedRing K] in
theorem Env.value {f : K → K} {l : List (Pt K)} (h : Env f l) (x : K) : value l x = ((f x : K) : WithBot K) := by
  obtain ⟨h1, h2, h3, h4⟩ := h
  apply le_antisymm
  · exact value_le fun p hp => WithBot.coe_le_coe.2 (h4 p hp x)
  · cases l with
    | nil => exact absurd rfl h2
    | cons p ps =>
      obtain ⟨q, hq, e⟩ := h1.cover (x := x) (by rw [h3 p rfl]; exact bot_le)
      rw [← e]
      exact le_value hq x

omit [IsStrictOrderedRing K] in
theorem SegF.pairwise {f : K → K} {l : List (Pt K)} (h : SegF f l) : l.Pairwise (fun p q => p.x < q.x) := by
  induction l with
  | nil => simp
  | cons p ps ih =>
    refine List.pairwise_cons.2 ⟨?_, ih h.2.2⟩
    cases ps with
    | nil => simp
    | cons q ps =>
      have hlt : p.x < q.x := WithTop.coe_lt_coe.1 h.2.1
      intro r hr
      rcases List.mem_cons.1 hr with rfl | hr
      · exact hlt
      · exact lt_trans hlt ((List.pairwise_cons.1 (ih h.2.2)).1 r hr)

omit [IsStrictOrderedRing K] in
theorem SegF.at {f : K → K} {l : List (Pt K)} (h : SegF f l) (k : Nat) (p : Pt K) (hk : l[k]? = some p) (x : K)
    (hx : p.x ≤ (x : WithBot K)) (hn : ∀ q, l[k + 1]? = some q → (x : WithBot K) ≤ q.x) : lineAt p x = f x := by
  induction k generalizing l with
  | zero =>
    cases l with
    | nil => simp at hk
    | cons q ps =>
      simp at hk
      subst hk
      refine h.1 x hx ?_
      cases ps with
      | nil => exact le_top
      | cons r ps => exact WithTop.coe_le_coe.2 (hn r rfl)
  | succ k ih =>
    cases l with
    | nil => simp at hk
    | cons q ps => exact ih h.2.2 (by simpa using hk) (by simpa using hn)

omit [IsStrictOrderedRing K] in
theorem Env.segmented {f : K → K} {l : List (Pt K)} (h : Env f l) : Segmented l := by
  obtain ⟨h1, h2, h3, h4⟩ := h
  refine ⟨h3, h1.pairwise, fun k p hk x hx hn q hq => ?_⟩
  rw [h1.at k p hk x hx hn]
  exact h4 q hq x

omit [IsStrictOrderedRing K] in
theorem segF_of {f : K → K} {l : List (Pt K)} (hp : l.Pairwise (fun p q => p.x < q.x))
    (h : ∀ (k : Nat) (p : Pt K), l[k]? = some p → ∀ x : K, p.x ≤ (x : WithBot K) →
      (∀ q, l[k + 1]? = some q → (x : WithBot K) ≤ q.x) → lineAt p x = f x) : SegF f l := by
  induction l with
  | nil => trivial
  | cons p ps ih =>
    have hp' := List.pairwise_cons.1 hp
    refine ⟨fun x hx hn => h 0 p rfl x hx ?_, ?_, ih hp'.2 (fun k q hk => h (k + 1) q (by simpa using hk))⟩
    · intro q hq
      cases ps with
      | nil => simp at hq
      | cons r ps =>
        simp at hq
        subst hq
        exact WithTop.coe_le_coe.1 hn
    · cases ps with
      | nil => exact WithTop.coe_lt_top _
      | cons r ps => exact WithTop.coe_lt_coe.2 (hp'.1 r (by simp))

omit [IsStrictOrderedRing K] in
theorem Segmented.env {l : List (Pt K)} (h : Segmented l) (hne : l ≠ []) : ∃ f : K → K, Env f l := by
  refine ⟨fun x => (Spec.value l x).unbotD 0, ?_, hne, h.first, ?_⟩
  · apply segF_of h.increasing
    intro k p hk x hx hn
    have hmem : p ∈ l := List.mem_of_getElem? hk
    have : Spec.value l x = ((lineAt p x : K) : WithBot K) :=
      le_antisymm (value_le fun q hq => WithBot.coe_le_coe.2 (h.maximal k p hk x hx hn q hq)) (le_value hmem x)
    simp only [this, WithBot.unbotD_coe]
  · intro p hp x
    obtain ⟨q, hq, e⟩ := value_attained hne x
    have h1 := le_value hp x
    rw [e] at h1
    simp only [e, WithBot.unbotD_coe]
    exact WithBot.coe_le_coe.1 h1

omit [IsStrictOrderedRing K] in
theorem merge_cons (p q : Pt K) (ps qs : List (Pt K)) (x : WithBot K) :
    merge (p :: ps) (q :: qs) x = ⟨x, p.m + q.m, p.b + q.b, .pair p.prov q.prov⟩ ::
      (if nextVal (p :: ps) < nextVal (q :: qs) then merge ps (q :: qs) ((nextVal (p :: ps)).untopD ⊥)
       else if nextVal (p :: ps) > nextVal (q :: qs) then merge (p :: ps) qs ((nextVal (q :: qs)).untopD ⊥)
       else merge ps qs ((nextVal (p :: ps)).untopD ⊥)) := by rw [merge]

theorem lineAt_sum (x : WithBot K) (p q : Pt K) (r : Prov) (y : K) :
    lineAt (⟨x, p.m + q.m, p.b + q.b, r⟩ : Pt K) y = lineAt p y + lineAt q y := by
  unfold lineAt
  simp only []
  ring

omit [IsStrictOrderedRing K] in
theorem merge_ind {motive : List (Pt K) → List (Pt K) → WithBot K → Prop}
    (case1 : ∀ p ps q qs x, nextVal (p :: ps) < nextVal (q :: qs) →
      motive ps (q :: qs) ((nextVal (p :: ps)).untopD ⊥) → motive (p :: ps) (q :: qs) x)
    (case2 : ∀ p ps q qs x, ¬ nextVal (p :: ps) < nextVal (q :: qs) → nextVal (p :: ps) > nextVal (q :: qs) →
      motive (p :: ps) qs ((nextVal (q :: qs)).untopD ⊥) → motive (p :: ps) (q :: qs) x)
    (case3 : ∀ p ps q qs x, ¬ nextVal (p :: ps) < nextVal (q :: qs) → ¬ nextVal (p :: ps) > nextVal (q :: qs) →
      motive ps qs ((nextVal (p :: ps)).untopD ⊥) → motive (p :: ps) (q :: qs) x)
    (case4 : ∀ a b x, (∀ p ps q qs, a = p :: ps → b = q :: qs → False) → motive a b x)
    (a b : List (Pt K)) (x : WithBot K) : motive a b x := by
  induction a, b, x using merge.induct with
  | case1 p ps q qs x i1 i2 i3 =>
    by_cases h1 : nextVal (p :: ps) < nextVal (q :: qs)
    · exact case1 p ps q qs x h1 i1
    · by_cases h2 : nextVal (p :: ps) > nextVal (q :: qs)
      · exact case2 p ps q qs x h1 h2 i2
      · exact case3 p ps q qs x h1 h2 i3
  | case2 a b x h => exact case4 a b x h

theorem merge_mem (a b : List (Pt K)) (x : WithBot K) :
    ∀ r ∈ merge a b x, ∃ p ∈ a, ∃ q ∈ b, r.m = p.m + q.m ∧ r.b = p.b + q.b ∧ r.prov = .pair p.prov q.prov := by
  induction a, b, x using merge_ind with
  | case1 p ps q qs x h1 ih =>
    rw [merge_cons, if_pos h1]
    intro r hr
    rcases List.mem_cons.1 hr with rfl | hr
    · exact ⟨p, by simp, q, by simp, rfl, rfl, rfl⟩
    · obtain ⟨p', hp', q', hq', e⟩ := ih r hr
      exact ⟨p', by simp [hp'], q', hq', e⟩
  | case2 p ps q qs x h1 h2 ih =>
    rw [merge_cons, if_neg h1, if_pos h2]
    intro r hr
    rcases List.mem_cons.1 hr with rfl | hr
    · exact ⟨p, by simp, q, by simp, rfl, rfl, rfl⟩
    · obtain ⟨p', hp', q', hq', e⟩ := ih r hr
      exact ⟨p', hp', q', by simp [hq'], e⟩
  | case3 p ps q qs x h1 h2 ih =>
    rw [merge_cons, if_neg h1, if_neg h2]
    intro r hr
    rcases List.mem_cons.1 hr with rfl | hr
    · exact ⟨p, by simp, q, by simp, rfl, rfl, rfl⟩
    · obtain ⟨p', hp', q', hq', e⟩ := ih r hr
      exact ⟨p', by simp [hp'], q', by simp [hq'], e⟩
  | case4 a b x h =>
    have : merge a b x = [] := by
      cases a with
      | nil => simp [merge]
      | cons p ps =>
        cases b with
        | nil => simp [merge]
        | cons q qs => exact (h p ps q qs rfl rfl).elim
    rw [this]
    simp

omit [IsStrictOrderedRing K] in
theorem nextVal_head (p p' : Pt K) (ps : List (Pt K)) : nextVal (p :: p' :: ps) = (p'.x : WithTop (WithBot K)) := rfl

theorem merge_segF {f g : K → K} (a b : List (Pt K)) (x : WithBot K) (ha : SegF f a) (hb : SegF g b)
    (hax : ∀ p, a.head? = some p → p.x ≤ x ∧ (x : WithTop (WithBot K)) < nextVal a)
    (hbx : ∀ p, b.head? = some p → p.x ≤ x ∧ (x : WithTop (WithBot K)) < nextVal b) :
    SegF (fun y => f y + g y) (merge a b x) ∧ ∀ r, (merge a b x).head? = some r → r.x = x := by
  induction a, b, x using merge_ind with
  | case1 p ps q qs x h1 ih =>
    rw [merge_cons, if_pos h1]
    refine ⟨?_, fun r hr => by simp at hr; subst hr; rfl⟩
    cases ps with
    | nil => exact absurd h1 (by simp [nextVal])
    | cons p' ps =>
      rw [nextVal_head, WithTop.untopD_coe] at *
      have hp := hax p rfl
      have hq := hbx q rfl
      have hxp : x < p'.x := WithTop.coe_lt_coe.1 hp.2
      obtain ⟨i1, i2⟩ := ih ha.2.2 hb
        (fun r hr => by simp at hr; subst hr; exact ⟨le_refl _, ha.2.2.2.1⟩)
        (fun r hr => by
          simp at hr; subst hr
          exact ⟨le_trans hq.1 (le_of_lt hxp), h1⟩)
      rw [merge_cons] at i1 i2 ⊢
      refine ⟨fun y hy hn => ?_, WithTop.coe_lt_coe.2 hxp, i1⟩
      rw [nextVal_head] at hn
      rw [lineAt_sum, ha.1 y (le_trans hp.1 hy) hn, hb.1 y (le_trans hq.1 hy) (le_trans hn (le_of_lt h1))]
  | case2 p ps q qs x h1 h2 ih =>
    rw [merge_cons, if_neg h1, if_pos h2]
    refine ⟨?_, fun r hr => by simp at hr; subst hr; rfl⟩
    cases qs with
    | nil => exact absurd h2 (by simp [nextVal])
    | cons q' qs =>
      rw [nextVal_head, WithTop.untopD_coe] at *
      have hp := hax p rfl
      have hq := hbx q rfl
      have hxq : x < q'.x := WithTop.coe_lt_coe.1 hq.2
      obtain ⟨i1, i2⟩ := ih ha hb.2.2
        (fun r hr => by
          simp at hr; subst hr
          exact ⟨le_trans hp.1 (le_of_lt hxq), h2⟩)
        (fun r hr => by simp at hr; subst hr; exact ⟨le_refl _, hb.2.2.2.1⟩)
      rw [merge_cons] at i1 i2 ⊢
      refine ⟨fun y hy hn => ?_, WithTop.coe_lt_coe.2 hxq, i1⟩
      rw [nextVal_head] at hn
      rw [lineAt_sum, ha.1 y (le_trans hp.1 hy) (le_trans hn (le_of_lt h2)), hb.1 y (le_trans hq.1 hy) hn]
  | case3 p ps q qs x h1 h2 ih =>
    have heq : nextVal (p :: ps) = nextVal (q :: qs) := le_antisymm (not_lt.1 h2) (not_lt.1 h1)
    rw [merge_cons, if_neg h1, if_neg h2]
    refine ⟨?_, fun r hr => by simp at hr; subst hr; rfl⟩
    have hp := hax p rfl
    have hq := hbx q rfl
    cases ps with
    | nil =>
      cases qs with
      | nil =>
        simp only [merge]
        refine ⟨fun y hy _ => ?_, WithTop.coe_lt_top _, trivial⟩
        rw [lineAt_sum, ha.1 y (le_trans hp.1 hy) le_top, hb.1 y (le_trans hq.1 hy) le_top]
      | cons q' qs => exact absurd heq.symm (WithTop.coe_ne_top)
    | cons p' ps =>
      cases qs with
      | nil => exact absurd heq (WithTop.coe_ne_top)
      | cons q' qs =>
        rw [nextVal_head, nextVal_head] at heq
        have e : p'.x = q'.x := WithTop.coe_inj.1 heq
        rw [nextVal_head, WithTop.untopD_coe] at *
        have hxp : x < p'.x := WithTop.coe_lt_coe.1 hp.2
        obtain ⟨i1, i2⟩ := ih ha.2.2 hb.2.2
          (fun r hr => by simp at hr; subst hr; exact ⟨le_refl _, ha.2.2.2.1⟩)
          (fun r hr => by simp at hr; subst hr; rw [e]; exact ⟨le_refl _, hb.2.2.2.1⟩)
        rw [merge_cons] at i1 i2 ⊢
        refine ⟨fun y hy hn => ?_, WithTop.coe_lt_coe.2 hxp, i1⟩
        rw [nextVal_head] at hn
        rw [lineAt_sum, ha.1 y (le_trans hp.1 hy) hn, hb.1 y (le_trans hq.1 hy) (by rw [nextVal_head, ← e]; exact hn)]
  | case4 a b x h =>
    have : merge a b x = [] := by
      cases a with
      | nil => simp [merge]
      | cons p ps =>
        cases b with
        | nil => simp [merge]
        | cons q qs => exact (h p ps q qs rfl rfl).elim
    rw [this]
    exact ⟨trivial, by simp⟩

theorem merge_env {f g : K → K} {a b : List (Pt K)} (ha : Env f a) (hb : Env g b) :
    Env (fun y => f y + g y) (merge a b ⊥) := by
  obtain ⟨a1, a2, a3, a4⟩ := ha
  obtain ⟨b1, b2, b3, b4⟩ := hb
  have hh : ∀ (h : K → K) (l : List (Pt K)), SegF h l → (∀ p, l.head? = some p → p.x = ⊥) →
      ∀ p, l.head? = some p → p.x ≤ (⊥ : WithBot K) ∧ ((⊥ : WithBot K) : WithTop (WithBot K)) < nextVal l := by
    intro h l hl h0 p hp
    have e := h0 p hp
    cases l with
    | nil => simp at hp
    | cons q ps =>
      simp at hp
      subst hp
      refine ⟨le_of_eq e, ?_⟩
      rw [← e]
      exact hl.2.1
  obtain ⟨m1, m2⟩ := merge_segF a b ⊥ a1 b1 (hh f a a1 a3) (hh g b b1 b3)
  refine ⟨m1, ?_, m2, ?_⟩
  · cases a with
    | nil => exact absurd rfl a2
    | cons p ps =>
      cases b with
      | nil => exact absurd rfl b2
      | cons q qs => rw [merge_cons]; simp
  · intro r hr x
    obtain ⟨p, hp, q, hq, e1, e2, -⟩ := merge_mem a b ⊥ r hr
    have e : lineAt r x = lineAt p x + lineAt q x := by
      simp only [lineAt, e1, e2]
      ring
    rw [e]
    exact add_le_add (a4 p hp x) (b4 q hq x)

theorem shift_segF {f : K → K} (e : Pt K) (l : List (Pt K)) (h : SegF f l) :
    SegF (fun y => lineAt e y + f y) (l.map fun p => ⟨p.x, p.m + e.m, p.b + e.b, .pair e.prov p.prov⟩) := by
  induction l with
  | nil => trivial
  | cons p ps ih =>
    have hn : nextVal ((p :: ps).map fun p => (⟨p.x, p.m + e.m, p.b + e.b, .pair e.prov p.prov⟩ : Pt K)) = nextVal (p :: ps) := by
      cases ps <;> rfl
    refine ⟨fun y hy hny => ?_, ?_, ih h.2.2⟩
    · rw [lineAt_sum, h.1 y hy (by rw [← hn]; exact hny), add_comm]
    · show _ < nextVal ((p :: ps).map fun p => (⟨p.x, p.m + e.m, p.b + e.b, .pair e.prov p.prov⟩ : Pt K))
      rw [hn]
      exact h.2.1

end Cdec.Mert
