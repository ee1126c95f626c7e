import Verif.Train.LineSearch
import Mathlib.Tactic.Linarith
import Mathlib.Data.List.Sort
import Mathlib.Algebra.Order.Ring.Rat
import Mathlib.Algebra.Field.Rat
/-!
# C35: the line search finds a position with the best score
-/
namespace Cdec.Mert
variable {K : Type} [Field K] [LinearOrder K] {S R : Type} [AddCommMonoid S] [LinearOrder R]

namespace Spec

/-- The statistics at `y`: the sum over the segments, of all surfaces, that start at or before `y`. -/
def statsAt (surfaces : List (List (Seg K S))) (y : K) : S :=
  ((surfaces.flatten.filter fun s => decide (s.x ≤ (y : WithBot K))).map Seg.delta).sum

/-- `b` is at least as good as `a`. -/
def AtLeast : ScoreType → R → R → Prop
  | .maximize, b, a => a ≤ b
  | .minimize, b, a => b ≤ a

/-- `b` is strictly better than `a`. -/
def Beats : ScoreType → R → R → Prop
  | .maximize, b, a => a < b
  | .minimize, b, a => b < a

/-- Distinct breakpoints are more than `eps` apart. -/
def Separated (eps : K) (surfaces : List (List (Seg K S))) : Prop :=
  ∀ s ∈ surfaces.flatten, ∀ t ∈ surfaces.flatten, ∀ a b : K, s.x = (a : WithBot K) → t.x = (b : WithBot K) → a < b → eps < b - a

end Spec
open Spec

theorem better_iff (type : ScoreType) (a b : R) : better type a b = true ↔ Beats type a b := by
  cases type <;> simp [better, Beats]

theorem atLeast_iff (type : ScoreType) (a b : R) : AtLeast type a b ↔ ¬ Beats type b a := by
  cases type <;> simp [AtLeast, Beats]

theorem AtLeast.refl (type : ScoreType) (a : R) : AtLeast type a a := by cases type <;> simp [AtLeast]

theorem AtLeast.trans {type : ScoreType} {a b c : R} (h : AtLeast type a b) (h' : AtLeast type b c) : AtLeast type a c := by
  cases type
  · exact le_trans (α := R) h' h
  · exact le_trans (α := R) h h'

theorem Beats.atLeast {type : ScoreType} {a b : R} (h : Beats type a b) : AtLeast type a b := by
  cases type
  · exact le_of_lt (α := R) h
  · exact le_of_lt (α := R) h

/-- The invariant after the segments `done`. -/
structure LInv (metric : S → R) (type : ScoreType) (worst : R) (all done : List (Seg K S)) (s : LState K S R) : Prop where
  acc : s.acc = (done.map Seg.delta).sum
  last : ∀ d, done.getLast? = some d → s.last = d.x
  start : s.last = ⊥ → s.leftEdge = true ∧ s.best = worst
  covered : ∀ y : K, (y : WithBot K) < s.last →
    AtLeast type s.best (metric (((all.filter fun s => decide (s.x ≤ (y : WithBot K))).map Seg.delta).sum))
  found : s.last ≠ ⊥ → s.leftEdge = false ∧ ∃ p : K, s.pos = some p ∧ (p : WithBot K) < s.last ∧
    s.best = metric (((all.filter fun s => decide (s.x ≤ (p : WithBot K))).map Seg.delta).sum)

omit [Field K] [AddCommMonoid S] in
/-- The segments active between two consecutive breakpoints of a sorted list. -/
theorem filter_between {done todo : List (Seg K S)} (h : (done ++ todo).Pairwise (fun a b => a.x ≤ b.x)) {y : K}
    (h1 : ∀ d, done.getLast? = some d → d.x ≤ (y : WithBot K)) (h2 : ∀ d, todo.head? = some d → (y : WithBot K) < d.x) :
    (done ++ todo).filter (fun s => decide (s.x ≤ (y : WithBot K))) = done := by
  have hp := List.pairwise_append.1 h
  rw [List.filter_append]
  have e1 : done.filter (fun s => decide (s.x ≤ (y : WithBot K))) = done := by
    rw [List.filter_eq_self]
    intro a ha
    rw [decide_eq_true_eq]
    rcases List.eq_nil_or_concat done with rfl | ⟨l, d, rfl⟩
    · simp at ha
    · have hd := h1 d (by simp)
      rw [List.concat_eq_append] at ha hp
      rcases List.mem_append.1 ha with ha | ha
      · exact le_trans ((List.pairwise_append.1 hp.1).2.2 a ha d (by simp)) hd
      · simp at ha
        subst ha
        exact hd
  have e2 : todo.filter (fun s => decide (s.x ≤ (y : WithBot K))) = [] := by
    rw [List.filter_eq_nil_iff]
    intro a ha
    rw [decide_eq_true_eq, not_le]
    cases todo with
    | nil => simp at ha
    | cons d l =>
      have hd := h2 d rfl
      rcases List.mem_cons.1 ha with rfl | ha
      · exact hd
      · exact lt_of_lt_of_le hd ((List.pairwise_cons.1 hp.2.1).1 a ha)
  rw [e1, e2, List.append_nil]

variable [IsStrictOrderedRing K]

theorem exceeds_of_lt {eps : K} {u v : WithBot K} (h : u < v)
    (hsep : ∀ a b : K, u = (a : WithBot K) → v = (b : WithBot K) → a < b → eps < b - a) : exceeds eps v u = true := by
  cases v with
  | bot => exact absurd h not_lt_bot
  | coe b =>
    cases u with
    | bot => rfl
    | coe a =>
      show decide (eps < b - a) = true
      rw [decide_eq_true_eq]
      exact hsep a b rfl rfl (WithBot.coe_lt_coe.1 h)

theorem exceeds_lt {eps : K} (he : 0 ≤ eps) {u v : WithBot K} (h : exceeds eps v u = true) : u < v := by
  cases v with
  | bot => exact absurd h (by cases u <;> exact Bool.false_ne_true)
  | coe b =>
    cases u with
    | bot => exact WithBot.bot_lt_coe b
    | coe a =>
      have h' : decide (eps < b - a) = true := h
      rw [decide_eq_true_eq] at h'
      exact WithBot.coe_lt_coe.2 (by linarith)

/-- The position chosen at a breakpoint lies in the interval that ends there. -/
theorem mid_between {u v : WithBot K} (h : u < v) (hu : u ≠ ⊥) :
    ∃ p : K, midPos u v = some p ∧ u ≤ (p : WithBot K) ∧ (p : WithBot K) < v := by
  cases v with
  | bot => exact absurd h not_lt_bot
  | coe b =>
    cases u with
    | bot => exact absurd rfl hu
    | coe a =>
      have h' := WithBot.coe_lt_coe.1 h
      refine ⟨a + (b - a) / 2, rfl, WithBot.coe_le_coe.2 ?_, WithBot.coe_lt_coe.2 ?_⟩ <;> linarith

theorem left_between {v : WithBot K} (h : ⊥ < v) : ∃ p : K, leftPos v = some p ∧ (p : WithBot K) < v := by
  cases v with
  | bot => exact absurd h not_lt_bot
  | coe b =>
    refine ⟨b - 1 / 10, rfl, WithBot.coe_lt_coe.2 ?_⟩
    have : (0 : K) < 1 / 10 := by positivity
    linarith

theorem lineStep_inv (metric : S → R) (type : ScoreType) (worst : R) {eps : K} (he : 0 ≤ eps)
    (hworst : ∀ st, Beats type (metric st) worst) {done todo : List (Seg K S)} {seg : Seg K S}
    (hs : (done ++ seg :: todo).Pairwise (fun a b => a.x ≤ b.x)) (hne : done ≠ [])
    (hsep : ∀ s ∈ done ++ seg :: todo, ∀ t ∈ done ++ seg :: todo, ∀ a b : K, s.x = (a : WithBot K) → t.x = (b : WithBot K) → a < b → eps < b - a)
    {s : LState K S R} (h : LInv metric type worst (done ++ seg :: todo) done s) :
    LInv metric type worst (done ++ seg :: todo) (done ++ [seg]) (lineStep metric type eps s seg) := by
  obtain ⟨d, hd⟩ : ∃ d, done.getLast? = some d := ⟨_, List.getLast?_eq_some_getLast hne⟩
  have hlast := h.last d hd
  have hdm : d ∈ done := List.mem_of_getLast? hd
  have hle : d.x ≤ seg.x := (List.pairwise_append.1 hs).2.2 d hdm seg (by simp)
  have hacc : (done.map Seg.delta).sum + seg.delta = ((done ++ [seg]).map Seg.delta).sum := by simp
  unfold lineStep lineCheck
  by_cases hx : exceeds eps seg.x s.last = true
  · rw [if_pos hx]
    have hlt : s.last < seg.x := exceeds_lt he hx
    -- the score between the breakpoints
    have hsc : ∀ y : K, s.last ≤ (y : WithBot K) → (y : WithBot K) < seg.x →
        metric (((done ++ seg :: todo).filter (fun s => decide (s.x ≤ (y : WithBot K)))).map Seg.delta).sum = metric s.acc := by
      intro y h1 h2
      rw [filter_between hs (fun e he' => by rw [hd] at he'; cases he'; rw [← hlast]; exact h1)
        (fun e he' => by simp at he'; subst he'; exact h2), h.acc]
    by_cases hb : better type (metric s.acc) s.best = true
    · rw [if_pos hb]
      have hb' := (better_iff type _ _).1 hb
      refine ⟨?_, ?_, ?_, ?_, ?_⟩
      · simp only []
        rw [h.acc, hacc]
      · intro e hel
        simp at hel
        subst hel
        rfl
      · intro hbot
        simp only [] at hbot
        rw [hbot] at hlt
        exact absurd hlt not_lt_bot
      · intro y hy
        simp only [] at hy ⊢
        rcases lt_or_ge (y : WithBot K) s.last with hyl | hyl
        · exact AtLeast.trans (Beats.atLeast (type := type) hb') (h.covered y hyl)
        · rw [hsc y hyl hy]
          exact AtLeast.refl _ _
      · intro _
        simp only []
        refine ⟨trivial, ?_⟩
        by_cases hbot : s.last = ⊥
        · rw [(h.start hbot).1, if_pos rfl]
          rw [hbot] at hlt
          obtain ⟨p, hp1, hp2⟩ := left_between hlt
          exact ⟨p, hp1, hp2, (hsc p (by rw [hbot]; exact bot_le) hp2).symm⟩
        · rw [(h.found hbot).1, if_neg (by simp)]
          obtain ⟨p, hp1, hp2, hp3⟩ := mid_between hlt hbot
          exact ⟨p, hp1, hp3, (hsc p hp2 hp3).symm⟩
    · rw [if_neg hb]
      have hb' : AtLeast type s.best (metric s.acc) := by
        rw [atLeast_iff, ← better_iff]
        exact hb
      have hnb : s.last ≠ ⊥ := by
        intro hbot
        apply hb
        rw [(h.start hbot).2, better_iff]
        exact hworst _
      obtain ⟨hl, p, hp1, hp2, hp3⟩ := h.found hnb
      refine ⟨?_, ?_, ?_, ?_, ?_⟩
      · simp only []
        rw [h.acc, hacc]
      · intro e hel
        simp at hel
        subst hel
        rfl
      · intro hbot
        simp only [] at hbot
        rw [hbot] at hlt
        exact absurd hlt not_lt_bot
      · intro y hy
        simp only [] at hy ⊢
        rcases lt_or_ge (y : WithBot K) s.last with hyl | hyl
        · exact h.covered y hyl
        · rw [hsc y hyl hy]
          exact hb'
      · intro _
        simp only []
        exact ⟨hl, p, hp1, lt_trans hp2 hlt, hp3⟩
  · rw [if_neg hx]
    have heq : seg.x = s.last := by
      rw [hlast]
      by_contra hne'
      apply hx
      rw [hlast]
      exact exceeds_of_lt (lt_of_le_of_ne hle (Ne.symm hne'))
        (hsep d (by simp [hdm]) seg (by simp))
    refine ⟨?_, ?_, h.start, h.covered, h.found⟩
    · simp only []
      rw [h.acc, hacc]
    · intro e hel
      simp at hel
      subst hel
      exact heq.symm

theorem lineLoop_inv (metric : S → R) (type : ScoreType) (worst : R) {eps : K} (he : 0 ≤ eps)
    (hworst : ∀ st, Beats type (metric st) worst) (todo done : List (Seg K S))
    (hs : (done ++ todo).Pairwise (fun a b => a.x ≤ b.x)) (hne : done ≠ [])
    (hsep : ∀ s ∈ done ++ todo, ∀ t ∈ done ++ todo, ∀ a b : K, s.x = (a : WithBot K) → t.x = (b : WithBot K) → a < b → eps < b - a)
    (s : LState K S R) (h : LInv metric type worst (done ++ todo) done s) :
    LInv metric type worst (done ++ todo) (done ++ todo) (todo.foldl (lineStep metric type eps) s) := by
  induction todo generalizing done s with
  | nil => simpa using h
  | cons seg todo ih =>
    have e : done ++ seg :: todo = (done ++ [seg]) ++ todo := by simp
    have h' := lineStep_inv metric type worst he hworst hs hne hsep h
    rw [e] at h' hs hsep ⊢
    exact ih (done ++ [seg]) hs (by simp) hsep _ h'

/-- The score returned is the score at the position returned, and no position has a better score.  The hypotheses: some
surface starts at minus infinity, as every hull does; distinct breakpoints are more than epsilon apart; the value the
best score is initialised with is worse than every score. -/
theorem C35_best {srt : List (Seg K S) → List (Seg K S)} (hsrt : IsXSort srt) (metric : S → R) (type : ScoreType) (worst : R)
    {eps : K} (he : 0 ≤ eps) (surfaces : List (List (Seg K S)))
    (hinf : ∃ s ∈ surfaces.flatten, s.x = ⊥) (hsep : Separated eps surfaces)
    (hworst : ∀ st, Beats type (metric st) worst) :
    ∃ best pos, lineOptimize srt metric type worst eps surfaces = some (best, some pos) ∧
      best = metric (statsAt surfaces pos) ∧ ∀ y : K, AtLeast type best (metric (statsAt surfaces y)) := by
  have hperm := hsrt.perm surfaces.flatten
  have hord := hsrt.ordered surfaces.flatten
  obtain ⟨z, hz, hzx⟩ := hinf
  unfold lineOptimize
  cases hl : srt surfaces.flatten with
  | nil =>
    rw [hl] at hperm
    have := hperm.symm.subset hz
    simp at this
  | cons s l =>
    rw [hl] at hperm hord
    have hsx : s.x = ⊥ := by
      have hzm : z ∈ s :: l := hperm.symm.subset hz
      rcases List.mem_cons.1 hzm with rfl | hzm
      · exact hzx
      · have := (List.pairwise_cons.1 hord).1 z hzm
        rw [hzx] at this
        exact le_bot_iff.1 this
    have hstats : ∀ y : K, statsAt surfaces y = (((s :: l).filter fun s => decide (s.x ≤ (y : WithBot K))).map Seg.delta).sum := by
      intro y
      exact (((hperm.filter _).map _).sum_eq).symm
    have h0 : LInv metric type worst ([s] ++ l) [s]
        (lineStep metric type eps ⟨0, s.x, worst, true, none⟩ s) := by
      have hx : exceeds eps s.x s.x = false := by rw [hsx]; rfl
      unfold lineStep lineCheck
      simp only [hx]
      refine ⟨?_, ?_, fun _ => ⟨rfl, rfl⟩, ?_, ?_⟩
      · simp
      · intro d hd
        simp at hd
        subst hd
        rfl
      · intro y hy
        simp only [hsx] at hy
        exact absurd hy not_lt_bot
      · intro hne
        exact absurd hsx hne
    have hsep' : ∀ u ∈ [s] ++ l, ∀ t ∈ [s] ++ l, ∀ a b : K, u.x = (a : WithBot K) → t.x = (b : WithBot K) → a < b → eps < b - a :=
      fun u hu t ht a b => hsep u (hperm.subset hu) t (hperm.subset ht) a b
    have hinv := lineLoop_inv metric type worst he hworst l [s] hord (by simp) hsep' _ h0
    simp only [List.foldl_cons]
    generalize hst : l.foldl (lineStep metric type eps) (lineStep metric type eps ⟨0, s.x, worst, true, none⟩ s) = st at hinv
    obtain ⟨d, hd⟩ : ∃ d, ([s] ++ l).getLast? = some d := ⟨_, List.getLast?_eq_some_getLast (by simp)⟩
    have hlast := hinv.last d hd
    have hsc : ∀ y : K, st.last ≤ (y : WithBot K) → metric (statsAt surfaces y) = metric st.acc := by
      intro y hy
      rw [hstats y, hinv.acc]
      have hp' : (([s] ++ l) ++ ([] : List (Seg K S))).Pairwise (fun a b => a.x ≤ b.x) := by simpa using hord
      have := filter_between hp' (y := y) (fun e he' => by rw [hd] at he'; cases he'; rw [← hlast]; exact hy) (by simp)
      rw [List.append_nil] at this
      rw [show s :: l = [s] ++ l from rfl, this]
    unfold lineEnd
    by_cases hb : better type (metric st.acc) st.best = true
    · rw [if_pos hb]
      have hb' := (better_iff type _ _).1 hb
      have hall : ∀ y : K, AtLeast type (metric st.acc) (metric (statsAt surfaces y)) := by
        intro y
        rcases lt_or_ge (y : WithBot K) st.last with hyl | hyl
        · rw [hstats y]
          exact AtLeast.trans (Beats.atLeast (type := type) hb') (hinv.covered y hyl)
        · rw [hsc y hyl]
          exact AtLeast.refl _ _
      by_cases hbot : st.last = ⊥
      · rw [(hinv.start hbot).1]
        exact ⟨_, 0, rfl, (hsc 0 (by rw [hbot]; exact bot_le)).symm, hall⟩
      · rw [(hinv.found hbot).1]
        cases hlv : st.last with
        | bot => exact absurd hlv hbot
        | coe b =>
          refine ⟨_, b + 1000, rfl, (hsc (b + 1000) ?_).symm, hall⟩
          rw [hlv]
          exact WithBot.coe_le_coe.2 (by linarith [show (0 : K) ≤ 1000 from by positivity])
    · rw [if_neg hb]
      have hb' : AtLeast type st.best (metric st.acc) := by
        rw [atLeast_iff, ← better_iff]
        exact hb
      have hnb : st.last ≠ ⊥ := by
        intro hbot
        apply hb
        rw [(hinv.start hbot).2, better_iff]
        exact hworst _
      obtain ⟨_, p, hp1, hp2, hp3⟩ := hinv.found hnb
      refine ⟨st.best, p, by rw [hp1], ?_, ?_⟩
      · rw [hp3, hstats p]
        rfl
      · intro y
        rcases lt_or_ge (y : WithBot K) st.last with hyl | hyl
        · rw [hstats y]
          exact hinv.covered y hyl
        · rw [hsc y hyl]
          exact hb'

/-- Insertion sort by breakpoint, for the examples. -/
def xInsert (p : Seg K S) : List (Seg K S) → List (Seg K S)
  | [] => [p]
  | q :: l => if p.x ≤ q.x then p :: q :: l else q :: xInsert p l

/-- Insertion sort by breakpoint. -/
def xSort (l : List (Seg K S)) : List (Seg K S) := l.foldr xInsert []

omit [Field K] [AddCommMonoid S] [IsStrictOrderedRing K] in
theorem xInsert_perm (p : Seg K S) (l : List (Seg K S)) : (xInsert p l).Perm (p :: l) := by
  induction l with
  | nil => exact List.Perm.refl _
  | cons q l ih =>
    simp only [xInsert]
    split
    · exact List.Perm.refl _
    · exact (ih.cons q).trans (List.Perm.swap p q l)

omit [Field K] [AddCommMonoid S] [IsStrictOrderedRing K] in
theorem isXSort_xSort : IsXSort (xSort : List (Seg K S) → List (Seg K S)) := by
  constructor
  · intro l
    induction l with
    | nil => exact List.Perm.refl _
    | cons p l ih => exact (xInsert_perm p _).trans (ih.cons p)
  · intro l
    induction l with
    | nil => exact List.Pairwise.nil
    | cons p l ih =>
      show (xInsert p (xSort l)).Pairwise _
      generalize xSort l = m at ih
      induction m with
      | nil => simp [xInsert]
      | cons q m ihm =>
        have h' := List.pairwise_cons.1 ih
        simp only [xInsert]
        by_cases hpq : p.x ≤ q.x
        · rw [if_pos hpq]
          refine List.pairwise_cons.2 ⟨fun r hr => ?_, ih⟩
          rcases List.mem_cons.1 hr with rfl | hr
          · exact hpq
          · exact le_trans hpq (h'.1 r hr)
        · rw [if_neg hpq]
          refine List.pairwise_cons.2 ⟨fun r hr => ?_, ihm h'.2⟩
          rcases List.mem_cons.1 ((xInsert_perm p m).subset hr) with rfl | hr
          · exact le_of_lt (not_le.1 hpq)
          · exact h'.1 r hr

/-- Two surfaces with four intervals: the best total, 5, is between 1 and 2. -/
def exampleSurfaces : List (List (Seg ℚ ℤ)) :=
  [[⟨⊥, 1⟩, ⟨((1 : ℚ) : WithBot ℚ), 3⟩], [⟨⊥, 1⟩, ⟨((2 : ℚ) : WithBot ℚ), -1⟩, ⟨((3 : ℚ) : WithBot ℚ), 0⟩]]

example : lineOptimize xSort (fun s : ℤ => s) .maximize (-1000) (1 / 65536) exampleSurfaces = some (5, some (3 / 2)) := by
  decide +kernel

example : IsXSort (xSort : List (Seg ℚ ℤ) → _) ∧ (∃ s ∈ exampleSurfaces.flatten, s.x = ⊥) :=
  ⟨isXSort_xSort, by decide +kernel⟩

example : Separated (1 / 65536) exampleSurfaces := by
  intro s hs t ht a b ha hb hab
  simp only [exampleSurfaces, List.flatten_cons, List.flatten_nil, List.cons_append, List.nil_append, List.append_nil,
    List.mem_cons, List.not_mem_nil, or_false] at hs ht
  rcases hs with rfl | rfl | rfl | rfl | rfl <;> rcases ht with rfl | rfl | rfl | rfl | rfl <;>
    first
    | (exact absurd ha WithBot.bot_ne_coe)
    | (exact absurd hb WithBot.bot_ne_coe)
    | (simp only [WithBot.coe_inj] at ha hb; subst ha; subst hb; first | (exact absurd hab (by decide +kernel)) | (decide +kernel))

/-- Without separation the statement fails: with breakpoints closer than epsilon the score returned is not the score at
the position returned, nor the best one. -/
theorem C35_close_breakpoints_fails :
    let surfaces : List (List (Seg ℚ ℤ)) := [[⟨⊥, 1⟩, ⟨((0 : ℚ) : WithBot ℚ), 6⟩, ⟨((1 / 100000 : ℚ) : WithBot ℚ), -4⟩, ⟨((1 : ℚ) : WithBot ℚ), -3⟩]]
    ∃ best pos, lineOptimize xSort (fun s : ℤ => s) .maximize (-1000) (1 / 65536) surfaces = some (best, some pos) ∧
      ∃ y : ℚ, best < statsAt surfaces y :=
  ⟨3, 1 / 2, by decide +kernel, 1 / 200000, by decide +kernel⟩

end Cdec.Mert
