import Verif.Train.ConvexHullLemmas
import Verif.Train.ConvexHullHeap
import Mathlib.Data.Rat.Defs
import Mathlib.Algebra.Order.Ring.Unbundled.Rat
import Mathlib.Algebra.Order.Ring.Rat
import Mathlib.Algebra.Field.Rat
/-!
# C34: sums and products of MERT hulls are the pointwise maximum and sum of their upper envelopes
-/
namespace Cdec.Mert
open Spec
variable {K : Type} [Field K] [LinearOrder K] [IsStrictOrderedRing K]

/-- Sorting keeps the value everywhere, yields segments, and invents no line. -/
theorem C34_sort {srt : List (Pt K) → List (Pt K)} (hs : IsSlopeSort srt) (h : Hull K) :
    Segmented (h.sort srt).points ∧ (∀ x, value (h.sort srt).points x = value h.points x) ∧
      (∀ s ∈ (h.sort srt).points, ∃ p ∈ h.points, s.m = p.m ∧ s.b = p.b ∧ s.prov = p.prov) := by
  obtain ⟨h1, h2, h3⟩ := envelope_spec (srt h.points) (hs.ordered _)
  refine ⟨h1, fun x => ?_, fun s hm => ?_⟩
  · rw [← value_perm (hs.perm h.points)]
    exact h2 x
  · obtain ⟨p, hp, e⟩ := h3 s hm
    exact ⟨p, (hs.perm h.points).subset hp, e⟩

theorem ensure_value {srt : List (Pt K) → List (Pt K)} (hs : IsSlopeSort srt) (h : Hull K) (x : K) :
    value (h.ensure srt).points x = value h.points x := by
  unfold Hull.ensure
  split
  · rfl
  · exact (C34_sort hs h).2.1 x

theorem ensure_segmented {srt : List (Pt K) → List (Pt K)} (hs : IsSlopeSort srt) {h : Hull K} (hv : h.isSorted = true → Segmented h.points) :
    Segmented (h.ensure srt).points := by
  unfold Hull.ensure
  by_cases hq : h.isSorted = true
  · rw [if_pos hq]
    exact hv hq
  · rw [if_neg hq]
    exact (C34_sort hs h).1

omit [IsStrictOrderedRing K] in
theorem ensure_sorted {srt : List (Pt K) → List (Pt K)} (h : Hull K) : (h.ensure srt).isSorted = true := by
  unfold Hull.ensure
  by_cases hq : h.isSorted = true
  · rw [if_pos hq]
    exact hq
  · rw [if_neg hq]
    rfl

/-- `+=` is the pointwise maximum. -/
theorem C34_add {srt : List (Pt K) → List (Pt K)} (hs : IsSlopeSort srt) (a b : Hull K) (hb : Valid b) :
    (∀ x, value (a.add srt b).points x = max (value a.points x) (value b.points x)) ∧ Valid (a.add srt b) := by
  refine ⟨fun x => ?_, ?_⟩
  · unfold Hull.add
    simp only []
    by_cases h : a.points = []
    · rw [if_pos h, h]
      rw [ensure_value hs b x]
      exact (max_eq_right bot_le).symm
    · rw [if_neg h]
      simp only []
      rw [value_append, ensure_value hs b x]
  · unfold Hull.add
    simp only []
    by_cases h : a.points = []
    · rw [if_pos h]
      by_cases h1 : b.isSorted = true
      · have e : b.ensure srt = b := by unfold Hull.ensure; rw [if_pos h1]
        rw [e]
        rcases hb with hb | hb
        · exact Or.inl hb
        · exact Or.inr fun _ => hb h1
      · exact Or.inr fun _ => ensure_segmented hs (fun q => absurd q h1)
    · rw [if_neg h]
      exact Or.inr fun q => by simp at q

omit [IsStrictOrderedRing K] in
theorem isOne_value {h : Hull K} (h1 : h.isOne = true) (x : K) : value h.points x = ((0 : K) : WithBot K) := by
  unfold Hull.isOne at h1
  split at h1
  · next p hp =>
    rw [hp]
    simp only [Bool.and_eq_true, decide_eq_true_eq] at h1
    show max ((lineAt p x : K) : WithBot K) ⊥ = _
    rw [max_eq_left bot_le]
    unfold lineAt
    rw [h1.1.1.1, h1.1.1.2, zero_mul, zero_add]
  · simp at h1

/-- `*=` is the pointwise sum. -/
theorem C34_mul {srt : List (Pt K) → List (Pt K)} (hs : IsSlopeSort srt) (a b : Hull K) (ha : Valid a) (hb : Valid b) :
    (∀ x, value (a.mul srt b).points x = value a.points x + value b.points x) ∧ Valid (a.mul srt b) := by
  unfold Hull.mul
  by_cases hb1 : b.isOne = true
  · rw [if_pos hb1]
    refine ⟨fun x => ?_, ha⟩
    rw [isOne_value hb1 x]
    exact (add_zero _).symm
  rw [if_neg hb1]
  by_cases ha1 : a.isOne = true
  · rw [if_pos ha1]
    refine ⟨fun x => ?_, hb⟩
    rw [isOne_value ha1 x]
    exact (zero_add _).symm
  rw [if_neg ha1]
  have sa : Segmented (a.ensure srt).points := ensure_segmented hs (ha.resolve_left ha1)
  have sb : Segmented (b.ensure srt).points := ensure_segmented hs (hb.resolve_left hb1)
  have va := ensure_value hs a
  have vb := ensure_value hs b
  simp only []
  cases he : (a.ensure srt).edgePoint with
  | some e =>
    simp only []
    have hpe : (a.ensure srt).points = [e] := by
      unfold Hull.edgePoint at he
      split at he
      · next p hp =>
        split at he
        · cases he
          exact hp
        · cases he
      · cases he
    have hae : ∀ x, value a.points x = ((lineAt e x : K) : WithBot K) := by
      intro x
      rw [← va x, hpe]
      exact max_eq_left bot_le
    by_cases hne : (b.ensure srt).points = []
    · rw [hne]
      refine ⟨fun x => ?_, Or.inr fun _ => ⟨by simp, by simp, by simp⟩⟩
      rw [← vb x, hne]
      show ⊥ = _ + ⊥
      rw [WithBot.add_bot]
    · obtain ⟨f, hf⟩ := Segmented.env sb hne
      have henv : Env (fun y => lineAt e y + f y) ((b.ensure srt).points.map fun p => (⟨p.x, p.m + e.m, p.b + e.b, .pair e.prov p.prov⟩ : Pt K)) := by
        refine ⟨shift_segF e _ hf.1, by simpa using hne, ?_, ?_⟩
        · intro p hp
          rw [List.head?_map, Option.map_eq_some_iff] at hp
          obtain ⟨q, hq, rfl⟩ := hp
          exact hf.2.2.1 q hq
        · intro p hp x
          obtain ⟨q, hq, rfl⟩ := List.mem_map.1 hp
          rw [lineAt_sum, add_comm]
          exact add_le_add (le_refl _) (hf.2.2.2 q hq x)
      refine ⟨fun x => ?_, Or.inr fun _ => henv.segmented⟩
      rw [henv.value x, hae x, ← vb x, hf.value x]
      rfl
  | none =>
    simp only []
    by_cases hna : (a.ensure srt).points = []
    · have : merge (a.ensure srt).points (b.ensure srt).points ⊥ = [] := by rw [hna]; simp [merge]
      rw [this]
      refine ⟨fun x => ?_, Or.inr fun _ => ⟨by simp, by simp, by simp⟩⟩
      rw [← va x, hna]
      show ⊥ = ⊥ + _
      rw [WithBot.bot_add]
    by_cases hnb : (b.ensure srt).points = []
    · have : merge (a.ensure srt).points (b.ensure srt).points ⊥ = [] := by
        rw [hnb]
        cases (a.ensure srt).points <;> simp [merge]
      rw [this]
      refine ⟨fun x => ?_, Or.inr fun _ => ⟨by simp, by simp, by simp⟩⟩
      rw [← vb x, hnb]
      show ⊥ = _ + ⊥
      rw [WithBot.add_bot]
    obtain ⟨f, hf⟩ := Segmented.env sa hna
    obtain ⟨g, hg⟩ := Segmented.env sb hnb
    have henv := merge_env hf hg
    refine ⟨fun x => ?_, Or.inr fun _ => henv.segmented⟩
    rw [henv.value x, ← va x, ← vb x, hf.value x, hg.value x]
    rfl

/-- The constants: an edge has the value of its line, the identity is zero, the empty hull is `⊥`; all are valid. -/
theorem C34_constants (m b : K) (e : Nat) (g : Bool) :
    Valid (Hull.ofEdge m b e) ∧ (∀ x, value (Hull.ofEdge m b e).points x = ((m * x + b : K) : WithBot K)) ∧
    Valid (Hull.one g : Hull K) ∧ (∀ x : K, value (Hull.one g : Hull K).points x = ((0 : K) : WithBot K)) ∧
    Valid (⟨[], true⟩ : Hull K) ∧ (∀ x : K, value ([] : List (Pt K)) x = ⊥) := by
  refine ⟨Or.inr fun _ => ⟨by simp [Hull.ofEdge], by simp [Hull.ofEdge], ?_⟩, fun x => max_eq_left bot_le, ?_, ?_, ?_, fun x => rfl⟩
  · intro k p hk x _ _ q hq
    have e1 : p ∈ [(⟨⊥, m, b, .edge e⟩ : Pt K)] := List.mem_of_getElem? hk
    have e2 : q ∈ [(⟨⊥, m, b, .edge e⟩ : Pt K)] := hq
    rw [List.mem_singleton] at e1 e2
    rw [e1, e2]
  · exact Or.inl (by simp [Hull.isOne, Hull.one, Pt.edge, Pt.hasParents])
  · intro x
    exact isOne_value (by simp [Hull.isOne, Hull.one, Pt.edge, Pt.hasParents]) x
  · exact Or.inr fun _ => ⟨by simp, by simp, by simp⟩

/-- Through pointers: when no two of the pointers are the same, sorting in place computes the envelope of the values
pointed to, keeps a prefix of the pointers and touches nothing else. -/
theorem C34_in_place (H : Nat → Pt K) {points : List Nat} (hnd : points.Nodup) :
    (sortHeap H points).2.map (sortHeap H points).1 = envelope (points.map H) ∧
      (∀ a, a ∉ points → (sortHeap H points).1 a = H a) ∧ (sortHeap H points).2 <+: points :=
  sortHeap_spec H hnd

/-- With shared pointers it does not: adding a hull of two crossing lines to itself and sorting loses one of the
lines. -/
theorem C34_shared_points_fails :
    let H : Nat → Pt ℚ := fun a => if a = 0 then ⟨⊥, 0, 0, .edge 0⟩ else ⟨(0 : ℚ), 1, 0, .edge 1⟩
    let r := sortHeap H [0, 0, 1, 1]
    value (r.2.map r.1) (-1) ≠ value ([0, 0, 1, 1].map H) (-1) := by
  decide +kernel

/-! A case that meets the hypotheses: three lines, the middle one never on top. -/

/-- Insertion sort by slope. -/
def slopeInsert (p : Pt K) : List (Pt K) → List (Pt K)
  | [] => [p]
  | q :: l => if p.m ≤ q.m then p :: q :: l else q :: slopeInsert p l

/-- Insertion sort by slope. -/
def slopeSort (l : List (Pt K)) : List (Pt K) := l.foldr slopeInsert []

omit [IsStrictOrderedRing K] in
theorem slopeInsert_perm (p : Pt K) (l : List (Pt K)) : (slopeInsert p l).Perm (p :: l) := by
  induction l with
  | nil => exact List.Perm.refl _
  | cons q l ih =>
    simp only [slopeInsert]
    split
    · exact List.Perm.refl _
    · exact (ih.cons q).trans (List.Perm.swap p q l)

omit [IsStrictOrderedRing K] in
theorem slopeInsert_ordered (p : Pt K) (l : List (Pt K)) (h : l.Pairwise (fun a b => a.m ≤ b.m)) :
    (slopeInsert p l).Pairwise (fun a b => a.m ≤ b.m) := by
  induction l with
  | nil => simp [slopeInsert]
  | cons q l ih =>
    have h' := List.pairwise_cons.1 h
    simp only [slopeInsert]
    by_cases hpq : p.m ≤ q.m
    · rw [if_pos hpq]
      refine List.pairwise_cons.2 ⟨fun r hr => ?_, h⟩
      rcases List.mem_cons.1 hr with rfl | hr
      · exact hpq
      · exact le_trans hpq (h'.1 r hr)
    · rw [if_neg hpq]
      refine List.pairwise_cons.2 ⟨fun r hr => ?_, ih h'.2⟩
      rcases List.mem_cons.1 ((slopeInsert_perm p l).subset hr) with rfl | hr
      · exact le_of_lt (not_le.1 hpq)
      · exact h'.1 r hr

omit [IsStrictOrderedRing K] in
theorem isSlopeSort_slopeSort : IsSlopeSort (slopeSort : List (Pt K) → List (Pt K)) := by
  constructor
  · intro l
    induction l with
    | nil => exact List.Perm.refl _
    | cons p l ih => exact (slopeInsert_perm p _).trans (ih.cons p)
  · intro l
    induction l with
    | nil => exact List.Pairwise.nil
    | cons p l ih => exact slopeInsert_ordered p _ ih

example : IsSlopeSort (slopeSort : List (Pt ℚ) → List (Pt ℚ)) := isSlopeSort_slopeSort

example : ((((Hull.ofEdge 1 0 0 : Hull ℚ).add slopeSort ((Hull.ofEdge 0 (-1) 1).add slopeSort (Hull.ofEdge (-1) 0 2))).ensure
      slopeSort).points.map fun p => (p.x, p.m, p.b)) = [(⊥, -1, 0), (((0 : ℚ) : WithBot ℚ), 1, 0)] := by decide +kernel

example : (((Hull.ofEdge 1 0 3 : Hull ℚ).add slopeSort (Hull.ofEdge (-1) 0 4)).mul slopeSort
      ((Hull.ofEdge 2 0 5).add slopeSort (Hull.ofEdge 0 2 6))).points.map (fun p => (p.x, p.m, p.b)) =
    [(⊥, -1, 2), (((0 : ℚ) : WithBot ℚ), 1, 2), (((1 : ℚ) : WithBot ℚ), 3, 0)] := by decide +kernel

end Cdec.Mert
