import Verif.Props.C35
import Verif.Train.ConvexHullSpec
import Mathlib.Data.List.Induction
/-!
# C63: the error surface of a sentence gives, at every position, the statistics of its best translation there
-/
namespace Cdec.Mert
open Spec
variable {K : Type} [Field K] [LinearOrder K]

namespace Spec

/-- The last of the segments that start at or before `y`. -/
def activeSeg (segs : List (WithBot K × List Nat)) (y : K) : Option (WithBot K × List Nat) :=
  (segs.filter fun s => decide (s.1 ≤ (y : WithBot K))).getLast?

/-- The statistics of the translation active at `y`. -/
def statsOfActive (eval : List Nat → Stats K) (segs : List (WithBot K × List Nat)) (y : K) : Stats K :=
  match activeSeg segs y with
  | some s => eval s.2
  | none => 0

/-- Segments in order, from minus infinity on. -/
structure SegsOK (segs : List (WithBot K × List Nat)) : Prop where
  first : ∃ t, segs.head? = some (⊥, t)
  increasing : segs.Pairwise (fun a b => a.1 < b.1)

/-- The two statistics agree in every field. -/
def SameFields (a b : Stats K) : Prop := ∀ i, a.get i = b.get i

end Spec

/-! ## Fields of sums and differences -/

omit [LinearOrder K] in
theorem getD_statsAdd (a b : List K) (i : Nat) : (statsAdd a b).getD i 0 = a.getD i 0 + b.getD i 0 := by
  induction a generalizing b i with
  | nil => simp [statsAdd]
  | cons x a ih =>
    cases b with
    | nil => simp [statsAdd]
    | cons y b =>
      cases i with
      | zero => simp [statsAdd]
      | succ i => simpa [statsAdd] using ih b i

omit [LinearOrder K] in
theorem getD_statsSub (a b : List K) (i : Nat) : (statsSub a b).getD i 0 = a.getD i 0 - b.getD i 0 := by
  induction a generalizing b i with
  | nil =>
    simp only [statsSub, List.getD_eq_getElem?_getD, List.getElem?_map]
    cases b[i]? <;> simp
  | cons x a ih =>
    cases b with
    | nil => simp [statsSub]
    | cons y b =>
      cases i with
      | zero => simp [statsSub]
      | succ i => simpa [statsSub] using ih b i

omit [LinearOrder K] in
theorem get_add (a b : Stats K) (i : Nat) : (a + b).get i = a.get i + b.get i := getD_statsAdd a.fields b.fields i

omit [LinearOrder K] in
theorem get_sub (a b : Stats K) (i : Nat) : (a - b).get i = a.get i - b.get i := getD_statsSub a.fields b.fields i

omit [LinearOrder K] in
theorem get_zero (i : Nat) : (0 : Stats K).get i = 0 := rfl

omit [LinearOrder K] in
theorem get_sum (l : List (Stats K)) (i : Nat) : l.sum.get i = (l.map fun a => a.get i).sum := by
  induction l with
  | nil => rfl
  | cons a l ih => rw [List.sum_cons, get_add, ih, List.map_cons, List.sum_cons]

theorem get_of_isZero {a : Stats K} (h : statsIsZero a.fields = true) (i : Nat) : a.get i = 0 := by
  unfold Stats.get
  rw [List.getD_eq_getElem?_getD]
  cases hi : a.fields[i]? with
  | none => rfl
  | some v =>
    have := List.all_eq_true.1 h v (List.mem_of_getElem? hi)
    simpa using this

/-- The field `i` of the sum of the deltas active at `y`. -/
def sumAt (out : List (Seg K (Stats K))) (y : K) (i : Nat) : K :=
  ((out.filter fun s => decide (s.x ≤ (y : WithBot K))).map fun s => s.delta.get i).sum

/-- The invariant of the loop of `ComputeErrorSurface`. -/
structure CInv (eval : List Nat → Stats K) (done : List (WithBot K × List Nat)) (s : CState K) : Prop where
  total : ∀ i, (s.out.map fun o => o.delta.get i).sum = s.prevScore.get i
  prev : done ≠ [] → SameFields s.prevScore (eval s.prevTrans)
  start : done = [] → s.prevTrans = [] ∧ s.prevScore = 0
  xs : ∀ o ∈ s.out, ∃ d ∈ done, d.1 = o.x
  at_ : ∀ y i, sumAt s.out y i = (statsOfActive eval done y).get i

theorem activeSeg_snoc_lt {done : List (WithBot K × List Nat)} {seg : WithBot K × List Nat} {y : K} (h : ¬ seg.1 ≤ (y : WithBot K)) :
    activeSeg (done ++ [seg]) y = activeSeg done y := by
  unfold activeSeg
  rw [List.filter_append]
  simp [h]

theorem activeSeg_snoc_ge {done : List (WithBot K × List Nat)} {seg : WithBot K × List Nat} {y : K} (h : seg.1 ≤ (y : WithBot K)) :
    activeSeg (done ++ [seg]) y = some seg := by
  unfold activeSeg
  rw [List.filter_append]
  simp [h]

theorem sumAt_snoc (out : List (Seg K (Stats K))) (o : Seg K (Stats K)) (y : K) (i : Nat) :
    sumAt (out ++ [o]) y i = sumAt out y i + (if o.x ≤ (y : WithBot K) then o.delta.get i else 0) := by
  unfold sumAt
  rw [List.filter_append]
  by_cases h : o.x ≤ (y : WithBot K) <;> simp [h]

theorem cesStep_inv (eval : List Nat → Stats K) {done : List (WithBot K × List Nat)} {seg : WithBot K × List Nat}
    (hinc : (done ++ [seg]).Pairwise (fun a b => a.1 < b.1)) {s : CState K} (h : CInv eval done s)
    (h0 : done = [] → seg.2 = [] → SameFields (eval []) 0) : CInv eval (done ++ [seg]) (cesStep eval s seg) := by
  have hlt : ∀ d ∈ done, d.1 < seg.1 := fun d hd => (List.pairwise_append.1 hinc).2.2 d hd seg (by simp)
  -- at or after the new breakpoint all old segments are active
  have hall : ∀ (y : K) (i : Nat), seg.1 ≤ (y : WithBot K) → sumAt s.out y i = s.prevScore.get i := by
    intro y i hy
    rw [← h.total i]
    unfold sumAt
    rw [List.filter_eq_self.2]
    intro o ho
    obtain ⟨d, hd, e⟩ := h.xs o ho
    rw [decide_eq_true_eq, ← e]
    exact le_trans (le_of_lt (hlt d hd)) hy
  unfold cesStep
  by_cases he : seg.2 = s.prevTrans
  · rw [if_pos he]
    have hsame : SameFields s.prevScore (eval s.prevTrans) := by
      by_cases hd : done = []
      · obtain ⟨e1, e2⟩ := h.start hd
        intro i
        rw [e2, e1]
        exact (h0 hd (he.trans e1) i).symm
      · exact h.prev hd
    refine ⟨h.total, fun _ => hsame, fun hn => absurd hn (by simp), fun o ho => ?_, fun y i => ?_⟩
    · obtain ⟨d, hd, e⟩ := h.xs o ho
      exact ⟨d, by simp [hd], e⟩
    · unfold statsOfActive
      by_cases hy : seg.1 ≤ (y : WithBot K)
      · rw [activeSeg_snoc_ge hy, hall y i hy, hsame i, ← he]
      · rw [activeSeg_snoc_lt hy]
        exact h.at_ y i
  · rw [if_neg he]
    simp only []
    by_cases hz : statsIsZero (eval seg.2 - s.prevScore).fields = true
    · rw [if_pos hz]
      have hz' : ∀ i, (eval seg.2).get i = s.prevScore.get i := by
        intro i
        have := get_of_isZero hz i
        rw [get_sub] at this
        exact sub_eq_zero.1 this
      refine ⟨fun i => ?_, fun _ _ => rfl, fun hn => absurd hn (by simp), fun o ho => ?_, fun y i => ?_⟩
      · simp only []
        rw [hz' i]
        exact h.total i
      · obtain ⟨d, hd, e⟩ := h.xs o ho
        exact ⟨d, by simp [hd], e⟩
      · simp only []
        unfold statsOfActive
        by_cases hy : seg.1 ≤ (y : WithBot K)
        · rw [activeSeg_snoc_ge hy, hall y i hy, hz' i]
        · rw [activeSeg_snoc_lt hy]
          exact h.at_ y i
    · rw [if_neg hz]
      refine ⟨fun i => ?_, fun _ _ => rfl, fun hn => absurd hn (by simp), fun o ho => ?_, fun y i => ?_⟩
      · simp only [List.map_append, List.map_cons, List.map_nil, List.sum_append, List.sum_cons, List.sum_nil, add_zero]
        rw [h.total i, get_sub, add_sub_cancel]
      · simp only [] at ho
        rcases List.mem_append.1 ho with ho | ho
        · obtain ⟨d, hd, e⟩ := h.xs o ho
          exact ⟨d, by simp [hd], e⟩
        · simp at ho
          subst ho
          exact ⟨seg, by simp, rfl⟩
      · simp only []
        rw [sumAt_snoc]
        unfold statsOfActive
        by_cases hy : seg.1 ≤ (y : WithBot K)
        · rw [activeSeg_snoc_ge hy, hall y i hy, if_pos hy, get_sub, add_sub_cancel]
        · rw [activeSeg_snoc_lt hy, if_neg hy, add_zero]
          exact h.at_ y i

theorem ces_inv (eval : List Nat → Stats K) (segs : List (WithBot K × List Nat)) (hinc : segs.Pairwise (fun a b => a.1 < b.1))
    (h0 : (∃ s, segs.head? = some s ∧ s.2 = []) → SameFields (eval []) 0) :
    CInv eval segs (segs.foldl (cesStep eval) ⟨[], 0, []⟩) := by
  induction segs using List.reverseRecOn with
  | nil => exact ⟨fun i => rfl, fun h => absurd rfl h, fun _ => ⟨rfl, rfl⟩, by simp, fun y i => rfl⟩
  | append_singleton done seg ih =>
    rw [List.foldl_append]
    refine cesStep_inv eval hinc (ih (List.pairwise_append.1 hinc).1 ?_) ?_
    · rintro ⟨s, hs, e⟩
      refine h0 ⟨s, ?_, e⟩
      cases done with
      | nil => simp at hs
      | cons d done => simpa using hs
    · intro hd he
      subst hd
      exact h0 ⟨seg, rfl, he⟩

/-- At every position the deltas of the segments that start at or before it add up, in every field, to the statistics
of the translation that is best there.  The hypothesis excludes the one case where they do not: the first translation is
empty and the statistics of the empty translation are not zero. -/
theorem C63_surface_partial (eval : List Nat → Stats K) (segs : List (WithBot K × List Nat)) (hok : SegsOK segs)
    (h0 : (∃ s, segs.head? = some s ∧ s.2 = []) → SameFields (eval []) 0) (y : K) :
    ∃ s, activeSeg segs y = some s ∧ SameFields (statsAt [computeErrorSurface eval segs] y) (eval s.2) := by
  have h := ces_inv eval segs hok.increasing h0
  obtain ⟨t, ht⟩ := hok.first
  have hact : ∃ s, activeSeg segs y = some s := by
    unfold activeSeg
    cases segs with
    | nil => simp at ht
    | cons s l =>
      simp at ht
      subst ht
      exact ⟨_, List.getLast?_eq_some_getLast (by simp)⟩
  obtain ⟨s, hs⟩ := hact
  refine ⟨s, hs, fun i => ?_⟩
  have hat := h.at_ y i
  unfold statsOfActive at hat
  rw [hs] at hat
  simp only [] at hat
  rw [← hat]
  unfold statsAt sumAt computeErrorSurface
  rw [List.flatten_cons, List.flatten_nil, List.append_nil, get_sum, List.map_map]
  rfl

/-- When the first translation is empty its statistics are lost: for a metric whose statistics are the number of words
of the translation and of the reference, the surface says at every position before 0 that there is no reference. -/
theorem C63_empty_translation_fails :
    let eval : List Nat → Stats ℚ := fun t => ⟨[(t.length : ℚ), 3]⟩
    let segs : List (WithBot ℚ × List Nat) := [(⊥, []), (((0 : ℚ) : WithBot ℚ), [7])]
    SegsOK segs ∧ activeSeg segs (-1) = some (⊥, []) ∧
      ¬ SameFields (statsAt [computeErrorSurface eval segs] (-1)) (eval []) := by
  refine ⟨⟨⟨[], rfl⟩, by simp⟩, by decide +kernel, fun h => ?_⟩
  have := h 1
  revert this
  decide +kernel

/-! ## All sentences together -/

/-- A sentence: its segments with their translations, and its evaluator. -/
structure Sentence (K : Type) where
  segs : List (WithBot K × List Nat)
  eval : List Nat → Stats K

/-- The total statistics of the translations that are best at `y`. -/
def Spec.totalStats (ss : List (Sentence K)) (y : K) : Stats K := (ss.map fun s => statsOfActive s.eval s.segs y).sum

theorem statsAt_get (surfaces : List (List (Seg K (Stats K)))) (y : K) (i : Nat) :
    (statsAt surfaces y).get i = (surfaces.map fun s => sumAt s y i).sum := by
  induction surfaces with
  | nil => rfl
  | cons s l ih =>
    unfold statsAt at ih ⊢
    rw [List.flatten_cons, List.filter_append, List.map_append, List.sum_append, get_add, ih, List.map_cons, List.sum_cons]
    congr 1
    unfold sumAt
    rw [get_sum, List.map_map]
    rfl

theorem surface_x (eval : List Nat → Stats K) (segs : List (WithBot K × List Nat)) (hinc : segs.Pairwise (fun a b => a.1 < b.1))
    (h0 : (∃ s, segs.head? = some s ∧ s.2 = []) → SameFields (eval []) 0) :
    ∀ o ∈ computeErrorSurface eval segs, ∃ d ∈ segs, d.1 = o.x := (ces_inv eval segs hinc h0).xs

/-- The first segment is written when its statistics are not zero. -/
theorem surface_first (eval : List Nat → Stats K) (segs : List (WithBot K × List Nat)) {t : List Nat}
    (hf : segs.head? = some (⊥, t)) (ht : t ≠ []) (hz : ¬ SameFields (eval t) 0) :
    ∃ o ∈ computeErrorSurface eval segs, o.x = ⊥ := by
  have mono : ∀ (l : List (WithBot K × List Nat)) (s : CState K) (o : Seg K (Stats K)), o ∈ s.out → o ∈ (l.foldl (cesStep eval) s).out := by
    intro l
    induction l with
    | nil => exact fun s o h => h
    | cons a l ih =>
      intro s o h
      refine ih _ o ?_
      unfold cesStep
      split
      · exact h
      · simp only []
        split
        · exact h
        · simp [h]
  cases segs with
  | nil => simp at hf
  | cons s l =>
    simp at hf
    subst hf
    refine ⟨⟨⊥, eval t - 0⟩, mono l _ _ ?_, rfl⟩
    unfold cesStep
    simp only []
    rw [if_neg ht]
    simp only []
    rw [if_neg]
    · simp
    · intro hzz
      apply hz
      intro i
      have := get_of_isZero hzz i
      rw [get_sub, get_zero, sub_zero] at this
      rw [this, get_zero]

variable {R : Type} [LinearOrder R] [IsStrictOrderedRing K]

/-- Computing the error surfaces of all sentences and searching them returns a position at which the metric of the total
statistics of the then best translations is the best possible, and that score.  The metric looks only at the fields;
distinct breakpoints are more than epsilon apart; no sentence starts with an empty translation; some sentence starts
with statistics that are not zero. -/
theorem C63_search_partial {srt : List (Seg K (Stats K)) → List (Seg K (Stats K))} (hsrt : IsXSort srt) (metric : Stats K → R)
    (hm : ∀ a b, SameFields a b → metric a = metric b) (type : ScoreType) (worst : R)
    (hworst : ∀ st, Beats type (metric st) worst) {eps : K} (he : 0 ≤ eps) (ss : List (Sentence K))
    (hok : ∀ s ∈ ss, SegsOK s.segs) (hne : ∀ s ∈ ss, ∀ p, s.segs.head? = some p → p.2 ≠ [])
    (hnz : ∃ s ∈ ss, ∃ t, s.segs.head? = some (⊥, t) ∧ ¬ SameFields (s.eval t) 0)
    (hsep : ∀ s ∈ ss, ∀ s' ∈ ss, ∀ p ∈ s.segs, ∀ q ∈ s'.segs, ∀ a b : K, p.1 = (a : WithBot K) → q.1 = (b : WithBot K) → a < b → eps < b - a) :
    ∃ best pos, lineOptimize srt metric type worst eps (ss.map fun s => computeErrorSurface s.eval s.segs) = some (best, some pos) ∧
      best = metric (totalStats ss pos) ∧ ∀ y : K, AtLeast type best (metric (totalStats ss y)) := by
  have h0 : ∀ s ∈ ss, (∃ p, s.segs.head? = some p ∧ p.2 = []) → SameFields (s.eval []) 0 :=
    fun s hs ⟨p, hp, e⟩ => absurd e (hne s hs p hp)
  have hsame : ∀ y, metric (statsAt (ss.map fun s => computeErrorSurface s.eval s.segs) y) = metric (totalStats ss y) := by
    intro y
    apply hm
    intro i
    rw [statsAt_get]
    unfold totalStats
    rw [get_sum, List.map_map, List.map_map]
    congr 1
    apply List.map_congr_left
    intro s hs
    exact (ces_inv s.eval s.segs (hok s hs).increasing (h0 s hs)).at_ y i
  obtain ⟨best, pos, h1, h2, h3⟩ := C35_best hsrt metric type worst he (ss.map fun s => computeErrorSurface s.eval s.segs)
    (by
      obtain ⟨s, hs, t, ht, hz⟩ := hnz
      obtain ⟨o, ho, hx⟩ := surface_first s.eval s.segs ht (hne s hs _ ht) hz
      exact ⟨o, List.mem_flatten.2 ⟨_, List.mem_map.2 ⟨s, hs, rfl⟩, ho⟩, hx⟩)
    (by
      intro u hu v hv a b ha hb hab
      obtain ⟨lu, hlu, hu⟩ := List.mem_flatten.1 hu
      obtain ⟨lv, hlv, hv⟩ := List.mem_flatten.1 hv
      obtain ⟨s, hs, rfl⟩ := List.mem_map.1 hlu
      obtain ⟨s', hs', rfl⟩ := List.mem_map.1 hlv
      obtain ⟨p, hp, ep⟩ := surface_x s.eval s.segs (hok s hs).increasing (h0 s hs) u hu
      obtain ⟨q, hq, eq⟩ := surface_x s'.eval s'.segs (hok s' hs').increasing (h0 s' hs') v hv
      exact hsep s hs s' hs' p hp q hq a b (ep.trans ha) (eq.trans hb) hab)
    hworst
  refine ⟨best, pos, h1, ?_, fun y => ?_⟩
  · rw [h2]
    exact hsame pos
  · rw [← hsame y]
    exact h3 y

omit [IsStrictOrderedRing K] in
/-- The active segment of a sorted hull belongs to a line that is maximal at the position: what is best at `y` in the
theorems above is best by the model's scores. -/
theorem C63_active_is_maximal (pts : List (Pt K)) (tr : Pt K → List Nat) (h : Segmented pts) (hne : pts ≠ []) (y : K) :
    SegsOK (pts.map fun p => (p.x, tr p)) ∧
      ∃ p ∈ pts, activeSeg (pts.map fun p => (p.x, tr p)) y = some (p.x, tr p) ∧ ∀ q ∈ pts, lineAt q y ≤ lineAt p y := by
  have hact : ∀ pts : List (Pt K), pts.Pairwise (fun p q => p.x < q.x) → (∃ p, pts.head? = some p ∧ p.x ≤ (y : WithBot K)) →
      ∃ (k : Nat) (p : Pt K), pts[k]? = some p ∧ activeSeg (pts.map fun p => (p.x, tr p)) y = some (p.x, tr p) ∧
        p.x ≤ (y : WithBot K) ∧ ∀ q, pts[k + 1]? = some q → (y : WithBot K) ≤ q.x := by
    intro pts
    induction pts with
    | nil => rintro _ ⟨p, hp, _⟩; simp at hp
    | cons a l ih =>
      rintro hpw ⟨p, hp, hle⟩
      simp at hp
      subst hp
      have hpw' := List.pairwise_cons.1 hpw
      by_cases hl : ∃ b, l.head? = some b ∧ b.x ≤ (y : WithBot K)
      · obtain ⟨k, p, h1, h2, h3, h4⟩ := ih hpw'.2 hl
        refine ⟨k + 1, p, by simpa using h1, ?_, h3, fun q hq => h4 q (by simpa using hq)⟩
        unfold activeSeg at h2 ⊢
        simp only [List.map_cons, List.filter_cons, hle, decide_true, if_true]
        rw [List.getLast?_cons, h2]
        rfl
      · refine ⟨0, a, rfl, ?_, hle, ?_⟩
        · unfold activeSeg
          have : (l.map fun p => (p.x, tr p)).filter (fun s => decide (s.1 ≤ (y : WithBot K))) = [] := by
            rw [List.filter_eq_nil_iff]
            intro s hs
            obtain ⟨p, hp, rfl⟩ := List.mem_map.1 hs
            simp only [decide_eq_true_eq]
            intro hle'
            cases l with
            | nil => simp at hp
            | cons b l =>
              apply hl
              refine ⟨b, rfl, ?_⟩
              rcases List.mem_cons.1 hp with rfl | hp
              · exact hle'
              · exact le_trans (le_of_lt ((List.pairwise_cons.1 hpw'.2).1 p hp)) hle'
          simp only [List.map_cons, List.filter_cons, hle, decide_true, if_true, this]
          rfl
        · intro q hq
          cases l with
          | nil => simp at hq
          | cons b l =>
            simp at hq
            subst hq
            exact le_of_not_ge fun hc => hl ⟨b, rfl, hc⟩
  refine ⟨⟨?_, ?_⟩, ?_⟩
  · cases pts with
    | nil => exact absurd rfl hne
    | cons p l => exact ⟨tr p, by simp [h.first p rfl]⟩
  · rw [List.pairwise_map]
    exact h.increasing
  · obtain ⟨k, p, h1, h2, h3, h4⟩ := hact pts h.increasing (by
      cases pts with
      | nil => exact absurd rfl hne
      | cons p l => exact ⟨p, rfl, by rw [h.first p rfl]; exact bot_le⟩)
    exact ⟨p, List.mem_of_getElem? h1, h2, fun q hq => h.maximal k p h1 y h3 h4 q hq⟩

/-! A case that meets the hypotheses. -/

/-- One sentence with three segments, the last two with the same translation. -/
def exampleSentence : Sentence ℚ :=
  ⟨[(⊥, [1]), (((0 : ℚ) : WithBot ℚ), [1, 2]), (((1 : ℚ) : WithBot ℚ), [1, 2])], fun t => ⟨[(t.length : ℚ), 3]⟩⟩

example : SegsOK exampleSentence.segs ∧ (∀ p, exampleSentence.segs.head? = some p → p.2 ≠ []) :=
  ⟨⟨⟨[1], rfl⟩, by decide +kernel⟩, by simp [exampleSentence]⟩

example : lineOptimize xSort (fun s : Stats ℚ => s.get 0) .maximize (-1000) (1 / 65536)
    [computeErrorSurface exampleSentence.eval exampleSentence.segs] = some (2, some 1000) := by decide +kernel

end Cdec.Mert
