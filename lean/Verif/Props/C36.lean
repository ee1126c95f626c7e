import Verif.Mteval.BleuLemmas
import Mathlib.Tactic.Linarith
/-!
# C36: BLEU's n-gram statistics are clipped counts, whatever was scored before
-/
namespace Cdec.Bleu

variable {W : Type _} [DecidableEq W]

theorem scoreMany_inv (N : Nat) (ty : BleuType) (refs : List (List W)) (history : List (List W)) :
    (∀ g, ((scoreMany N ty (create N ty refs) history).ngrams g).1 =
      (refs.map fun r => (events N r).count g).foldr max 0) ∧
    (scoreMany N ty (create N ty refs) history).lengths = (create N ty refs).lengths := by
  refine List.reverseRecOn history ?_ ?_
  · refine ⟨fun g => ?_, rfl⟩
    show (refs.foldl (countRef N) (fun _ => (0, 0)) g).1 = _
    rw [foldl_countRef N refs g _ rfl]; simp
  · intro hs h ⟨i1, i2⟩
    unfold scoreMany at *
    rw [List.foldl_append, List.foldl_cons, List.foldl_nil]
    refine ⟨fun g => ?_, i2⟩
    show ((statAll N (fun g => _) (fun _ => 0) h).1 g).1 = _
    rw [statAll_eq, foldl_fst]
    · exact i1 g
    · intro g g' hg hg' hp h0
      simp only at h0 ⊢
      rw [i1] at h0 ⊢
      exact ref_closure N refs g g' hg hg' hp h0

/-- Whatever hypotheses have been scored before with the same object, the match count of each order is the sum over
the distinct n-grams of the hypothesis of the smaller of its count in the hypothesis and its largest count in a
reference, and the hypothesis count of order `i + 1` is the number of n-grams of that order, `length - i`. -/
theorem C36_clipped_counts (N : Nat) (ty : BleuType) (refs history : List (List W)) (hyp : List W) :
    (evaluate N ty (scoreMany N ty (create N ty refs) history) hyp).1.correct =
      (List.range N).map (fun i => Spec.clippedMatches (i + 1) refs hyp) ∧
    (evaluate N ty (scoreMany N ty (create N ty refs) history) hyp).1.hyp =
      (List.range N).map (fun i => (Spec.ngrams (i + 1) hyp).length) ∧
    (∀ i, (Spec.ngrams (i + 1) hyp).length = hyp.length - i) ∧
    (evaluate N ty (scoreMany N ty (create N ty refs) history) hyp).1.hypLen = hyp.length := by
  obtain ⟨hR, _⟩ := scoreMany_inv N ty refs history
  generalize scoreMany N ty (create N ty refs) history = e at hR
  have hc : ∀ g g' : List W, 1 ≤ g.length → g'.length ≤ N → g <+: g' →
      ((fun g => ((e.ngrams g).1, 0) : CountMap W) g).1 = 0 → ((fun g => ((e.ngrams g).1, 0) : CountMap W) g').1 = 0 := by
    intro g g' hg hg' hp h0
    simp only at h0 ⊢
    rw [hR] at h0 ⊢
    exact ref_closure N refs g g' hg hg' hp h0
  have hst := statAll_eq N hyp (fun g => ((e.ngrams g).1, 0)) (fun _ => 0) hc
  obtain ⟨h1, h2, h3⟩ := foldl_stat N (fun a => (Spec.ngrams (a + 1) hyp).toFinset)
    (by
      intro a g hg
      rw [List.mem_toFinset] at hg
      unfold Spec.ngrams at hg
      simp only [List.mem_map, List.mem_range] at hg
      obtain ⟨j, hj, rfl⟩ := hg
      simp; omega)
    (events N hyp) (fun g => ((e.ngrams g).1, 0)) (fun _ => rfl)
    (by
      intro g hg
      obtain ⟨g1, g2⟩ := length_of_mem_events N hyp g hg
      refine ⟨g1, g2, ?_⟩
      rw [List.mem_toFinset, Nat.sub_add_cancel g1, ← filter_events N g.length g1 g2]
      simp [hg])
  refine ⟨?_, ?_, ?_, rfl⟩
  · show (List.range N).map (statAll N _ _ hyp).2 = _
    apply List.map_congr_left
    intro i hi
    rw [List.mem_range] at hi
    rw [hst, h2 i hi]
    unfold Spec.clippedMatches
    apply Finset.sum_congr rfl
    intro g hg
    have hgl : g.length = i + 1 := by
      rw [List.mem_toFinset] at hg
      unfold Spec.ngrams at hg
      simp only [List.mem_map, List.mem_range] at hg
      obtain ⟨j, hj, rfl⟩ := hg
      simp; omega
    rw [h1 g, count_events N hyp g (by omega) (by omega), hgl, Nat.min_comm]
    congr 1
    simp only [hR]
    unfold Spec.maxRefCount
    congr 1
    apply List.map_congr_left
    intro r _
    rw [count_events N r g (by omega) (by omega)]
  · show (List.range N).map (fun i => (statAll N _ _ hyp).2 (N + i)) = _
    apply List.map_congr_left
    intro i hi
    rw [List.mem_range] at hi
    rw [hst, h3 i hi, filter_events N (i + 1) (by omega) (by omega)]
  · intro i; simp [Spec.ngrams]

/-! ## The reference length -/

theorem closest_spec (hl : ℚ) : ∀ (ls : List ℚ) (s : ℚ × ℚ),
    (∃ l ∈ ls, |l - hl| < s.1) →
    ∃ pre l post, ls = pre ++ l :: post ∧
      (ls.foldl (fun s l => if |l - hl| < s.1 then (|l - hl|, l) else s) s) = (|l - hl|, l) ∧
      (∀ x ∈ pre, |l - hl| < |x - hl|) ∧ (∀ x ∈ post, |l - hl| ≤ |x - hl|) ∧ |l - hl| < s.1
  | [], s, h => by obtain ⟨l, h, _⟩ := h; simp at h
  | a :: ls, s, h => by
    rw [List.foldl_cons]
    by_cases ha : |a - hl| < s.1
    · simp only [ha, if_true]
      by_cases hx : ∃ l ∈ ls, |l - hl| < |a - hl|
      · obtain ⟨pre, l, post, h1, h2, h3, h4, h5⟩ := closest_spec hl ls (|a - hl|, a) hx
        refine ⟨a :: pre, l, post, by rw [h1]; rfl, h2, ?_, h4, lt_trans h5 ha⟩
        intro x hx
        rcases List.mem_cons.mp hx with rfl | hx
        · exact h5
        · exact h3 x hx
      · refine ⟨[], a, ls, rfl, ?_, by simp, ?_, ha⟩
        · have : ∀ (ls : List ℚ), (∀ l ∈ ls, ¬ |l - hl| < |a - hl|) →
              ls.foldl (fun s l => if |l - hl| < s.1 then (|l - hl|, l) else s) (|a - hl|, a) = (|a - hl|, a) := by
            intro ls
            induction ls with
            | nil => intro _; rfl
            | cons b ls ih =>
              intro h
              rw [List.foldl_cons, if_neg (h b (by simp))]
              exact ih fun l hl => h l (by simp [hl])
          exact this ls fun l hl h => hx ⟨l, hl, h⟩
        · intro x hx'
          exact not_lt.mp fun h => hx ⟨x, hx', h⟩
    · simp only [ha, if_false]
      obtain ⟨l, hl', hlt⟩ := h
      rcases List.mem_cons.mp hl' with rfl | hl'
      · exact absurd hlt ha
      · obtain ⟨pre, l, post, h1, h2, h3, h4, h5⟩ := closest_spec hl ls s ⟨l, hl', hlt⟩
        refine ⟨a :: pre, l, post, by rw [h1]; rfl, h2, ?_, h4, h5⟩
        intro x hx
        rcases List.mem_cons.mp hx with rfl | hx
        · exact lt_of_lt_of_le h5 (not_lt.mp ha)
        · exact h3 x hx

/-- IBM and QCRI: the reference length used is that of the reference closest in length to the hypothesis, the first
such reference if there are several (unless all are at least two million words away). -/
theorem C36_closest_length (N : Nat) (ty : BleuType) (hty : ty = .IBM ∨ ty = .QCRI) (refs history : List (List W))
    (hyp : List W) (hr : ∃ r ∈ refs, |(r.length : ℚ) - hyp.length| < 2000000) :
    ∃ pre r post, refs = pre ++ r :: post ∧
      (evaluate N ty (scoreMany N ty (create N ty refs) history) hyp).1.refLen = some (r.length : ℚ) ∧
      (∀ x ∈ pre, |(r.length : ℚ) - hyp.length| < |(x.length : ℚ) - hyp.length|) ∧
      (∀ x ∈ post, |(r.length : ℚ) - hyp.length| ≤ |(x.length : ℚ) - hyp.length|) := by
  obtain ⟨_, hL⟩ := scoreMany_inv N ty refs history
  have hlen : (create N ty refs).lengths = refs.map fun r => (r.length : ℚ) := by
    unfold create
    rcases hty with rfl | rfl <;> simp
  show ∃ pre r post, _ ∧ refLen ty (scoreMany N ty (create N ty refs) history).lengths _ = _ ∧ _
  rw [hL, hlen]
  unfold refLen
  by_cases h1 : 1 < (refs.map fun r => (r.length : ℚ)).length
  · rw [if_pos ⟨h1, hty⟩]
    obtain ⟨pre, l, post, e1, e2, e3, e4, _⟩ := closest_spec (hyp.length : ℚ) (refs.map fun r => (r.length : ℚ))
      (2000000, -1) (by
        obtain ⟨r, hr, h⟩ := hr
        exact ⟨_, List.mem_map.mpr ⟨r, hr, rfl⟩, h⟩)
    obtain ⟨pre', rest', rfl, rfl, hrest⟩ := List.map_eq_append_iff.mp e1
    obtain ⟨r, post', rfl, rfl, rfl⟩ := List.map_eq_cons_iff.mp hrest
    refine ⟨pre', r, post', rfl, ?_, ?_, ?_⟩
    · unfold closest; rw [e2]
    · intro x hx; exact e3 _ (List.mem_map.mpr ⟨x, hx, rfl⟩)
    · intro x hx; exact e4 _ (List.mem_map.mpr ⟨x, hx, rfl⟩)
  · rw [if_neg (fun h => h1 h.1)]
    obtain ⟨r, hr, _⟩ := hr
    rcases refs with _ | ⟨a, _ | ⟨b, refs⟩⟩
    · simp at hr
    · exact ⟨[], a, [], rfl, rfl, by simp, by simp⟩
    · simp at h1

theorem foldl_min (ls : List ℚ) : ∀ s : ℚ, let m := ls.foldl (fun s l => if l < s then l else s) s
    (m = s ∨ m ∈ ls) ∧ m ≤ s ∧ ∀ l ∈ ls, m ≤ l := by
  induction ls with
  | nil => intro s; simp
  | cons a ls ih =>
    intro s
    rw [List.foldl_cons]
    obtain ⟨h1, h2, h3⟩ := ih (if a < s then a else s)
    refine ⟨?_, ?_, ?_⟩
    · rcases h1 with h1 | h1
      · split at h1
        · right; rw [if_pos (by assumption)]; rw [h1]; simp
        · left; rw [if_neg (by assumption)]; exact h1
      · right; exact List.mem_cons_of_mem _ h1
    · refine le_trans h2 ?_
      split
      · exact le_of_lt (by assumption)
      · exact le_refl _
    · intro l hl
      rcases List.mem_cons.mp hl with rfl | hl
      · refine le_trans h2 ?_
        split
        · exact le_refl _
        · exact not_lt.mp (by assumption)
      · exact h3 l hl

/-- NIST: the reference length used is that of the shortest reference (below ten million words). -/
theorem C36_shortest_length (N : Nat) (refs history : List (List W)) (hyp : List W)
    (hr : ∃ r ∈ refs, r.length < 9999999) :
    ∃ r ∈ refs, (evaluate N .NIST (scoreMany N .NIST (create N .NIST refs) history) hyp).1.refLen =
      some (r.length : ℚ) ∧ ∀ x ∈ refs, r.length ≤ x.length := by
  obtain ⟨_, hL⟩ := scoreMany_inv N .NIST refs history
  obtain ⟨r0, hr0, hlt⟩ := hr
  obtain ⟨h1, h2, h3⟩ := foldl_min (refs.map fun r => (r.length : ℚ)) 9999999
  have hne : (refs.map fun r => (r.length : ℚ)).foldl (fun s l => if l < s then l else s) 9999999 ≠ 9999999 := by
    intro h
    rw [h] at h3
    have := h3 _ (List.mem_map.mpr ⟨r0, hr0, rfl⟩)
    have h' : (9999999 : ℕ) ≤ r0.length := by exact_mod_cast this
    omega
  obtain ⟨r, hr, he⟩ := List.mem_map.mp (h1.resolve_left hne)
  refine ⟨r, hr, ?_, ?_⟩
  · show refLen .NIST (scoreMany N .NIST (create N .NIST refs) history).lengths _ = _
    rw [hL]
    unfold refLen create
    rw [if_neg (by simp)]
    simp only [reduceCtorEq, if_false, if_true]
    rw [List.getElem?_set, if_pos rfl, if_pos (by simp; exact List.length_pos_of_mem hr), he]
  · intro x hx
    have := h3 _ (List.mem_map.mpr ⟨x, hx, rfl⟩)
    rw [← he] at this
    exact_mod_cast this

/-- Koehn: the reference length used is the average. -/
theorem C36_average_length (N : Nat) (refs history : List (List W)) (hyp : List W) (hr : refs ≠ []) :
    (evaluate N .Koehn (scoreMany N .Koehn (create N .Koehn refs) history) hyp).1.refLen =
      some ((refs.map fun r => (r.length : ℚ)).sum / refs.length) := by
  obtain ⟨_, hL⟩ := scoreMany_inv N .Koehn refs history
  show refLen .Koehn (scoreMany N .Koehn (create N .Koehn refs) history).lengths _ = _
  rw [hL]
  unfold refLen create
  rw [if_neg (by simp)]
  simp only [reduceCtorEq, if_false, if_true]
  rw [List.getElem?_set, if_pos rfl, if_pos (by simp; exact List.length_pos_iff.mpr hr), List.sum_eq_foldl]

/-- Two references, a repeated word that is clipped at 2, after another hypothesis has been scored. -/
example : (evaluate 2 .IBM (scoreMany 2 .IBM (create 2 .IBM [[1, 1, 2], [1, 2]]) [[1, 1, 1, 1]]) [1, 1, 1, 2]).1.correct
    = [3, 2] ∧ Spec.clippedMatches 1 [[1, 1, 2], [1, 2]] [1, 1, 1, 2] = 3 := by decide +kernel

example : ∃ r ∈ [[1, 1, 2], [1, 2]], |((r.length : ℕ) : ℚ) - ([1, 1, 1, 2] : List Nat).length| < 2000000 :=
  ⟨[1, 2], by simp, by decide +kernel⟩

end Cdec.Bleu
