import Verif.Mteval.CombLemmas
import Mathlib.Data.List.GetD
import Mathlib.Tactic.NormNum
/-!
# C117: a combination of metrics scores a corpus with the weighted sum of the scores of its components
-/
namespace Cdec.Comb

/-- The text `COMB:NAME=weight;…` with at least two components makes the combination of the metrics with these names with
these weights, in this order. -/
theorem C117_create (inst : List Char → Option Metric) (atof : List Char → ℚ) (l : List (List Char × List Char))
    (ms : List Metric) (h2 : 2 ≤ l.length) (hw : ∀ p ∈ l, Word p.1 ∧ Word p.2)
    (hi : (l.map fun p => inst p.1) = ms.map some) :
    create inst atof (describe l) = some (combination (ms.zip (l.map fun p => atof p.2))) := by
  have hcomp : ∀ w ∈ l.map (fun p => p.1 ++ ['='] ++ p.2), w ≠ [] ∧ ';' ∉ w := by
    intro w hm
    obtain ⟨p, hp, rfl⟩ := List.mem_map.1 hm
    obtain ⟨h1, h2⟩ := hw p hp
    refine ⟨by simp, ?_⟩
    simp [h1.2.1, h2.2.1]
  have htok : tokenize ((describe l).drop 5) ';' = l.map fun p => p.1 ++ ['='] ++ p.2 := by
    have := tokenizeLoop_intercalate ';' _ [] hcomp
    simpa [describe, tokenize] using this
  have hlen : 9 ≤ (describe l).length := by
    obtain ⟨p, q, l, rfl⟩ : ∃ p q l', l = p :: q :: l' := by
      match l, h2 with
      | p :: q :: l', _ => exact ⟨p, q, l', rfl⟩
    have hp : 0 < p.1.length := List.length_pos_iff.2 (hw p (by simp)).1.1
    have hp' : 0 < p.2.length := List.length_pos_iff.2 (hw p (by simp)).2.1
    have e : List.intercalate [';'] ((p :: q :: l).map fun p => p.1 ++ ['='] ++ p.2) = (p.1 ++ ['='] ++ p.2) ++
        (';' :: List.intercalate [';'] ((q :: l).map fun p => p.1 ++ ['='] ++ p.2)) := by
      simp [List.intercalate, List.intersperse]
    rw [describe, e]
    simp
    omega
  unfold create
  rw [if_neg (by simp only [not_or, not_not, not_lt]; exact ⟨by simp [describe], hlen⟩)]
  simp only [htok]
  rw [if_neg (by simpa using h2)]
  have := build_eq inst atof l ms [] hw hi
  simpa [combination] using this

/-- Fewer than two components are an error. -/
theorem C117_single (inst : List Char → Option Metric) (atof : List Char → ℚ) (name w : List Char) (h1 : Word name)
    (h2 : Word w) : create inst atof (describe [(name, w)]) = none := by
  unfold create
  split
  · rfl
  · have : tokenize ((describe [(name, w)]).drop 5) ';' = [name ++ ['='] ++ w] := by
      have := tokenizeLoop_intercalate ';' [name ++ ['='] ++ w] [] (by
        intro x hx
        rw [List.mem_singleton] at hx
        subst hx
        exact ⟨by simp, by simp [h1.2.1, h2.2.1]⟩)
      simpa [describe, tokenize] using this
    simp [this]

/-- The statistics of a sentence are those of the components one after the other, whatever `out` had in it, if every
component has the number of fields it announces. -/
theorem C117_statistics (l : List (Metric × ℚ)) (ts : List Fields) (out : Fields)
    (h : List.Forall₂ (fun p t => t.length = p.1.size) l ts) : evaluate (combination l) ts out = some ts.flatten := by
  unfold evaluate
  have := evalLoop_eq l ts [] (resize (combination l).totalSize out) h (by rw [resize_length]; rfl)
  rw [List.length_nil, offsFrom_zero, List.nil_append, List.nil_append] at this
  exact this

/-- Adding up statistics is adding up the fields, in any order; subtracting undoes an addition. -/
theorem C117_total (n : ℕ) (l : List Fields) (hne : l ≠ []) (h : ∀ f ∈ l, f.length = n) :
    IsSum n l (total l) ∧ (∀ l', l.Perm l' → total l' = total l) ∧
      ∀ f d : Fields, f.length = n → d.length = n → sub (add f d) d = f := by
  have key : ∀ l : List Fields, l ≠ [] → (∀ f ∈ l, f.length = n) → IsSum n l (total l) := by
    intro l hne h
    obtain ⟨f, l, rfl⟩ := List.exists_cons_of_ne_nil hne
    unfold total
    rw [List.foldl_cons, nil_add]
    refine ⟨foldl_add_length n l f (h f (by simp)) fun g hg => h g (by simp [hg]), fun i _ => ?_⟩
    rw [foldl_add_getD n i l f (h f (by simp)) fun g hg => h g (by simp [hg])]
    simp
  refine ⟨key l hne h, ?_, ?_⟩
  · intro l' hp
    obtain ⟨a1, a2⟩ := key l hne h
    obtain ⟨b1, b2⟩ := key l' (by rintro rfl; exact hne hp.eq_nil) fun f hf => h f (hp.mem_iff.2 hf)
    apply List.ext_getElem (by rw [a1, b1])
    intro i h1 h2
    have e := (b2 i (by omega)).trans (((hp.map fun f => f.getD i 0).sum_eq).symm.trans (a2 i (by omega)).symm)
    rwa [List.getD_eq_getElem _ _ h1, List.getD_eq_getElem _ _ h2] at e
  · intro f d hf hd
    have e : f.length = d.length := by rw [hf, hd]
    rw [sub_eq (by rw [add_length e, e]), add_eq e]
    apply List.ext_getElem
    · simp [e]
    · intro i h1 h2
      simp

/-- The score of a corpus: the weighted sum of the scores that the components give to their own statistics of the corpus.
`sents` has for each sentence the statistics of the components. -/
theorem C117_score (l : List (Metric × ℚ)) (sents : List (List Fields)) (hne : sents ≠ [])
    (h : ∀ s ∈ sents, List.Forall₂ (fun p t => t.length = p.1.size) l s) :
    computeScore (combination l) (total (sents.map List.flatten)) =
      (l.mapIdx fun i p => p.2 * p.1.score (total (sents.map fun s => s.getD i []))).sum := by
  obtain ⟨s, sents, rfl⟩ := List.exists_cons_of_ne_nil hne
  have hs := h s (by simp)
  have hl := hs.length_eq
  have hsame : ∀ s' ∈ sents, List.Forall₂ (fun c d => c.length = d.length) s s' := by
    intro s' hs'
    have h' := h s' (by simp [hs'])
    rw [List.forall₂_iff_get] at hs h' ⊢
    refine ⟨by rw [← hs.1, h'.1], fun i h1 h2 => ?_⟩
    rw [hs.2 i (by omega) h1, h'.2 i (by omega) h2]
  have hcs : List.Forall₂ (fun p t => t.length = p.1.size) l
      (s.mapIdx fun i c => (sents.map fun s => s.getD i []).foldl add c) := by
    rw [List.forall₂_iff_get] at hs ⊢
    refine ⟨by simpa using hl, fun i h1 h2 => ?_⟩
    simp only [List.length_mapIdx] at h2
    simp only [List.get_eq_getElem, List.getElem_mapIdx]
    apply foldl_add_length
    · exact hs.2 i h1 h2
    · intro f hf
      obtain ⟨s', hs', rfl⟩ := List.mem_map.1 hf
      have h' := h s' (by simp [hs'])
      rw [List.forall₂_iff_get] at h'
      have : i < s'.length := h'.1 ▸ h1
      rw [List.getD_eq_getElem _ _ this]
      exact h'.2 i h1 this
  unfold total
  rw [List.map_cons, List.foldl_cons, nil_add, foldl_flatten sents s hsame]
  have := scoreLoop_eq l _ [] (combination l).totalSize 0 hcs (by simp [combination])
  rw [List.length_nil, offsFrom_zero, List.nil_append, zero_add] at this
  unfold computeScore
  refine Eq.trans this ?_
  congr 1
  apply List.ext_getElem
  · simp [hl]
  · intro i h1 h2
    simp only [List.length_mapIdx] at h2
    have : i < s.length := hl ▸ h2
    simp only [List.getElem_zipWith, List.getElem_mapIdx, List.map_cons, List.foldl_cons, nil_add,
      List.getD_eq_getElem _ _ this]
    rw [mul_comm]

/-- A component that announces more fields than it gives (the external metrics announce 50) does not get its own
statistics back, and values from before stay in the result. -/
theorem C117_announced_fails :
    let m : Metric := ⟨3, fun f => f.length, false⟩
    let l := [(m, 1), (⟨1, fun f => f.length, false⟩, 0)]
    evaluate (combination l) [[5, 6], [7]] [1, 2, 3, 4] = some [5, 6, 3, 7] ∧
    computeScore (combination l) [5, 6, 3, 7] ≠ m.score [5, 6] := by
  refine ⟨by decide +kernel, ?_⟩
  norm_num [computeScore, combination, scoreLoop, section', List.range_succ]

/-- A combination of error metrics with positive weights, for which less is better, says that more is better. -/
theorem C117_error_fails : ¬∀ l : List (Metric × ℚ), 2 ≤ l.length → (∀ p ∈ l, p.1.isError = true ∧ 0 < p.2) →
    isErrorMetric (combination l) = true := by
  intro h
  have := h [(⟨2, fun f => f.sum, true⟩, 1), (⟨2, fun f => f.sum, true⟩, 1)] (by simp) (by simp)
  exact absurd this (by decide)

/-- Non-vacuity: a text with two components, and a corpus of two sentences. -/
example : (∀ p ∈ [("IBM_BLEU".toList, "0.5".toList), ("TER".toList, "-0.5".toList)], Word p.1 ∧ Word p.2) ∧
    describe [("IBM_BLEU".toList, "0.5".toList), ("TER".toList, "-0.5".toList)] = "COMB:IBM_BLEU=0.5;TER=-0.5".toList := by
  unfold Word; decide
example : ∀ s ∈ [[[(1 : ℚ), 2], [3]], [[4, 5], [6]]],
    List.Forall₂ (fun (p : Metric × ℚ) t => t.length = p.1.size) [(⟨2, fun f => f.sum, false⟩, 1), (⟨1, fun f => f.sum, true⟩, -1)] s := by
  intro s hs
  simp only [List.mem_cons, List.not_mem_nil, or_false] at hs
  rcases hs with rfl | rfl <;> simp

end Cdec.Comb
