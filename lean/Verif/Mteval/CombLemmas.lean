import Verif.Mteval.Comb
import Mathlib.Data.List.Basic
import Mathlib.Data.List.Forall2
import Mathlib.Algebra.BigOperators.Group.List.Basic
import Mathlib.Tactic.Linarith
import Mathlib.Tactic.Ring
/-!
# Lemmas about combinations of metrics
-/
namespace Cdec.Comb

theorem addLoop_eq : ∀ (f d : Fields), f.length = d.length → addLoop f d = List.zipWith (· + ·) f d
  | [], [], _ => rfl
  | x :: f, y :: d, h => by rw [addLoop, List.zipWith_cons_cons, addLoop_eq f d (by simpa using h)]
  | [], _ :: _, h => by simp at h
  | _ :: _, [], h => by simp at h

theorem add_eq {f d : Fields} (h : f.length = d.length) : add f d = List.zipWith (· + ·) f d := by
  unfold add; rw [if_neg (by simpa using h), addLoop_eq f d h]

theorem subLoop_eq : ∀ (f d : Fields), f.length = d.length → subLoop f d = List.zipWith (· - ·) f d
  | [], [], _ => rfl
  | x :: f, y :: d, h => by rw [subLoop, List.zipWith_cons_cons, subLoop_eq f d (by simpa using h)]
  | [], _ :: _, h => by simp at h
  | _ :: _, [], h => by simp at h

theorem sub_eq {f d : Fields} (h : f.length = d.length) : sub f d = List.zipWith (· - ·) f d := by
  unfold sub; rw [if_neg (by simpa using h), subLoop_eq f d h]

theorem add_length {f d : Fields} (h : f.length = d.length) : (add f d).length = f.length := by
  rw [add_eq h]; simp [h]

theorem zeros_add : ∀ (d : Fields), addLoop (List.replicate d.length 0) d = d
  | [] => rfl
  | x :: d => by simp [List.replicate_succ, addLoop, zeros_add d]

theorem nil_add (d : Fields) : add [] d = d := by
  unfold add
  cases d with
  | nil => rfl
  | cons x d =>
    rw [if_pos (by simp)]
    have : resize (max ([] : Fields).length (x :: d).length) [] = List.replicate (x :: d).length 0 := by
      simp [resize]
    rw [this, zeros_add]

theorem foldl_add_length (n : ℕ) : ∀ (l : List Fields) (a : Fields), a.length = n → (∀ f ∈ l, f.length = n) →
    (l.foldl add a).length = n
  | [], a, h, _ => h
  | f :: l, a, h, hl => by
    rw [List.foldl_cons]
    exact foldl_add_length n l _ (by rw [add_length (by rw [h, hl f (by simp)]), h]) fun g hg => hl g (by simp [hg])

theorem add_getD {f d : Fields} (h : f.length = d.length) (i : ℕ) : (add f d).getD i 0 = f.getD i 0 + d.getD i 0 := by
  rw [add_eq h]
  by_cases hi : i < f.length
  · have hi' : i < d.length := h ▸ hi
    simp [List.getD_eq_getElem?_getD, List.getElem?_zipWith, List.getElem?_eq_getElem hi, List.getElem?_eq_getElem hi']
  · have hi' : ¬i < d.length := h ▸ hi
    simp only [not_lt] at hi hi'
    simp [List.getD_eq_getElem?_getD, List.getElem?_zipWith, List.getElem?_eq_none hi, List.getElem?_eq_none hi']

theorem foldl_add_getD (n : ℕ) (i : ℕ) : ∀ (l : List Fields) (a : Fields), a.length = n → (∀ f ∈ l, f.length = n) →
    (l.foldl add a).getD i 0 = a.getD i 0 + (l.map fun f => f.getD i 0).sum
  | [], a, _, _ => by simp
  | f :: l, a, h, hl => by
    have hf := hl f (by simp)
    rw [List.foldl_cons, foldl_add_getD n i l _ (by rw [add_length (by rw [h, hf]), h]) fun g hg => hl g (by simp [hg]),
      add_getD (by rw [h, hf]), List.map_cons, List.sum_cons, add_assoc]

/-! ## The text -/

theorem tokenizeLoop_word (delim : Char) : ∀ (w s cur : List Char) (res : List (List Char)), delim ∉ w →
    tokenizeLoop delim (w ++ s) cur res = tokenizeLoop delim s (cur ++ w) res
  | [], s, cur, res, _ => by simp
  | c :: w, s, cur, res, h => by
    simp only [List.mem_cons, not_or] at h
    rw [List.cons_append, tokenizeLoop, if_neg (fun e => h.1 e.symm), tokenizeLoop_word delim w s _ res h.2]
    simp

theorem tokenizeLoop_intercalate (delim : Char) : ∀ (l : List (List Char)) (res : List (List Char)),
    (∀ w ∈ l, w ≠ [] ∧ delim ∉ w) → tokenizeLoop delim (List.intercalate [delim] l) [] res = res ++ l
  | [], res, _ => by simp [List.intercalate, tokenizeLoop]
  | [w], res, h => by
    have hw := h w (by simp)
    have := tokenizeLoop_word delim w [] [] res hw.2
    simp only [List.append_nil, List.nil_append] at this
    simp only [List.intercalate, List.intersperse, List.flatten_cons, List.flatten_nil, List.append_nil]
    rw [this, tokenizeLoop, if_neg hw.1]
  | w :: v :: l, res, h => by
    have hw := h w (by simp)
    have e : List.intercalate [delim] (w :: v :: l) = w ++ (delim :: List.intercalate [delim] (v :: l)) := by
      simp [List.intercalate, List.intersperse]
    rw [e, tokenizeLoop_word delim w _ [] res hw.2, List.nil_append, tokenizeLoop, if_pos rfl, if_neg hw.1,
      tokenizeLoop_intercalate delim (v :: l) _ fun x hx => h x (by simp only [List.mem_cons] at hx ⊢; exact .inr hx)]
    simp

/-! ## Offsets -/

/-- The offsets from `o` on. -/
def offsFrom : ℕ → List (Metric × ℚ) → List ℕ
  | _, [] => []
  | o, p :: l => o :: offsFrom (o + p.1.size) l

theorem offsFrom_eq : ∀ (l : List (Metric × ℚ)) (o : ℕ),
    offsFrom o l = (List.range l.length).map fun i => o + ((l.take i).map fun p => p.1.size).sum
  | [], _ => rfl
  | p :: l, o => by
    rw [offsFrom, offsFrom_eq l, List.length_cons, List.range_succ_eq_map, List.map_cons, List.map_map]
    simp [Function.comp_def, Nat.add_assoc]

theorem offsFrom_zero (l : List (Metric × ℚ)) : offsFrom 0 l = (combination l).offsets := by
  rw [offsFrom_eq]; simp [combination]

theorem offsFrom_snoc : ∀ (l : List (Metric × ℚ)) (o : ℕ) (p : Metric × ℚ),
    offsFrom o (l ++ [p]) = offsFrom o l ++ [o + (l.map fun p => p.1.size).sum]
  | [], o, p => by simp [offsFrom]
  | q :: l, o, p => by
    rw [List.cons_append, offsFrom, offsFrom_snoc l, offsFrom]
    simp [Nat.add_assoc]

theorem combination_snoc (l : List (Metric × ℚ)) (m : Metric) (w : ℚ) :
    (⟨(combination l).metrics ++ [m], (combination l).coeffs ++ [w], (combination l).offsets ++ [(combination l).totalSize],
      (combination l).totalSize + m.size⟩ : Combination) = combination (l ++ [(m, w)]) := by
  have h := offsFrom_snoc l 0 (m, w)
  rw [offsFrom_zero, offsFrom_zero, Nat.zero_add] at h
  have e : combination (l ++ [(m, w)]) = ⟨(combination (l ++ [(m, w)])).metrics, (combination (l ++ [(m, w)])).coeffs,
    (combination (l ++ [(m, w)])).offsets, (combination (l ++ [(m, w)])).totalSize⟩ := rfl
  rw [e, h]
  simp [combination]

theorem build_eq (inst : List Char → Option Metric) (atof : List Char → ℚ) :
    ∀ (l : List (List Char × List Char)) (ms : List Metric) (done : List (Metric × ℚ)),
      (∀ p ∈ l, Word p.1 ∧ Word p.2) → (l.map fun p => inst p.1) = ms.map some →
      build inst atof (l.map fun p => p.1 ++ ['='] ++ p.2) (combination done) =
        some (combination (done ++ ms.zip (l.map fun p => atof p.2)))
  | [], ms, done, _, h => by
    cases ms with
    | nil => simp [build]
    | cons _ _ => simp at h
  | p :: l, ms, done, hw, h => by
    cases ms with
    | nil => simp at h
    | cons m ms =>
      simp only [List.map_cons, List.cons.injEq] at h
      obtain ⟨h1, h2⟩ := hw p (by simp)
      have ht : tokenize (p.1 ++ ['='] ++ p.2) '=' = [p.1, p.2] := by
        have := tokenizeLoop_intercalate '=' [p.1, p.2] [] (by
          intro w hw
          simp only [List.mem_cons, List.not_mem_nil, or_false] at hw
          rcases hw with rfl | rfl
          · exact ⟨h1.1, h1.2.2⟩
          · exact ⟨h2.1, h2.2.2⟩)
        simpa [List.intercalate, List.intersperse, tokenize] using this
      rw [List.map_cons, build, ht]
      simp only [h.1]
      rw [combination_snoc, build_eq inst atof l ms _ (fun q hq => hw q (by simp [hq])) h.2]
      simp

/-! ## Evaluation -/

theorem writeLoop_eq : ∀ (t A B C : Fields) (off j : ℕ), off + j = A.length → B.length = t.length →
    writeLoop (A ++ B ++ C) off j t = some (A ++ t ++ C)
  | [], A, B, C, off, j, _, h => by
    have : B = [] := by simpa using h
    simp [writeLoop, this]
  | x :: t, A, b :: B, C, off, j, ha, h => by
    rw [writeLoop, if_pos (by simp; omega)]
    have e : (A ++ b :: B ++ C).set (j + off) x = (A ++ [x]) ++ B ++ C := by
      rw [List.append_assoc, List.set_append_right _ _ (by omega)]
      have : j + off - A.length = 0 := by omega
      rw [this]
      simp
    rw [e, writeLoop_eq t (A ++ [x]) B C off (j + 1) (by simp; omega) (by simpa using h)]
    simp
  | x :: t, A, [], C, off, j, _, h => by simp at h

theorem evalLoop_eq : ∀ (l : List (Metric × ℚ)) (ts : List Fields) (A B : Fields),
    List.Forall₂ (fun p t => t.length = p.1.size) l ts → B.length = (l.map fun p => p.1.size).sum →
    evalLoop (offsFrom A.length l) ts (A ++ B) = some (A ++ ts.flatten)
  | [], ts, A, B, h, hb => by
    cases h
    have : B = [] := by simpa using hb
    simp [offsFrom, evalLoop, this]
  | p :: l, _, A, B, h, hb => by
    cases h with
    | cons h1 h2 =>
      rename_i t ts
      have hB : B = B.take p.1.size ++ B.drop p.1.size := (List.take_append_drop _ _).symm
      have hlen : (B.take p.1.size).length = t.length := by
        rw [List.length_take, hb, h1]; simp
      rw [offsFrom, evalLoop, hB, ← List.append_assoc, writeLoop_eq t A _ _ A.length 0 (by simp) hlen]
      simp only
      have := evalLoop_eq l ts (A ++ t) (B.drop p.1.size) h2 (by rw [List.length_drop, hb]; simp)
      rw [List.length_append, h1] at this
      rw [this]
      simp

theorem resize_length (n : ℕ) (f : Fields) : (resize n f).length = n := by
  simp [resize]; omega

/-! ## The score -/

theorem section_eq (A c C : Fields) : section' (A ++ c ++ C) A.length (A.length + c.length) = c := by
  unfold section'
  apply List.ext_getElem
  · simp
  · intro i h1 h2
    simp only [List.getElem_map, List.getElem_range, get]
    rw [if_pos (by simp; omega), List.getD_eq_getElem?_getD, List.append_assoc, List.getElem?_append_right (by omega),
      Nat.add_sub_cancel_left, List.getElem?_append_left h2, List.getElem?_eq_getElem h2]
    rfl

theorem scoreLoop_eq : ∀ (l : List (Metric × ℚ)) (cs : List Fields) (A : Fields) (n : ℕ) (tot : ℚ),
    List.Forall₂ (fun p t => t.length = p.1.size) l cs → n = A.length + (l.map fun p => p.1.size).sum →
    scoreLoop (A ++ cs.flatten) n (l.map Prod.fst) (l.map Prod.snd) (offsFrom A.length l) tot =
      tot + (List.zipWith (fun p c => p.1.score c * p.2) l cs).sum
  | [], cs, A, n, tot, h, _ => by
    cases h
    simp [scoreLoop, offsFrom]
  | p :: l, _, A, n, tot, h, hn => by
    cases h with
    | cons h1 h2 =>
      rename_i c cs
      have hh : (offsFrom (A.length + p.1.size) l).head?.getD n = A.length + c.length := by
        cases l with
        | nil => simp [offsFrom, hn, h1]
        | cons q l => simp [offsFrom, h1]
      rw [List.map_cons, List.map_cons, offsFrom, scoreLoop, hh, List.flatten_cons, ← List.append_assoc, section_eq]
      have := scoreLoop_eq l cs (A ++ c) n (tot + p.1.score c * p.2) h2 (by
        rw [hn, List.length_append, h1]; simp [Nat.add_assoc])
      rw [List.length_append, h1] at this
      rw [this]
      simp [add_assoc]

theorem add_flatten : ∀ (cs ds : List Fields), List.Forall₂ (fun c d => c.length = d.length) cs ds →
    add cs.flatten ds.flatten = (List.zipWith add cs ds).flatten ∧ cs.flatten.length = ds.flatten.length
  | _, _, .nil => by simp [add, addLoop]
  | c :: cs, d :: ds, .cons h1 h2 => by
    obtain ⟨i1, i2⟩ := add_flatten cs ds h2
    refine ⟨?_, by simp [h1, ← List.length_flatten, i2]⟩
    rw [List.flatten_cons, List.flatten_cons, add_eq (by simp [h1, ← List.length_flatten, i2]),
      List.zipWith_append h1, List.zipWith_cons_cons, List.flatten_cons, ← i1, add_eq h1, add_eq i2]

theorem foldl_flatten : ∀ (sents : List (List Fields)) (cs : List Fields),
    (∀ s ∈ sents, List.Forall₂ (fun c d => c.length = d.length) cs s) →
    (sents.map List.flatten).foldl add cs.flatten =
      (cs.mapIdx fun i c => (sents.map fun s => s.getD i []).foldl add c).flatten
  | [], cs, _ => by
    have : (cs.mapIdx fun _ c => c) = cs := List.ext_getElem (by simp) (by simp)
    simp [this]
  | s :: sents, cs, h => by
    have hs := h s (by simp)
    have hl := hs.length_eq
    rw [List.map_cons, List.foldl_cons, (add_flatten cs s hs).1, foldl_flatten sents (List.zipWith add cs s)]
    · congr 1
      apply List.ext_getElem
      · simp [hl]
      · intro i h1 h2
        simp only [List.length_mapIdx] at h2
        have : i < s.length := hl ▸ h2
        simp [List.getElem?_eq_getElem this]
    · intro s' hs'
      have h' := h s' (by simp [hs'])
      rw [List.forall₂_iff_get] at hs h' ⊢
      refine ⟨by simp [hl, ← h'.1], ?_⟩
      intro i h1 h2
      simp only [List.length_zipWith] at h1
      have a1 : i < cs.length := by omega
      have a2 : i < s.length := by omega
      have e1 := hs.2 i a1 a2
      have e2 := h'.2 i a1 h2
      simp only [List.get_eq_getElem, List.getElem_zipWith] at e1 e2 ⊢
      rw [add_length e1, e2]

end Cdec.Comb
