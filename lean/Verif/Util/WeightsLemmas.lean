import Verif.Util.WeightsSpec
import Verif.Props.C27
import Mathlib.Data.List.Nodup
/-!
# Lemmas about weight files
-/
namespace Cdec.Weights
open Cdec
variable {V : Type}

/-! ## Weights -/

theorem setWeight_getD (N : Num V) (w : List V) (fid : Nat) (v : V) (j : Nat) :
    (setWeight N w fid v).getD j N.zero = if j = fid then v else w.getD j N.zero := by
  unfold setWeight
  simp only [List.getD_eq_getElem?_getD, List.getElem?_set]
  by_cases hl : w.length ≤ fid
  · rw [if_pos hl]
    by_cases hj : fid = j
    · subst hj
      have : fid < w.length + (fid + 1 - w.length) := by omega
      simp [this]
    · rw [if_neg hj, if_neg (fun h => hj h.symm)]
      by_cases hjw : j < w.length
      · rw [List.getElem?_append_left hjw]
      · rw [List.getElem?_append_right (by omega), List.getElem?_replicate, List.getElem?_eq_none (by omega : w.length ≤ j)]
        split <;> rfl
  · rw [if_neg hl]
    by_cases hj : fid = j
    · subst hj
      simp [show fid < w.length by omega]
    · rw [if_neg hj, if_neg (fun h => hj h.symm)]

/-- Setting the weight of a name. -/
theorem value_set (N : Num V) (s : State V) (h : s.dict.Inv) (name : Str) (v : V) (u : Str) :
    State.value N { dict := (s.dict.convert name false).1, weights := setWeight N s.weights (s.dict.convert name false).2 v } u =
      if u = name then v else s.value N u := by
  unfold State.value
  simp only
  cases hf : s.dict.find name with
  | some i =>
    have hc : s.dict.convert name false = (s.dict, i) := by simp [Dict.convert, hf]
    rw [hc]
    simp only
    by_cases hu : u = name
    · subst hu
      rw [if_pos rfl, hf]
      simp only
      rw [setWeight_getD, if_pos rfl]
    · rw [if_neg hu]
      cases hfu : s.dict.find u with
      | none => rfl
      | some j =>
        simp only
        rw [setWeight_getD, if_neg]
        rintro rfl
        have h1 := (h _ _).1 hfu
        have h2 := (h _ _).1 hf
        rw [h1.2] at h2
        exact hu (Option.some.inj h2.2)
  | none =>
    have h2 : (s.dict.convert name false).2 = s.dict.words.length + 1 := by simp [Dict.convert, hf]
    rw [s.dict.find_convert h name hf, h2]
    by_cases hu : u = name
    · rw [if_pos hu, if_pos hu]
      simp only
      rw [setWeight_getD, if_pos rfl]
    · rw [if_neg hu, if_neg hu]
      cases hfu : s.dict.find u with
      | none => rfl
      | some j =>
        simp only
        rw [setWeight_getD, if_neg]
        rintro rfl
        have h1 := (h _ _).1 hfu
        have := (List.getElem?_eq_some_iff.1 h1.2).1
        omega

/-! ## Lines -/

theorem replTail_none {l : Str} (h : ∀ c ∈ l, c ≠ 61 ∧ c ≠ 9) : replTail l = none := by
  induction l with
  | nil => rfl
  | cons c l ih =>
    unfold replTail
    rw [ih fun x hx => h x (by simp [hx])]
    have := h c (by simp)
    simp [this.1, this.2]

theorem replTail_some (a : Str) {sep : UInt8} {r : Str} (hs : sep = 61 ∨ sep = 9) (h : ∀ c ∈ r, c ≠ 61 ∧ c ≠ 9) :
    replTail (a ++ [sep] ++ r) = some (a ++ [32] ++ r) := by
  induction a with
  | nil =>
    show replTail (sep :: r) = some (32 :: r)
    unfold replTail
    rw [replTail_none h]
    simp [hs]
  | cons c a ih =>
    show replTail (c :: (a ++ [sep] ++ r)) = _
    unfold replTail
    rw [ih]
    rfl

theorem replaceLast_entry {N : Num V} (hN : N.Ok) {name : Str} {sep : UInt8} {v : V} (h : (Line.entry name sep v).Ok N) :
    replaceLast ((Line.entry name sep v).text N) = name ++ [32] ++ N.render v := by
  obtain ⟨h1, h2, h3, h4, h5, h6⟩ := h
  have hr : ∀ c ∈ N.render v, c ≠ 61 ∧ c ≠ 9 := fun c hc => by have := (hN v h5).2 c hc; exact ⟨this.2.2.2, this.2.2.1⟩
  cases name with
  | nil => exact absurd rfl h1
  | cons c a =>
    show c :: (replTail (a ++ [sep] ++ N.render v)).getD (a ++ [sep] ++ N.render v) = _
    rcases h6 with h6 | h6 | ⟨rfl, h7, h8⟩
    · rw [replTail_some a (Or.inl h6) hr]; rfl
    · rw [replTail_some a (Or.inr h6) hr]; rfl
    · rw [replTail_none]
      · rfl
      · intro x hx
        rcases List.mem_append.1 hx with hx | hx
        · rcases List.mem_append.1 hx with hx | hx
          · exact ⟨fun e => h7 (by rw [← e]; simp [hx]), fun e => h8 (by rw [← e]; simp [hx])⟩
          · rw [List.mem_singleton] at hx; subst hx; decide
        · exact hr x hx

theorem takeWhile_name {name r : Str} (h : 32 ∉ name) : (name ++ [32] ++ r).takeWhile (fun x => x ≠ 32) = name := by
  induction name with
  | nil => simp
  | cons c a ih =>
    have hc : c ≠ 32 := fun e => h (by simp [e])
    have := ih fun hm => h (by simp [hm])
    show (c :: (a ++ [32] ++ r)).takeWhile _ = _
    rw [List.takeWhile_cons, if_pos (by simpa using hc), this]

/-- The line of an entry. -/
theorem process_entry {N : Num V} (hN : N.Ok) (s : State V) {name : Str} {sep : UInt8} {v : V} (h : (Line.entry name sep v).Ok N) :
    processLine N s ((Line.entry name sep v).text N) =
      some ({ dict := (s.dict.convert name false).1, weights := setWeight N s.weights (s.dict.convert name false).2 v }, name ++ [32] ++ N.render v) := by
  have hrep := replaceLast_entry hN h
  obtain ⟨h1, h2, h3, h4, h5, h6⟩ := h
  cases name with
  | nil => exact absurd rfl h1
  | cons c a =>
    have hc1 : c ≠ 35 := fun e => h2 (by simp [e])
    have hc2 : c ≠ 32 := fun e => h3 (by simp [e])
    have htxt : (Line.entry (c :: a) sep v).text N = c :: (a ++ [sep] ++ N.render v) := rfl
    rw [htxt] at hrep ⊢
    unfold processLine
    simp only [hc1, hc2, if_false, hrep]
    have htw : ((c :: a) ++ [32] ++ N.render v).takeWhile (fun x => x ≠ 32) = c :: a := takeWhile_name h3
    rw [htw]
    have hdrop : (((c :: a) ++ [32] ++ N.render v).drop (c :: a).length).dropWhile (fun x => decide (x = 32)) = N.render v := by
      rw [List.append_assoc, List.drop_left]
      show (32 :: N.render v).dropWhile _ = _
      rw [List.dropWhile_cons, if_pos (by simp)]
      cases hr : N.render v with
      | nil => rfl
      | cons d r =>
        have := ((hN v h5).2 d (by rw [hr]; simp)).1
        rw [List.dropWhile_cons, if_neg (by simpa using this)]
    rw [hdrop, (hN v h5).1, h5]
    simp

theorem process_other (N : Num V) (s : State V) {l : Line V} (h : ∀ name sep v, l ≠ .entry name sep v) : processLine N s (l.text N) = some (s, l.text N) := by
  cases l with
  | blank => rfl
  | comment t => simp [Line.text, processLine]
  | entry n p v => exact absurd rfl (h n p v)

theorem splitLines_line {t : Str} (h : 10 ∉ t) (rest : Str) : splitLines (t ++ [10] ++ rest) = (t :: (splitLines rest).1, (splitLines rest).2) := by
  induction t with
  | nil => simp [splitLines]
  | cons c t ih =>
    have hc : c ≠ 10 := fun e => h (by simp [e])
    have := ih fun hm => h (by simp [hm])
    show splitLines (c :: (t ++ [10] ++ rest)) = _
    rw [splitLines, this]
    simp [hc]

theorem splitLines_last {t : Str} (h : 10 ∉ t) : splitLines t = ([], t) := by
  induction t with
  | nil => rfl
  | cons c t ih =>
    have hc : c ≠ 10 := fun e => h (by simp [e])
    have := ih fun hm => h (by simp [hm])
    unfold splitLines
    rw [this]
    simp [hc]

theorem noNewline {N : Num V} (hN : N.Ok) {l : Line V} (h : l.Ok N) : 10 ∉ l.text N := by
  cases l with
  | blank => simp [Line.text]
  | comment t => simp only [Line.text, List.mem_cons, not_or]; exact ⟨by decide, h⟩
  | entry name sep v =>
    obtain ⟨h1, h2, h3, h4, h5, h6⟩ := h
    intro hm
    rcases List.mem_append.1 hm with hm | hm
    · rcases List.mem_append.1 hm with hm | hm
      · exact h4 hm
      · rw [List.mem_singleton] at hm
        rcases h6 with h6 | h6 | ⟨h6, _⟩ <;> rw [h6] at hm <;> revert hm <;> decide
    · exact ((hN v h5).2 10 hm).2.1 rfl

theorem splitLines_file {N : Num V} (hN : N.Ok) : ∀ (ls : List (Line V)), (∀ l ∈ ls, l.Ok N) → ∀ rest,
    splitLines (fileText N ls ++ rest) = (ls.map (Line.text N) ++ (splitLines rest).1, (splitLines rest).2)
  | [], _, rest => by simp [fileText]
  | l :: ls, h, rest => by
    have ih := splitLines_file hN ls (fun x hx => h x (by simp [hx])) rest
    show splitLines (l.text N ++ [10] ++ fileText N ls ++ rest) = _
    rw [List.append_assoc, splitLines_line (noNewline hN (h l (by simp))), ih]
    rfl

theorem processLines_append (N : Num V) (s : State V) (a b : List Str) :
    processLines N s (a ++ b) = (match processLines N s a with | some s' => processLines N s' b | none => none) := by
  induction a generalizing s with
  | nil => rfl
  | cons l a ih =>
    show (match processLine N s l with | some (s', _) => processLines N s' (a ++ b) | none => none) = _
    cases hp : processLine N s l with
    | none => simp [processLines, hp]
    | some r => simp only [processLines, hp]; exact ih r.1

theorem processLines_file {N : Num V} (hN : N.Ok) : ∀ (ls : List (Line V)), (∀ l ∈ ls, l.Ok N) → ∀ s : State V, s.dict.Inv →
    ∃ s', processLines N s (ls.map (Line.text N)) = some s' ∧ s'.dict.Inv ∧ (∀ u, s'.value N u = (lastValue ls u).getD (s.value N u)) ∧
      (∀ u i, s.dict.find u = some i → s'.dict.find u = some i)
  | [], _, s, hi => ⟨s, rfl, hi, fun u => rfl, fun _ _ h => h⟩
  | l :: ls, h, s, hi => by
    cases l with
    | entry name sep v =>
      have hp := process_entry hN s (h (.entry name sep v) (by simp))
      obtain ⟨s', h1, h2, h3, h4⟩ := processLines_file hN ls (fun x hx => h x (by simp [hx]))
        { dict := (s.dict.convert name false).1, weights := setWeight N s.weights (s.dict.convert name false).2 v } (s.dict.inv_convert hi name false)
      refine ⟨s', ?_, h2, fun u => ?_, fun u i hu => h4 u i (s.dict.find_mono_convert hi name false u i hu)⟩
      · show (match processLine N s ((Line.entry name sep v).text N) with | some (s', _) => processLines N s' (ls.map (Line.text N)) | none => none) = _
        rw [hp]; exact h1
      · rw [h3, value_set N s hi, lastValue]
        cases lastValue ls u with
        | some x => rfl
        | none =>
          by_cases hu : u = name
          · simp [hu]
          · have hu' : ¬ name = u := fun e => hu e.symm
            simp [hu, hu']
    | blank =>
      obtain ⟨s', h1, h2, h3⟩ := processLines_file hN ls (fun x hx => h x (by simp [hx])) s hi
      exact ⟨s', h1, h2, h3⟩
    | comment t =>
      obtain ⟨s', h1, h2, h3⟩ := processLines_file hN ls (fun x hx => h x (by simp [hx])) s hi
      refine ⟨s', ?_, h2, h3⟩
      show (match processLine N s ((Line.comment t).text N) with | some (s', _) => processLines N s' (ls.map (Line.text N)) | none => none) = _
      rw [process_other N s (l := .comment t) (fun _ _ _ hh => by cases hh)]
      exact h1

theorem lastValue_append (a b : List (Line V)) (u : Str) : lastValue (a ++ b) u = (lastValue b u).or (lastValue a u) := by
  induction a with
  | nil => simp [lastValue]
  | cons l a ih =>
    cases l with
    | blank => exact ih
    | comment t => exact ih
    | entry n p v =>
      show lastValue (.entry n p v :: (a ++ b)) u = _
      rw [lastValue, ih, lastValue]
      cases lastValue b u <;> simp

/-! ## Written files -/

/-- The lines that `WriteToFile` writes for the features from number `i` on. -/
def written [DecidableEq V] (N : Num V) (w : List V) (hide : Bool) : Nat → List Str → List (Line V)
  | _, [] => []
  | i, name :: l =>
    if hide = true ∧ w.getD i N.zero = N.zero then written N w hide (i + 1) l
    else .entry name 32 (w.getD i N.zero) :: written N w hide (i + 1) l

theorem writeLoop_written [DecidableEq V] (N : Num V) (w : List V) (hide : Bool) : ∀ (l : List Str) (i : Nat),
    writeLoop N w hide i l = fileText N (written N w hide i l)
  | [], _ => rfl
  | name :: l, i => by
    unfold writeLoop written
    by_cases h : hide = true ∧ w.getD i N.zero = N.zero
    · simp only [h, if_true, and_self]
      simpa [h] using writeLoop_written N w hide l (i + 1)
    · simp only [if_neg h]
      rw [writeLoop_written N w hide l (i + 1)]
      rfl

theorem written_ok [DecidableEq V] (N : Num V) (w : List V) (hide : Bool) (hnan : ∀ i, N.isNan (w.getD i N.zero) = false) : ∀ (l : List Str) (i : Nat),
    (∀ name ∈ l, name ≠ [] ∧ name.head? ≠ some 35 ∧ 32 ∉ name ∧ 10 ∉ name ∧ 61 ∉ name ∧ 9 ∉ name) → ∀ x ∈ written N w hide i l, x.Ok N
  | [], _, _, x, hx => by simp [written] at hx
  | name :: l, i, h, x, hx => by
    unfold written at hx
    have ih := written_ok N w hide hnan l (i + 1) (fun n hn => h n (by simp [hn])) x
    split at hx
    · exact ih hx
    · rcases List.mem_cons.1 hx with rfl | hx
      · obtain ⟨h1, h2, h3, h4, h5, h6⟩ := h name (by simp)
        exact ⟨h1, h2, h3, h4, hnan i, Or.inr (Or.inr ⟨rfl, h5, h6⟩)⟩
      · exact ih hx

theorem lastValue_written_none [DecidableEq V] (N : Num V) (w : List V) (hide : Bool) (u : Str) : ∀ (l : List Str) (i : Nat), u ∉ l → lastValue (written N w hide i l) u = none
  | [], _, _ => rfl
  | name :: l, i, h => by
    have ih := lastValue_written_none N w hide u l (i + 1) fun hm => h (by simp [hm])
    unfold written
    split
    · exact ih
    · rw [lastValue, ih]
      have : ¬ name = u := fun e => h (by simp [e])
      simp [this]

theorem lastValue_written [DecidableEq V] (N : Num V) (w : List V) (hide : Bool) (u : Str) : ∀ (l : List Str) (i j : Nat), l.Nodup → l[j]? = some u →
    lastValue (written N w hide i l) u = if hide = true ∧ w.getD (i + j) N.zero = N.zero then none else some (w.getD (i + j) N.zero)
  | [], _, j, _, h => by simp at h
  | name :: l, i, 0, hd, h => by
    have hn : name = u := by simpa using h
    subst hn
    have hnone := lastValue_written_none N w hide name l (i + 1) (List.nodup_cons.1 hd).1
    show lastValue (written N w hide i (name :: l)) name = if hide = true ∧ w.getD i N.zero = N.zero then none else some (w.getD i N.zero)
    unfold written
    by_cases hz : hide = true ∧ w.getD i N.zero = N.zero
    · rw [if_pos hz, if_pos hz]; exact hnone
    · rw [if_neg hz, if_neg hz, lastValue, hnone]; simp
  | name :: l, i, j + 1, hd, h => by
    have h' : l[j]? = some u := by simpa using h
    have ih := lastValue_written N w hide u l (i + 1) j (List.nodup_cons.1 hd).2 h'
    have hne : ¬ name = u := fun e => (List.nodup_cons.1 hd).1 (e ▸ List.mem_of_getElem? h')
    rw [show i + 1 + j = i + (j + 1) by omega] at ih
    unfold written
    split
    · exact ih
    · rw [lastValue, ih]
      by_cases hz : hide = true ∧ w.getD (i + (j + 1)) N.zero = N.zero
      · simp only [if_pos hz, hne, if_false]
      · simp only [if_neg hz]

theorem words_nodup {d : Dict Str} (h : d.Inv) : d.words.Nodup := by
  rw [List.nodup_iff_getElem?_ne_getElem?]
  intro i j hij hj he
  have h1 : d.words[i]? = some d.words[i] := List.getElem?_eq_getElem (by omega)
  have h2 := (h d.words[i] (i + 1)).2 ⟨by omega, h1⟩
  have h3 := (h d.words[i] (j + 1)).2 ⟨by omega, by show d.words[j]? = _; rw [← he, h1]⟩
  rw [h2] at h3
  have := Option.some.inj h3
  omega

end Cdec.Weights
