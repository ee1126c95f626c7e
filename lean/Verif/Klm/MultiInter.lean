import Mathlib.Order.Defs.LinearOrder
import Mathlib.Data.List.Basic
/-!
# Intersection of several sorted ranges

Models klm/util/multi_intersection.hh.  A range is the list of the elements it still holds; the element order
`less` is a linear order.
-/
namespace Cdec.Klm

variable {α : Type*} [LinearOrder α]

/-- `advance_begin(std::lower_bound(begin, end, highest) - begin)`, multi_intersection.hh:37; on a sorted range
`lower_bound` is the first element that is not below `highest`. -/
def advance (h : α) (s : List α) : List α := s.dropWhile (fun x => decide (x < h))

theorem countP_lt_of {p q : α → Bool} {l : List α} (hpq : ∀ x, p x = true → q x = true)
    {x : α} (hx : x ∈ l) (hq : q x = true) (hp : p x = false) : l.countP p < l.countP q := by
  induction l with
  | nil => cases hx
  | cons y l ih =>
    have hle : l.countP p ≤ l.countP q := List.countP_mono_left (fun z _ => hpq z)
    rw [List.countP_cons, List.countP_cons]
    rcases List.mem_cons.mp hx with rfl | h
    · rw [hp, hq]; simp; omega
    · have := ih h
      by_cases hy : p y = true
      · rw [hy, hpq y hy]; omega
      · rw [if_neg hy]; exact Nat.lt_of_lt_of_le this (Nat.le_add_right _ _)

theorem flatten_set_sublist (sets : List (List α)) (i : Nat) (s : List α)
    (h : ∀ t, sets[i]? = some t → s.Sublist t) : (sets.set i s).flatten.Sublist sets.flatten := by
  induction sets generalizing i with
  | nil => simp
  | cons t sets ih =>
    cases i with
    | zero => simpa using List.Sublist.append (h t rfl) (List.Sublist.refl sets.flatten)
    | succ i => simpa using List.Sublist.append (List.Sublist.refl t) (ih i (fun u hu => h u (by simpa using hu)))

/-- The loop of `FirstIntersectionSorted`, multi_intersection.hh:36-47, at position `i` with the current
`highest`; returns the optional and the truncated ranges. -/
def firstLoop (sets : List (List α)) (i : Nat) (highest : α) : Option α × List (List α) :=
  if h : i < sets.length then
    match hs : advance highest sets[i] with
    | [] => (none, sets.set i [])
    | x :: s =>
      if highest < x then firstLoop (sets.set i (x :: s)) 0 x
      else firstLoop (sets.set i (x :: s)) (i + 1) highest
  else (some highest, sets)
termination_by (sets.flatten.countP (fun y => decide (highest < y)), sets.length - i)
decreasing_by
  · apply Prod.Lex.left
    have hsub : (sets.set i (x :: s)).flatten.Sublist sets.flatten := by
      apply flatten_set_sublist
      intro t ht
      rw [List.getElem?_eq_getElem h] at ht
      cases ht
      rw [← hs]; exact List.dropWhile_sublist _
    refine Nat.lt_of_lt_of_le (countP_lt_of (x := x) (q := fun y => decide (highest < y)) ?_ ?_ ?_ ?_)
      (hsub.countP_le)
    · intro y hy; simp only [decide_eq_true_eq] at hy ⊢; exact lt_trans (by assumption) hy
    · rw [List.mem_flatten]
      exact ⟨x :: s, List.mem_of_getElem? (i := i) (by simp [h]), List.mem_cons_self⟩
    · simpa using (by assumption : highest < x)
    · simp
  · apply Prod.Lex.right'
    · apply List.Sublist.countP_le
      apply flatten_set_sublist
      intro t ht
      rw [List.getElem?_eq_getElem h] at ht
      cases ht
      rw [← hs]; exact List.dropWhile_sublist _
    · simp only [List.length_set]; omega

/-- `FirstIntersectionSorted`, multi_intersection.hh:27-48; `none` when there are no sets (the assertion in line
31). -/
def firstIntersectionSorted (sets : List (List α)) : Option (Option α × List (List α)) :=
  match sets with
  | [] => none
  | [] :: rest => some (none, [] :: rest)
  | (x :: s) :: rest => some (firstLoop ((x :: s) :: rest) 0 x)

/-- The loop of `AllIntersection`, multi_intersection.hh:68-71, after the sort; the list of values passed to
`out`.  `none` when there are no sets or the given number of rounds does not suffice. -/
def allLoop : Nat → List (List α) → Option (List α)
  | 0, _ => none
  | n + 1, sets =>
    match firstIntersectionSorted sets with
    | none => none
    | some (none, _) => some []
    | some (some v, sets') => (allLoop n (sets'.modifyHead List.tail)).map (v :: ·)

/-- `AllIntersection`, multi_intersection.hh:63-72, on sets that have been sorted by size. -/
def allIntersection (sets : List (List α)) : Option (List α) := allLoop (sets.flatten.length + 1) sets

end Cdec.Klm
