import Verif.Klm.SortedSearch
import Mathlib.Data.List.Pairwise
import Mathlib.Tactic.Tauto
import Mathlib.Tactic.ByContra
import Mathlib.Order.Nat
import Mathlib.Tactic.NormNum
/-!
# C51: searching a sorted range

Specification: `answer a lo hi key r` says that `r` is a right answer to "where is `key` in positions
`lo, …, hi-1` of `a`": a position in that range that holds the key, or "nowhere" when no position does.
-/
namespace Cdec.Klm

/-- What the caller is promised. -/
def answer {K : Type*} (a : List K) (lo hi : Nat) (key : K) : Option Nat → Prop
  | some p => lo ≤ p ∧ p < hi ∧ a[p]? = some key
  | none => ∀ p, lo ≤ p → p < hi → a[p]? ≠ some key

theorem sorted_get {K : Type*} [LinearOrder K] {a : List K} (hs : a.Pairwise (· ≤ ·)) {i j : Nat} {x y : K}
    (hi : a[i]? = some x) (hj : a[j]? = some y) (h : i ≤ j) : x ≤ y := by
  rcases Nat.lt_or_eq_of_le h with h | h
  · obtain ⟨h1, rfl⟩ := List.getElem?_eq_some_iff.mp hi
    obtain ⟨h2, rfl⟩ := List.getElem?_eq_some_iff.mp hj
    exact List.pairwise_iff_getElem.mp hs i j h1 h2 h
  · subst h; rw [hi] at hj; exact le_of_eq (Option.some.inj hj)

/-- **C51 (binary search).**  On every sorted list and every range inside it the search stays in range, and it
answers "true, at `p`" exactly when the key is there. -/
theorem C51_binary_find {K : Type*} [LinearOrder K] (a : List K) (hs : a.Pairwise (· ≤ ·)) (key : K) (b e : Nat)
    (he : e ≤ a.length) : ∃ r, binaryFind a key b e = some r ∧ answer a b e key r := by
  fun_induction binaryFind a key b e with
  | case1 b e hbe pivot hn =>
    exfalso
    have : pivot < a.length := by simp only [pivot]; omega
    rw [List.getElem?_eq_getElem this] at hn; cases hn
  | case2 b e hbe pivot mid hm hlt ih =>
    obtain ⟨r, hr, ha⟩ := ih he
    refine ⟨r, hr, ?_⟩
    cases r with
    | some p => simp only [answer, pivot] at ha ⊢; exact ⟨by omega, ha.2⟩
    | none =>
      intro p h1 h2 hp
      by_cases hpp : p ≤ pivot
      · exact absurd (sorted_get hs hp hm hpp) (not_le.mpr hlt)
      · exact ha p (by omega) h2 hp
  | case3 b e hbe pivot mid hm hnlt hgt ih =>
    obtain ⟨r, hr, ha⟩ := ih (by simp only [pivot]; omega)
    refine ⟨r, hr, ?_⟩
    cases r with
    | some p => simp only [answer, pivot] at ha ⊢; exact ⟨ha.1, by omega, ha.2.2⟩
    | none =>
      intro p h1 h2 hp
      by_cases hpp : pivot ≤ p
      · exact absurd (sorted_get hs hm hp hpp) (not_le.mpr hgt)
      · exact ha p h1 (by omega) hp
  | case4 b e hbe pivot mid hm hnlt hngt =>
    refine ⟨some pivot, rfl, ?_, ?_, ?_⟩
    · simp only [pivot]; omega
    · simp only [pivot]; omega
    · rw [hm]; exact congrArg some (le_antisymm (not_lt.mp hngt) (not_lt.mp hnlt))
  | case5 b e hbe =>
    exact ⟨none, rfl, fun p h1 h2 => by omega⟩

/-- A pivot rule that stays in range, for value ranges up to `M` and widths up to `N`. -/
def PivotOk (M N : Nat) (piv : Nat → Nat → Nat → Nat) : Prop :=
  ∀ off range width, off ≤ range → range ≤ M → 0 < width → width ≤ N → piv off range width < width

/-- **C51 (interpolation search between two known values).**  For every pivot rule that stays in range, the
search never leaves the open interval and answers correctly.  The other hypotheses are the documented
preconditions. -/
theorem C51_bounded_find (M N : Nat) (piv : Nat → Nat → Nat → Nat) (hc : PivotOk M N piv)
    (a : List Nat) (hs : a.Pairwise (· ≤ ·)) (key : Nat)
    (bi bv ai av : Nat) (ha : ai ≤ a.length) (hb : bv ≤ key) (hk : key ≤ av)
    (hr : ∀ (p x : Nat), bi < p → p < ai → a[p]? = some x → bv ≤ x ∧ x ≤ av)
    (hM : av ≤ M) (hN : ai - bi - 1 ≤ N) :
    ∃ r, boundedFind piv a key bi bv ai av = some r ∧ answer a (bi + 1) ai key r := by
  fun_induction boundedFind piv a key bi bv ai av with
  | case1 bi bv ai av hw pivot hp hn =>
    exfalso
    rw [List.getElem?_eq_getElem (by omega)] at hn; cases hn
  | case2 bi bv ai av hw pivot hp mid hm hlt ih =>
    obtain ⟨r, hr', hans⟩ := ih ha (by omega) hk
      (fun p x h1 h2 hx => ⟨sorted_get hs hm hx (by omega), (hr p x (by simp only [pivot] at h1; omega) h2 hx).2⟩) hM
      (by simp only [pivot]; omega)
    refine ⟨r, hr', ?_⟩
    cases r with
    | some p => simp only [answer, pivot] at hans ⊢; exact ⟨by omega, hans.2⟩
    | none =>
      intro p h1 h2 hpk
      by_cases hpp : p ≤ pivot
      · exact absurd (sorted_get hs hpk hm hpp) (not_le.mpr hlt)
      · exact hans p (by omega) h2 hpk
  | case3 bi bv ai av hw pivot hp mid hm hnlt hgt ih =>
    have hmid := hr pivot mid (by simp only [pivot]; omega) hp hm
    obtain ⟨r, hr', hans⟩ := ih (by omega) hb (by omega)
      (fun p x h1 h2 hx => ⟨(hr p x h1 (by omega) hx).1, sorted_get hs hx hm (by omega)⟩) (by omega) (by omega)
    refine ⟨r, hr', ?_⟩
    cases r with
    | some p => simp only [answer] at hans ⊢; exact ⟨hans.1, by omega, hans.2.2⟩
    | none =>
      intro p h1 h2 hpk
      by_cases hpp : pivot ≤ p
      · exact absurd (sorted_get hs hm hpk hpp) (not_le.mpr hgt)
      · exact hans p h1 (by omega) hpk
  | case4 bi bv ai av hw pivot hp mid hm hnlt hngt =>
    refine ⟨some pivot, rfl, ?_, hp, ?_⟩
    · simp only [pivot]; omega
    · rw [hm]; congr 1; omega
  | case5 bi bv ai av hw pivot hp =>
    exfalso
    apply hp
    have := hc (key - bv) (av - bv) (ai - bi - 1) (by omega) (by omega) (by omega) (by omega)
    simp only [pivot]; omega
  | case6 bi bv ai av hw =>
    exact ⟨none, rfl, fun p h1 h2 => by omega⟩

/-- **C51 (interpolation search of a whole range).** -/
theorem C51_sorted_uniform_find (M N : Nat) (piv : Nat → Nat → Nat → Nat) (hc : PivotOk M N piv)
    (a : List Nat) (hs : a.Pairwise (· ≤ ·)) (key b e : Nat) (hbe : b ≤ e) (he : e ≤ a.length)
    (hM : ∀ x ∈ a, x ≤ M) (hN : a.length ≤ N) :
    ∃ r, sortedUniformFind piv a key b e = some r ∧ answer a b e key r := by
  unfold sortedUniformFind
  split
  · exact ⟨none, rfl, fun p h1 h2 => by omega⟩
  · rename_i hne
    have hb := List.getElem?_eq_getElem (l := a) (i := b) (by omega)
    have hl := List.getElem?_eq_getElem (l := a) (i := e - 1) (by omega)
    generalize a[b]'(by omega) = below at hb
    generalize a[e - 1]'(by omega) = above at hl
    simp only [hb, hl]
    split
    · split
      · rename_i h; subst h
        exact ⟨some b, rfl, Nat.le_refl _, by omega, hb⟩
      · refine ⟨none, rfl, fun p h1 h2 hp => ?_⟩
        have := sorted_get hs hb hp h1
        omega
    · split
      · split
        · rename_i h; subst h
          exact ⟨some (e - 1), rfl, by omega, by omega, hl⟩
        · refine ⟨none, rfl, fun p h1 h2 hp => ?_⟩
          have := sorted_get hs hp hl (by omega)
          omega
      · obtain ⟨r, hr, hans⟩ := C51_bounded_find M N piv hc a hs key b below (e - 1) above (by omega)
          (by omega) (by omega)
          (fun p x h1 h2 hx => ⟨sorted_get hs hb hx (by omega), sorted_get hs hx hl (by omega)⟩)
          (hM _ (List.mem_of_getElem? hl)) (by omega)
        refine ⟨r, hr, ?_⟩
        cases r with
        | some p => simp only [answer] at hans ⊢; exact ⟨by omega, by omega, hans.2.2⟩
        | none =>
          intro p h1 h2 hp
          by_cases h3 : p = b
          · subst h3; rw [hb] at hp; cases hp; omega
          · by_cases h4 : p = e - 1
            · subst h4; rw [hl] at hp; cases hp; omega
            · exact hans p (by omega) (by omega) hp

/-- **C51 (pivot rules).**  Both of the library's pivot rules stay in range: the integer one when
`range * width` fits in 64 bits (its documented condition), the floating-point one always. -/
theorem C51_pivots_in_range (M N : Nat) :
    ((M + 1) * N < 2 ^ 64 → M + 1 < 2 ^ 64 → PivotOk M N pivot32) ∧ ∀ q, PivotOk M N (pivot64 q) := by
  refine ⟨fun h h' => ?_, fun q => ?_⟩
  · intro off range width h1 h2 h3 h4
    unfold pivot32
    have hm : off * width < (range + 1) * width := Nat.mul_lt_mul_of_pos_right (by omega) h3
    have hm2 : (range + 1) * width ≤ (M + 1) * N := Nat.mul_le_mul (by omega) h4
    rw [Nat.mod_eq_of_lt (a := off * width) (by omega), Nat.mod_eq_of_lt (a := range + 1) (by omega),
      Nat.div_lt_iff_lt_mul (by omega), Nat.mul_comm width]
    exact hm
  · intro off range width h1 h2 h3 h4
    unfold pivot64
    simp only
    split <;> omega

/-- Non-vacuity: a search that goes both ways before it finds the key, and one for an absent key. -/
example : binaryFind [1, 3, 3, 7, 9, 20] 7 0 6 = some (some 3) ∧ binaryFind [1, 3, 3, 7, 9, 20] 8 0 6 = some none ∧
    sortedUniformFind pivot32 [1, 3, 3, 7, 9, 20] 7 0 6 = some (some 3) ∧
    sortedUniformFind pivot32 [1, 3, 3, 7, 9, 20] 8 0 6 = some none := by decide +kernel

example : PivotOk 1000 1000 pivot32 := (C51_pivots_in_range 1000 1000).1 (by norm_num) (by norm_num)

end Cdec.Klm
