import Mathlib.Tactic.Tauto
/-!
# Array2D

Models utils/array2d.h:11-83.  `none` is a failing assertion (`offset`, lines 73-77).
-/
namespace Cdec
variable {T : Type}

/-- array2d.h:79-82. -/
structure Grid (T : Type) where
  w : Nat
  h : Nat
  data : List T
deriving DecidableEq

/-- `Array2D(w, h, d)`, array2d.h:18-19; also `resize` of a cleared array, array2d.h:23-27. -/
def Grid.new (w h : Nat) (d : T) : Grid T := ⟨w, h, List.replicate (w * h) d⟩

/-- `offset`, array2d.h:73-77. -/
def Grid.offset (g : Grid T) (i j : Nat) : Option Nat :=
  if i < g.w then if j < g.h then some (i + j * g.w) else none else none

/-- `operator()(i, j) const`, array2d.h:39-41. -/
def Grid.get (g : Grid T) (i j : Nat) : Option T := (g.offset i j).bind fun k => g.data[k]?

/-- `(*this)(i, j) = v`, array2d.h:35-37. -/
def Grid.set (g : Grid T) (i j : Nat) (v : T) : Option (Grid T) :=
  (g.offset i j).bind fun k => if k < g.data.length then some { g with data := g.data.set k v } else none

/-- Invariant of the class: the buffer has `width*height` cells. -/
def Grid.Valid (g : Grid T) : Prop := g.data.length = g.w * g.h

theorem offset_lt {w h i j : Nat} (hi : i < w) (hj : j < h) : i + j * w < w * h := by
  have : (j + 1) * w ≤ h * w := Nat.mul_le_mul_right _ hj
  rw [Nat.mul_comm w h]
  rw [Nat.add_mul] at this
  omega

theorem offset_inj {w i j i' j' : Nat} (hi : i < w) (hi' : i' < w) (h : i + j * w = i' + j' * w) :
    i = i' ∧ j = j' := by
  have h1 : (i + j * w) % w = i := by rw [Nat.add_mul_mod_self_right, Nat.mod_eq_of_lt hi]
  have h2 : (i' + j' * w) % w = i' := by rw [Nat.add_mul_mod_self_right, Nat.mod_eq_of_lt hi']
  have e : i = i' := by rw [← h1, ← h2, h]
  subst e
  refine ⟨rfl, ?_⟩
  have : j * w = j' * w := by omega
  exact Nat.eq_of_mul_eq_mul_right (by omega) this

theorem Grid.valid_new (w h : Nat) (d : T) : (Grid.new w h d).Valid := by simp [Grid.new, Grid.Valid]

theorem Grid.get_some {g : Grid T} (hv : g.Valid) {i j : Nat} (hi : i < g.w) (hj : j < g.h) :
    ∃ v, g.get i j = some v := by
  have := offset_lt hi hj
  unfold Grid.Valid at hv
  refine ⟨g.data[i + j * g.w], ?_⟩
  rw [Grid.get, Grid.offset, if_pos hi, if_pos hj, Option.bind_some, List.getElem?_eq_getElem]

theorem Grid.get_none {g : Grid T} {i j : Nat} (h : ¬ (i < g.w ∧ j < g.h)) : g.get i j = none := by
  rw [Grid.get, Grid.offset]
  split
  · rw [if_neg (by tauto)]; rfl
  · rfl

theorem Grid.get_new (w h : Nat) (d : T) {i j : Nat} (hi : i < w) (hj : j < h) :
    (Grid.new w h d).get i j = some d := by
  have := offset_lt hi hj
  simp [Grid.get, Grid.offset, Grid.new, hi, hj, this]

theorem Grid.set_some {g : Grid T} (hv : g.Valid) {i j : Nat} (hi : i < g.w) (hj : j < g.h) (v : T) :
    ∃ g', g.set i j v = some g' ∧ g'.w = g.w ∧ g'.h = g.h ∧ g'.Valid ∧
      ∀ i' j', g'.get i' j' = if i' = i ∧ j' = j then some v else g.get i' j' := by
  have hlt := offset_lt hi hj
  have hv' : g.data.length = g.w * g.h := hv
  refine ⟨{ g with data := g.data.set (i + j * g.w) v }, ?_, rfl, rfl, ?_, ?_⟩
  · rw [Grid.set, Grid.offset, if_pos hi, if_pos hj, Option.bind_some, if_pos (by omega)]
  · simp [Grid.Valid, hv']
  · intro i' j'
    by_cases hr : i' < g.w ∧ j' < g.h
    · simp only [Grid.get, Grid.offset, if_pos hr.1, if_pos hr.2, Option.bind_some]
      rw [List.getElem?_set]
      by_cases he : i' = i ∧ j' = j
      · obtain ⟨rfl, rfl⟩ := he
        rw [if_pos rfl, if_pos (by omega), if_pos ⟨rfl, rfl⟩]
      · rw [if_neg he, if_neg]
        intro hk
        have := offset_inj hi hr.1 hk
        exact he ⟨this.1.symm, this.2.symm⟩
    · rw [Grid.get_none hr, Grid.get_none (by exact hr), if_neg]
      rintro ⟨rfl, rfl⟩
      exact hr ⟨hi, hj⟩

end Cdec
