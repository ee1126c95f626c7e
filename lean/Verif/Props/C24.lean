import Verif.Sparse.Lemmas
import Mathlib.Tactic.NormNum
import Mathlib.Algebra.Field.Rat
/-! # C24: FastSparseVector behaves as a finite map with default zero -/
namespace Cdec.Sparse
variable {T : Type} [Field T]

/-- Programs that build a sparse vector from empty ones with the public operations. -/
inductive Prog (T : Type) where
  | empty
  | setValue (p : Prog T) (k : Nat) (x : T)
  | addValue (p : Prog T) (k : Nat) (x : T)
  | plus (p q : Prog T)
  | minus (p q : Prog T)
  | plusTimes (p q : Prog T) (s : T)
  | times (p : Prog T) (s : T)
  | div (p : Prog T) (s : T)
  | eraseZeros (p : Prog T) (big : T → Bool)

/-- What the code does, with `LOCAL_MAX = L`. -/
def Prog.run (L : Nat) : Prog T → FSV T
  | .empty => .empty
  | .setValue p k x => (p.run L).setValue L k x
  | .addValue p k x => (p.run L).addValue L k x
  | .plus p q => (p.run L).plus L (q.run L)
  | .minus p q => (p.run L).minus L (q.run L)
  | .plusTimes p q s => (p.run L).plusTimes L (q.run L) s
  | .times p s => (p.run L).times s
  | .div p s => (p.run L).div s
  | .eraseZeros p big => (p.run L).eraseZeros L big

/-- What a total function from keys to numbers does. -/
def Prog.spec : Prog T → Nat → T
  | .empty => fun _ => 0
  | .setValue p k x => fun i => if i = k then x else p.spec i
  | .addValue p k x => fun i => if i = k then p.spec i + x else p.spec i
  | .plus p q => fun i => p.spec i + q.spec i
  | .minus p q => fun i => p.spec i - q.spec i
  | .plusTimes p q s => fun i => p.spec i + q.spec i * s
  | .times p s => fun i => p.spec i * s
  | .div p s => fun i => p.spec i / s
  | .eraseZeros p big => fun i => if big (p.spec i) then p.spec i else 0

theorem prog_correct (L : Nat) (p : Prog T) : (p.run L).Inv ∧ ∀ k, (p.run L).value k = p.spec k := by
  induction p with
  | empty => exact ⟨by simp [FSV.Inv, Prog.run, FSV.empty, FSV.entries], fun k => by
      simp [FSV.value, Prog.run, Prog.spec, FSV.empty, FSV.entries, lookup]⟩
  | setValue p k x ih =>
    refine ⟨update_inv L ih.1 _ _, fun i => ?_⟩
    simp only [Prog.run, Prog.spec, FSV.setValue, value_update, ih.2]
  | addValue p k x ih =>
    refine ⟨update_inv L ih.1 _ _, fun i => ?_⟩
    simp only [Prog.run, Prog.spec, FSV.addValue, value_update, ih.2]
    split
    · subst_vars; rfl
    · rfl
  | plus p q ih1 ih2 =>
    simp only [Prog.run, Prog.spec, FSV.plus]
    split
    · rename_i h
      refine ⟨ih2.1, fun k => ?_⟩
      have h0 : (p.run L).value k = 0 := by
        have : (p.run L).entries = [] := List.length_eq_zero_iff.1 h
        simp [FSV.value, this, lookup]
      rw [← ih1.2, h0, ih2.2, zero_add]
    · obtain ⟨h1, h2⟩ := foldl_update L (fun y x => y + x) (q.run L).entries (p.run L) ih1.1 ih2.1
      refine ⟨h1, fun k => ?_⟩
      rw [h2 k, ← ih1.2, ← ih2.2]
      simp only [FSV.value]
      cases lookup (q.run L).entries k <;> simp
  | minus p q ih1 ih2 =>
    obtain ⟨h1, h2⟩ := foldl_update L (fun y x => y - x) (q.run L).entries (p.run L) ih1.1 ih2.1
    refine ⟨h1, fun k => ?_⟩
    simp only [Prog.run, Prog.spec, FSV.minus]
    rw [h2 k, ← ih1.2, ← ih2.2]
    simp only [FSV.value]
    cases lookup (q.run L).entries k <;> simp
  | plusTimes p q s ih1 ih2 =>
    obtain ⟨h1, h2⟩ := foldl_update L (fun y x => y + x * s) (q.run L).entries (p.run L) ih1.1 ih2.1
    refine ⟨h1, fun k => ?_⟩
    simp only [Prog.run, Prog.spec, FSV.plusTimes]
    rw [h2 k, ← ih1.2, ← ih2.2]
    simp only [FSV.value]
    cases lookup (q.run L).entries k <;> simp
  | times p s ih =>
    refine ⟨mapVals_inv ih.1 (fun y => y * s), fun k => ?_⟩
    simp only [Prog.run, Prog.spec, FSV.times]
    rw [value_mapVals _ _ (by simp), ih.2]
  | div p s ih =>
    refine ⟨mapVals_inv ih.1 (fun y => y / s), fun k => ?_⟩
    simp only [Prog.run, Prog.spec, FSV.div]
    rw [value_mapVals _ _ (by simp), ih.2]
  | eraseZeros p big ih =>
    obtain ⟨h1, h2⟩ := eraseZeros_spec L big (p.run L) ih.1
    refine ⟨h1, fun k => ?_⟩
    simp only [Prog.run, Prog.spec]
    rw [h2 k, ih.2]

/-- C24, values.  Whatever sequence of operations built the vector and whatever `LOCAL_MAX` is, `value(k)`
is what a plain finite map would hold. -/
theorem C24_value (L : Nat) (p : Prog T) (k : Nat) : (p.run L).value k = p.spec k := (prog_correct L p).2 k

/-- C24, dot product with a dense vector. -/
theorem C24_dot_dense (L : Nat) (p : Prog T) (w : List T) :
    (p.run L).dotDense w = ∑ k ∈ Finset.range w.length, p.spec k * w.getD k 0 := by
  obtain ⟨hi, hv⟩ := prog_correct L p
  rw [dotDense_eq hi]
  exact Finset.sum_congr rfl fun k _ => by rw [hv]

/-- C24, dot product of two sparse vectors, summed over any finite set of keys outside which the first
vector is zero. -/
theorem C24_dot_sparse (L : Nat) (p q : Prog T) (S : Finset Nat) (hS : ∀ k ∉ S, p.spec k = 0) :
    (p.run L).dot (q.run L) = ∑ k ∈ S, q.spec k * p.spec k := by
  obtain ⟨hi, hv⟩ := prog_correct L p
  have h1 : (p.run L).dot (q.run L) = ((p.run L).entries.map fun r => (q.run L).value r.1 * r.2).sum := by
    rw [FSV.dot, foldl_add_map, zero_add]
  rw [h1, sum_entries (fun k x => (q.run L).value k * x) (by simp) _ hi
    (S ∪ ((p.run L).entries.map Prod.fst).toFinset) (by intro k hk; simp at hk ⊢; exact .inr hk)]
  have h2 : ∀ k, (lookup (p.run L).entries k).getD 0 = p.spec k := fun k => hv k
  rw [← Finset.sum_subset (Finset.subset_union_left) (by
    intro k _ hk
    rw [h2, hS k hk, mul_zero])]
  exact Finset.sum_congr rfl fun k _ => by rw [h2, C24_value]

/-- C24, the representation never shows: two vectors built with different `LOCAL_MAX` agree. -/
theorem C24_local_max_irrelevant (L L' : Nat) (p : Prog T) (k : Nat) :
    (p.run L).value k = (p.run L').value k := by rw [C24_value, C24_value]

/-- Non-vacuity: with `LOCAL_MAX = 2` this program spills to the map. -/
example : ∃ p : Prog ℚ, (∃ m, p.run 2 = .rem m) ∧ (p.run 2).value 5 = 7 / 2 := by
  refine ⟨.times (.plus (.setValue (.setValue .empty 1 3) 2 4) (.addValue (.setValue .empty 5 6) 5 1)) (1 / 2), ⟨_, rfl⟩, ?_⟩
  rw [C24_value]; norm_num [Prog.spec]

end Cdec.Sparse
