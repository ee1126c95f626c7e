import Verif.Align.Diagonal
import Mathlib.Algebra.Field.GeomSum
import Mathlib.Algebra.BigOperators.Intervals
import Mathlib.Tactic.FieldSimp
import Mathlib.Tactic.Ring
import Mathlib.Tactic.Linarith
import Mathlib.Tactic.NormNum
/-! # C59: the diagonal alignment normalizer -/
namespace Cdec.Align
open Finset

/-- The sum that ComputeZ stands for. -/
noncomputable def specZ (i m n : Nat) (alpha : ℝ) : ℝ := ∑ j ∈ Icc 1 n, unnormProb i j m n alpha

/-- The sum of feature times probability. -/
noncomputable def specD (i m n : Nat) (alpha : ℝ) : ℝ := ∑ j ∈ Icc 1 n, feature i j m n * unnormProb i j m n alpha

variable {i m n : Nat} {alpha : ℝ}

theorem ratio_ne (ha : alpha ≠ 0) (hn : 0 < n) : Real.exp (-alpha / n) ≠ 1 := by
  intro h
  rw [Real.exp_eq_one_iff] at h
  have : (n : ℝ) ≠ 0 := by positivity
  field_simp at h
  simp at h
  exact ha h

theorem floor_le (him : i ≤ m) (hm : 0 < m) : splitFloor i m n ≤ n := by
  unfold splitFloor
  rw [Nat.div_le_iff_le_mul_add_pred hm]
  have := Nat.mul_le_mul_right n him
  omega

theorem split_le (hm : 0 < m) (hn : 0 < n) : ((splitFloor i m n : Nat) : ℝ) / n ≤ (i : ℝ) / m := by
  have h : splitFloor i m n * m ≤ i * n := Nat.div_mul_le_self _ _
  rw [div_le_div_iff₀ (by positivity) (by positivity)]
  exact_mod_cast h

theorem split_lt (hm : 0 < m) (hn : 0 < n) : (i : ℝ) / m < ((splitFloor i m n + 1 : Nat) : ℝ) / n := by
  have h : i * n < (splitFloor i m n + 1) * m := by
    unfold splitFloor
    have := Nat.lt_div_mul_add (a := i * n) hm
    rw [Nat.add_mul]; omega
  rw [div_lt_div_iff₀ (by positivity) (by positivity)]
  exact_mod_cast h

theorem feature_top (hm : 0 < m) (hn : 0 < n) (k : Nat) :
    feature i (splitFloor i m n + 1 + k) m n = feature i (splitFloor i m n + 1) m n + k * (-1 / n) := by
  have h := split_lt (i := i) hm hn
  have hn' : (0 : ℝ) < n := by positivity
  have h2 : ((splitFloor i m n + 1 + k : Nat) : ℝ) / n = ((splitFloor i m n + 1 : Nat) : ℝ) / n + k / n := by
    push_cast; ring
  have hk : (0 : ℝ) ≤ k / n := by positivity
  unfold feature
  rw [h2, abs_of_pos (by linarith), abs_of_pos (by linarith)]
  ring

theorem feature_bot (hm : 0 < m) (hn : 0 < n) (k : Nat) (hk : k ≤ splitFloor i m n) :
    feature i (splitFloor i m n - k) m n = feature i (splitFloor i m n) m n + k * (-1 / n) := by
  have h := split_le (i := i) hm hn
  have hn' : (0 : ℝ) < n := by positivity
  have h2 : ((splitFloor i m n - k : Nat) : ℝ) / n = ((splitFloor i m n : Nat) : ℝ) / n - k / n := by
    rw [Nat.cast_sub hk]; ring
  have hk : (0 : ℝ) ≤ k / n := by positivity
  unfold feature
  rw [h2, abs_of_nonpos (by linarith), abs_of_nonpos (by linarith)]
  ring

theorem prob_top (hm : 0 < m) (hn : 0 < n) (k : Nat) :
    unnormProb i (splitFloor i m n + 1 + k) m n alpha =
      unnormProb i (splitFloor i m n + 1) m n alpha * Real.exp (-alpha / n) ^ k := by
  unfold unnormProb
  rw [feature_top hm hn, ← Real.exp_nat_mul, ← Real.exp_add]
  congr 1; ring

theorem prob_bot (hm : 0 < m) (hn : 0 < n) (k : Nat) (hk : k ≤ splitFloor i m n) :
    unnormProb i (splitFloor i m n - k) m n alpha =
      unnormProb i (splitFloor i m n) m n alpha * Real.exp (-alpha / n) ^ k := by
  unfold unnormProb
  rw [feature_bot hm hn k hk, ← Real.exp_nat_mul, ← Real.exp_add]
  congr 1; ring

/-- Split a sum over 1..n at the code's `floor`, each half in the code's direction. -/
theorem split_sum (f : Nat → ℝ) (fl : Nat) (h : fl ≤ n) :
    ∑ j ∈ Icc 1 n, f j = ∑ k ∈ range fl, f (fl - k) + ∑ k ∈ range (n - fl), f (fl + 1 + k) := by
  have e1 : ∑ j ∈ Icc 1 n, f j = ∑ k ∈ range n, f (k + 1) := by
    rw [range_eq_Ico, sum_Ico_add' f 0 n 1]
    rfl
  have e2 : ∑ k ∈ range fl, f (fl - k) = ∑ k ∈ range fl, f (k + 1) := by
    rw [← sum_range_reflect]
    apply sum_congr rfl
    intro k hk
    have := mem_range.1 hk
    congr 1; omega
  have e3 : n = fl + (n - fl) := by omega
  rw [e1, e2]
  conv_lhs => rw [e3, sum_range_add]
  congr 1
  apply sum_congr rfl
  intro k _
  congr 1; omega

theorem z_eq (ha : alpha ≠ 0) (hi : i ≤ m) (hm : 0 < m) (hn : 0 < n) : computeZ i m n alpha = some (specZ i m n alpha) := by
  have hfl := floor_le (n := n) hi hm
  have hr := ratio_ne ha hn
  have hr1 : 1 - Real.exp (-alpha / n) ≠ 0 := fun h => hr (by linarith)
  unfold computeZ
  simp only [if_neg hr1, usub, if_pos hfl, Option.some.injEq]
  rw [specZ, split_sum _ (splitFloor i m n) hfl]
  have g : ∀ (x : ℝ) (k : Nat), (∑ t ∈ range k, x * Real.exp (-alpha / n) ^ t) =
      if k ≠ 0 then x * (1 - Real.exp (-alpha / n) ^ k) / (1 - Real.exp (-alpha / n)) else 0 := by
    intro x k
    rw [← mul_sum, geom_sum_eq hr]
    split
    · generalize Real.exp (-alpha / n) = r at hr hr1 ⊢
      have : r - 1 ≠ 0 := fun h => hr (by linarith)
      rw [mul_div_assoc]
      congr 1
      rw [div_eq_div_iff this hr1]; ring
    · rename_i hk
      simp only [ne_eq, not_not] at hk
      subst hk; simp
  congr 1
  · rw [← g]
    apply sum_congr rfl
    intro k hk
    exact (prob_bot hm hn k (by have := mem_range.1 hk; omega)).symm
  · rw [← g]
    apply sum_congr rfl
    intro k _
    exact (prob_top hm hn k).symm

theorem ag_eq (a1 g1 r d : ℝ) (hr : r ≠ 1) (n : Nat) (hn : n ≠ 0) :
    agSeries a1 g1 r d n = ∑ k ∈ range n, (a1 + k * d) * (g1 * r ^ k) := by
  have hr1 : r - 1 ≠ 0 := fun h => hr (by linarith)
  obtain ⟨n, rfl⟩ := Nat.exists_eq_add_one_of_ne_zero hn
  clear hn
  induction n with
  | zero =>
    simp only [agSeries, sum_range_succ, sum_range_zero]
    push_cast
    field_simp
    ring
  | succ n ih =>
    rw [sum_range_succ, ← ih]
    simp only [agSeries]
    push_cast
    field_simp
    ring

theorem d_eq (ha : alpha ≠ 0) (hi : i ≤ m) (hm : 0 < m) (hn : 0 < n) (z : ℝ) (hz : computeZ i n m alpha = some z) :
    computeDLogZ i m n alpha = some (specD i m n alpha / z) := by
  have hfl := floor_le (n := n) hi hm
  have hr := ratio_ne ha hn
  have hr1 : Real.exp (-alpha / n) - 1 ≠ 0 := fun h => hr (by linarith)
  unfold computeDLogZ
  simp only [hz, Option.bind_some, if_neg hr1, usub, if_pos hfl, Option.some.injEq]
  congr 1
  rw [specD, split_sum _ (splitFloor i m n) hfl, add_comm]
  have g : ∀ (a x : ℝ) (k : Nat), (if k ≠ 0 then agSeries a x (Real.exp (-alpha / n)) (-1 / n) k else 0) =
      ∑ t ∈ range k, (a + t * (-1 / n)) * (x * Real.exp (-alpha / n) ^ t) := by
    intro a x k
    split
    · rename_i hk; exact ag_eq _ _ _ _ hr _ hk
    · rename_i hk
      simp only [ne_eq, not_not] at hk
      subst hk; simp
  rw [g, g]
  congr 1
  · apply sum_congr rfl
    intro k hk
    have hk' : k ≤ splitFloor i m n := by have := mem_range.1 hk; omega
    rw [prob_bot hm hn k hk', feature_bot hm hn k hk']
  · apply sum_congr rfl
    intro k _
    rw [prob_top hm hn k, feature_top hm hn k]

/-- C59, normalizer: for every non-zero alpha and all lengths and positions `i ≤ m`, ComputeZ is exactly the sum
of the unnormalized probabilities over j = 1..n. -/
theorem C59_computeZ_partial (ha : alpha ≠ 0) (hi : i ≤ m) (hm : 0 < m) (hn : 0 < n) :
    computeZ i m n alpha = some (∑ j ∈ Icc 1 n, unnormProb i j m n alpha) := z_eq ha hi hm hn

/-- C59 (partial), derivative: for sentence pairs of equal length, ComputeDLogZ is the expected feature value
under the normalized distribution.  Missing: different lengths, where the code divides by the wrong normalizer
(`C59_dlogz_fails`). -/
theorem C59_dlogz_partial (ha : alpha ≠ 0) (hi : i ≤ m) (hm : 0 < m) :
    computeDLogZ i m m alpha = some ((∑ j ∈ Icc 1 m, feature i j m m * unnormProb i j m m alpha) /
      ∑ j ∈ Icc 1 m, unnormProb i j m m alpha) :=
  d_eq ha hi hm hm _ (z_eq ha hi hm hm)

/-- What the code computes for different lengths (when `i ≤ n` too): the numerator is right, the denominator is
the normalizer with the two lengths exchanged. -/
theorem C59_dlogz_swapped_partial (ha : alpha ≠ 0) (hi : i ≤ m) (hm : 0 < m) (hin : i ≤ n) (hn : 0 < n) :
    computeDLogZ i m n alpha = some ((∑ j ∈ Icc 1 n, feature i j m n * unnormProb i j m n alpha) /
      ∑ j ∈ Icc 1 m, unnormProb i j n m alpha) :=
  d_eq ha hi hm hn _ (z_eq ha hin hn hm)

/-- C59 fails: for one target word and two source words ComputeDLogZ is not the expected feature, for any
alpha ≠ 0. -/
theorem C59_dlogz_fails (ha : alpha ≠ 0) :
    computeDLogZ 1 1 2 alpha ≠ some (specD 1 1 2 alpha / specZ 1 1 2 alpha) := by
  rw [C59_dlogz_swapped_partial ha (by omega) (by omega) (by omega) (by omega)]
  intro h
  rw [Option.some.injEq] at h
  change specD 1 1 2 alpha / specZ 1 2 1 alpha = _ at h
  have hI2 : Icc 1 2 = {1, 2} := by decide
  have f1 : feature 1 1 1 2 = -(1 / 2) := by
    unfold feature
    norm_num [abs_of_neg]
  have f2 : feature 1 2 1 2 = 0 := by
    unfold feature; norm_num
  have f3 : feature 1 1 2 1 = -(1 / 2) := by
    unfold feature; norm_num
  have hp := Real.exp_pos (-(1 / 2) * alpha)
  simp only [specD, specZ, hI2, Icc_self, sum_singleton, sum_pair (show (1 : Nat) ≠ 2 by decide),
    unnormProb, f1, f2, f3, zero_mul, Real.exp_zero, add_zero] at h
  set x := Real.exp (-(1 / 2) * alpha)
  rw [div_eq_div_iff (by positivity) (by positivity)] at h
  nlinarith

/-- At alpha = 0 both are undefined (0/0). -/
theorem C59_zero_tension_fails : computeZ i m n 0 = none ∧ computeDLogZ i m n 0 = none := by
  have : ∀ i m n, computeZ i m n 0 = none := by
    intro i m n; simp [computeZ]
  exact ⟨this i m n, by simp [computeDLogZ, this]⟩

/-- Non-vacuity: position 2 of 3, seven source words, the default tension 4. -/
example : computeZ 2 3 7 4 = some (∑ j ∈ Icc 1 7, unnormProb 2 j 3 7 4) :=
  C59_computeZ_partial (by norm_num) (by omega) (by omega) (by omega)

end Cdec.Align
