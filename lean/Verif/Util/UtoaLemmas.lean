import Verif.Util.Utoa
import Verif.Util.UtoaSpec
import Mathlib.Tactic.IntervalCases
import Mathlib.Tactic.Ring
/-!
# Lemmas about numbers as strings
-/
namespace Cdec.Utoa

theorem digit_isDigit {d : Nat} (h : d < 10) : (digitToChar d).isDigit = true := by interval_cases d <;> decide
theorem digit_value {d : Nat} (h : d < 10) : (digitToChar d).toNat - '0'.toNat = d := by interval_cases d <;> decide
theorem digit_zero {d : Nat} (h : d < 10) (e : digitToChar d = '0') : d = 0 := by interval_cases d <;> revert e <;> decide

theorem rem_eq (n : Nat) : n - 10 * (n / 10) = n % 10 := by omega

theorem loop_zero (buf : List Char) : loop 0 buf = buf := by rw [loop, dif_pos rfl]
theorem loop_pos {n : Nat} (h : n ≠ 0) (buf : List Char) : loop n buf = loop (n / 10) (digitToChar (n % 10) :: buf) := by
  rw [loop, dif_neg h, rem_eq]

/-- What is in the buffer stays behind the digits. -/
theorem loop_append (n : Nat) : ∀ buf, loop n buf = loop n [] ++ buf := by
  induction n using Nat.strong_induction_on with
  | _ n ih =>
    intro buf
    by_cases h : n = 0
    · subst h; simp [loop_zero]
    · have hlt : n / 10 < n := Nat.div_lt_self (Nat.pos_of_ne_zero h) (by decide)
      rw [loop_pos h, loop_pos h [], ih _ hlt, ih _ hlt [_]]
      simp

theorem loop_snoc {n : Nat} (h : n ≠ 0) : loop n [] = loop (n / 10) [] ++ [digitToChar (n % 10)] := by
  rw [loop_pos h, loop_append]

theorem value_snoc (cs : List Char) (c : Char) : value (cs ++ [c]) = 10 * value cs + (c.toNat - '0'.toNat) := by
  simp [value, List.foldl_append]

theorem loop_spec (n : Nat) : value (loop n []) = n ∧ (∀ c ∈ loop n [], c.isDigit = true) ∧ (loop n []).head? ≠ some '0' ∧ (n ≠ 0 → loop n [] ≠ []) := by
  induction n using Nat.strong_induction_on with
  | _ n ih =>
    by_cases h : n = 0
    · subst h; simp [loop_zero, value]
    · have hlt : n / 10 < n := Nat.div_lt_self (Nat.pos_of_ne_zero h) (by decide)
      obtain ⟨a, b, c, d⟩ := ih _ hlt
      have h10 : n % 10 < 10 := Nat.mod_lt _ (by decide)
      rw [loop_snoc h]
      refine ⟨?_, ?_, ?_, by simp⟩
      · rw [value_snoc, a, digit_value h10]; omega
      · intro x hx
        rcases List.mem_append.1 hx with hx | hx
        · exact b x hx
        · rw [List.mem_singleton] at hx; subst hx; exact digit_isDigit h10
      · by_cases hz : n / 10 = 0
        · rw [hz, loop_zero]
          simp only [List.nil_append, List.head?_cons, ne_eq, Option.some.injEq]
          intro e
          have := digit_zero h10 e
          omega
        · rw [List.head?_append_of_ne_nil _ (d hz)]
          exact c

theorem utoa_spec (n : Nat) : IsDecimal (utoa n []) n := by
  unfold utoa
  by_cases h : n = 0
  · subst h; simp [IsDecimal, value]
  · rw [if_neg h]
    obtain ⟨a, b, c, d⟩ := loop_spec n
    exact ⟨d h, b, fun e => absurd e c, a⟩

theorem loop_length (n : Nat) : ∀ k, n < 10 ^ k → (loop n []).length ≤ k := by
  induction n using Nat.strong_induction_on with
  | _ n ih =>
    intro k hk
    by_cases h : n = 0
    · subst h; simp [loop_zero]
    · have hlt : n / 10 < n := Nat.div_lt_self (Nat.pos_of_ne_zero h) (by decide)
      cases k with
      | zero => simp at hk; omega
      | succ k =>
        rw [loop_snoc h]
        have := ih _ hlt k (by rw [Nat.pow_succ] at hk; omega)
        simp; omega

theorem utoa_length {n k : Nat} (hk : 0 < k) (h : n < 10 ^ k) : (utoa n []).length ≤ k := by
  unfold utoa
  split
  · simp; omega
  · exact loop_length n k h

theorem toUnsigned_nat {bits n : Nat} (h : n < 2 ^ bits) : toUnsigned bits (n : Int) = n := by
  unfold toUnsigned
  have : ((n : Int) % (2 ^ bits : Int)) = ((n % 2 ^ bits : Nat) : Int) := by push_cast; rfl
  rw [this, Nat.mod_eq_of_lt h]; simp

theorem toUnsigned_neg {bits n : Nat} (h0 : 0 < n) (h : n < 2 ^ bits) : toUnsigned bits (-(n : Int)) = 2 ^ bits - n := by
  unfold toUnsigned
  have hp : (0 : Int) < 2 ^ bits := by positivity
  have hc : ((2 ^ bits : Nat) : Int) = (2 ^ bits : Int) := by push_cast; rfl
  have e : (-(n : Int)) % (2 ^ bits : Int) = (2 ^ bits : Int) - n := by
    rw [← Int.add_emod_right, Int.emod_eq_of_lt] <;> omega
  rw [e, ← hc]; omega

/-- The magnitude that `itoa` computes. -/
theorem magnitude {bits : Nat} {i : Int} (h1 : -(2 ^ bits : Int) < i) (h2 : i < 2 ^ bits) :
    (if i < 0 then toUnsigned bits (-(toUnsigned bits i : Int)) else toUnsigned bits i) = i.natAbs := by
  have hc : ((2 ^ bits : Nat) : Int) = (2 ^ bits : Int) := by push_cast; rfl
  by_cases h : i < 0
  · rw [if_pos h]
    obtain ⟨n, rfl⟩ : ∃ n : Nat, i = -(n : Int) := ⟨i.natAbs, by omega⟩
    have hin : toUnsigned bits (-(n : Int)) = 2 ^ bits - n := toUnsigned_neg (by omega) (by omega)
    rw [hin, toUnsigned_neg (by omega) (by omega)]
    omega
  · rw [if_neg h]
    obtain ⟨n, rfl⟩ : ∃ n : Nat, i = (n : Int) := ⟨i.natAbs, by omega⟩
    rw [toUnsigned_nat (by omega)]; simp

theorem leftPad_eq (pad : Char) : ∀ (k : Nat) (buf : List Char), leftPad pad k buf = List.replicate k pad ++ buf
  | 0, buf => by simp [leftPad]
  | k + 1, buf => by
    rw [leftPad, leftPad_eq pad k, List.replicate_succ']
    simp

theorem value_zeros (k : Nat) (cs : List Char) : value (List.replicate k '0' ++ cs) = value cs := by
  induction k with
  | zero => simp
  | succ k ih => rw [List.replicate_succ, List.cons_append, ← ih]; simp [value]

theorem dropLoop_spec (n : Nat) : ∀ skipped, n ≠ 0 → ∃ cs k, dropLoop n skipped = some (cs, skipped + k) ∧ IsDecimal cs (n / 10 ^ k) ∧ 10 ^ k ∣ n ∧ ¬ 10 ∣ n / 10 ^ k := by
  induction n using Nat.strong_induction_on with
  | _ n ih =>
    intro skipped h
    have hlt : n / 10 < n := Nat.div_lt_self (Nat.pos_of_ne_zero h) (by decide)
    rw [dropLoop, dif_neg h, rem_eq]
    by_cases hr : n % 10 = 0
    · simp only [hr, ne_eq, not_true_eq_false, if_false]
      obtain ⟨cs, k, e, a, b, c⟩ := ih _ hlt (skipped + 1) (by omega)
      refine ⟨cs, k + 1, by rw [e]; simp; omega, ?_, ?_, ?_⟩
      · rw [Nat.pow_succ', ← Nat.div_div_eq_div_mul]; exact a
      · obtain ⟨m, hm⟩ := b
        refine ⟨m, ?_⟩
        rw [Nat.pow_succ', Nat.mul_assoc, ← hm]; omega
      · rw [Nat.pow_succ', ← Nat.div_div_eq_div_mul]; exact c
    · simp only [ne_eq, hr, not_false_eq_true, if_true]
      refine ⟨loop n [], 0, by rw [loop_pos h]; rfl, ?_, by simp, by simp; omega⟩
      have := utoa_spec n
      rw [utoa, if_neg h] at this
      simpa using this

end Cdec.Utoa
