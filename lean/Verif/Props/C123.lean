import Verif.Util.UtoaLemmas
/-!
# C123: numbers as strings
-/
namespace Cdec.Utoa

/-- `utos` of an unsigned number is its decimal representation. -/
theorem C123_utos (bits n : Nat) (h : n < 2 ^ bits) : IsDecimal (utos bits n) n := by
  rw [utos, toUnsigned_nat h]; exact utoa_spec n

example : IsDecimal (utos 16 60305) 60305 := C123_utos 16 60305 (by decide)

/-- `itos` of a number of a signed type, the smallest included, is its decimal representation with a sign if it is negative. -/
theorem C123_itos (bits : Nat) (i : Int) (h1 : -(2 ^ bits : Int) ≤ i) (h2 : i < 2 ^ bits) :
    (0 ≤ i → IsDecimal (itos (bits + 1) i) i.natAbs) ∧ (i < 0 → ∃ cs, itos (bits + 1) i = '-' :: cs ∧ IsDecimal cs i.natAbs) := by
  have hp : (0 : Int) < 2 ^ bits := by positivity
  have hs : (2 ^ (bits + 1) : Int) = 2 ^ bits * 2 := pow_succ 2 bits
  have hm := magnitude (bits := bits + 1) (i := i) (by omega) (by omega)
  unfold itos itoa
  simp only [hm]
  constructor
  · intro h
    rw [if_neg (by omega)]
    exact utoa_spec _
  · intro h
    rw [if_pos h]
    exact ⟨_, rfl, utoa_spec _⟩

example : ∃ cs, itos 8 (-128) = '-' :: cs ∧ IsDecimal cs 128 := (C123_itos 7 (-128) (by decide) (by decide)).2 (by decide)
example : IsDecimal (itos 32 2147483647) 2147483647 := (C123_itos 31 2147483647 (by decide) (by decide)).1 (by decide)

/-- Different numbers get different strings. -/
theorem C123_injective (bits : Nat) (i j : Int) (hi1 : -(2 ^ bits : Int) ≤ i) (hi2 : i < 2 ^ bits) (hj1 : -(2 ^ bits : Int) ≤ j) (hj2 : j < 2 ^ bits)
    (h : itos (bits + 1) i = itos (bits + 1) j) : i = j := by
  obtain ⟨a, b⟩ := C123_itos bits i hi1 hi2
  obtain ⟨c, d⟩ := C123_itos bits j hj1 hj2
  by_cases hi : i < 0 <;> by_cases hj : j < 0
  · obtain ⟨x, e, _, _, _, v⟩ := b hi
    obtain ⟨y, e', _, _, _, v'⟩ := d hj
    rw [e, e'] at h
    cases h
    omega
  · obtain ⟨x, e, _⟩ := b hi
    have := (c (by omega)).2.1 '-' (by rw [← h, e]; simp)
    exact absurd this (by decide)
  · obtain ⟨x, e, _⟩ := d hj
    have := (a (by omega)).2.1 '-' (by rw [h, e]; simp)
    exact absurd this (by decide)
  · have v := (a (by omega)).2.2.2
    have v' := (c (by omega)).2.2.2
    rw [h] at v
    omega

example : itos 8 5 ≠ itos 8 (-5) := fun h => absurd (C123_injective 7 5 (-5) (by decide) (by decide) (by decide) (by decide) h) (by decide)

/-- No call writes in front of its buffer: neither for unsigned types, even with a sign, nor for signed types. -/
theorem C123_buffer (bits : Nat) (plus : Bool) :
    (∀ n : Nat, n < 2 ^ bits → (itoa bits (n : Int) plus []).length ≤ bufsize bits) ∧
      ∀ i : Int, -(2 ^ bits : Int) ≤ i → i < 2 ^ bits → (itoa (bits + 1) i plus []).length ≤ bufsize bits := by
  have hlog : 2 ^ bits < 10 ^ (Nat.log 10 (2 ^ bits) + 1) := Nat.lt_pow_succ_log_self (by decide) _
  have hlen : ∀ n, n ≤ 2 ^ bits → (utoa n []).length ≤ Nat.log 10 (2 ^ bits) + 1 := fun n hn => utoa_length (by omega) (lt_of_le_of_lt hn hlog)
  constructor
  · intro n hn
    have := hlen n hn.le
    have h0 : ¬ ((n : Int) < 0) := by omega
    unfold itoa bufsize
    simp only [if_neg h0, toUnsigned_nat hn]
    cases plus <;> simp <;> omega
  · intro i h1 h2
    have hp : (0 : Int) < 2 ^ bits := by positivity
    have hs : (2 ^ (bits + 1) : Int) = 2 ^ bits * 2 := pow_succ 2 bits
    have hc : ((2 ^ bits : Nat) : Int) = (2 ^ bits : Int) := by push_cast; rfl
    have hm := magnitude (bits := bits + 1) (i := i) (by omega) (by omega)
    have := hlen i.natAbs (by omega)
    unfold itoa bufsize
    simp only [hm]
    by_cases h : i < 0
    · simp [h]; omega
    · cases plus <;> simp [h] <;> omega

example : (itoa 8 (-128) true []).length ≤ bufsize 7 := (C123_buffer 7 true).2 (-128) (by decide) (by decide)

/-- `utoa_left_pad` with zeros fills the buffer exactly and keeps the value, whenever the number fits. -/
theorem C123_pad (width n : Nat) (h : n < 10 ^ width) (hw : 0 < width) :
    ∃ cs, utoaLeftPad width n '0' = some cs ∧ cs.length = width ∧ value cs = n ∧ ∀ c ∈ cs, c.isDigit = true := by
  have hl := utoa_length hw h
  obtain ⟨_, hd, _, hv⟩ := utoa_spec n
  refine ⟨_, by rw [utoaLeftPad]; simp only [if_pos hl]; rfl, ?_, ?_, ?_⟩
  · rw [leftPad_eq]; simp; omega
  · rw [leftPad_eq, value_zeros, hv]
  · intro c hc
    rw [leftPad_eq] at hc
    rcases List.mem_append.1 hc with hc | hc
    · rw [(List.mem_replicate.1 hc).2]; decide
    · exact hd c hc

example : ∃ cs, utoaLeftPad 5 42 '0' = some cs ∧ cs.length = 5 ∧ value cs = 42 ∧ ∀ c ∈ cs, c.isDigit = true := C123_pad 5 42 (by decide) (by decide)

/-- `utoa_drop_trailing_0`: the digits without the zeros at the end, and their number. -/
theorem C123_trailing (n : Nat) (h : n ≠ 0) : ∃ cs k m, dropTrailing n = some (cs, k) ∧ IsDecimal cs m ∧ n = m * 10 ^ k ∧ ¬ 10 ∣ m := by
  obtain ⟨cs, k, e, a, b, c⟩ := dropLoop_spec n 0 h
  refine ⟨cs, k, n / 10 ^ k, ?_, a, (Nat.div_mul_cancel b).symm, c⟩
  rw [dropTrailing, if_neg h, e]; simp

example : ∃ cs k m, dropTrailing 1200 = some (cs, k) ∧ IsDecimal cs m ∧ 1200 = m * 10 ^ k ∧ ¬ 10 ∣ m := C123_trailing 1200 (by decide)

/-- `append_utoa` appends the decimal representation. -/
theorem C123_append (bits n : Nat) (h : n < 2 ^ bits) : IsDecimal (appendUtoa bits n) n := by
  have h0 : ¬ ((n : Int) < 0) := by omega
  unfold appendUtoa itoa
  simp only [if_neg h0, toUnsigned_nat h]
  exact utoa_spec n

example : IsDecimal (appendUtoa 32 4294967295) 4294967295 := C123_append 32 4294967295 (by decide)

/-- `append_itoa` does not: it appends -1 as the largest unsigned number, for every type. -/
theorem C123_append_fails (bits : Nat) (hb : 0 < bits) : IsDecimal (appendItoa bits (-1)) (2 ^ bits - 1) := by
  have h2 : 1 < 2 ^ bits := Nat.one_lt_two_pow (by omega)
  have := toUnsigned_neg (bits := bits) (n := 1) (by decide) h2
  unfold appendItoa
  rw [show (-1 : Int) = -((1 : Nat) : Int) by rfl, this]
  exact utoa_spec _

/-- `itoa_left_pad` with zeros writes the sign in the first place, for numbers with a sign.  Missing from the full claim: numbers without a sign (C123_pad_fails). -/
theorem C123_signed_pad_partial (bits width : Nat) (i : Int) (plus : Bool) (old : Char) (h1 : -(2 ^ bits : Int) ≤ i) (h2 : i < 2 ^ bits)
    (hsign : i < 0 ∨ plus = true) (hw : i.natAbs < 10 ^ width) (hpos : 0 < width) :
    ∃ cs, itoaLeftPad (bits + 1) (width + 1) i plus '0' old = some ((if i < 0 then '-' else '+') :: cs) ∧ cs.length = width ∧ value cs = i.natAbs := by
  have hp : (0 : Int) < 2 ^ bits := by positivity
  have hs : (2 ^ (bits + 1) : Int) = 2 ^ bits * 2 := pow_succ 2 bits
  have hm := magnitude (bits := bits + 1) (i := i) (by omega) (by omega)
  have hl := utoa_length hpos hw
  have hl' : (utoa i.natAbs []).length < width + 1 := by omega
  have hf : (if i < 0 then '-' else if plus then '+' else old) = if i < 0 then '-' else '+' := by
    rcases hsign with h | h <;> simp [h]
  refine ⟨leftPad '0' (width + 1 - 1 - (utoa i.natAbs []).length) (utoa i.natAbs []), ?_, ?_, ?_⟩
  · unfold itoaLeftPad
    simp only [hm, if_pos hl', hf]
  · rw [leftPad_eq]; simp; omega
  · rw [leftPad_eq, value_zeros]; exact (utoa_spec _).2.2.2

example : ∃ cs, itoaLeftPad 32 6 (-42) false '0' 'x' = some ('-' :: cs) ∧ cs.length = 5 ∧ value cs = 42 :=
  C123_signed_pad_partial 31 5 (-42) false 'x' (by decide) (by decide) (Or.inl (by decide)) (by decide) (by decide)

/-- Without a sign the first place of the buffer is never written: whatever was there is part of the result. -/
theorem C123_pad_fails (bits width n : Nat) (old : Char) (h : n < 2 ^ bits) (hw : n < 10 ^ width) (hpos : 0 < width) :
    ∃ cs, itoaLeftPad bits (width + 1) (n : Int) false '0' old = some (old :: cs) := by
  have h0 : ¬ ((n : Int) < 0) := by omega
  have hl := utoa_length hpos hw
  have hl' : (utoa n []).length < width + 1 := by omega
  unfold itoaLeftPad
  simp only [if_neg h0, toUnsigned_nat h, if_pos hl']
  exact ⟨_, rfl⟩

example : ∃ cs, itoaLeftPad 32 6 42 false '0' 'x' = some ('x' :: cs) := C123_pad_fails 32 5 42 'x' (by decide) (by decide) (by decide)

end Cdec.Utoa
