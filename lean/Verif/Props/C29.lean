import Verif.Util.B64
/-! # C29: base64 round trip -/
namespace Cdec

/-- Decoding inverts encoding on the 64 code characters; `=` decodes to 0. -/
theorem b64val_char : ∀ i < 64, b64val (b64char i) = some i := by decide +kernel

theorem b64val_pad : b64val 61 = some 0 := by decide

theorem and3 : ∀ a < 256, a &&& 3 = a % 4 ∧ a >>> 2 = a / 4 ∧ (a &&& 0xf0) >>> 4 = a / 16 ∧ a &&& 0x0f = a % 16 ∧
    (a &&& 0xc0) >>> 6 = a / 64 ∧ a &&& 0x3f = a % 64 := by decide +kernel

theorem or_shift (a b k : Nat) (h : b < 2 ^ k) : (a <<< k) ||| b = a * 2 ^ k + b := by
  rw [← Nat.shiftLeft_add_eq_or_of_lt h, Nat.shiftLeft_eq]

theorem block3 (a b c : Nat) (ha : a < 256) (hb : b < 256) (hc : c < 256) (rest : List Nat) :
    b64decode (b64encode (a :: b :: c :: rest)) = (b64decode (b64encode rest)).map fun r => a :: b :: c :: r := by
  obtain ⟨a1, a2, _, _, _, _⟩ := and3 a ha
  obtain ⟨_, _, b3, b4, _, _⟩ := and3 b hb
  obtain ⟨_, _, _, _, c5, c6⟩ := and3 c hc
  rw [b64encode, a1, a2, b3, b4, c5, c6, or_shift _ _ 4 (by omega), or_shift _ _ 2 (by omega), b64decode,
    b64val_char _ (by omega), b64val_char _ (by omega), b64val_char _ (by omega), b64val_char _ (by omega)]
  have e0 : (a / 4) <<< 2 ||| (a % 4 * 2 ^ 4 + b / 16) >>> 4 = a := by
    rw [Nat.shiftRight_eq_div_pow, or_shift _ _ 2 (by omega)]; omega
  have e1 : ((a % 4 * 2 ^ 4 + b / 16) <<< 4 ||| (b % 16 * 2 ^ 2 + c / 64) >>> 2) % 256 = b := by
    rw [Nat.shiftRight_eq_div_pow, or_shift _ _ 4 (by omega)]; omega
  have e2 : (((b % 16 * 2 ^ 2 + c / 64) <<< 6) &&& 0xc0 ||| c % 64) = c := by
    have h1 : ∀ x < 64, ∀ y < 64, ((x <<< 6) &&& 0xc0) ||| y = (x % 4) * 64 + y := by decide +kernel
    rw [h1 _ (by omega) _ (by omega)]; omega
  simp only [Option.bind_eq_bind, Option.bind_some, e0, e1, e2]
  cases b64decode (b64encode rest) with
  | none => rfl
  | some r => simp; omega

theorem block2 (a b : Nat) (ha : a < 256) (hb : b < 256) :
    b64decode (b64encode [a, b]) = some [a, b / 16 * 16, 0] := by
  obtain ⟨a1, a2, _, _, _, _⟩ := and3 a ha
  obtain ⟨_, _, b3, _, _, _⟩ := and3 b hb
  rw [b64encode, a1, a2, b3, or_shift _ _ 4 (by omega), b64decode,
    b64val_char _ (by omega), b64val_char _ (by omega), b64val_pad]
  have e0 : (a / 4) <<< 2 ||| (a % 4 * 2 ^ 4 + b / 16) >>> 4 = a := by
    rw [Nat.shiftRight_eq_div_pow, or_shift _ _ 2 (by omega)]; omega
  have e1 : ((a % 4 * 2 ^ 4 + b / 16) <<< 4 ||| 0 >>> 2) % 256 = b / 16 * 16 := by
    rw [Nat.shiftRight_eq_div_pow, or_shift _ _ 4 (by omega)]; omega
  simp only [Option.bind_eq_bind, Option.bind_some, e0, e1]
  simp [b64decode]; omega

theorem block1 (a : Nat) (ha : a < 256) : b64decode (b64encode [a]) = some [a, 0, 0] := by
  obtain ⟨a1, a2, _, _, _, _⟩ := and3 a ha
  rw [b64encode, a1, a2, or_shift _ _ 4 (by omega), b64decode,
    b64val_char _ (by omega), b64val_char _ (by omega), b64val_pad]
  have e0 : (a / 4) <<< 2 ||| (a % 4 * 2 ^ 4 + 0) >>> 4 = a := by
    rw [Nat.shiftRight_eq_div_pow, or_shift _ _ 2 (by omega)]; omega
  have e1 : ((a % 4 * 2 ^ 4 + 0) <<< 4 ||| 0 >>> 2) % 256 = 0 := by
    rw [Nat.shiftRight_eq_div_pow, or_shift _ _ 4 (by omega)]; omega
  simp only [Option.bind_eq_bind, Option.bind_some, e0, e1]
  simp [b64decode]; omega

/-- C29, restricted: every byte string whose length is not 2 modulo 3 is recovered (followed by the zero
bytes that fill up the last block).  Missing: lengths 2 modulo 3, for which the claim is false; the
second part says exactly what comes back then: the low half of the last byte is lost. -/
theorem C29_round_trip_partial (x : List Nat) (hx : ∀ b ∈ x, b < 256) :
    (x.length % 3 ≠ 2 → ∃ k, k < 3 ∧ b64decode (b64encode x) = some (x ++ List.replicate k 0)) ∧
    (x.length % 3 = 2 → ∃ y b, x = y ++ [b] ∧
      b64decode (b64encode x) = some (y ++ [b / 16 * 16, 0])) := by
  induction x using b64encode.induct with
  | case1 a b c rest ih =>
    obtain ⟨h1, h2⟩ := ih fun b hb => hx b (by simp [hb])
    have hb := block3 a b c (hx a (by simp)) (hx b (by simp)) (hx c (by simp)) rest
    have hlen : (a :: b :: c :: rest).length % 3 = rest.length % 3 := by simp only [List.length_cons]; omega
    rw [hlen, hb]
    constructor
    · intro h
      obtain ⟨k, hk, e⟩ := h1 h
      exact ⟨k, hk, by rw [e]; rfl⟩
    · intro h
      obtain ⟨y, b', e1, e2⟩ := h2 h
      exact ⟨a :: b :: c :: y, b', by rw [e1]; rfl, by rw [e2]; rfl⟩
  | case2 a b =>
    refine ⟨fun h => absurd rfl h, fun _ => ⟨[a], b, rfl, block2 a b (hx a (by simp)) (hx b (by simp))⟩⟩
  | case3 a =>
    refine ⟨fun _ => ⟨2, by omega, block1 a (hx a (by simp))⟩, fun h => by simp at h⟩
  | case4 => exact ⟨fun _ => ⟨0, by omega, rfl⟩, fun h => by simp at h⟩

/-- C29 is false for lengths 2 modulo 3: the two bytes `0x00 0xBA` come back as `0x00 0xB0`. -/
theorem C29_two_byte_block_fails :
    b64decode (b64encode [0, 0xBA]) = some [0, 0xB0, 0] ∧
    ¬ ∃ pad, b64decode (b64encode [0, 0xBA]) = some ([0, 0xBA] ++ pad) := by
  rw [block2 0 0xBA (by omega) (by omega)]
  refine ⟨rfl, ?_⟩
  rintro ⟨pad, h⟩
  simp at h

/-- Non-vacuity: `Man` is `TWFu`, and it is recovered; `M` is padded. -/
example : b64encode [77, 97, 110] = [84, 87, 70, 117] ∧ b64decode [84, 87, 70, 117] = some [77, 97, 110] ∧
    b64encode [77] = [84, 81, 61, 61] := by decide +kernel

end Cdec
