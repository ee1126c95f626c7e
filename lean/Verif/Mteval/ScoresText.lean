import Verif.Mteval.ScoresLemmas
/-! # The text of scores is read back -/
namespace Cdec.Scores

/-- What may follow a number: nothing or a space. -/
def Ends (rest : List Char) : Prop := rest = [] ∨ ∃ t, rest = ' ' :: t

theorem Ends.nil : Ends [] := .inl rfl
theorem Ends.space (t : List Char) : Ends (' ' :: t) := .inr ⟨t, rfl⟩

theorem Ends.not_digit {rest : List Char} (h : Ends rest) : ∀ c ∈ rest.head?, isDigit c = false := by
  rcases h with rfl | ⟨t, rfl⟩
  · simp
  · intro c hc; simp at hc; subst hc; decide

theorem skip_digit {c : Char} {cs : List Char} (h : isDigit c = true) : skipSpaces (c :: cs) = c :: cs := by
  unfold skipSpaces
  split
  · rename_i h2; rw [List.cons.injEq] at h2; rw [h2.1] at h; exact absurd h (by decide)
  · rfl

theorem showNat_cons (n : ℕ) : ∃ c cs, showNat n = c :: cs ∧ isDigit c = true := by
  cases h : showNat n with
  | nil => exact absurd h (showNat_ne_nil n)
  | cons c cs => exact ⟨c, cs, rfl, showNat_isDigit n c (by rw [h]; simp)⟩

theorem digit_ne {c : Char} (h : isDigit c = true) : c ≠ '-' := by
  rintro rfl; exact absurd h (by decide)

theorem readInt_show (x : ℤ) {rest : List Char} (h : Ends rest) : readInt (showInt x ++ rest) = some (x, rest) := by
  obtain ⟨c, cs, hc, hd⟩ := showNat_cons x.natAbs
  have hr := readNat_showNat x.natAbs rest h.not_digit
  unfold showInt
  split
  · rename_i hx
    rw [hc] at hr ⊢
    simp only [List.cons_append] at hr ⊢
    unfold readInt
    rw [skipSpaces]
    · simp only [if_true, hd, hr]
      congr 2; omega
    · intro t; simp
  · rename_i hx
    rw [hc] at hr ⊢
    simp only [List.cons_append] at hr ⊢
    unfold readInt
    rw [skip_digit hd]
    simp only [if_neg (digit_ne hd), hd, if_true, hr]
    congr 2; omega

theorem readInt_space (s : List Char) : readInt (' ' :: s) = readInt s := by
  unfold readInt; rw [skipSpaces]

theorem readMantissa_show (n : ℕ) {rest : List Char} (h : Ends rest) : readMantissa (showNat n ++ rest) = ((n : ℚ), rest) := by
  unfold readMantissa
  rw [readNat_showNat n rest h.not_digit]
  rcases h with rfl | ⟨t, rfl⟩ <;> rfl

theorem readFloat_show (frac : ℚ → List Char) {k : ℤ} (hk : k.natAbs < 10 ^ 6) {rest : List Char} (h : Ends rest) :
    readFloat (showFloat frac (k : ℚ) ++ rest) = some ((k : ℚ), rest) := by
  unfold showFloat
  rw [if_pos (by simp), if_pos (by simpa using hk), Rat.num_intCast]
  obtain ⟨c, cs, hc, hd⟩ := showNat_cons k.natAbs
  have hr := readMantissa_show k.natAbs h
  unfold showInt
  split
  · rename_i hx
    rw [hc] at hr ⊢
    simp only [List.cons_append] at hr ⊢
    unfold readFloat
    rw [skipSpaces]
    · simp only [if_true, hd, hr]
      congr 2
      rw [← Int.cast_natCast, ← Int.cast_neg]
      congr 1; omega
    · intro t; simp
  · rename_i hx
    rw [hc] at hr ⊢
    simp only [List.cons_append] at hr ⊢
    unfold readFloat
    rw [skip_digit hd]
    simp only [if_neg (digit_ne hd), hd, if_true, hr]
    congr 2
    rw [← Int.cast_natCast]
    congr 1; omega

theorem readFloat_space (s : List Char) : readFloat (' ' :: s) = readFloat s := by
  unfold readFloat; rw [skipSpaces]

theorem encodeCounts_ends (frac : ℚ → List Char) (cs hs : List ℚ) : Ends (encodeCounts frac cs hs) := by
  cases cs <;> cases hs <;> simp only [encodeCounts] <;> first | exact Ends.nil | exact Ends.space _

theorem decodeCounts_encode (frac : ℚ → List Char) : ∀ (cs hs : List ℚ), cs.length = hs.length →
    (∀ x ∈ cs ++ hs, ∃ k : ℤ, x = k ∧ k.natAbs < 10 ^ 6) →
    decodeCounts cs.length (encodeCounts frac cs hs) = some (cs, hs)
  | [], [], _, _ => rfl
  | c :: cs, h :: hs, hl, hx => by
    obtain ⟨k, rfl, hk⟩ := hx c (by simp)
    obtain ⟨l, rfl, hl'⟩ := hx h (by simp)
    have ih := decodeCounts_encode frac cs hs (by simpa using hl) (by
      intro x hm
      apply hx
      simp only [List.mem_append, List.mem_cons] at hm ⊢
      rcases hm with hm | hm
      · exact .inl (.inr hm)
      · exact .inr (.inr hm))
    rw [List.length_cons, decodeCounts, encodeCounts, List.append_assoc, List.cons_append, readFloat_space,
      readFloat_show frac hk (by rw [List.cons_append]; exact Ends.space _)]
    simp only [Option.bind_eq_bind, Option.bind_some, List.cons_append]
    rw [readFloat_space, readFloat_show frac hl' (encodeCounts_ends _ _ _)]
    simp only [Option.bind_some]
    rw [ih]
    rfl
  | [], _ :: _, hl, _ => by simp at hl
  | _ :: _, [], hl, _ => by simp at hl

theorem bleu_decode {n : ℕ} (frac : ℚ → List Char) {b : Bleu} (ho : b.Order n) (hs : b.Small) :
    Bleu.decode (b.encode frac) = some b := by
  obtain ⟨k, hk, hk'⟩ := hs b.refLen (by simp [Bleu.stats])
  obtain ⟨l, hl, hl'⟩ := hs b.hypLen (by simp [Bleu.stats])
  unfold Bleu.decode Bleu.encode
  simp only [List.append_assoc, List.cons_append]
  rw [readInt_show _ (Ends.space _)]
  simp only [Option.bind_eq_bind, Option.bind_some]
  rw [if_neg (by omega), readFloat_space, hk, readFloat_show frac hk' (Ends.space _)]
  simp only [Option.bind_some, pure_bind]
  rw [readFloat_space, hl, readFloat_show frac hl' (encodeCounts_ends _ _ _)]
  simp only [Option.bind_some, Int.toNat_natCast]
  rw [decodeCounts_encode frac _ _ (by rw [ho.1, ho.2]) (by
    intro x hx; exact hs x (by simp only [Bleu.stats, List.mem_append] at hx ⊢; exact .inl hx))]
  simp only [Option.bind_some]
  rw [← hk, ← hl]

theorem ter_decode (t : Ter) : Ter.decode t.encode = some t := by
  unfold Ter.decode Ter.encode
  simp only [Option.bind_eq_bind]
  rw [readInt_show _ (Ends.space _)]
  simp only [Option.bind_some]
  rw [readInt_space, readInt_show _ (Ends.space _)]
  simp only [Option.bind_some]
  rw [readInt_space, readInt_show _ (Ends.space _)]
  simp only [Option.bind_some]
  rw [readInt_space, readInt_show _ (Ends.space _)]
  simp only [Option.bind_some]
  have := readInt_show t.words Ends.nil
  rw [List.append_nil] at this
  rw [readInt_space, this]
  rfl

theorem char_byte {n : ℕ} (h : n < 256) : (Char.ofNat n).toNat = n := by
  have : n.isValidChar := .inl (by omega)
  rw [Char.ofNat, dif_pos this]
  simp [Char.ofNatAux, Char.toNat]

theorem int32_bytes {x : ℤ} (h : -2 ^ 31 ≤ x ∧ x < 2 ^ 31) (k : ℕ) (pre rest : List Char) (hp : pre.length = 4 * k) :
    int32At (pre ++ (bytes32 x ++ rest)) k = some x := by
  unfold int32At
  rw [← hp, List.drop_left]
  simp only [bytes32, List.cons_append, List.nil_append]
  have hu : (x % 2 ^ 32).toNat < 2 ^ 32 := by omega
  generalize hq : (x % 2 ^ 32).toNat = u at hu
  rw [char_byte (by omega), char_byte (by omega), char_byte (by omega), char_byte (by omega)]
  have he : u % 256 + 256 * (u / 256 % 256) + 65536 * (u / 65536 % 256) + 16777216 * (u / 16777216 % 256) = u := by omega
  rw [he]
  congr 1
  split <;> omega

theorem bytes32_length (x : ℤ) : (bytes32 x).length = 4 := rfl

theorem parts_combine {a b : List Char} (h : a.length < 128) : parts (combine a b) = some (a, b) := by
  unfold combine parts
  have hb : signedByte (Char.ofNat (a.length % 256)) = a.length := by
    unfold signedByte
    rw [char_byte (by omega), if_pos (by omega)]
    congr 1; omega
  simp only [hb]
  rw [if_neg (by simp only [List.length_cons, List.length_append]; push_cast; omega), if_neg (by omega)]
  rw [Int.toNat_natCast, List.take_left, show (1 + (a.length : ℤ)).toNat = a.length + 1 by omega, List.drop_succ_cons,
    List.drop_left]

theorem showNat_length : ∀ (d n : ℕ), n < 10 ^ (d + 1) → (showNat n).length ≤ d + 1
  | 0, n, h => by unfold showNat; rw [if_pos (by omega)]; simp
  | d + 1, n, h => by
    unfold showNat
    split
    · simp
    · rw [List.length_append, List.length_singleton]
      have := showNat_length d (n / 10) (by rw [pow_succ] at h; omega)
      omega

theorem showFloat_length (frac : ℚ → List Char) {x : ℚ} (h : ∃ k : ℤ, x = k ∧ k.natAbs < 10 ^ 6) :
    (showFloat frac x).length ≤ 7 := by
  obtain ⟨k, rfl, hk⟩ := h
  unfold showFloat
  rw [if_pos (by simp), if_pos (by simpa using hk), Rat.num_intCast]
  have := showNat_length 5 k.natAbs hk
  unfold showInt
  split
  · simp only [List.length_cons]; omega
  · omega

theorem encodeCounts_length (frac : ℚ → List Char) : ∀ (cs hs : List ℚ),
    (∀ x ∈ cs ++ hs, ∃ k : ℤ, x = k ∧ k.natAbs < 10 ^ 6) → (encodeCounts frac cs hs).length ≤ 16 * cs.length
  | [], _, _ => by simp [encodeCounts]
  | _ :: _, [], _ => by simp [encodeCounts]
  | c :: cs, h :: hs, hx => by
    have h1 := showFloat_length frac (hx c (by simp))
    have h2 := showFloat_length frac (hx h (by simp))
    have ih := encodeCounts_length frac cs hs (by
      intro x hm
      apply hx
      simp only [List.mem_append, List.mem_cons] at hm ⊢
      rcases hm with hm | hm
      · exact .inl (.inr hm)
      · exact .inr (.inr hm))
    rw [encodeCounts]
    simp only [List.length_append, List.length_cons]
    omega

theorem bleu_encode_length {n : ℕ} (hn : n ≤ 4) (frac : ℚ → List Char) {b : Bleu} (ho : b.Order n) (hs : b.Small) :
    (b.encode frac).length < 128 := by
  have h1 := showFloat_length frac (hs b.refLen (by simp [Bleu.stats]))
  have h2 := showFloat_length frac (hs b.hypLen (by simp [Bleu.stats]))
  have h3 := encodeCounts_length frac b.correct b.hyp (by
    intro x hx; exact hs x (by simp only [Bleu.stats, List.mem_append] at hx ⊢; exact .inl hx))
  have h4 : (showInt (b.correct.length : ℤ)).length ≤ 1 := by
    unfold showInt
    rw [if_neg (by omega)]
    exact showNat_length 0 _ (by rw [ho.1]; simp; omega)
  rw [ho.1] at h3
  unfold Bleu.encode
  simp only [List.length_append, List.length_cons]
  omega

end Cdec.Scores
