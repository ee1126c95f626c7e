import Verif.Klm.Stream
/-!
# Lemmas about records in blocks
-/
namespace Cdec.Klm.Stream
variable {ρ : Type}

theorem put_flat (c : Nat) (w : Writer ρ) (r : ρ) : (poison (put c w r)).flatten = (poison w).flatten ++ [r] := by
  unfold put poison
  split <;> simp

theorem fold_flat (c : Nat) (rs : List ρ) : ∀ w : Writer ρ, (poison (rs.foldl (put c) w)).flatten = (poison w).flatten ++ rs := by
  induction rs with
  | nil => intro w; simp
  | cons r rs ih => intro w; rw [List.foldl_cons, ih, put_flat]; simp

theorem fold_len {c : Nat} (rs : List ρ) : ∀ w : Writer ρ, w.cur.length < c → (∀ b ∈ w.out, b.length = c) →
    (rs.foldl (put c) w).cur.length < c ∧ ∀ b ∈ (rs.foldl (put c) w).out, b.length = c := by
  induction rs with
  | nil => intro w h1 h2; exact ⟨h1, h2⟩
  | cons r rs ih =>
    intro w h1 h2
    rw [List.foldl_cons]
    apply ih
    · unfold put
      split
      · simp; omega
      · rename_i h; simp only [List.length_append, List.length_singleton] at h ⊢; omega
    · unfold put
      split
      · rename_i h
        intro b hb
        rcases List.mem_append.1 hb with hb | hb
        · exact h2 b hb
        · rw [List.mem_singleton.1 hb]; exact h
      · exact h2

theorem startBlock_flat (bs : List (List ρ)) :
    bs.flatten = match startBlock bs with | none => [] | some (r, rs, bs') => r :: (rs ++ bs'.flatten) := by
  induction bs with
  | nil => rfl
  | cons b bs ih =>
    cases b with
    | nil => simpa [startBlock] using ih
    | cons r rs => simp [startBlock]

def remaining : Option (ρ × List ρ × List (List ρ)) → List ρ
  | none => []
  | some (r, rs, bs) => r :: (rs ++ bs.flatten)

theorem startBlock_remaining (bs : List (List ρ)) : remaining (startBlock bs) = bs.flatten := by
  rw [startBlock_flat]
  cases startBlock bs with
  | none => rfl
  | some x => rfl

theorem next_remaining (x : ρ × List ρ × List (List ρ)) : x.1 :: remaining (next x) = remaining (some x) := by
  obtain ⟨r, rs, bs⟩ := x
  cases rs with
  | nil =>
    show r :: remaining (startBlock bs) = r :: ([] ++ bs.flatten)
    rw [startBlock_remaining]; rfl
  | cons y ys => simp [next, remaining]

theorem readUpTo_take (n : Nat) : ∀ x : Option (ρ × List ρ × List (List ρ)), readUpTo n x = (remaining x).take n := by
  induction n with
  | zero => intro x; simp [readUpTo]
  | succ n ih =>
    intro x
    cases x with
    | none => simp [readUpTo, remaining]
    | some x => rw [readUpTo, ih, ← next_remaining, List.take_succ_cons]

theorem readFile_flat {c : Nat} (hc : 0 < c) : ∀ (n : Nat) (rs : List ρ), rs.length ≤ n →
    (readFile c rs).flatten = rs ∧ ∀ b ∈ readFile c rs, b ≠ [] ∧ b.length ≤ c := by
  intro n
  induction n with
  | zero =>
    intro rs h
    have : rs = [] := List.eq_nil_of_length_eq_zero (by omega)
    subst this
    rw [readFile.eq_def]; simp
  | succ n ih =>
    intro rs h
    rw [readFile.eq_def]
    by_cases hr : rs = []
    · subst hr; simp
    · rw [dif_neg (by simp [hr]; omega)]
      have hl : rs.length ≠ 0 := fun e => hr (List.eq_nil_of_length_eq_zero e)
      obtain ⟨h1, h2⟩ := ih (rs.drop c) (by simp only [List.length_drop]; omega)
      constructor
      · rw [List.flatten_cons, h1, List.take_append_drop]
      · intro b hb
        rcases List.mem_cons.1 hb with hb | hb
        · subst hb
          constructor
          · intro e
            have := congrArg List.length e
            simp only [List.length_take, List.length_nil] at this
            omega
          · simp only [List.length_take]; omega
        · exact h2 b hb

theorem pread_eq {c : Nat} (hc : 0 < c) (rs : List ρ) : ∀ (n offset : Nat), rs.length - offset ≤ n →
    preadFrom c rs offset = readFile c (rs.drop offset) := by
  intro n
  induction n with
  | zero =>
    intro o h
    rw [preadFrom.eq_def, readFile.eq_def, dif_neg (by omega), if_neg (by omega), dif_pos]
    right
    apply List.eq_nil_of_length_eq_zero
    simp only [List.length_drop]; omega
  | succ n ih =>
    intro o h
    rw [preadFrom.eq_def, readFile.eq_def]
    by_cases h1 : c ≠ 0 ∧ o + c < rs.length
    · rw [dif_pos h1, ih (o + c) (by omega), dif_neg, List.drop_drop]
      rintro (e | e)
      · omega
      · have := congrArg List.length e
        simp only [List.length_drop, List.length_nil] at this
        omega
    · rw [dif_neg h1]
      by_cases h2 : rs.length - o ≠ 0
      · rw [if_pos h2, dif_neg]
        · have e1 : (rs.drop o).take (rs.length - o) = rs.drop o := by
            apply List.take_of_length_le; simp
          have e2 : (rs.drop o).take c = rs.drop o := by
            apply List.take_of_length_le; simp only [List.length_drop]; omega
          have e3 : (rs.drop o).drop c = [] := by
            apply List.drop_eq_nil_of_le; simp only [List.length_drop]; omega
          rw [e1, e2, e3, readFile.eq_def, dif_pos (Or.inr rfl)]
        · rintro (e | e)
          · omega
          · have := congrArg List.length e
            simp only [List.length_drop, List.length_nil] at this
            omega
      · rw [if_neg h2, dif_pos]
        right
        apply List.eq_nil_of_length_eq_zero
        simp only [List.length_drop]; omega

end Cdec.Klm.Stream
