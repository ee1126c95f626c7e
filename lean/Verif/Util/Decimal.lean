import Mathlib.Tactic.ByContra
/-!
# Decimal numbers in text

`ostream << unsigned` and the reading loop `x *= 10; x += c - '0'` that occurs in utils/alignment_io.cc,
decoder/hg_io.cc and others.  Numbers are unbounded (the C++ ints wrap beyond 2^31).
-/
namespace Cdec

/-- `is_digit`, utils/alignment_io.cc:5. -/
def isDigit (c : Char) : Bool := decide ('0'.val ≤ c.val) && decide (c.val ≤ '9'.val)

/-- The value `c - '0'`. -/
def digitVal (c : Char) : Nat := c.toNat - '0'.toNat

/-- The character of a digit. -/
def digitChar (d : Nat) : Char := Char.ofNat ('0'.toNat + d)

/-- `out << n`: the decimal representation. -/
def showNat (n : Nat) : List Char :=
  if n < 10 then [digitChar n] else showNat (n / 10) ++ [digitChar (n % 10)]
termination_by n
decreasing_by omega

/-- The loop `while (i < size && is_digit(s[i])) { x *= 10; x += s[i] - '0'; ++i; }`: value and rest. -/
def readNat : Nat → List Char → Nat × List Char
  | x, [] => (x, [])
  | x, c :: cs => if isDigit c then readNat (x * 10 + digitVal c) cs else (x, c :: cs)

theorem digit_facts : ∀ d < 10, isDigit (digitChar d) = true ∧ digitVal (digitChar d) = d := by decide

theorem showNat_isDigit (n : Nat) : ∀ c ∈ showNat n, isDigit c = true := by
  induction n using Nat.strongRecOn with
  | ind n ih =>
    intro c hc
    unfold showNat at hc
    split at hc
    · simp at hc; subst hc; exact (digit_facts n (by assumption)).1
    · rcases List.mem_append.1 hc with h | h
      · exact ih (n / 10) (by omega) c h
      · simp at h; subst h; exact (digit_facts (n % 10) (by omega)).1

theorem showNat_ne_nil (n : Nat) : showNat n ≠ [] := by
  unfold showNat; split <;> simp

theorem readNat_digits (ds : List Char) (h : ∀ c ∈ ds, isDigit c = true) (x : Nat) (rest : List Char) :
    readNat x (ds ++ rest) = readNat (ds.foldl (fun x c => x * 10 + digitVal c) x) rest := by
  induction ds generalizing x with
  | nil => rfl
  | cons d ds ih =>
    rw [List.cons_append, readNat, if_pos (h d (by simp)), List.foldl_cons]
    exact ih (fun c hc => h c (by simp [hc])) _

theorem showNat_value (n : Nat) : (showNat n).foldl (fun x c => x * 10 + digitVal c) 0 = n := by
  induction n using Nat.strongRecOn with
  | ind n ih =>
    unfold showNat
    split
    · rename_i h; simp [(digit_facts n h).2]
    · rw [List.foldl_append, ih (n / 10) (by omega)]
      simp only [List.foldl_cons, List.foldl_nil, (digit_facts (n % 10) (by omega)).2]
      omega

/-- Reading back what was printed, if no digit follows. -/
theorem readNat_showNat (n : Nat) (rest : List Char) (h : ∀ c ∈ rest.head?, isDigit c = false) :
    readNat 0 (showNat n ++ rest) = (n, rest) := by
  rw [readNat_digits _ (showNat_isDigit n), showNat_value]
  cases rest with
  | nil => rfl
  | cons c cs => rw [readNat, if_neg (by simp [h c (by simp)])]

/-- Different numbers are printed differently. -/
theorem showNat_inj {m n : Nat} (h : showNat m = showNat n) : m = n := by
  rw [← showNat_value m, ← showNat_value n, h]

theorem readNat_length (x : Nat) (s : List Char) : (readNat x s).2.length ≤ s.length := by
  induction s generalizing x with
  | nil => simp [readNat]
  | cons c cs ih =>
    rw [readNat]
    split
    · have := ih (x * 10 + digitVal c); simp only [List.length_cons]; omega
    · simp

end Cdec
