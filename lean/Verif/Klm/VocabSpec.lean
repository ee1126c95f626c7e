import Verif.Klm.Vocab
import Mathlib.Data.List.Nodup
/-!
# What a vocabulary should be
-/
namespace Cdec.Klm.Vocab

/-- The words of the model other than the two spellings of the unknown word. -/
def Known (ws : List Word) (w : Word) : Prop := w ∈ ws ∧ w ≠ unk ∧ w ≠ unkCap

/-- The hash function tells the words of the model, the spellings of the unknown word and the words of `S` apart, and
its values have 64 bits. -/
structure Distinguishes (h : Word → Nat) (ws : List Word) (S : Word → Prop) : Prop where
  bits : ∀ w, h w < 2 ^ 64
  inj : ∀ a b, (a = unk ∨ a = unkCap ∨ a ∈ ws ∨ S a) → (b = unk ∨ b = unkCap ∨ b ∈ ws) → h a = h b → a = b

/-- No word, other than the unknown word, is listed twice. -/
def Once (ws : List Word) : Prop := (ws.filter fun w => decide (w ≠ unk ∧ w ≠ unkCap)).Nodup

/-- How many words of the list are not the unknown word. -/
def known (ws : List Word) : Nat := (ws.filter fun w => decide (w ≠ unk ∧ w ≠ unkCap)).length

/-- The index function numbers the known words from 1 to `bound - 1`, each with a number of its own, and gives 0 to
everything else (among the words of `S`). -/
structure Numbers (ws : List Word) (S : Word → Prop) (index : Word → Option Nat) (bound : Nat) : Prop where
  bound_eq : bound = known ws + 1
  known : ∀ w, Known ws w → ∃ i, index w = some i ∧ 0 < i ∧ i < bound
  inj : ∀ w w', Known ws w → Known ws w' → index w = index w' → w = w'
  unknown : ∀ w, S w → ¬ Known ws w → index w = some 0

/-- The enumerated list has every index below `bound` once, in order, and the word listed with an index has it. -/
structure Lists (ws : List Word) (index : Word → Option Nat) (bound : Nat) (out : List (Nat × Word)) : Prop where
  length : out.length = bound
  first : out[0]? = some (0, unk)
  rest : ∀ i, 0 < i → i < bound → ∃ w, out[i]? = some (i, w) ∧ Known ws w ∧ index w = some i

/-- A sort by the keys. -/
def Sorts (sort : JointSort) : Prop :=
  ∀ (β : Type) (l : List (Nat × β)), (sort β l).Perm l ∧ (sort β l).Pairwise fun a b => a.1 ≤ b.1

/-- Words without a NUL byte. -/
def NulFree (ws : List Word) : Prop := ∀ w ∈ ws, 0 ∉ w

/-- A file of terminated words. -/
def terminated (ws : List Word) : List Nat := ws.flatMap (· ++ [0])

end Cdec.Klm.Vocab
