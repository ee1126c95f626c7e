import Verif.Train.Candidates
import Mathlib.Data.List.Forall2
/-!
# What a set of candidates should be
-/
namespace Cdec.Train.Candidates

/-- Two bit patterns of nearly equal numbers: fewer than 2^32 representable numbers lie between them (the mantissa has 52
bits), or both are tiny. -/
def Close (a b : Nat) : Prop := (a < b + 2 ^ 32 ∧ b < a + 2 ^ 32) ∨ (a % 2 ^ 63 < 2 ^ 32 ∧ b % 2 ^ 63 < 2 ^ 32)

/-- The same translation with nearly the same features. -/
def Represents (a b : Cand) : Prop :=
  a.words = b.words ∧ List.Forall₂ (fun x y => x.1 = y.1 ∧ Close x.2 y.2) a.feats b.feats

/-- The values are 64-bit patterns. -/
def Cand.Bits (c : Cand) : Prop := ∀ x ∈ c.feats, x.2 < 2 ^ 64

/-- No value is NaN. -/
def Cand.NoNan (c : Cand) : Prop := ∀ x ∈ c.feats, x.2 % 2 ^ 63 ≤ 2047 * 2 ^ 52

/-- What can be stored: the dictionaries invert each other on the words and features of the candidate, and no separator
occurs in them or in a printed number. -/
structure Storable (T : Text) (c : Cand) : Prop where
  words : ∀ w ∈ c.words, T.wordId (T.word w) = w ∧ T.word w ≠ [] ∧ 32 ∉ T.word w ∧ 9 ∉ T.word w ∧ 10 ∉ T.word w
  feats : ∀ x ∈ c.feats, T.featId (T.feat x.1) = x.1 ∧ 32 ∉ T.feat x.1 ∧ 10 ∉ T.feat x.1
  values : ∀ x ∈ c.feats, 32 ∉ T.render x.2 ∧ 61 ∉ T.render x.2 ∧ 10 ∉ T.render x.2
  once : (c.feats.map Prod.fst).Nodup
  id : 32 ∉ c.stats.id ∧ 9 ∉ c.stats.id ∧ 10 ∉ c.stats.id
  fields : ∀ v ∈ c.stats.fields, T.readF (T.renderF v) ≠ none ∧ T.renderF v ≠ [] ∧ 32 ∉ T.renderF v ∧ 9 ∉ T.renderF v ∧ 10 ∉ T.renderF v

/-- The candidate with its numbers printed and read again; statistics without a name are called `NULL`. -/
def stored (T : Text) (c : Cand) : Cand :=
  { words := c.words
    feats := c.feats.map fun x => (x.1, T.strtod (T.render x.2))
    stats := ⟨if c.stats.id = [] then [78, 85, 76, 76] else c.stats.id, c.stats.fields.map fun v => (T.readF (T.renderF v)).getD 0⟩ }

end Cdec.Train.Candidates
