import Verif.Mteval.Scores
/-!
# What score objects should do

A score is a vector of statistics; the corpus score is the sum, and a score sent to another process arrives unchanged.
-/
namespace Cdec.Scores

/-- The statistics of a BLEU score. -/
def Bleu.stats (b : Bleu) : List ℚ := b.correct ++ b.hyp ++ [b.refLen, b.hypLen]

/-- The statistics of a TER score. -/
def Ter.stats (t : Ter) : List ℚ := [(t.ins : ℚ), t.del, t.sub, t.shift, t.words]

/-- The statistics of a score. -/
def stats : Score → List ℚ
  | .ser c t => [(c : ℚ), t]
  | .bleu b => b.stats
  | .ter t => t.stats
  | .wer e w => [(e : ℚ), w]
  | .aer m p r => [(m : ℚ), p, r]
  | .bleuTer b t => b.stats ++ t.stats
  | .bleuCbleu b c => b.stats ++ c.stats

/-- A BLEU score for n-grams of up to `n` words. -/
def Bleu.Order (n : ℕ) (b : Bleu) : Prop := b.correct.length = n ∧ b.hyp.length = n

/-- A score of the given type, as the scorer of that type with n-grams of up to `n` words makes them; the character part
of the second combination has one order more (5 instead of 4, scorer.cc:377, 388). -/
def OfKind (n : ℕ) : Kind → Score → Prop
  | .ser, .ser _ _ => True
  | .bleu, .bleu b => b.Order n
  | .ter, .ter _ => True
  | .wer, .wer _ _ => True
  | .aer, .aer _ _ _ => True
  | .bleuTer, .bleuTer b _ => b.Order n
  | .bleuCbleu, .bleuCbleu b c => b.Order n ∧ c.Order (n + 1)
  | _, _ => False

/-- Counts that six digits can show. -/
def Bleu.Small (b : Bleu) : Prop := ∀ x ∈ b.stats, ∃ k : ℤ, x = k ∧ k.natAbs < 10 ^ 6

/-- The scores that can be sent: not SER; BLEU counts below a million; AER counts that fit an int. -/
def Sendable : Score → Prop
  | .ser _ _ => False
  | .bleu b => b.Small
  | .ter _ => True
  | .wer _ _ => True
  | .aer m p r => ∀ x ∈ [m, p, r], -2 ^ 31 ≤ x ∧ x < 2 ^ 31
  | .bleuTer b _ => b.Small
  | .bleuCbleu b c => b.Small ∧ c.Small

end Cdec.Scores
