import Verif.Mteval.Edit
/-!
# Word and character error rate statistics

Models mteval/ns_wer.cc:16-31 and mteval/ns_cer.cc:16-32.  `out->fields` is a pair: edit distance and length of the
reference; `resize` has set both to zero.  A float is a natural number (exact below 2^24).
-/
namespace Cdec.ErrorRates

open Cdec.Edit

variable {α : Type _} [DecidableEq α]

/-- The loop of `WERMetric::ComputeSufficientStatistics`, ns_wer.cc:21-28; `i` counts the references. -/
def werLoop (hyp : List α) : Nat → List (List α) → Nat → Nat × Nat → Nat × Nat
  | _, [], _, fields => fields
  | i, r :: refs, best, fields =>
    let score := levenshtein hyp r
    if score < best ∨ i = 0 then werLoop hyp (i + 1) refs score (score, r.length)
    else werLoop hyp (i + 1) refs best fields

/-- `WERMetric::ComputeSufficientStatistics`, ns_wer.cc:16-29. -/
def wer (hyp : List α) (refs : List (List α)) : Nat × Nat := werLoop hyp 0 refs 0 (0, 0)

/-- The loop of `CERMetric::ComputeSufficientStatistics`, ns_cer.cc:22-30. -/
def cerLoop (hyp : List α) : List (List α) → Nat → Nat × Nat → Nat × Nat
  | [], _, fields => fields
  | r :: refs, best, fields =>
    let score := levenshtein hyp r
    if score < best then cerLoop hyp refs score (score, r.length)
    else cerLoop hyp refs best fields

/-- `CERMetric::ComputeSufficientStatistics`, ns_cer.cc:16-31, on the strings of the sentences. -/
def cer (hyp : List α) (refs : List (List α)) : Nat × Nat := cerLoop hyp refs hyp.length (0, 0)

end Cdec.ErrorRates
