import Mathlib.Data.Rat.Floor
/-!
# BackoffSampler

Models extractor/backoff_sampler.cc:15-62.  Loop variables of type `double` are exact rationals.  `ok s` says
that the sentence of the occurrence with index `s` is not blacklisted (lines 26-27, 30 etc.); the result is the
list of indices passed to `AppendMatching`.
-/
namespace Cdec.Extract

/-- C `round`: nearest integer, halves away from zero. -/
def cround (x : ℚ) : Int := if 0 ≤ x then ⌊x + 1 / 2⌋ else ⌈x - 1 / 2⌉

/-- backoff_sampler.cc:33-52: one iteration of the backoff loop; `some s` when a sample was found. -/
def tryBackoff (ok : Int → Bool) (high last : Int) (i : ℚ) (bs : Nat) : Option Int :=
  let s := cround (i - bs)
  if 0 ≤ s ∧ s > last ∧ ok s then some s
  else
    let s := cround (i + bs)
    if s < high ∧ ok s then some s else none

/-- backoff_sampler.cc:32: the values 1, 2, … of `backoff_step` that are smaller than `step`. -/
def backoffSteps (step : ℚ) : List Nat := List.range' 1 (⌈step⌉.toNat - 1)

/-- backoff_sampler.cc:25-56: the sample chosen for one value of `i`, if any. -/
def pickSample (ok : Int → Bool) (high last : Int) (step i : ℚ) : Option Int :=
  let s := cround i
  if last ≥ s ∨ ¬ ok s then (backoffSteps step).findSome? (tryBackoff ok high last i) else some s

/-- backoff_sampler.cc:22-60: the loop; `fuel` is `max_samples - num_samples`. -/
def sampleLoop (ok : Int → Bool) (high : Int) (step : ℚ) : Nat → Int → ℚ → List Int
  | 0, _, _ => []
  | fuel + 1, last, i =>
    if i < high then
      match pickSample ok high last step i with
      | some s => s :: sampleLoop ok high step fuel s (i + step)
      | none => sampleLoop ok high step fuel last (i + step)
    else []

/-- `BackoffSampler::Sample`, backoff_sampler.cc:15-62. -/
def sample (ok : Int → Bool) (low high : Int) (maxSamples : Nat) : List Int :=
  sampleLoop ok high (max 1 (((high - low : Int) : ℚ) / maxSamples)) maxSamples (low - 1) low

end Cdec.Extract
