import Mathlib.Analysis.SpecialFunctions.Log.Basic
import Mathlib.Analysis.SpecialFunctions.Pow.Real
/-!
# The value of BLEU

Models `BleuMetric::ComputeBreakdown` / `ComputeScore`, mteval/ns.cc:200-253, and `BLEUScore::ComputeScore`,
mteval/scorer.cc:461-491.  Floats are real numbers; `none` is NaN or undefined behaviour.  The counts of the orders are a
list of pairs: correct n-grams and n-grams of the hypothesis.
-/
namespace Cdec.BleuValue

open Classical

/-- `if (!cor_count) cor_count = alpha; lprec = log(cor_count) - log(hyp)`, ns.cc:208-211, scorer.cc:468-471. -/
noncomputable def lprec (alpha : ℝ) (p : ℝ × ℝ) : ℝ :=
  Real.log (if p.1 = 0 then alpha else p.1) - Real.log p.2

/-- The loop over the orders, ns.cc:206-218 and scorer.cc:466-477: `(log_bleu, count)`. -/
noncomputable def loop (alpha : ℝ) : List (ℝ × ℝ) → ℝ × ℕ → ℝ × ℕ
  | [], s => s
  | p :: l, s => if p.2 > 0 then loop alpha l (s.1 + lprec alpha p, s.2 + 1) else loop alpha l s

/-- ns.cc:221-229, scorer.cc:479-481; `alpha` is subtracted for QCRI only. -/
noncomputable def lbp (adj hypLen refLen : ℝ) : ℝ := if hypLen < refLen then (hypLen - refLen - adj) / hypLen else 0

/-- `ComputeScore` for IBM, NIST and Koehn, ns.cc:200-237, 251-253; without n-grams it divides by zero. -/
noncomputable def bleuNs (l : List (ℝ × ℝ)) (hypLen refLen : ℝ) : Option ℝ :=
  let r := loop (1 / 100) l (0, 0)
  if r.2 = 0 ∨ hypLen = 0 then none
  else some (Real.exp (r.1 / r.2 + lbp 0 hypLen refLen))

/-- The loop with `log_bleu_adj`, ns.cc:213-214. -/
noncomputable def adjLoop (alpha : ℝ) : List (ℝ × ℝ) → ℝ → ℝ
  | [], s => s
  | p :: l, s => if p.2 > 0 then adjLoop alpha l (s + (Real.log alpha - Real.log (p.2 + alpha))) else adjLoop alpha l s

/-- `ComputeScore` for QCRI, `alpha = 1`, ns.cc:200-236. -/
noncomputable def bleuQcri (l : List (ℝ × ℝ)) (hypLen refLen : ℝ) : Option ℝ :=
  let r := loop 1 l (0, 0)
  if r.2 = 0 ∨ hypLen = 0 then none
  else some (Real.exp (r.1 / r.2 + lbp 1 hypLen refLen) - Real.exp (lbp 1 hypLen refLen + adjLoop 1 l 0 / r.2))

/-- `BLEUScore::ComputeScore`, scorer.cc:461-491: `bleus.back()`; with `hyp_len` 0 the brevity penalty is the exponential
of minus infinity if the reference is longer. -/
noncomputable def bleuOld (l : List (ℝ × ℝ)) (hypLen refLen : ℝ) : Option ℝ :=
  if l = [] then none
  else if hypLen = 0 ∧ hypLen < refLen then some 0
  else some (Real.exp ((loop (1 / 100) l (0, 0)).1 / l.length + lbp 0 hypLen refLen))

/-! ## The definition of BLEU -/

/-- The precision of an order; a count of zero is replaced by 1/100. -/
noncomputable def precision (p : ℝ × ℝ) : ℝ := (if p.1 = 0 then 1 / 100 else p.1) / p.2

/-- The brevity penalty. -/
noncomputable def brevity (hypLen refLen : ℝ) : ℝ := if hypLen < refLen then Real.exp (1 - refLen / hypLen) else 1

/-- BLEU: the geometric mean of the precisions times the brevity penalty. -/
noncomputable def bleu (l : List (ℝ × ℝ)) (hypLen refLen : ℝ) : ℝ :=
  brevity hypLen refLen * (l.map precision).prod ^ (1 / (l.length : ℝ))

/-- Counts of a hypothesis that has n-grams of every order: each count of matches is at most the number of n-grams. -/
def Counts (l : List (ℝ × ℝ)) : Prop := ∀ p ∈ l, 0 ≤ p.1 ∧ p.1 ≤ p.2 ∧ 1 ≤ p.2

end Cdec.BleuValue
