import Verif.Mteval.Scores
import Verif.Mteval.Edit
import Verif.Mteval.Ter
/-!
# Scoring a sentence, and the value of a score

Models `ScoreCandidate` of mteval/aer_scorer.cc:83-124 (AER), mteval/scorer.cc:138-150 (SER), mteval/wer.cc:91-121 (WER),
mteval/ter.cc:504-539 (TER), and `ComputeScore` of these metrics.  Floats are rational numbers; a result that is not a
finite number is `none`.
-/
namespace Cdec.Scores

/-! ## Alignment error rate -/

/-- `Safe`, aer_scorer.cc:91-96. -/
def safe (a : Grid Bool) (i j : ℕ) : Option Bool := if i < a.w ∧ j < a.h then a.get i j else some false

/-- The first loop of `AERScorer::ScoreCandidate`, aer_scorer.cc:111-118: `(r, m)`. -/
def refLoop (ref hyp : Grid Bool) : Option (ℤ × ℤ) :=
  (cells ref.w ref.h).foldlM (fun s p => (ref.get p.1 p.2).bind fun b =>
    if b then (safe hyp p.1 p.2).map fun c => (s.1 + 1, if c then s.2 + 1 else s.2) else some s) (0, 0)

/-- The second loop, aer_scorer.cc:119-121: `p`. -/
def hypLoop (hyp : Grid Bool) : Option ℤ :=
  (cells hyp.w hyp.h).foldlM (fun p c => (hyp.get c.1 c.2).map fun b => if b then p + 1 else p) 0

/-- `AERScorer`, aer_scorer.cc:83-89, and `ScoreCandidate`, 102-124; the sentences are given as text (`TD::GetString`). -/
def scoreAer (refs : List (List Char)) (hyp : List Char) : Option Score :=
  match refs with
  | [r] => do
    let ref ← readPharaoh r
    let h ← readPharaoh hyp
    let rm ← refLoop ref h
    let p ← hypLoop h
    some (.aer rm.2 p rm.1)
  | _ => none

/-- Division of floats. -/
def fdiv (a b : ℚ) : Option ℚ := if b = 0 then none else some (a / b)

/-- `AERScore::ComputeScore`, aer_scorer.cc:46-59; `isnan` is `none` (with counts that are not negative, every result that
is not finite is NaN in the end). -/
def computeAer (m p r : ℤ) : ℚ :=
  let f := (fdiv m p).bind fun prec => (fdiv m r).bind fun rec => fdiv (2 * prec * rec) (rec + prec)
  match f with
  | none => 1
  | some f => 1 - f

/-! ## Sentence error rate -/

section
variable {α : Type} [DecidableEq α]

/-- `SERScorer::ScoreCandidate`, scorer.cc:144-150. -/
def scoreSer (refs : List (List α)) (hyp : List α) : Score :=
  .ser (refs.foldl (fun c r => if r = hyp then 1 else c) 0) 1

/-- `SERScore::ComputeScore`, scorer.cc:99-101. -/
def computeSer (c t : ℤ) : Option ℚ := fdiv c t

/-! ## Word error rate and TER -/

/-- The loop `if (score < best_score) { ...; best_score = score; }` of wer.cc:110-119 and ter.cc:520-537; at first
`best_score` is larger than every score. -/
def bestLoop {β : Type} (score : β → ℚ) : List β → Option β → Option β
  | [], b => b
  | x :: xs, none => bestLoop score xs (some x)
  | x :: xs, some b => bestLoop score xs (if score x < score b then some x else some b)

/-- `WERScorer::Calculate`, wer.cc:98-105. -/
def werRate (hyp ref : List α) : ℚ := if ref.length = 0 then 0 else (Edit.levenshtein hyp ref : ℚ) / ref.length

/-- `WERScorer::ScoreCandidate`, wer.cc:107-121. -/
def scoreWer (refs : List (List α)) (hyp : List α) : Score :=
  match bestLoop (werRate hyp) refs none with
  | none => .wer 0 0
  | some r => .wer (Edit.levenshtein hyp r) r.length

/-- `WERScore::ComputeScore`, wer.cc:33-37. -/
def computeWer (e w : ℤ) : ℚ := if (w : ℚ) < 1 / 2 then 0 else e / w

/-- `TERScorer::ScoreCandidate`, ter.cc:513-539; `run r` is the result of `Calculate` for the reference `r`
(`Cdec.Ter.calculate`, C38).  No reference: division by zero. -/
def scoreTer (run : List α → Cdec.Ter.Result) (refs : List (List α)) : Option Score :=
  if refs.length = 0 then none
  else
    let avgLen := (refs.map List.length).sum / refs.length
    match bestLoop (fun r => ((run r).score : ℚ)) refs none with
    | none => some (.ter ⟨0, 0, 0, 0, 0⟩)
    | some r => some (.ter ⟨(run r).ins, (run r).dels, (run r).subs, (run r).shifts, avgLen⟩)

/-- `TERScore::ComputeScore`, ter.cc:432-435. -/
def computeTer (t : Ter) : Option ℚ := fdiv (t.ins + t.del + t.sub + t.shift) t.words

end

end Cdec.Scores
