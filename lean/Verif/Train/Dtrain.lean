import Verif.Train.Mira
import Mathlib.Algebra.Order.Floor.Defs
import Mathlib.Data.Rat.Floor
/-!
# Pairwise ranking training

Models training/dtrain: pairsampling.h and the main loop of dtrain.cc without the options `repeat`, `check`, `pclr`,
`l1_reg`, `rescale`, `scale_bleu_diff`, `noup` and `stop_after`.  Numbers are rational, sparse vectors are finitely
supported maps (C24), the counter of pairs does not wrap.  `std::sort` is a parameter, as it may order hypotheses with
equal scores in any way.  The decoder is a parameter that gives the samples for weights and a sentence.
-/
namespace Cdec.Train.Dtrain

variable {H : Type}

/-- What sampling looks at: `ScoredHyp::score` and `ScoredHyp::model`, dtrain.h:52-59. -/
structure View (H : Type) where
  score : H → ℚ
  model : H → ℚ

/-- `accept_pair`, pairsampling.h:8-13. -/
def acceptPair (a b threshold : ℚ) : Bool := if |a - b| < threshold then false else true

/-- The condition of `push_back` in `all_pairs` and `partXYX`, pairsampling.h:31-37 and 69-75. -/
def accepted (V : View H) (threshold : ℚ) (a b : H) : Bool :=
  if threshold > 0 then acceptPair (V.score a) (V.score b) threshold else decide (V.score a ≠ V.score b)

/-- `training`, `count` and `b`. -/
structure St (H : Type) where
  training : List (H × H)
  count : Nat
  stop : Bool

/-- The body of the loops of `all_pairs` and `partXYX`, pairsampling.h:30-41, 68-79 and 87-95. -/
def visit (V : View H) (threshold : ℚ) (max : Nat) (misrankedOnly : Bool) (a b : H) (s : St H) : St H :=
  if misrankedOnly = true ∧ ¬ V.model a ≤ V.model b then s
  else
    { training := if accepted V threshold a b then s.training ++ [(a, b)] else s.training
      count := s.count + 1
      stop := decide (s.count + 1 = max) }

/-- The inner loop over `j`, with its `break`. -/
def inner (V : View H) (threshold : ℚ) (max : Nat) (mis : Bool) (a : H) : List H → St H → St H
  | [], s => s
  | b :: l, s =>
    let s' := visit V threshold max mis a b s
    if s'.stop then s' else inner V threshold max mis a l s'

/-- The loops of `all_pairs`, pairsampling.h:28-43: `j` runs over what is behind `i`. -/
def allLoop (V : View H) (threshold : ℚ) (max : Nat) (mis : Bool) : List H → St H → St H
  | [], s => s
  | a :: l, s =>
    let s' := inner V threshold max mis a l s
    if s'.stop then s' else allLoop V threshold max mis l s'

/-- `all_pairs`, pairsampling.h:21-45; without samples `sz-1` is the largest unsigned number. -/
def allPairs (V : View H) (srt : List H → List H) (samples : List H) (threshold : ℚ) (max : Nat) (mis : Bool) : Option (List (H × H)) :=
  match srt samples with
  | [] => none
  | s => some (allLoop V threshold max mis s ⟨[], 0, false⟩).training

/-- The loops of `partXYX`, pairsampling.h:66-82 and 85-97: every one of `as` with every one of `bs`. -/
def cross (V : View H) (threshold : ℚ) (max : Nat) (mis : Bool) (bs : List H) : List H → St H → St H
  | [], s => s
  | a :: l, s =>
    let s' := inner V threshold max mis a bs s
    if s'.stop then s' else cross V threshold max mis bs l s'

/-- `while (sep_hi < sz && s[sep_hi-1].score == s[sep_hi].score) ++sep_hi`, pairsampling.h:62; `fuel` is the size. -/
def climb (sc : List ℚ) : Nat → Nat → Nat
  | 0, k => k
  | fuel + 1, k => if k < sc.length ∧ sc[k - 1]? = sc[k]? then climb sc fuel (k + 1) else k

/-- `while (sep_lo > 0 && s[sep_lo-1].score == s[sep_lo].score) --sep_lo`, pairsampling.h:84. -/
def descend (sc : List ℚ) : Nat → Nat
  | 0 => 0
  | k + 1 => if sc[k]? = sc[k + 1]? then descend sc k else k + 1

/-- `partXYX`, pairsampling.h:54-98; none is an access to the element before the first or behind the last. -/
def partXYX (V : View H) (srt : List H → List H) (samples : List H) (threshold : ℚ) (max : Nat) (mis : Bool) (hiLo : ℚ) :
    Option (List (H × H)) :=
  let sz := samples.length
  if sz < 2 then some []
  else
    let s := srt samples
    let sc := s.map V.score
    let sep := ⌊(sz : ℚ) * hiLo + 1 / 2⌋₊
    if sep = 0 then none
    else
      let sepHi := if sz > 4 then climb sc sz sep else 1
      let st := cross V threshold max mis (s.drop sepHi) (s.take sepHi) ⟨[], 0, false⟩
      let sepLo := descend sc (sz - sep)
      some (cross V threshold max mis (s.drop (sz - sepLo)) ((s.take (sz - sepLo)).drop sepHi) { st with stop := false }).training

/-- The inner loop of `PROsampling`, pairsampling.h:119-127, with `max_count` = 5000. -/
def proInner (V : View H) (threshold : ℚ) (a : H) : List H → St H → St H
  | [], s => s
  | b :: l, s =>
    if acceptPair (V.score a) (V.score b) threshold then
      let s' : St H := { training := s.training ++ [(a, b)], count := s.count + 1, stop := decide (s.count + 1 = 5000) }
      if s'.stop then s' else proInner V threshold a l s'
    else proInner V threshold a l s

/-- The outer loop of `PROsampling`. -/
def proLoop (V : View H) (threshold : ℚ) : List H → St H → St H
  | [], s => s
  | a :: l, s =>
    let s' := proInner V threshold a l s
    if s'.stop then s' else proLoop V threshold l s'

/-- `PROsampling`, pairsampling.h:112-135. -/
def pro (V : View H) (srt : List H → List H) (srtPairs : List (H × H) → List (H × H)) (samples : List H) (threshold : ℚ) :
    Option (List (H × H)) :=
  match srt samples with
  | [] => none
  | s =>
    let t := (proLoop V threshold s ⟨[], 0, false⟩).training
    some (if t.length > 50 then (srtPairs t).take 50 else t)

/-! ## Updates -/

open Cdec.Train.Mira (Vec)

/-- `ScoredHyp`, dtrain.h:52-59. -/
structure Hyp where
  f : Vec
  score : ℚ
  model : ℚ

/-- Its view. -/
def Hyp.view : View Hyp := ⟨Hyp.score, Hyp.model⟩

/-- The options. -/
structure Config where
  eta : ℚ
  gamma : ℚ
  lossMargin : ℚ
  batch : Bool
  /-- `T` -/
  T : Nat
  /-- the number of sentences -/
  n : Nat
  decode : Vec → Nat → List Hyp
  /-- one of the three ways to sample; the argument is `faster_perceptron` -/
  pairs : Bool → List Hyp → Option (List (Hyp × Hyp))
  init : Vec

/-- `faster_perceptron`, dtrain.cc:205-206. -/
def Config.faster (c : Config) : Bool := decide (c.gamma = 0 ∧ c.lossMargin = 0)

/-- `rank_error || margin < loss_margin`, dtrain.cc:448-460. -/
def updates (c : Config) (p : Hyp × Hyp) : Bool :=
  let diff := p.1.model - p.2.model
  if c.faster then true else decide (diff ≤ 0 ∨ |diff| < c.lossMargin)

/-- `lambdas` and `batch_updates`. -/
structure Weights where
  lambdas : Vec
  batchUpdates : Vec

/-- The body of the loop over the pairs, dtrain.cc:435-473; `np` is `cur_npairs`. -/
noncomputable def updatePair (c : Config) (np : Nat) (w : Weights) (p : Hyp × Hyp) : Weights :=
  if updates c p then
    let diff := p.1.f - p.2.f
    if c.batch then { w with batchUpdates := w.batchUpdates + diff }
    else
      let l := w.lambdas + c.eta • diff
      { w with lambdas := if c.gamma ≠ 0 then l + (-2 * c.gamma * c.eta * (1 / (np : ℚ))) • l else l }
  else w

/-- The loop over the pairs. -/
noncomputable def updatePairs (c : Config) (w : Weights) (pairs : List (Hyp × Hyp)) : Weights :=
  pairs.foldl (updatePair c pairs.length) w

/-- The state of an epoch: the weights, `npairs` and `score_sum`. -/
structure Epoch where
  w : Weights
  npairs : Nat
  scoreSum : ℚ

/-- The body of the input loop, dtrain.cc:353-564, for sentence `i`; none without samples. -/
noncomputable def sentence (c : Config) (e : Epoch) (i : Nat) : Option Epoch :=
  match c.decode e.w.lambdas i with
  | [] => none
  | first :: rest =>
    match c.pairs c.faster (first :: rest) with
    | none => none
    | some ps => some { w := updatePairs c e.w ps, npairs := e.npairs + ps.length, scoreSum := e.scoreSum + first.score }

/-- The input loop, dtrain.cc:310-566. -/
noncomputable def sentences (c : Config) : List Nat → Epoch → Option Epoch
  | [], e => some e
  | i :: l, e => match sentence c e i with
    | none => none
    | some e' => sentences c l e'

/-- The state of the outer loop. -/
structure Main where
  w : Weights
  wAverage : Vec
  maxScore : ℚ
  bestIt : Nat
  /-- the weight files of the epochs -/
  files : List Vec

/-- The outer loop, dtrain.cc:299-649, for epoch `t`. -/
noncomputable def epoch (c : Config) (m : Main) (t : Nat) : Option Main :=
  match sentences c (List.range c.n) ⟨m.w, 0, 0⟩ with
  | none => none
  | some e =>
    let w : Weights :=
      if c.batch then
        let l := e.w.lambdas + c.eta • e.w.batchUpdates
        { lambdas := if c.gamma ≠ 0 then l + (-2 * c.gamma * c.eta * (1 / (e.npairs : ℚ))) • l else l, batchUpdates := 0 }
      else e.w
    let avg := e.scoreSum / (c.n : ℚ)
    some
      { w := w, wAverage := m.wAverage + w.lambdas
        maxScore := if avg > m.maxScore then avg else m.maxScore
        bestIt := if avg > m.maxScore then t else m.bestIt
        files := m.files ++ [w.lambdas] }

/-- All epochs. -/
noncomputable def epochs (c : Config) : List Nat → Main → Option Main
  | [], m => some m
  | t :: l, m => match epoch c m t with
    | none => none
    | some m' => epochs c l m'

/-- `--select_weights`. -/
inductive Select where
  | last | best | avg

/-- The whole program, dtrain.cc:299-693: the weights in the output file. -/
noncomputable def train (c : Config) (sel : Select) : Option Vec :=
  match epochs c (List.range c.T) ⟨⟨c.init, 0⟩, 0, 0, 0, []⟩ with
  | none => none
  | some m =>
    match sel with
    | .last => some m.w.lambdas
    | .avg => some ((1 / (c.T : ℚ)) • m.wAverage)
    | .best => m.files[m.bestIt]?

end Cdec.Train.Dtrain
