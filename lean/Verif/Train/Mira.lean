import Mathlib.Data.Finsupp.Basic
import Mathlib.Data.Finsupp.SMul
import Mathlib.Algebra.BigOperators.Finsupp.Basic
import Mathlib.Algebra.Order.Field.Rat
/-!
# Online training with the k-best passive-aggressive algorithm

Models training/mira/kbest_mira.cc:84-321 for k-best lists (`--sample_forest` is not modelled).  A sparse vector is the
finitely supported map it represents (C24), `double` is modelled by the rational numbers.  The decoder is a parameter:
for weights and a sentence it gives the k-best list, which C05 says is ordered, with the features and the metric of every
hypothesis; the metric of an error metric is negated by the program (`invert_score`), which is part of the parameter.
-/
namespace Cdec.Train.Mira

abbrev Vec := Nat →₀ ℚ

/-- `FastSparseVector::dot`, utils/fast_sparse_vector.h:382-391: features beyond the weight vector count nothing. -/
noncomputable def dot (f w : Vec) : ℚ := f.sum fun k v => v * w k

/-- `l2norm_sq`. -/
noncomputable def normSq (f : Vec) : ℚ := f.sum fun _ v => v * v

/-- `HypothesisInfo`, kbest_mira.cc:85-88. -/
structure Hyp where
  features : Vec
  metric : ℚ

/-- `oracles[sent_id].good`, `bad` and `cur_best`. -/
structure Oracles where
  good : Option Hyp
  bad : Option Hyp
  best : Option Hyp

/-- `!cur_good || sentscore > cur_good->mt_metric`, kbest_mira.cc:156-157. -/
def keepGood (cur : Option Hyp) (h : Hyp) : Option Hyp :=
  match cur with
  | none => some h
  | some g => if h.metric > g.metric then some h else some g

/-- `!cur_bad || sentscore < cur_bad->mt_metric`, kbest_mira.cc:158-159. -/
def keepBad (cur : Option Hyp) (h : Hyp) : Option Hyp :=
  match cur with
  | none => some h
  | some b => if h.metric < b.metric then some h else some b

/-- The loop of `UpdateOracles`, kbest_mira.cc:144-160, from the `i`-th hypothesis on. -/
def updateLoop : Nat → List Hyp → Oracles → Oracles
  | _, [], o => o
  | i, h :: l, o =>
    updateLoop (i + 1) l { good := keepGood o.good h, bad := keepBad o.bad h, best := if i = 0 then some h else o.best }

/-- `UpdateOracles`, kbest_mira.cc:119-165; `cur_bad` is reset, `cur_good` and `cur_best` are kept. -/
def updateOracles (good best : Option Hyp) (kbest : List Hyp) : Oracles :=
  updateLoop 0 kbest { good := good, bad := none, best := best }

/-- `ApproxEqual`, kbest_mira.cc:179-182; a quotient by zero is infinite. -/
def approxEqual (a b : ℚ) : Bool :=
  if a = b then true else if b = 0 then false else decide (|a - b| / |b| < 1 / 1000000)

/-- The options. -/
structure Config where
  /-- `max_step_size` -/
  C : ℚ
  /-- `mt_metric_scale` -/
  scale : ℚ
  passes : Nat
  /-- the number of sentences -/
  n : Nat
  /-- the permutation of a pass -/
  order : Nat → Nat → Nat
  /-- the k-best list of a sentence -/
  decode : Vec → Nat → List Hyp
  init : Vec

/-- `loss`, kbest_mira.cc:294-295. -/
noncomputable def loss (scale : ℚ) (w : Vec) (good bad : Hyp) : ℚ :=
  dot bad.features w - dot good.features w + scale * (good.metric - bad.metric)

/-- `step_size`, kbest_mira.cc:300-302; a positive number divided by zero is infinite. -/
noncomputable def stepSize (C l : ℚ) (diff : Vec) : ℚ :=
  if normSq diff = 0 then C else if l / normSq diff > C then C else l / normSq diff

/-- The update, kbest_mira.cc:293-307; `dense` are the weights the sentence was decoded with. -/
noncomputable def update (c : Config) (lambdas dense : Vec) (best good bad : Hyp) : Vec :=
  if approxEqual best.metric good.metric then lambdas
  else
    let l := loss c.scale dense good bad
    if l > 0 then
      let step := stepSize c.C l (good.features - bad.features)
      lambdas + step • good.features - step • bad.features
    else lambdas

/-- The state of the main loop. -/
structure State where
  lambdas : Vec
  /-- `decoder.CurrentWeightVector()` -/
  dense : Vec
  tot : Vec
  normalizer : Nat
  lcount : Nat
  curSent : Nat
  curPass : Nat
  good : Nat → Option Hyp
  best : Option Hyp
  /-- the weights written after each pass -/
  files : List Vec

/-- `x /= normalizer`. -/
noncomputable def average (tot : Vec) (normalizer : Nat) : Vec := (1 / (normalizer : ℚ)) • tot

/-- Before the loop, kbest_mira.cc:225-251. -/
noncomputable def start (c : Config) : State :=
  { lambdas := c.init, dense := c.init, tot := 0 + c.init, normalizer := 1, lcount := 0, curSent := 0, curPass := 0
    good := fun _ => none, best := none, files := [] }

/-- The end of a pass, kbest_mira.cc:255-271: `x.init_vector(&dense_weights)` overwrites the weights of the decoder. -/
noncomputable def endPass (c : Config) (s : State) : State :=
  if c.n = s.curSent then
    { s with dense := average s.tot s.normalizer, curSent := 0, curPass := s.curPass + 1, files := s.files ++ [average s.tot s.normalizer] }
  else s

/-- The rest of the body, kbest_mira.cc:275-311; none is an access through a null pointer. -/
noncomputable def process (c : Config) (s : State) : Option State :=
  let sent := c.order s.curPass s.curSent
  let o := updateOracles (s.good sent) s.best (c.decode s.dense sent)
  match o.best, o.good, o.bad with
  | some best, some good, some bad =>
    let lambdas := update c s.lambdas s.dense best good bad
    some { s with lambdas := lambdas, tot := s.tot + lambdas, normalizer := s.normalizer + 1, lcount := s.lcount + 1,
                  curSent := s.curSent + 1, good := fun i => if i = sent then some good else s.good i, best := some best }
  | _, _, _ => none

/-- One iteration, kbest_mira.cc:253-311. -/
noncomputable def iter (c : Config) (s : State) : Option State := process c (endPass c { s with dense := s.lambdas })

/-- `while (lcount <= max_iteration)`, kbest_mira.cc:252. -/
noncomputable def loop (c : Config) : Nat → State → Option State
  | 0, s => some s
  | fuel + 1, s =>
    if s.lcount ≤ c.passes * c.n then
      match iter c s with
      | some s' => loop c fuel s'
      | none => none
    else some s

/-- The files `weights.mira-final.gz` and `weights.mira-final-avg.gz`, kbest_mira.cc:314-318, and the loop before. -/
noncomputable def train (c : Config) : Option (Vec × Vec × State) :=
  match loop c (c.passes * c.n + 1) (start c) with
  | some s => some (s.dense, average s.tot s.normalizer, s)
  | none => none

end Cdec.Train.Mira
