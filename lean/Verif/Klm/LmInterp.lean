import Verif.Klm.LmAdjust
import Mathlib.Data.Rat.Defs
import Mathlib.Algebra.Order.Ring.Rat
/-!
# Probabilities and back-off weights

Models lm/builder/initial_probabilities.cc, interpolate.cc, joint_order.hh and discount.hh.  Floats are rational numbers, and
probabilities are not written as logarithms.  Contexts are compared where the code, when pruning, compares their 64-bit hashes.
-/
namespace Cdec.Klm.Builder

/-- `Discount`, lm/builder/discount.hh:11-21. -/
structure Discount where
  amount : Nat → Rat

@[inherit_doc Discount] def Discount.get (d : Discount) (c : Nat) : Rat := d.amount (min c 3)
@[inherit_doc Discount] def Discount.apply (d : Discount) (c : Nat) : Rat := c - d.get c

/-- `OrderStat::n`, lm/builder/adjust_counts.cc:74-88: how many records of an order have the count `j`. -/
def orderStat (recs : List AdjRec) (j : Nat) : Nat := recs.countP fun r => decide (r.count = j)

/-- The `try` block of `CalculateDiscounts`, lm/builder/adjust_counts.cc:46-60.  `none`: `BadDiscountException`. -/
def closedForm (recs : List AdjRec) : Option Discount :=
  let n (j : Nat) : Rat := orderStat recs j
  let y : Rat := n 1 / (n 1 + 2 * n 2)
  let a (j : Nat) : Rat := if j = 0 then 0 else j - (j + 1) * y * n (j + 1) / n j
  if n 1 = 0 ∨ n 2 = 0 ∨ n 3 = 0 then none
  else if a 1 < 0 ∨ 1 < a 1 ∨ a 2 < 0 ∨ 2 < a 2 ∨ a 3 < 0 ∨ 3 < a 3 then none
  else some ⟨a⟩

/-- `CalculateDiscounts`, lm/builder/adjust_counts.cc:32-72, for one order.  `fallback`: the discounts of `--discount_fallback`;
without them the exception ends the program (`THROW_UP`).  `config.overwrite` is empty, as in lmplz_main.cc. -/
def calcDiscount (fallback : Option Discount) (recs : List AdjRec) : Option Discount :=
  match closedForm recs with
  | some d => some d
  | none => fallback

/-- `ParseDiscountFallback`, lm/builder/lmplz_main.cc:68-79, after the strings have been turned into numbers.  `none`: an
exception. -/
def parseFallback (param : List Rat) : Option Discount :=
  if 3 < param.length ∨ param = [] then none
  else
    let a (i : Nat) : Rat := param.getD (if i < param.length then i else param.length - 1) 0
    if a 0 < 0 ∨ 1 < a 0 ∨ a 1 < 0 ∨ 2 < a 1 ∨ a 2 < 0 ∨ 3 < a 2 then none
    else some ⟨fun j => if j = 0 then 0 else a (j - 1)⟩

/-- `CutoffCount`, lm/builder/ngram.hh:92-94. -/
def AdjRec.cutoff (r : AdjRec) : Nat := if r.marked then 0 else r.count

/-- The words of an n-gram without the last one. -/
def AdjRec.context (r : AdjRec) : Gram := r.words.dropLast

/-- The runs of records with the same context, lm/builder/initial_probabilities.cc:152-172 and 227-236. -/
def ctxGroups : List AdjRec → List (List AdjRec)
  | [] => []
  | r :: rs =>
    match ctxGroups rs with
    | (q :: qs) :: gs => if r.context = q.context then (r :: q :: qs) :: gs else [r] :: (q :: qs) :: gs
    | gs => [r] :: gs

/-- `HashBufferEntry`, lm/builder/initial_probabilities.cc:18-28, with the context for its hash. -/
structure CtxSums where
  ctx : Gram
  gamma : Rat
  denominator : Rat
  deriving Repr, DecidableEq

/-- The body of `AddRight::Run` for one context, lm/builder/initial_probabilities.cc:153-190. -/
def ctxSums (d : Discount) (G : List AdjRec) : CtxSums :=
  let denominator : Rat := ((G.map (·.count)).sum : Nat)
  let normalizer : Rat := ((G.map fun r => r.count - r.cutoff).sum : Nat)
  let n (j : Nat) : Rat := ((G.filter fun r => 0 < r.cutoff ∧ min r.cutoff 3 = j).length : Nat)
  ⟨(G.head?.map (·.context)).getD [], (d.get 1 * n 1 + d.get 2 * n 2 + d.get 3 * n 3 + normalizer) / denominator, denominator⟩

/-- `AddRight`, lm/builder/initial_probabilities.cc:138-200. -/
def addRight (d : Discount) (recs : List AdjRec) : List CtxSums := (ctxGroups recs).map (ctxSums d)

/-- `Uninterpolated`, lm/builder/ngram.hh:16-19, with the words. -/
structure UnRec where
  words : Gram
  prob : Rat
  gamma : Rat
  deriving Repr, DecidableEq

/-- Which records `PruneNGramStream` keeps, lm/builder/initial_probabilities.cc:51-60. -/
def AdjRec.keep (r : AdjRec) : Bool := r.words.length ≤ 1 ∨ 0 < r.cutoff

/-- `MergeRight`, lm/builder/initial_probabilities.cc:202-243, for n-grams of order `i + 1`. -/
def mergeRight (interpolateUnigrams : Bool) (d : Discount) (i : Nat) (recs : List AdjRec) : List UnRec :=
  if i = 0 ∧ !interpolateUnigrams then
    match recs, addRight d recs with
    | r :: rs, s :: _ => ⟨r.words, s.gamma, 0⟩ :: rs.map fun q => ⟨q.words, d.apply q.count / s.denominator, 0⟩
    | _, _ => []
  else
    (List.zipWith (fun G (s : CtxSums) => (G.filter (·.keep)).map fun r =>
      (⟨r.words, d.apply r.count / s.denominator, s.gamma⟩ : UnRec)) (ctxGroups recs) (addRight d recs)).flatten

/-- A finished n-gram: `ProbBackoff`, not in logarithms. -/
structure OutRec where
  words : Gram
  prob : Rat
  backoff : Rat
  deriving Repr, DecidableEq

/-- `Callback`, lm/builder/interpolate.cc:127-133: `probs_`, the back-off streams, and what has been written. -/
structure CbState where
  probs : Nat → Rat
  backoffs : Nat → List (Gram × Rat)
  out : Nat → List OutRec

/-- Changing one entry of an array. -/
def setAt {α : Type} (f : Nat → α) (i : Nat) (x : α) : Nat → α := fun j => if j = i then x else f j

/-- lm/builder/interpolate.cc:99-112: look for the context, passing over others. -/
def findBackoff (g : Gram) : List (Gram × Rat) → Rat × List (Gram × Rat)
  | [] => (1, [])
  | b :: bs => if b.1 = g then (b.2, bs) else findBackoff g bs

/-- lm/builder/interpolate.cc:96-120.  `none`: reading past the end of the back-offs. -/
def takeBackoff (hashed : Bool) (g : Gram) (bs : List (Gram × Rat)) : Option (Rat × List (Gram × Rat)) :=
  if hashed then some (findBackoff g bs)
  else match bs with
    | [] => none
    | b :: bs => some (b.2, bs)

/-- Whether an n-gram of order `i + 1` has a back-off in the stream, lm/builder/interpolate.cc:97. -/
def isContext (order i : Nat) (g : Gram) : Bool :=
  i + 1 < order ∧ g.getLast? ≠ some kUNK ∧ g.getLast? ≠ some kEOS

/-- `Callback::Enter`, lm/builder/interpolate.cc:91-123, and `OutputProbBackoff::Gram`, lines 59-63. -/
def CbState.enter (order : Nat) (hashed : Nat → Bool) (i : Nat) (r : UnRec) (s : CbState) : Option CbState :=
  let p := r.prob + r.gamma * s.probs i
  if isContext order i r.words then
    match takeBackoff (hashed (i + 1)) r.words (s.backoffs i) with
    | none => none
    | some (b, bs) =>
      some ⟨setAt s.probs (i + 1) p, setAt s.backoffs i bs, setAt s.out i (s.out i ++ [⟨r.words, min 1 p, b⟩])⟩
  else some ⟨setAt s.probs (i + 1) p, s.backoffs, setAt s.out i (s.out i ++ [⟨r.words, min 1 p, 1⟩])⟩

/-- The state of `JointOrder`, lm/builder/joint_order.hh:13-20: what is left of each stream, and the two variables. -/
structure JState where
  streams : Nat → List UnRec
  order : Nat
  current : Nat
  cb : CbState

/-- What a turn of the loop leads to. -/
inductive JRes
  | next (s : JState)
  | done (cb : CbState)
  | fail

/-- lm/builder/joint_order.hh:23. -/
def suffixMatches (streams : Nat → List UnRec) (c : Nat) : Bool :=
  c = 0 ∨ (streams (c - 1)).head?.map (·.words) = (streams c).head?.map fun r => r.words.tail

/-- The inner loop, lm/builder/joint_order.hh:29-37. -/
def jointLeave (streams : Nat → List UnRec) (order : Nat) (cb : CbState) : Nat → JRes
  | 0 => .fail
  | c + 1 =>
    let rest := (streams c).tail
    if rest ≠ [] then .next ⟨setAt streams c rest, order, c, cb⟩
    else if order ≠ c + 1 then .fail
    else if c = 0 then .done cb
    else jointLeave (setAt streams c rest) c cb c

/-- A turn of the outer loop, lm/builder/joint_order.hh:21-38. -/
def jointStep (maxOrder : Nat) (hashed : Nat → Bool) (s : JState) : JRes :=
  if suffixMatches s.streams s.current then
    match (s.streams s.current).head? with
    | none => .fail
    | some r =>
      match s.cb.enter maxOrder hashed s.current r with
      | none => .fail
      | some cb =>
        if s.current + 1 < s.order then .next ⟨s.streams, s.order, s.current + 1, cb⟩
        else jointLeave s.streams s.order cb (s.current + 1)
  else jointLeave s.streams s.order s.cb s.current

/-- The outer loop with a bound on the number of its turns. -/
def jointRun (maxOrder : Nat) (hashed : Nat → Bool) : Nat → JState → Option CbState
  | 0, _ => none
  | n + 1, s =>
    match jointStep maxOrder hashed s with
    | .next s' => jointRun maxOrder hashed n s'
    | .done cb => some cb
    | .fail => none

/-- `Interpolate::Run`, lm/builder/interpolate.cc:144-155, with the start of `JointOrder` (joint_order.hh:17-20) and the check of
`~Callback` (interpolate.cc:78-89). -/
def interpolate (maxOrder : Nat) (hashed : Nat → Bool) (uniform : Rat) (backoffs : Nat → List (Gram × Rat))
    (streams : Nat → List UnRec) (fuel : Nat) : Option (Nat → List OutRec) :=
  match jointRun maxOrder hashed fuel
    ⟨streams, ((List.range maxOrder).takeWhile fun i => streams i ≠ []).length, 0, ⟨fun _ => uniform, backoffs, fun _ => []⟩⟩ with
  | none => none
  | some cb => if ∀ i < maxOrder - 1, hashed (i + 1) = true ∨ cb.backoffs i = [] then some cb.out else none

/-- `InitialProbabilities` and `InterpolateProbabilities`, lm/builder/pipeline.cc:238-286: the n-grams of each order of the
adjusted streams are sorted by context, get their initial probabilities, are sorted by suffix and interpolated.  Unigrams are not
sorted (lines 132-140).  `vocab_size_for_unk` is 0, as by default. -/
def EstimatesTo (order : Nat) (interpolateUnigrams : Bool) (prune : Nat → Nat) (d : Nat → Discount)
    (adj : Nat → List AdjRec) (out : Nat → List OutRec) : Prop :=
  ∃ (ctx : Nat → List AdjRec) (suf : Nat → List UnRec) (fuel : Nat),
    ctx 0 = adj 0 ∧ suf 0 = mergeRight interpolateUnigrams (d 0) 0 (ctx 0) ∧
    (∀ i, 1 ≤ i → i < order → BlockSorted (fun r : AdjRec => contextKey r.words) (adj i) (ctx i)) ∧
    (∀ i, 1 ≤ i → i < order →
      BlockSorted (fun r : UnRec => suffixKey r.words) (mergeRight interpolateUnigrams (d i) i (ctx i)) (suf i)) ∧
    interpolate order (fun i => 0 < prune i) (1 / (((adj 0).length - 1 : Nat) : Rat))
      (fun i => (addRight (d (i + 1)) (ctx (i + 1))).map fun s => (s.ctx, s.gamma)) suf fuel = some out

/-- lmplz from the text to the model, lm/builder/pipeline.cc:288-335. -/
def LmplzTo (order cap : Nat) (interpolateUnigrams : Bool) (prune : Nat → Nat) (fallback : Option Discount)
    (corpus : List (List Nat)) (out : Nat → List OutRec) : Prop :=
  ∃ counts, CountsTo order cap corpus counts ∧ ∃ d : Nat → Discount,
    (∀ i < order, calcDiscount fallback (adjustCounts order prune counts i) = some (d i)) ∧
    EstimatesTo order interpolateUnigrams prune d (adjustCounts order prune counts) out

end Cdec.Klm.Builder
