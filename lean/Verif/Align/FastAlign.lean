import Verif.Align.TTable
import Verif.Align.Diagonal
import Mathlib.Analysis.SpecialFunctions.Log.Basic
/-!
# EM training of the word aligner

Models the training loop of word-aligner/fast_align.cc over the real numbers.  Not modelled: reading and writing files,
progress reports, the swap of the two sides for `--reverse` (the corpus here is the swapped one), `--optimize_tension`
(the tension is constant), `--variational_bayes`, the table of Viterbi pairs and the parameter file.
-/
namespace Cdec.Align

/-- The options, fast_align.cc:28-46, 72-100; `null` is the id of `<eps>`, `eps` the constant of `TTable::prob`. -/
structure FaOpts where
  useNull : Bool
  null : Nat
  favorDiagonal : Bool
  pNull : ℝ
  tension : ℝ
  eps : ℝ := 1e-9

/-- A sentence pair: source and target words. -/
abbrev Pair := List Nat × List Nat

/-- The prior probability that target word `j` (from 0) of `m` is aligned to source position `i` (from 1, or 0 for the null
word) of `n`, fast_align.cc:152-163.  `none` where `ComputeZ` is not a number. -/
noncomputable def FaOpts.prior (o : FaOpts) (j m n i : Nat) : Option ℝ :=
  if o.favorDiagonal then
    if i = 0 then some o.pNull
    else (computeZ (j + 1) m n o.tension).map fun z => unnormProb (j + 1) i m n o.tension / (z / (1 - o.pNull))
  else some (1 / ((n : ℝ) + if o.useNull then 1 else 0))

/-- The positions `0` (if the null word is used) and `1..n` with their words. -/
def FaOpts.cells (o : FaOpts) (src : List Nat) : List (Nat × Nat) :=
  (if o.useNull then [(0, o.null)] else []) ++ src.zipIdx.map fun p => (p.2 + 1, p.1)

/-- The array `probs` for a target word with position and source word of each cell, fast_align.cc:151-166. -/
noncomputable def FaOpts.probs (o : FaOpts) (t : TTable ℝ) (s : Pair) (j f : Nat) : Option (List (Nat × Nat × ℝ)) :=
  (o.cells s.1).mapM fun c => (o.prior j s.2.length s.1.length c.1).map fun a => (c.1, c.2, t.prob o.eps c.2 f * a)

/-- The variable `sum`, fast_align.cc:151-166. -/
noncomputable def total (ps : List (Nat × Nat × ℝ)) : ℝ := ps.foldl (fun s c => s + c.2.2) 0

/-- One target word of an iteration that is not the last, fast_align.cc:149-209: the fractional counts and the
likelihood. -/
noncomputable def FaOpts.token (o : FaOpts) (s : Pair) (st : TTable ℝ × ℝ) (fj : Nat × Nat) : Option (TTable ℝ × ℝ) := do
  let ps ← o.probs st.1 s fj.2 fj.1
  let sum := total ps
  let t ← ps.foldlM (fun t c => t.increment c.2.1 fj.1 (c.2.2 / sum)) st.1
  pure (t, st.2 + Real.log sum)

/-- One sentence pair, fast_align.cc:134-210; `none` is the exit at 137-140 for an empty side. -/
noncomputable def FaOpts.pair (o : FaOpts) (st : TTable ℝ × ℝ) (s : Pair) : Option (TTable ℝ × ℝ) :=
  if s.1 = [] ∨ s.2 = [] then none else s.2.zipIdx.foldlM (o.token s) st

open Classical in
/-- An iteration that is not the last, fast_align.cc:113-256: the new table and the likelihood under the old one. -/
noncomputable def FaOpts.emStep (o : FaOpts) (corpus : List Pair) (t : TTable ℝ) : Option (TTable ℝ × ℝ) :=
  (corpus.foldlM o.pair (t, 0)).map fun st => (st.1.normalize, st.2)

/-- The variables `max_index` and `max_p`, fast_align.cc:169-183. -/
noncomputable def bestCell (useNull : Bool) (ps : List (Nat × Nat × ℝ)) : Int × ℝ :=
  open Classical in
  let (init, rest) : (Int × ℝ) × List (Nat × Nat × ℝ) :=
    match useNull, ps with
    | true, c :: ps => ((0, c.2.2), ps)
    | _, ps => ((-1, -1), ps)
  rest.foldl (fun b c => if c.2.2 > b.2 then ((c.1 : Int), c.2.2) else b) init

/-- The links printed for a target word in the last iteration, fast_align.cc:184-192. -/
noncomputable def FaOpts.link (o : FaOpts) (ps : List (Nat × Nat × ℝ)) (j : Nat) : List (Nat × Nat) :=
  let b := (bestCell o.useNull ps).1
  if b > 0 then [(b.toNat - 1, j)] else []

/-- The links printed for a sentence pair in the last iteration and its likelihood, fast_align.cc:134-210. -/
noncomputable def FaOpts.finalPair (o : FaOpts) (t : TTable ℝ) (st : List (List (Nat × Nat)) × ℝ) (s : Pair) :
    Option (List (List (Nat × Nat)) × ℝ) :=
  if s.1 = [] ∨ s.2 = [] then none else
    (s.2.zipIdx.foldlM (fun (a : List (Nat × Nat) × ℝ) fj =>
      (o.probs t s fj.2 fj.1).map fun ps => (a.1 ++ o.link ps fj.2, a.2 + Real.log (total ps))) ([], st.2)).map
      fun a => (st.1 ++ [a.1], a.2)

/-- Training, fast_align.cc:113-256: the likelihoods reported by the iterations and the alignments printed. -/
noncomputable def FaOpts.train (o : FaOpts) (corpus : List Pair) : Nat → TTable ℝ → Option (List ℝ × List (List (Nat × Nat)))
  | 0, _ => some ([], [])
  | 1, t => (corpus.foldlM (o.finalPair t) ([], 0)).map fun a => ([a.2], a.1)
  | k + 2, t => do
    let (t, l) ← o.emStep corpus t
    let (ls, al) ← o.train corpus (k + 1) t
    pure (l :: ls, al)

/-- The link of a target word when a test set is aligned, fast_align.cc:272-303. -/
noncomputable def FaOpts.testLink (o : FaOpts) (ps : List (Nat × Nat × ℝ)) (j : Nat) : List (Nat × Nat) :=
  open Classical in
  let (init, rest) : (Nat × ℝ) × List (Nat × Nat × ℝ) :=
    match o.useNull, ps with
    | true, c :: ps => ((0, c.2.2), ps)
    | _, ps => ((0, 0), ps)
  let b := rest.foldl (fun b c => if c.2.2 > b.2 then (c.1, c.2.2) else b) init
  if b.1 > 0 then [(b.1 - 1, j)] else []

/-! ## Specification -/
namespace FaSpec

/-- The model's probability that target word `j` of `m` comes from position `i` of `n`: for the null word `p0` and for the
others `1 - p0` shared in proportion to `exp (-tension * |i/n - (j+1)/m|)`; without the diagonal, all positions alike. -/
noncomputable def align (o : FaOpts) (j m n i : Nat) : ℝ :=
  if o.favorDiagonal then
    if i = 0 then o.pNull
    else (1 - o.pNull) * (Real.exp (-o.tension * |(i : ℝ) / n - ((j : ℝ) + 1) / m|) /
      ((List.range n).map fun i' : Nat => Real.exp (-o.tension * |((i' : ℝ) + 1) / n - ((j : ℝ) + 1) / m|)).sum)
  else 1 / ((n : ℝ) + if o.useNull then 1 else 0)

/-- The places a target word can come from: positions with their words. -/
def places (o : FaOpts) (src : List Nat) : List (Nat × Nat) :=
  (if o.useNull then [(0, o.null)] else []) ++ (List.range src.length).map fun i => (i + 1, src.getD i 0)

/-- Probability of target word `j` of the pair, given translation probabilities `θ e f`. -/
noncomputable def wordProb (o : FaOpts) (θ : Nat → Nat → ℝ) (s : Pair) (j : Nat) : ℝ :=
  ((places o s.1).map fun c => align o j s.2.length s.1.length c.1 * θ c.2 (s.2.getD j 0)).sum

/-- Log-likelihood of the corpus. -/
noncomputable def logLik (o : FaOpts) (θ : Nat → Nat → ℝ) (corpus : List Pair) : ℝ :=
  (corpus.map fun s => ((List.range s.2.length).map fun j => Real.log (wordProb o θ s j)).sum).sum

/-- The expected number of times that `e` produced `f` in the corpus. -/
noncomputable def expCount (o : FaOpts) (θ : Nat → Nat → ℝ) (corpus : List Pair) (e f : Nat) : ℝ :=
  (corpus.map fun s => ((List.range s.2.length).map fun j => ((places o s.1).map fun c =>
    if c.2 = e ∧ s.2.getD j 0 = f then align o j s.2.length s.1.length c.1 * θ e f / wordProb o θ s j else 0).sum).sum).sum

/-- The target words of the corpus. -/
def targets (corpus : List Pair) : Finset Nat := (corpus.flatMap Prod.snd).toFinset

/-- `e` and `f` occur in the same sentence pair; the null word is in every source sentence. -/
def Cooccur (o : FaOpts) (corpus : List Pair) (e f : Nat) : Prop :=
  ∃ s ∈ corpus, f ∈ s.2 ∧ (e ∈ s.1 ∨ (o.useNull = true ∧ e = o.null))

/-- `a` is the best place for target word `j`: the most probable one, the first of several. -/
def BestPlace (o : FaOpts) (θ : Nat → Nat → ℝ) (s : Pair) (j : Nat) (a : Nat) : Prop :=
  ∃ l c r, places o s.1 = l ++ c :: r ∧ c.1 = a ∧
    (∀ d ∈ l, align o j s.2.length s.1.length d.1 * θ d.2 (s.2.getD j 0) <
      align o j s.2.length s.1.length c.1 * θ c.2 (s.2.getD j 0)) ∧
    ∀ d ∈ r, align o j s.2.length s.1.length d.1 * θ d.2 (s.2.getD j 0) ≤
      align o j s.2.length s.1.length c.1 * θ c.2 (s.2.getD j 0)

end FaSpec
end Cdec.Align
