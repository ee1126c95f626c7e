import Mathlib.Data.Rat.Defs
import Mathlib.Algebra.Order.Ring.Rat
import Mathlib.Algebra.Order.Group.Abs
/-!
# BLEU sufficient statistics

Models `BleuSegmentEvaluator<N, BrevityType, false>`, mteval/ns.cc:67-191.  The count table
`map<vector<WordID>, pair<int,int>>` is a function from n-grams to pairs, `(0, 0)` for absent keys (`operator[]`
creates exactly that pair).  The floats that hold counts are natural numbers (exact below 2^24); the lengths, which
one variant averages, are rationals.  Words are of any type with decidable equality.
-/
namespace Cdec.Bleu

variable {W : Type _} [DecidableEq W]

/-- `NGramCountMap`, ns.cc:127: the first component is the largest count in a reference, the second the number of
matches of the hypothesis being scored. -/
abbrev CountMap (W : Type _) := List W → Nat × Nat

/-- Assignment to one entry. -/
def upd (m : CountMap W) (g : List W) (p : Nat × Nat) : CountMap W := fun g' => if g' = g then p else m g'

/-- `float* ` memory: the statistics vector, ns.cc:91-95. -/
abbrev Mem := Nat → Nat

/-- `++` of one cell. -/
def inc (mem : Mem) (a : Nat) : Mem := fun a' => if a' = a then mem a' + 1 else mem a'

/-- The inner loop of `CountRef`, ns.cc:137-140, on the words `ref[j+i-1..]` left (at most `N - (i-1)` of them are
read), with `ngram` what has been pushed. -/
def countGrams (tc : CountMap W) (ngram : List W) : Nat → List W → CountMap W
  | 0, _ => tc
  | _, [] => tc
  | k + 1, w :: rest =>
    let ngram := ngram ++ [w]
    countGrams (upd tc ngram ((tc ngram).1 + 1, (tc ngram).2)) ngram k rest

/-- The outer loop of `CountRef`, ns.cc:133-141. -/
def countAll (N : Nat) (tc : CountMap W) : List W → CountMap W
  | [] => tc
  | w :: rest => countAll N (countGrams tc [] N (w :: rest)) rest

/-- `CountRef`, ns.cc:129-147; keys absent from `tc` have count 0 there and change nothing. -/
def countRef (N : Nat) (ngrams : CountMap W) (ref : List W) : CountMap W :=
  let tc := countAll N (fun _ => (0, 0)) ref
  fun g => if (ngrams g).1 < (tc g).1 then tc g else ngrams g

/-- ns.cc:178-180: the hypothesis counts of the orders from `i` to `k` when the n-gram is in no reference. -/
def bumpFrom (mem : Mem) (a : Nat) : Nat → Mem
  | 0 => mem
  | k + 1 => bumpFrom (inc mem a) (a + 1) k

/-- The inner loop of `ComputeNgramStats`, ns.cc:165-184, with `i` the 0-based order of the n-gram about to be
looked up, `k` the number of orders left and `clip_counts` true (its only use). `correct` is at address 0, `hyp` at
address `N`. -/
def statGrams (N : Nat) (m : CountMap W) (mem : Mem) (ngram : List W) (i : Nat) : Nat → List W → CountMap W × Mem
  | 0, _ => (m, mem)
  | _, [] => (m, mem)
  | k + 1, w :: rest =>
    let ngram := ngram ++ [w]
    let p := m ngram
    let (m, mem) := if p.2 < p.1 then (upd m ngram (p.1, p.2 + 1), inc mem i) else (m, mem)
    if p.1 = 0 then
      (m, bumpFrom mem (N + i) (min (k + 1) (rest.length + 1)))
    else
      statGrams N m (inc mem (N + i)) ngram (i + 1) k rest

/-- The outer loop, ns.cc:161-185. -/
def statAll (N : Nat) (m : CountMap W) (mem : Mem) : List W → CountMap W × Mem
  | [] => (m, mem)
  | w :: rest =>
    let r := statGrams N m mem [] 0 N (w :: rest)
    statAll N r.1 r.2 rest

/-- `ComputeNgramStats`, ns.cc:149-186. -/
def computeNgramStats (N : Nat) (m : CountMap W) (mem : Mem) (sent : List W) : CountMap W × Mem :=
  statAll N (fun g => ((m g).1, 0)) mem sent

/-- `enum BleuType`, ns.cc:67. -/
inductive BleuType where
  | IBM | Koehn | NIST | QCRI
  deriving DecidableEq

/-- The object: `lengths_` and `ngrams_`, ns.cc:189-190. -/
structure Evaluator (W : Type _) where
  lengths : List ℚ
  ngrams : CountMap W

/-- The constructor, ns.cc:70-87. -/
def create (N : Nat) (ty : BleuType) (refs : List (List W)) : Evaluator W :=
  let lengths : List ℚ := refs.map fun r => (r.length : ℚ)
  let tot : ℚ := lengths.foldl (· + ·) 0
  let smallest : ℚ := lengths.foldl (fun s l => if l < s then l else s) 9999999
  let lengths := if ty = .Koehn then lengths.set 0 (tot / (refs.length : ℚ)) else lengths
  let lengths := if ty = .NIST then lengths.set 0 smallest else lengths
  ⟨lengths, refs.foldl (countRef N) (fun _ => (0, 0))⟩

/-- ns.cc:104-109: the loop over the reference lengths; the state is `(bestd, bl)`. -/
def closest (hl : ℚ) (lengths : List ℚ) : ℚ × ℚ :=
  lengths.foldl (fun s l => if |l - hl| < s.1 then (|l - hl|, l) else s) (2000000, -1)

/-- `ref_len`, ns.cc:99-111. -/
def refLen (ty : BleuType) (lengths : List ℚ) (hl : ℚ) : Option ℚ :=
  if 1 < lengths.length ∧ (ty = .IBM ∨ ty = .QCRI) then some (closest hl lengths).2 else lengths[0]?

/-- The statistics: the `N` match counts, the `N` hypothesis counts and the two lengths. -/
structure Stats where
  correct : List Nat
  hyp : List Nat
  hypLen : Nat
  refLen : Option ℚ

/-- `Evaluate`, ns.cc:89-112. Also returns the object, whose count table has changed. -/
def evaluate (N : Nat) (ty : BleuType) (e : Evaluator W) (hyp : List W) : Stats × Evaluator W :=
  let r := computeNgramStats N e.ngrams (fun _ => 0) hyp
  (⟨(List.range N).map r.2, (List.range N).map fun i => r.2 (N + i), hyp.length,
    refLen ty e.lengths (hyp.length : ℚ)⟩, { e with ngrams := r.1 })

/-- The object after scoring a sequence of hypotheses. -/
def scoreMany (N : Nat) (ty : BleuType) (e : Evaluator W) (hyps : List (List W)) : Evaluator W :=
  hyps.foldl (fun e h => (evaluate N ty e h).2) e

end Cdec.Bleu
