import Mathlib.Data.Rat.Defs
import Mathlib.Algebra.Order.Ring.Rat
/-!
# Combinations of metrics

Models `CombinationMetric`, mteval/ns_comb.cc, `SufficientStats`, mteval/ns.h:14-68, and `Tokenize`,
utils/stringlib.h:100-114.  Floats are rational numbers.  An exit with an error or a failing assertion is `none`.
-/
namespace Cdec.Comb

/-- The fields of `SufficientStats`, ns.h:67. -/
abbrev Fields := List ℚ

/-- `fields.resize(n)`: cut or filled with zeros. -/
def resize (n : ℕ) (f : Fields) : Fields := f.take n ++ List.replicate (n - f.length) 0

/-- The loop of `operator+=`, ns.h:25-26: `delta` has at most as many fields. -/
def addLoop : Fields → Fields → Fields
  | f, [] => f
  | [], _ :: _ => []
  | x :: f, d :: ds => (x + d) :: addLoop f ds

/-- `operator+=`, ns.h:21-28. -/
def add (f d : Fields) : Fields := addLoop (if f.length ≠ d.length then resize (max f.length d.length) f else f) d

/-- The loop of `operator-=`, ns.h:33-34. -/
def subLoop : Fields → Fields → Fields
  | f, [] => f
  | [], _ :: _ => []
  | x :: f, d :: ds => (x - d) :: subLoop f ds

/-- `operator-=`, ns.h:29-36. -/
def sub (f d : Fields) : Fields := subLoop (if f.length ≠ d.length then resize (max f.length d.length) f else f) d

/-- `operator[]`, ns.h:57-60. -/
def get (f : Fields) (i : ℕ) : ℚ := if i < f.length then f.getD i 0 else 0

/-- The statistics of a corpus: an empty `SufficientStats` to which those of the sentences are added. -/
def total (l : List Fields) : Fields := l.foldl add []

/-- What a combination uses of a metric: `SufficientStatisticsVectorSize`, `ComputeScore` and `IsErrorMetric`. -/
structure Metric where
  size : ℕ
  score : Fields → ℚ
  isError : Bool

/-- The loop of `Tokenize`, stringlib.h:104-111; `cur` is the text from `last`. A character 0 in the text is not
modelled. -/
def tokenizeLoop (delim : Char) : List Char → List Char → List (List Char) → List (List Char)
  | [], cur, res => if cur = [] then res else res ++ [cur]
  | c :: s, cur, res =>
    if c = delim then tokenizeLoop delim s [] (if cur = [] then res else res ++ [cur])
    else tokenizeLoop delim s (cur ++ [c]) res

/-- `Tokenize`, stringlib.h:100-114. -/
def tokenize (s : List Char) (delim : Char) : List (List Char) := tokenizeLoop delim s [] []

/-- `CombinationMetric`, ns_comb.h:12-15. -/
structure Combination where
  metrics : List Metric
  coeffs : List ℚ
  offsets : List ℕ
  totalSize : ℕ

/-- The loop over the components, ns_comb.cc:24-33. `inst` is `EvaluationMetric::Instance`, which aborts for an unknown
name, and `atof` the conversion of a number. -/
def build (inst : List Char → Option Metric) (atof : List Char → ℚ) :
    List (List Char) → Combination → Option Combination
  | [], c => some c
  | comp :: comps, c =>
    match tokenize comp '=' with
    | [name, w] =>
      match inst name with
      | none => none
      | some m => build inst atof comps
          ⟨c.metrics ++ [m], c.coeffs ++ [atof w], c.offsets ++ [c.totalSize], c.totalSize + m.size⟩
    | _ => none

/-- The constructor, ns_comb.cc:10-35. -/
def create (inst : List Char → Option Metric) (atof : List Char → ℚ) (cmd : List Char) : Option Combination :=
  if cmd.take 5 ≠ ['C', 'O', 'M', 'B', ':'] ∨ cmd.length < 9 then none
  else
    let comps := tokenize (cmd.drop 5) ';'
    if comps.length < 2 then none
    else build inst atof comps ⟨[], [], [], 0⟩

/-- `for j: op = j + offsets_[i]; assert(op < size); out[op] = t[j]`, ns_comb.cc:53-57. -/
def writeLoop (out : Fields) (off : ℕ) : ℕ → Fields → Option Fields
  | _, [] => some out
  | j, t :: ts => if j + off < out.length then writeLoop (out.set (j + off) t) off (j + 1) ts else none

/-- The loop over the components, ns_comb.cc:50-58; `ts` has the statistics that the evaluators of the components give for
the hypothesis. -/
def evalLoop : List ℕ → List Fields → Fields → Option Fields
  | off :: offs, t :: ts, out =>
    match writeLoop out off 0 t with
    | none => none
    | some out => evalLoop offs ts out
  | _, _, out => some out

/-- `Evaluate`, ns_comb.cc:47-59; `out` has the fields from before. -/
def evaluate (c : Combination) (ts : List Fields) (out : Fields) : Option Fields :=
  evalLoop c.offsets ts (resize c.totalSize out)

/-- The fields `offsets[i]`, …, `next - 1`, ns_comb.cc:75-78. -/
def section' (stats : Fields) (off next : ℕ) : Fields := (List.range (next - off)).map fun k => get stats (off + k)

/-- The loop of `ComputeScore`, ns_comb.cc:73-80. -/
def scoreLoop (stats : Fields) (totalSize : ℕ) : List Metric → List ℚ → List ℕ → ℚ → ℚ
  | m :: ms, w :: ws, off :: offs, tot =>
    scoreLoop stats totalSize ms ws offs (tot + m.score (section' stats off (offs.head?.getD totalSize)) * w)
  | _, _, _, tot => tot

/-- `ComputeScore`, ns_comb.cc:71-82. -/
def computeScore (c : Combination) (stats : Fields) : ℚ :=
  scoreLoop stats c.totalSize c.metrics c.coeffs c.offsets 0

/-- `IsErrorMetric`, not overridden, ns.cc:31-33. -/
def isErrorMetric (_ : Combination) : Bool := false

/-! ## Specification -/

/-- The text that describes a combination: `COMB:NAME=weight;NAME=weight`. -/
def describe (l : List (List Char × List Char)) : List Char :=
  ['C', 'O', 'M', 'B', ':'] ++ List.intercalate [';'] (l.map fun p => p.1 ++ ['='] ++ p.2)

/-- A name or weight: not empty, without the separators. -/
def Word (w : List Char) : Prop := w ≠ [] ∧ ';' ∉ w ∧ '=' ∉ w

/-- The combination of the given metrics and weights. -/
def combination (l : List (Metric × ℚ)) : Combination where
  metrics := l.map Prod.fst
  coeffs := l.map Prod.snd
  offsets := (List.range l.length).map fun i => ((l.take i).map fun p => p.1.size).sum
  totalSize := (l.map fun p => p.1.size).sum

/-- `F` is the element-wise sum of vectors of length `n`. -/
def IsSum (n : ℕ) (l : List Fields) (F : Fields) : Prop := F.length = n ∧ ∀ i < n, F.getD i 0 = (l.map fun f => f.getD i 0).sum

end Cdec.Comb
