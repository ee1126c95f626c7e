import Mathlib.Data.List.Basic
/-!
# Precomputation

Models extractor/precomputation.cc:38-66 (collecting frequent patterns per sentence) and 123-174
(`UpdateIndex`).  The index `unordered_map<vector<int>, vector<int>>` is represented by the sequence of
`AppendCollocation` calls: pairs of a pattern and the start positions appended for it.  The set of frequent
patterns (`FindMostFrequentPatterns`, 77-109) is a parameter `freq`: the rank of a frequent pattern, or `none`.
`ann` is `vocabulary->GetTerminalIndex(data_array->GetWord(id))` (`AnnotatePattern`, 111-120).
-/
namespace Cdec.Extract

/-- `DataArray::END_OF_LINE`, extractor/data_array.cc:15. -/
def eol : Nat := 1

/-- One element of `matchings` (start, size, is_super) with its annotation. -/
structure Match where
  start : Nat
  size : Nat
  sup : Bool
  ann : List Int

/-- Parameters of the constructor, precomputation.cc:17-20. -/
structure PreParams where
  freq : List Nat → Option Nat
  ann : Nat → Int
  numSuper : Nat
  maxLen : Nat
  span : Nat
  symbols : Nat
  gap : Nat

/-- precomputation.cc:50-64: patterns starting at position `i`; `n` is the number of lengths still to try. -/
def matchesFrom (P : PreParams) (data : List Nat) (i : Nat) : Nat → Nat → List Match
  | 0, _ => []
  | n + 1, j =>
    if i + j ≤ data.length then
      let pattern := (data.drop i).take j
      match P.freq pattern with
      | none => []
      | some r => ⟨i, j, decide (r < P.numSuper), pattern.map P.ann⟩ :: matchesFrom P data i n (j + 1)
    else []

/-- A collocation appended to the index: pattern and positions. -/
abbrev Event := List Int × List Nat

/-- precomputation.cc:151-168: the loop over the rightmost subpattern, with the mutable `pattern`. -/
def ternLoop (P : PreParams) (m1 m2 : Match) : List Match → List Int → List Event
  | [], _ => []
  | m3 :: ms, pattern =>
    if (m3.start : Int) - m1.start ≥ P.span then []
    else if (m3.start : Int) - m2.start - m2.size ≥ P.gap ∧ (m3.start : Int) + m3.size - m1.start ≤ P.span ∧
        m1.size + m2.size + m3.size + 2 ≤ P.symbols ∧ (m1.sup ∨ m3.sup) then
      let p := pattern ++ m3.ann
      (p, [m1.start, m2.start, m3.start]) :: ternLoop P m1 m2 ms (p.eraseIdx (p.length - m3.size))
    else ternLoop P m1 m2 ms pattern

/-- precomputation.cc:132-172: the loop over the second subpattern. -/
def binLoop (P : PreParams) (m1 : Match) : List Match → List Event
  | [] => []
  | m2 :: ms =>
    if (m2.start : Int) - m1.start ≥ P.span then []
    else if (m2.start : Int) - m1.start - m1.size ≥ P.gap ∧ (m2.start : Int) + m2.size - m1.start ≤ P.span ∧
        m1.size + m2.size + 1 ≤ P.symbols then
      let p := m1.ann ++ [-1] ++ m2.ann
      (p, [m1.start, m2.start]) :: ((if m2.sup then ternLoop P m1 m2 ms (p ++ [-2]) else []) ++ binLoop P m1 ms)
    else binLoop P m1 ms

/-- `UpdateIndex`, precomputation.cc:123-174. -/
def updateIndex (P : PreParams) : List Match → List Event
  | [] => []
  | m1 :: ms => binLoop P m1 ms ++ updateIndex P ms

/-- precomputation.cc:40-65: one iteration of the loop over the data; state: `matchings` and the index. -/
def preStep (P : PreParams) (data : List Nat) (st : List Match × List Event) (i : Nat) : List Match × List Event :=
  if data[i]? = some eol then ([], st.2 ++ updateIndex P st.1)
  else (st.1 ++ matchesFrom P data i P.maxLen 1, st.2)

/-- The index built by the constructor, precomputation.cc:38-66. -/
def precompute (P : PreParams) (data : List Nat) : List Event :=
  ((List.range data.length).foldl (preStep P data) ([], [])).2

end Cdec.Extract
