import Mathlib.Data.Prod.Lex
import Mathlib.Data.List.Basic
/-!
# GetGapOrder

Models extractor/rule_extractor_helper.cc:332-345.  Gaps are pairs of positions, compared
lexicographically as `std::pair` is.
-/
namespace Cdec.Extract

/-- `operator<` of `std::pair<int,int>`. -/
def gapLt (a b : Int × Int) : Bool := decide (a.1 < b.1 ∨ (a.1 = b.1 ∧ a.2 < b.2))

/-- rule_extractor_helper.cc:337-341: the inner loop body for `i` and `j`.  An entry is incremented at
most once for every other index, so `gap_order[j]` is inside `gaps` and the default of `getD` is not used. -/
def gapInner (gaps : List (Int × Int)) (i : Nat) (order : List Nat) (j : Nat) : List Nat :=
  if gapLt (gaps.getD (order.getD j 0) (0, 0)) (gaps.getD i (0, 0)) then
    order.set i (order.getD i 0 + 1)
  else
    order.set j (order.getD j 0 + 1)

/-- rule_extractor_helper.cc:336-342: the inner loop for `i`. -/
def gapOuter (gaps : List (Int × Int)) (order : List Nat) (i : Nat) : List Nat :=
  (List.range i).foldl (gapInner gaps i) order

/-- `RuleExtractorHelper::GetGapOrder`, rule_extractor_helper.cc:332-345. -/
def gapOrder (gaps : List (Int × Int)) : List Nat :=
  (List.range gaps.length).foldl (gapOuter gaps) (List.replicate gaps.length 0)

end Cdec.Extract
