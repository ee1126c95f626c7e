import Verif.Decoder.Subst
import Verif.Decoder.Trellis
import Mathlib.Analysis.SpecialFunctions.Log.Basic
/-!
# Features of single rules

Models `WordPenalty`, `SourceWordPenalty` and `ArityPenalty` (decoder/ff_basic.cc), `WordSet` (decoder/ff_wordset.cc),
`NonLatinCount` (decoder/ff_charset.cc) and `RuleShapeFeatures` (decoder/ff_ruleshape.cc), each as the value that
`TraversalFeaturesImpl` sets for the rule of an edge.  A feature that is not set has the value 0.
-/
namespace Cdec.Dec.Basic

/-- `ComputeArity`, trule.cc:68-73. -/
def computeArity (e : List Int) : Int := 1 - e.foldl (fun m i => if i < m then i else m) 1

/-- `EWords`, trule.h:130. -/
def eWords (r : Rule) : Int := r.e.length - r.arity

/-- `FWords`, trule.h:131. -/
def fWords (r : Rule) : Int := r.f.length - r.arity

/-- `value_`, ff_basic.cc:11, 34. -/
noncomputable def penaltyValue : ℝ := -1 / Real.log 10

/-- `WordPenalty::TraversalFeaturesImpl`, ff_basic.cc:17-28. -/
noncomputable def wordPenalty (r : Rule) : ℝ := eWords r * penaltyValue

/-- `SourceWordPenalty::TraversalFeaturesImpl`, ff_basic.cc:40-51. -/
noncomputable def sourceWordPenalty (r : Rule) : ℝ := fWords r * penaltyValue

/-- The feature `Arity_i` of `ArityPenalty`, ff_basic.cc:53-80: `fids_` has the names for 0, …, `max`. The arity of an edge
is the number of its tails, which is that of its rule. A frozen dictionary is not modelled. -/
def arityFeature (max i : ℕ) (r : Rule) : ℕ := if r.arity.toNat < max + 1 then (if r.arity.toNat = i then 1 else 0) else 0

/-- The loop of `WordSet::TraversalFeaturesImpl`, ff_wordset.cc:65-74. -/
def wordSetLoop (oovMode : Bool) (vocab : List Int) : List Int → ℕ → ℕ
  | [], s => s
  | w :: e, s =>
    if oovMode && !vocab.contains w then wordSetLoop oovMode vocab e (s + 1)
    else if !oovMode && vocab.contains w then wordSetLoop oovMode vocab e (s + 1)
    else wordSetLoop oovMode vocab e s

/-- `WordSet::TraversalFeaturesImpl`, ff_wordset.cc:59-75. -/
def wordSet (oovMode : Bool) (vocab : List Int) (r : Rule) : ℕ := wordSetLoop oovMode vocab r.e 0

/-- `ContainsNonLatin`, ff_charset.cc:12-20; `none`: the loop does not end, because `UTF8Len` is 0. -/
def containsNonLatin : List UInt8 → Option Bool
  | [] => some false
  | b :: bs => if utf8Len b > 1 then some true else if utf8Len b = 0 then none else containsNonLatin bs

/-- `is_non_latin_`, ff_charset.h. -/
abbrev Cache := List (Int × Bool)

/-- The loop of `NonLatinCount::TraversalFeaturesImpl`, ff_charset.cc:30-41, with the member it changes; `text` is the
dictionary. -/
def nonLatinLoop (text : Int → List UInt8) : List Int → Cache → ℕ → Option (ℕ × Cache)
  | [], cache, n => some (n, cache)
  | w :: e, cache, n =>
    if w > 0 then
      match cache.lookup w with
      | none =>
        match containsNonLatin (text w) with
        | none => none
        | some b => nonLatinLoop text e ((w, b) :: cache) (if b then n + 1 else n)
      | some b => nonLatinLoop text e cache (if b then n + 1 else n)
    else nonLatinLoop text e cache n

/-- The calls for a sequence of rules: the sum of the values, and the member at the end. -/
def nonLatinRun (text : Int → List UInt8) : List Rule → Cache → Option (ℕ × Cache)
  | [], cache => some (0, cache)
  | r :: rs, cache =>
    match nonLatinLoop text r.e cache 0 with
    | none => none
    | some (n, cache) => (nonLatinRun text rs cache).map fun x => (n + x.1, x.2)

/-- The loop over a side of a rule in `RuleShapeFeatures::TraversalFeaturesImpl`, ff_ruleshape.cc:53-72, 78-97: `lex` says
that lexical material is expected (`pos % 2 == 0` on the source side, 1 on the target side), `bits` the path in the tree,
`none` a bad rule. -/
def sideLoop (l : List Int) (lex : Bool) (bits : List Bool) : Option (List Bool) :=
  match l, lex with
  | [], _ => some bits
  | sym :: l, true =>
    if sym > 0 then sideLoop (l.dropWhile fun c => decide (c > 0)) false (bits ++ [true])
    else sideLoop (sym :: l) false (bits ++ [false])
  | sym :: l, false => if sym < 1 then sideLoop l true (bits ++ [true]) else none
termination_by 2 * l.length + lex.toNat
decreasing_by
  · simp
    have := (List.dropWhile_sublist (fun c : Int => decide (0 < c)) (l := l)).length_le
    omega
  · simp
  · simp; omega

/-- One side, filled up and with its assertion, ff_ruleshape.cc:73-75, 98-100. -/
def side (l : List Int) : Option (List Bool) :=
  match sideLoop l true [] with
  | none => none
  | some bits => if bits.length ≤ 5 then some (bits ++ List.replicate (5 - bits.length) false) else none

/-- The name of the feature that a rule has: the path in the tree spells it, ff_ruleshape.cc:21-41, 102. -/
def shapeName (r : Rule) : Option (List Char) :=
  match side r.f, side r.e with
  | some s, some t =>
    let ch := fun b : Bool => if b then '1' else '0'
    some ("Shape_S".toList ++ s.map ch ++ "_T".toList ++ t.map ch)
  | _, _ => none

/-! ## Specification -/

/-- `Derives rs t s`: a derivation with the rules `rs` (from the top, left to right) produces the target string `t` and the
source string `s`. -/
inductive Derives : List Rule → List Int → List Int → Prop
  | node (r : Rule) (ch : List (List Rule × List Int × List Int)) (t s : List Int) :
      (∀ c ∈ ch, Derives c.1 c.2.1 c.2.2) → eSubst r.e (ch.map fun c => c.2.1) = some t →
      fSubst r.f (ch.map fun c => c.2.2) = some s → Derives (r :: ch.flatMap fun c => c.1) t s

/-- The value of a feature for a derivation: the sum over its rules. -/
def featureTotal {K : Type} [AddCommMonoid K] (F : Rule → K) (rs : List Rule) : K := (rs.map F).sum

end Cdec.Dec.Basic
