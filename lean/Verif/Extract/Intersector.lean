import Verif.Extract.SuffixArray
import Verif.Extract.DataArray
/-!
# Phrases, phrase locations and the intersector

Models extractor/phrase.cc, phrase_builder.cc:12-23, phrase_location.cc and fast_intersector.cc.  `int` is
unbounded.  `ExtendPhraseLocation` caches its result in the location; since the cached value is the same function of
the location, the model recomputes it.
-/
namespace Cdec.Extract

/-- `Vocabulary::IsTerminal`, vocabulary.cc:28-30. -/
def isTerminal (s : Int) : Bool := decide (0 ≤ s)

/-- `Phrase`: symbols and positions of the nonterminals, phrase_builder.cc:12-23 (`words` is not used here). -/
structure Phrase where
  symbols : List Int
  varPos : List Nat

/-- `PhraseBuilder::Build`, phrase_builder.cc:12-23. -/
def buildPhrase (symbols : List Int) : Phrase :=
  ⟨symbols, symbols.zipIdx.filterMap fun si => if isTerminal si.1 then none else some si.2⟩

/-- `Phrase::Arity`, phrase.cc:5-7. -/
def Phrase.arity (p : Phrase) : Nat := p.varPos.length

/-- `Phrase::GetChunkLen`, phrase.cc:9-19. -/
def Phrase.getChunkLen (p : Phrase) (index : Nat) : Nat :=
  if p.varPos.length = 0 then p.symbols.length
  else if index = 0 then p.varPos.getD 0 0
  else if index = p.varPos.length then p.symbols.length - p.varPos.getLastD 0 - 1
  else p.varPos.getD index 0 - p.varPos.getD (index - 1) 0 - 1

/-- `PhraseLocation`, phrase_location.h: a range of the suffix array, or positions of the chunks of each match. -/
structure PhraseLocation where
  saLow : Nat
  saHigh : Nat
  matchings : Option (List Nat)
  num : Nat
deriving DecidableEq, Repr

/-- phrase_location.cc:7-8. -/
def PhraseLocation.ofRange (low high : Nat) : PhraseLocation := ⟨low, high, none, 0⟩
/-- phrase_location.cc:10-14. -/
def PhraseLocation.ofMatchings (m : List Nat) (num : Nat) : PhraseLocation := ⟨0, 0, some m, num⟩

/-- `GetSize`, phrase_location.cc:20-26. -/
def PhraseLocation.getSize (l : PhraseLocation) : Nat :=
  if 0 < l.num then (l.matchings.getD []).length else l.saHigh - l.saLow

/-- Members of `FastIntersector`, fast_intersector.h; `terminal` is `Vocabulary::GetTerminalValue` and `pre` the
precomputed collocations (`Contains` / `GetCollocations`). -/
structure Intersector where
  d : DataArray
  sa : SuffixArray
  terminal : Int → String
  pre : List Int → Option (List Nat)
  span : Nat
  gap : Nat

/-- `ExtendPhraseLocation`, fast_intersector.cc:156-167: positions and number of subpatterns. -/
def Intersector.extendLocation (I : Intersector) (l : PhraseLocation) : List Nat × Nat :=
  match l.matchings with
  | some m => (m, l.num)
  | none => ((List.range' l.saLow (l.saHigh - l.saLow)).map fun i => I.sa.sa.getD i 0, 1)

/-- The slices `positions[i .. i + num)` for `i = 0, num, 2 num, ...`, fast_intersector.cc:83,129; the first
argument bounds their number. -/
def slices (num : Nat) : Nat → List Nat → List (List Nat)
  | 0, _ => []
  | fuel + 1, l => if l = [] then [] else l.take num :: slices num fuel (l.drop num)

/-- `GetSearchRange`, fast_intersector.cc:169-175. -/
def Intersector.searchRange (I : Intersector) (x : Bool) : Nat × Nat := if x then (I.gap + 1, I.span) else (1, 2)

/-- The loop at fast_intersector.cc:93-107 for one match `ps` of the prefix; `n` iterations are left. -/
def Intersector.prefixScan (I : Intersector) (x : Bool) (sym : Nat) (ps : List Nat) (sentEnd : Nat) :
    Nat → Int → List (List Nat)
  | 0, _ => []
  | n + 1, e =>
    if e ≥ sentEnd ∨ e - ps.headD 0 ≥ I.span then []
    else (if I.d.data.getD e.toNat 0 = sym then [ps ++ if x then [e.toNat] else []] else []) ++
      I.prefixScan x sym ps sentEnd n (e + 1)

/-- `ExtendPrefixPhraseLocation`, fast_intersector.cc:67-111. -/
def Intersector.extendPrefix (I : Intersector) (loc : PhraseLocation) (phrase : Phrase) (x : Bool) (next : Int) :
    PhraseLocation :=
  let positions := (I.extendLocation loc).1
  let num := (I.extendLocation loc).2
  match I.d.word2id (I.terminal next) with
  | none => .ofMatchings [] num
  | some sym =>
    let range := I.searchRange x
    let found := (slices num positions.length positions).flatMap fun ps =>
      let sentEnd := I.d.getSentenceStart (I.d.getSentenceId (ps.headD 0) + 1) - 1
      let e : Int := (ps.getD (num - 1) 0 : Int) + range.1 +
        (if x then (phrase.getChunkLen (phrase.arity - 1) : Int) - 1 else (phrase.getChunkLen phrase.arity : Int) - 2)
      I.prefixScan x sym ps sentEnd (range.2 - range.1) e
    .ofMatchings found.flatten (phrase.arity + 1)

/-- The loop at fast_intersector.cc:137-150 for one match `ps` of the suffix. -/
def Intersector.suffixScan (I : Intersector) (x : Bool) (sym : Nat) (ps : List Nat) (sentStart : Nat) (last : Int) :
    Nat → Int → List (List Nat)
  | 0, _ => []
  | n + 1, b =>
    if b < sentStart ∨ last - b ≥ I.span then []
    else (if I.d.data.getD b.toNat 0 = sym then [b.toNat :: ps.drop (if x then 0 else 1)] else []) ++
      I.suffixScan x sym ps sentStart last n (b - 1)

/-- `ExtendSuffixPhraseLocation`, fast_intersector.cc:113-154. -/
def Intersector.extendSuffix (I : Intersector) (loc : PhraseLocation) (phrase : Phrase) (x : Bool) (prev : Int) :
    PhraseLocation :=
  let positions := (I.extendLocation loc).1
  let num := (I.extendLocation loc).2
  match I.d.word2id (I.terminal prev) with
  | none => .ofMatchings [] num
  | some sym =>
    let range := I.searchRange x
    let found := (slices num positions.length positions).flatMap fun ps =>
      let sentStart := I.d.getSentenceStart (I.d.getSentenceId (ps.headD 0))
      let b : Int := (ps.headD 0 : Int) - range.1
      let last : Int := (ps.getD (num - 1) 0 : Int) + phrase.getChunkLen phrase.arity - 1
      I.suffixScan x sym ps sentStart last (range.2 - range.1) b
    .ofMatchings found.flatten (phrase.arity + 1)

/-- `EstimateNumOperations`, fast_intersector.cc:61-65. -/
def Intersector.estimate (I : Intersector) (l : PhraseLocation) (x : Bool) : Nat :=
  if x then l.getSize * I.span else l.getSize

/-- `Intersect`, fast_intersector.cc:30-59. -/
def Intersector.intersect (I : Intersector) (preLoc sufLoc : PhraseLocation) (phrase : Phrase) : PhraseLocation :=
  let symbols := phrase.symbols
  match I.pre symbols with
  | some c => .ofMatchings c (phrase.arity + 1)
  | none =>
    let prefixX := !isTerminal (symbols.getD (symbols.length - 2) 0)
    let suffixX := !isTerminal (symbols.getD 1 0)
    if I.estimate preLoc prefixX ≤ I.estimate sufLoc suffixX then
      I.extendPrefix preLoc phrase prefixX (symbols.getLastD 0)
    else I.extendSuffix sufLoc phrase suffixX (symbols.headD 0)

end Cdec.Extract
