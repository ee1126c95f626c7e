import Mathlib.Algebra.Field.Defs
import Mathlib.Data.Nat.Cast.Defs
/-!
# TranslationTable

Models extractor/translation_table.cc:15-73 and 79-121 (counting and scores).  The `unordered_map`s of counts
are functions with default 0; a key is present exactly when it has been incremented.  A sentence pair is its
two lists of word ids (without END_OF_LINE) and its links; an out-of-range link is undefined behaviour,
modelled by `none`.  Scores are exact fractions.
-/
namespace Cdec.Extract

/-- `DataArray::NULL_WORD`, extractor/data_array.cc:14. -/
def nullWord : Nat := 0

/-- The three maps of translation_table.cc:22-24. -/
structure Counts where
  src : Nat → Nat := fun _ => 0
  trg : Nat → Nat := fun _ => 0
  links : Nat × Nat → Nat := fun _ => 0

/-- `IncrementLinksCount`, translation_table.cc:79-88. -/
def Counts.inc (c : Counts) (s t : Nat) : Counts :=
  { src := fun x => if x = s then c.src x + 1 else c.src x
    trg := fun x => if x = t then c.trg x + 1 else c.trg x
    links := fun x => if x = (s, t) then c.links x + 1 else c.links x }

/-- A sentence pair with its alignment. -/
structure SentPair where
  src : List Nat
  trg : List Nat
  links : List (Nat × Nat)

/-- translation_table.cc:41-46: the loop over links, updating the two `linked_words` vectors. -/
def countLinks (sp : SentPair) : List (Nat × Nat) → Counts × List Bool × List Bool → Option (Counts × List Bool × List Bool)
  | [], st => some st
  | (i, j) :: ls, (c, sl, tl) =>
    match sp.src[i]?, sp.trg[j]? with
    | some s, some t => countLinks sp ls (c.inc s t, sl.set i true, tl.set j true)
    | _, _ => none

/-- translation_table.cc:48-53 and 55-60: words that were not linked are paired with NULL. -/
def countUnlinked (inc : Counts → Nat → Counts) (ws : List Nat) (linked : List Bool) (c : Counts) : Counts :=
  (ws.zip linked).foldl (fun c p => if p.2 then c else inc c p.1) c

/-- translation_table.cc:28-61: one sentence pair. -/
def countPair (c : Counts) (sp : SentPair) : Option Counts :=
  (countLinks sp sp.links (c, List.replicate sp.src.length false, List.replicate sp.trg.length false)).map
    fun st =>
      let c1 := countUnlinked (fun c w => c.inc w nullWord) sp.src st.2.1 st.1
      countUnlinked (fun c w => c.inc nullWord w) sp.trg st.2.2 c1

/-- translation_table.cc:28-61: all sentence pairs. -/
def countCorpus (corpus : List SentPair) : Option Counts := corpus.foldlM countPair {}

variable {K : Type} [Field K]

/-- `GetTargetGivenSourceScore`, translation_table.cc:66-72 and 90-105, for known words. -/
def targetGivenSource (c : Counts) (s t : Nat) : K :=
  if c.links (s, t) = 0 then 0 else (c.links (s, t) : K) / (c.src s : K)

/-- `GetSourceGivenTargetScore`, translation_table.cc:66-72 and 107-121, for known words. -/
def sourceGivenTarget (c : Counts) (s t : Nat) : K :=
  if c.links (s, t) = 0 then 0 else (c.links (s, t) : K) / (c.trg t : K)

end Cdec.Extract
