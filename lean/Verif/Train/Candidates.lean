import Verif.Util.Weights
/-!
# Sets of candidate translations

Models training/utils/candidate_set.cc.  A word and a feature is its number; a `double` is its bit pattern, a number below
2^64.  A sparse vector is the list of its entries in the order of iteration.  A `std::unordered_set` compares elements with
equal (cached) hash codes; its order of iteration is a parameter.  The dictionaries, `hash_combine`, printing with ten digits
and parsing of numbers are parameters.  `AddKBestCandidates` appends the k-best list (C05) and calls `Dedup`.
-/
namespace Cdec.Train.Candidates

abbrev Str := List UInt8

/-- `SufficientStats`, mteval/ns.h:13-69; the fields are bit patterns of floats. -/
structure Stats where
  id : Str
  fields : List Nat
deriving DecidableEq

/-- `Candidate`, candidate_set.h:14-39. -/
structure Cand where
  words : List Nat
  feats : List (Nat × Nat)
  stats : Stats
deriving DecidableEq

/-! ## Removal of duplicates -/

/-- `isnan`. -/
def isNan (x : Nat) : Bool := decide (2047 * 2 ^ 52 < x % 2 ^ 63)

/-- `==` of doubles: the two zeros are equal, NaN equals nothing. -/
def feq (a b : Nat) : Bool := !isNan a && !isNan b && (decide (a = b) || (decide (a % 2 ^ 63 = 0) && decide (b % 2 ^ 63 = 0)))

/-- `ApproxVectorHasher::round`, candidate_set.cc:31-41.  `1ull - MASK` is 0xFFFFFFFF00000002: the mask keeps the upper
half and one bit of the lower half. -/
def round (x : Nat) : Nat :=
  let r := x % 2 ^ 32
  if 2 * r > 2 ^ 32 - 1 then (x + (2 ^ 32 - 1 - r + 1)) % 2 ^ 64
  else x / 2 ^ 32 * 2 ^ 32 + 2 * (x / 2 % 2)

/-- `ApproxVectorEquals`, candidate_set.cc:57-70. -/
def approxEquals : List (Nat × Nat) → List (Nat × Nat) → Bool
  | [], b => b.isEmpty
  | _ :: _, [] => false
  | x :: a, y :: b => if x.1 ≠ y.1 ∨ feq (round x.2) (round y.2) = false then false else approxEquals a b

/-- `CandidateCompare`, candidate_set.cc:72-77. -/
def same (a b : Cand) : Bool := decide (a.words = b.words) && approxEquals a.feats b.feats

/-- `ApproxVectorHasher::operator()`, candidate_set.cc:42-54. -/
def hashVec (combine : Nat → Nat → Nat) (l : List (Nat × Nat)) : Nat :=
  l.foldl (fun h x => if x.2 % 2 ^ 63 ≠ 0 then combine (combine h x.1) (x.2 / 2 ^ 32) else h) 0x573915839

/-- `CandidateHasher`, candidate_set.cc:79-87. -/
def hash (combine : Nat → Nat → Nat) (c : Cand) : Nat := combine (c.words.foldl combine 0) (hashVec combine c.feats)

/-- `u.insert(x)`. -/
def insert (combine : Nat → Nat → Nat) (u : List Cand) (x : Cand) : List Cand :=
  if u.any (fun y => decide (hash combine y = hash combine x) && same x y) then u else u ++ [x]

/-- `Dedup`, candidate_set.cc:146-159; `order` is the order of iteration. -/
def dedup (combine : Nat → Nat → Nat) (order : List Cand → List Cand) (cs : List Cand) : List Cand :=
  order (cs.reverse.foldl (insert combine) [])

/-- `AddKBestCandidates`, candidate_set.cc:161-173. -/
def add (combine : Nat → Nat → Nat) (order : List Cand → List Cand) (cs kbest : List Cand) : List Cand :=
  dedup combine order (cs ++ kbest)

/-! ## Files -/

/-- The dictionaries `TD` and `FD`, and the formats of numbers. -/
structure Text where
  word : Nat → Str
  wordId : Str → Nat
  feat : Nat → Str
  featId : Str → Nat
  /-- `<<` of a double -/
  render : Nat → Str
  strtod : Str → Nat
  /-- `<<` and `>>` of a float -/
  renderF : Nat → Str
  readF : Str → Option Nat

/-- Strings with a separator between them. -/
def join (sep : UInt8) : List Str → Str
  | [] => []
  | [x] => x
  | x :: xs => x ++ sep :: join sep xs

/-- `SufficientStats::Encode`, mteval/ns.cc:320-329. -/
def encodeStats (T : Text) (s : Stats) : Str :=
  join 32 ((if s.id.length > 0 then s.id else [78, 85, 76, 76]) :: s.fields.map T.renderF)

/-- The three lines of a candidate, candidate_set.cc:118-123; the features are printed by utils/sparse_vector.h:33-46. -/
def candText (T : Text) (c : Cand) : Str :=
  join 32 (c.words.map T.word) ++ 10 ::
  (join 32 (c.feats.map fun x => T.feat x.1 ++ 61 :: T.render x.2) ++ 10 :: (encodeStats T c.stats ++ [10]))

/-- `WriteToFile`, candidate_set.cc:113-124. -/
def writeFile (T : Text) (cs : List Cand) : Str := cs.flatMap (candText T)

/-- Splitting at spaces and tabs, without empty tokens: `VisitTokens`, utils/stringlib.h:196-224, and the tokens of `>>`. -/
def tokens : Str → Str → List Str
  | cur, [] => if cur = [] then [] else [cur]
  | cur, c :: l => if c = 32 ∨ c = 9 then (if cur = [] then tokens [] l else cur :: tokens [] l) else tokens (cur ++ [c]) l

/-- `while(is >> val)`. -/
def readFields (T : Text) : List Str → List Nat
  | [] => []
  | t :: ts =>
    match T.readF t with
    | some v => v :: readFields T ts
    | none => []

/-- `SufficientStats::SufficientStats(encoded)`, mteval/ns.cc:312-318. -/
def decodeStats (T : Text) (s : Str) : Stats :=
  match tokens [] s with
  | [] => ⟨[], []⟩
  | t :: ts => ⟨t, readFields T ts⟩

/-- `set_value` on the list of entries. -/
def setValue (x : List (Nat × Nat)) (k v : Nat) : List (Nat × Nat) :=
  if x.any (fun e => e.1 = k) then x.map fun e => if e.1 = k then (k, v) else e else x ++ [(k, v)]

/-- The bytes of a token before its last `=`, and those behind it; none if there is no `=`. -/
def splitEq : Str → Option (Str × Str)
  | [] => none
  | c :: l =>
    match splitEq l with
    | some (a, b) => some (c :: a, b)
    | none => if c = 61 then some ([], l) else none

/-- What happens at a space or the end of the line, candidate_set.cc:94-105; `tok` are the bytes since `last_start`.  None
is `exit(1)`. -/
def entry (T : Text) (x : List (Nat × Nat)) (tok : Str) : Option (List (Nat × Nat)) :=
  match splitEq tok with
  | none => none
  | some (name, val) => some (setValue x (T.featId name) (T.strtod val))

/-- The loop of `ParseSparseVector`, candidate_set.cc:93-110. -/
def parseLoop (T : Text) : List (Nat × Nat) → Str → Str → Option (List (Nat × Nat))
  | x, tok, [] => entry T x tok
  | x, tok, c :: l =>
    if c = 32 then
      match entry T x tok with
      | none => none
      | some x' => parseLoop T x' [] l
    else parseLoop T x (tok ++ [c]) l

/-- The loop of `ReadFromFile`, candidate_set.cc:133-142, on the lines; none is `exit(1)` or a failed assertion. -/
def readLines (T : Text) : List Str → Option (List Cand)
  | [] => some []
  | cand :: feats :: ss :: ls =>
    match parseLoop T [] [] feats with
    | none => none
    | some x =>
      match readLines T ls with
      | none => none
      | some cs => some (⟨(tokens [] cand).map T.wordId, x, decodeStats T ss⟩ :: cs)
  | _ => none

/-- `ReadFromFile`, candidate_set.cc:126-144: bytes behind the last newline are a line, too. -/
def readFile (T : Text) (s : Str) : Option (List Cand) :=
  let r := Weights.splitLines s
  readLines T (r.1 ++ if r.2 = [] then [] else [r.2])

end Cdec.Train.Candidates
