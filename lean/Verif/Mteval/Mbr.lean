import Mathlib.Analysis.SpecialFunctions.Exp
/-!
# Minimum Bayes risk decoding of k-best lists

mteval/mbr_kbest.cc.  A line of a list is its number, its words and its score: cutting lines at ` ||| ` is not modelled.
Numbers are real; a `prob_t` is its value.  The metric is a parameter.
-/
namespace Cdec.Mbr

/-- A line of a k-best list; the id is a number, and 0 is the empty string. -/
structure Line where
  id : Nat
  words : List Nat
  value : ℝ

/-- `pair<vector<WordID>, prob_t>`, mbr_kbest.cc:58. -/
structure Item where
  words : List Nat
  weight : ℝ

/-- The item of a line: `strtod(...) * mbr_scale[fi] + mbr_offset[fi]`, mbr_kbest.cc:79-81. -/
noncomputable def itemOf (scale offset : ℝ) (l : Line) : Item := { words := l.words, weight := Real.exp (l.value * scale + offset) }

/-- The static variables `cache_id`, `cache_pair` and the streams of the files, mbr_kbest.cc:57-59. -/
structure Reader where
  cacheId : Nat
  cache : List Item
  files : List (List Line)

/-- What is known while the files are read: `cur_id`, `*sent_id`, `cache_id`, `*list`. -/
structure Progress where
  cur : Nat
  sent : Nat
  cacheId : Nat
  list : List Item

/-- The loop over the lines of a file, mbr_kbest.cc:70-91; the second component is the item to put into the cache, the
third what is left of the file. -/
noncomputable def readFile (scale offset : ℝ) : List Line → Progress → Progress × Option Item × List Line
  | [], s => (s, none, [])
  | l :: ls, s =>
    let cur := if s.cur = 0 then l.id else s.cur
    if cur = l.id then
      readFile scale offset ls { cur := cur, sent := cur, cacheId := l.id, list := s.list ++ [itemOf scale offset l] }
    else ({ s with cur := cur, cacheId := l.id }, some (itemOf scale offset l), ls)

/-- The loop over the files, mbr_kbest.cc:68-92, with the scale and the offset of each file. -/
noncomputable def readFiles : List (ℝ × ℝ) → List Item → List (List Line) → Progress → Progress × List Item × List (List Line)
  | p :: ps, c :: cs, f :: fs, s =>
    let a := readFile p.1 p.2 f s
    let b := readFiles ps cs fs a.1
    (b.1, a.2.1.getD c :: b.2.1, a.2.2 :: b.2.2)
  | _, cs, fs, s => (s, cs, fs)

/-- An element of `cache_pair` after `resize`. -/
def emptyItem : Item := { words := [], weight := 0 }

/-- `ReadKBestList`, mbr_kbest.cc:51-98, up to the sorting of the list. -/
noncomputable def readList (ps : List (ℝ × ℝ)) (r : Reader) (sent : Nat) : List Item × Nat × Reader :=
  let used := match r.cache with
    | [] => false
    | c :: _ => decide (c.words ≠ [])
  let cache := if used then List.replicate r.cache.length emptyItem else r.cache
  let s := readFiles ps cache r.files
    { cur := if used then r.cacheId else 0, sent := sent, cacheId := r.cacheId, list := if used then r.cache else [] }
  (s.1.list, s.1.sent, { cacheId := s.1.cacheId, cache := s.2.1, files := s.2.2 })

/-- The loop of `main`, mbr_kbest.cc:137-190: the lists with the id that is printed for them.  The list that is empty ends it. -/
noncomputable def readLists (ps : List (ℝ × ℝ)) : Nat → Reader → Nat → List (Nat × List Item)
  | 0, _, _ => []
  | fuel + 1, r, sent =>
    let a := readList ps r sent
    if a.1.isEmpty then [] else (a.2.1, a.1) :: readLists ps fuel a.2.2 a.2.1

/-- At the beginning. -/
def start (files : List (List Line)) : Reader :=
  { cacheId := 0, cache := List.replicate files.length emptyItem, files := files }

/-- `is_loss`, mbr_kbest.cc:106. -/
def isLoss (metric : String) : Bool := metric.toUpper == "TER"

/-- `loss`, mbr_kbest.cc:162-163; `score` takes the reference and the hypothesis. -/
noncomputable def loss (metric : String) (score : List Nat → List Nat → ℝ) (ref hyp : List Nat) : ℝ :=
  if isLoss metric then 1 - (1 - score ref hyp) else 1 - score ref hyp

/-- `joints`, mbr_kbest.cc:138-145; the first item has the largest weight. -/
noncomputable def joints (l : List Item) : List ℝ :=
  match l with
  | [] => []
  | m :: _ => l.map fun x => x.weight / m.weight

/-- The loop over `j`, mbr_kbest.cc:158-168; `best` is `mbr_loss`, which is infinite at first. -/
noncomputable def accumulate (output : Bool) (best : Option ℝ) (i : Nat) (f : Nat → ℝ) : List Nat → ℝ → ℝ
  | [], acc => acc
  | j :: js, acc =>
    if i = j then accumulate output best i f js acc
    else if output = false ∧ (∃ b, best = some b ∧ acc + f j > b) then acc + f j
    else accumulate output best i f js (acc + f j)

/-- `weighted_loss`, mbr_kbest.cc:162-164. -/
noncomputable def weighted (metric : String) (score : List Nat → List Nat → ℝ) (l : List Item) (i j : Nat) : ℝ :=
  loss metric score (l.getD i emptyItem).words (l.getD j emptyItem).words * ((joints l).getD j 0 / (joints l).sum)

/-- The loop over `i`, mbr_kbest.cc:149-174: the index and its loss, and the scores of all. -/
noncomputable def mbrLoop (output : Bool) (metric : String) (score : List Nat → List Nat → ℝ) (l : List Item) :
    List Nat → Option (Nat × ℝ) → List ℝ → Option (Nat × ℝ) × List ℝ
  | [], best, scores => (best, scores)
  | i :: is, best, scores =>
    let acc := accumulate output (best.map Prod.snd) i (weighted metric score l i) (List.range l.length) 0
    mbrLoop output metric score l is
      (match best with
        | none => some (i, acc)
        | some b => if acc < b.2 then some (i, acc) else some b) (scores ++ [acc])

/-- The translation that is printed without `--output_list`, mbr_kbest.cc:138-174, 188, for a sorted list. -/
noncomputable def best (metric : String) (score : List Nat → List Nat → ℝ) (l : List Item) : Option (List Nat) :=
  match (mbrLoop false metric score l (List.range l.length) none []).1 with
  | none => none
  | some b => some (l.getD b.1 emptyItem).words

/-- The items and their scores that are sorted and printed with `--output_list`, mbr_kbest.cc:177-186. -/
noncomputable def scored (metric : String) (score : List Nat → List Nat → ℝ) (l : List Item) : List (List Nat × ℝ) :=
  (l.map Item.words).zip (mbrLoop true metric score l (List.range l.length) none []).2

end Cdec.Mbr
