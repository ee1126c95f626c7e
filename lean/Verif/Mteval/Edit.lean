import Verif.Mteval.EditSpec
/-!
# Edit distance computations

Models mteval/levenshtein.h:6-25 and `TERScorerImpl::MinimumEditDistance`, mteval/ter.cc:99-163 (identical to
mteval/ns_ter_impl.cc:44-106).  Arrays are functions from indices; `float` costs are natural numbers (exact below
2^24).
-/
namespace Cdec.Edit

variable {α : Type _} [DecidableEq α]

/-- Assignment to a cell of `edit`. -/
def upd (e : Nat → Nat) (k v : Nat) : Nat → Nat := fun k' => if k' = k then v else e k'

/-- The body of the two loops of `LevenshteinDistance`, levenshtein.h:12-21, `m = a.size()`. -/
def levCell (a b : List α) (m i : Nat) (edit : Nat → Nat) (j : Nat) : Nat → Nat :=
  if i = 0 then upd edit j j
  else if j = 0 then upd edit ((i % 2) * (m + 1)) i
  else upd edit ((i % 2) * (m + 1) + j)
    (min (min (edit ((i % 2) * (m + 1) + j - 1) + 1) (edit (((i - 1) % 2) * (m + 1) + j) + 1))
      (edit (((i - 1) % 2) * (m + 1) + (j - 1)) + (if a[j - 1]? = b[i - 1]? then 0 else 1)))

/-- `LevenshteinDistance`, levenshtein.h:7-25. -/
def levenshtein (a b : List α) : Nat :=
  let m := a.length
  let n := b.length
  let edit := (List.range (n + 1)).foldl
    (fun e i => (List.range (m + 1)).foldl (fun e j => levCell a b m i e j) e) (fun _ => 0)
  edit ((n % 2) * (m + 1) + m)

/-- `cmat` and `bmat`. -/
structure Mats where
  c : Nat → Nat → Nat
  b : Nat → Nat → Trans

def Mats.setC (s : Mats) (i j v : Nat) : Mats :=
  { s with c := fun i' j' => if i' = i ∧ j' = j then v else s.c i' j' }

def Mats.set (s : Mats) (i j v : Nat) (t : Trans) : Mats :=
  ⟨fun i' j' => if i' = i ∧ j' = j then v else s.c i' j', fun i' j' => if i' = i ∧ j' = j then t else s.b i' j'⟩

/-- The value and type of one cell, ter.cc:116-132. -/
def medChoice (eq : Bool) (diag up left : Nat) : Nat × Trans :=
  let cur := if eq then (diag, Trans.MATCH) else (diag + 1, .SUBSTITUTION)
  let cur := if cur.1 > up + 1 then (up + 1, .INSERTION) else cur
  if cur.1 > left + 1 then (left + 1, .DELETION) else cur

/-- The body of the loops, ter.cc:111-132, for `i, j ≥ 1`. -/
def medCell (hyp ref : List α) (i : Nat) (s : Mats) (j : Nat) : Mats :=
  let r := medChoice (decide (ref[j - 1]? = hyp[i - 1]?)) (s.c (i - 1) (j - 1)) (s.c (i - 1) j) (s.c i (j - 1))
  s.set i j r.1 r.2

/-- ter.cc:103-134. -/
def medMats (hyp ref : List α) : Mats :=
  let s : Mats := ⟨fun _ _ => 0, fun _ _ => .MATCH⟩
  let s := (List.range (hyp.length + 1)).foldl (fun s i => s.setC i 0 i) s
  let s := (List.range (ref.length + 1)).foldl (fun s j => s.setC 0 j j) s
  (List.range' 1 hyp.length).foldl (fun s i => (List.range' 1 ref.length).foldl (fun s j => medCell hyp ref i s j) s) s

/-- The trace back, ter.cc:137-160: the transitions pushed from position `(i, j)` on. -/
def trace (b : Nat → Nat → Trans) : Nat → Nat → List Trans
  | 0, 0 => []
  | i + 1, 0 => .INSERTION :: trace b i 0
  | 0, j + 1 => .DELETION :: trace b 0 j
  | i + 1, j + 1 =>
    match b (i + 1) (j + 1) with
    | .SUBSTITUTION => .SUBSTITUTION :: trace b i j
    | .MATCH => .MATCH :: trace b i j
    | .INSERTION => .INSERTION :: trace b i (j + 1)
    | .DELETION => .DELETION :: trace b (i + 1) j
  termination_by i j => i + j

/-- `MinimumEditDistance`, ter.cc:99-163: the cost and the path. -/
def minimumEditDistance (hyp ref : List α) : Nat × List Trans :=
  let s := medMats hyp ref
  (s.c hyp.length ref.length, (trace s.b hyp.length ref.length).reverse)

end Cdec.Edit
