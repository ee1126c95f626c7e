import Verif.Sparse.Model
/-!
# TTable

Models word-aligner/ttables.h.  `unordered_map<WordID,double>` is the list of its entries; the theorems use
only order-independent observations.  `double` is replaced by any field.  Word ids are non-negative.
-/
namespace Cdec.Align
open Cdec.Sparse

/-- `Word2Double`, ttables.h:22. -/
abbrev Row (K : Type) := List (Nat × K)

/-- ttables.h:104-105. -/
structure TTable (K : Type) where
  ttable : List (Row K) := []
  counts : List (Row K) := []
deriving DecidableEq

variable {K : Type} [Field K]

/-- `vector::resize(n)`: shrinks or pads with empty maps. -/
def resize (v : List (Row K)) (n : Nat) : List (Row K) := v.take n ++ List.replicate (n - v.length) []

/-- `counts[e][f] += x`; `none` when `e` is outside the vector (undefined behaviour). -/
def bump (v : List (Row K)) (e f : Nat) (x : K) : Option (List (Row K)) :=
  if e < v.length then some (v.modify e fun r => mapUpdate r f fun y => y + x) else none

/-- `Increment(e, f)`, ttables.h:33-36. -/
def TTable.increment1 (t : TTable K) (e f : Nat) : Option (TTable K) :=
  (bump (if t.ttable.length ≤ e then resize t.counts (e + 1) else t.counts) e f 1).map
    fun c => { t with counts := c }

/-- `Increment(e, f, x)`, ttables.h:37-40. -/
def TTable.increment (t : TTable K) (e f : Nat) (x : K) : Option (TTable K) :=
  (bump (if t.counts.length ≤ e then resize t.counts (e + 1) else t.counts) e f x).map
    fun c => { t with counts := c }

/-- ttables.h:56-63: one row of `Normalize`. -/
def normRow [DecidableEq K] (r : Row K) : Row K :=
  let tot := r.foldl (fun s p => s + p.2) 0
  let tot := if tot = 0 then 1 else tot
  r.map fun p => (p.1, p.2 / tot)

/-- `Normalize()`, ttables.h:53-66. -/
def TTable.normalize [DecidableEq K] (t : TTable K) : TTable K :=
  { ttable := t.counts.map normRow, counts := [] }

/-- `operator+=`, ttables.h:68-76. -/
def TTable.plus (t rhs : TTable K) : TTable K :=
  let c := if t.counts.length < rhs.counts.length then resize t.counts rhs.counts.length else t.counts
  { t with counts := c.zipIdx.map fun (r, i) =>
      if i < rhs.counts.length then (rhs.counts.getD i []).foldl (fun r p => mapUpdate r p.1 fun y => y + p.2) r else r }

/-- `prob(e, f)`, ttables.h:24-32; `eps` is the constant 1e-9. -/
def TTable.prob (eps : K) (t : TTable K) (e f : Nat) : K :=
  if e < t.ttable.length then (lookup (t.ttable.getD e []) f).getD eps else eps

end Cdec.Align
