import Mathlib.Algebra.Field.Defs
/-!
# FastSparseVector

Models utils/fast_sparse_vector.h:65-470.  A vector is either a local array of at most `L`
(`LOCAL_MAX`, 15 or 7) key/value pairs, in insertion order, or a heap-allocated hash map.  The hash map
is modelled by the list of its entries in some iteration order (here insertion order); the theorems only
speak about order-independent observations.  `T()` is `0`.
-/
namespace Cdec.Sparse

/-- fast_sparse_vector.h:465-470: `is_remote_`, `local_size_` and the union `data_`. -/
inductive FSV (T : Type) where
  | loc (l : List (Nat × T))
  | rem (m : List (Nat × T))
deriving DecidableEq

variable {T : Type}

/-- The pairs visited by `begin()..end()`, fast_sparse_vector.h:122-175, 368-373. -/
def FSV.entries : FSV T → List (Nat × T)
  | .loc l => l
  | .rem m => m

/-- First pair with key `k` (the scans of fast_sparse_vector.h:247-250 and `find` of the map). -/
def lookup (l : List (Nat × T)) (k : Nat) : Option T :=
  match l with
  | [] => none
  | (k', x) :: l => if k' = k then some x else lookup l k

/-- Apply `f` to the value stored at the first pair with key `k`. -/
def modifyKey (l : List (Nat × T)) (k : Nat) (f : T → T) : List (Nat × T) :=
  match l with
  | [] => []
  | (k', x) :: l => if k' = k then (k', f x) :: l else (k', x) :: modifyKey l k f

variable [Zero T]

/-- `(*rbmap)[k]` with the returned reference updated by `f`: finds or inserts `T()`. -/
def mapUpdate (m : List (Nat × T)) (k : Nat) (f : T → T) : List (Nat × T) :=
  match lookup m k with
  | some _ => modifyKey m k f
  | none => m ++ [(k, f 0)]

/-- `get_or_create_bin(k)`, fast_sparse_vector.h:423-442, followed by the update `f` through the returned
reference.  When the local array is full it is moved to a map (`swap_local_rbmap`, 455-462). -/
def FSV.update (L : Nat) (v : FSV T) (k : Nat) (f : T → T) : FSV T :=
  match v with
  | .rem m => .rem (mapUpdate m k f)
  | .loc l =>
    match lookup l k with
    | some _ => .loc (modifyKey l k f)
    | none => if l.length < L then .loc (l ++ [(k, f 0)]) else .rem (mapUpdate l k f)

/-- Constructor, fast_sparse_vector.h:177. -/
def FSV.empty : FSV T := .loc []

/-- `value(k)`, fast_sparse_vector.h:242-253. -/
def FSV.value (v : FSV T) (k : Nat) : T := (lookup v.entries k).getD 0

/-- `size()`, fast_sparse_vector.h:275-280. -/
def FSV.size (v : FSV T) : Nat := v.entries.length

/-- `set_value`, fast_sparse_vector.h:233-235. -/
def FSV.setValue (L : Nat) (v : FSV T) (k : Nat) (x : T) : FSV T := v.update L k fun _ => x

/-- `add_value`, fast_sparse_vector.h:236-238. -/
def FSV.addValue [Add T] (L : Nat) (v : FSV T) (k : Nat) (x : T) : FSV T := v.update L k fun y => y + x

/-- `operator+=`, fast_sparse_vector.h:297-304; an empty receiver is assigned. -/
def FSV.plus [Add T] (L : Nat) (v o : FSV T) : FSV T :=
  if v.size = 0 then o
  else o.entries.foldl (fun v p => v.update L p.1 fun y => y + p.2) v

/-- `plus_eq_v_times_s`, fast_sparse_vector.h:313-319. -/
def FSV.plusTimes [Add T] [Mul T] (L : Nat) (v o : FSV T) (s : T) : FSV T :=
  o.entries.foldl (fun v p => v.update L p.1 fun y => y + p.2 * s) v

/-- `operator-=`, fast_sparse_vector.h:320-326. -/
def FSV.minus [Sub T] (L : Nat) (v o : FSV T) : FSV T :=
  o.entries.foldl (fun v p => v.update L p.1 fun y => y - p.2) v

/-- Apply `f` to every stored value. -/
def FSV.mapVals (v : FSV T) (f : T → T) : FSV T :=
  match v with
  | .loc l => .loc (l.map fun p => (p.1, f p.2))
  | .rem m => .rem (m.map fun p => (p.1, f p.2))

/-- `operator*=`, fast_sparse_vector.h:327-337. -/
def FSV.times [Mul T] (v : FSV T) (s : T) : FSV T := v.mapVals fun y => y * s

/-- `operator/=`, fast_sparse_vector.h:338-348. -/
def FSV.div [Div T] (v : FSV T) (s : T) : FSV T := v.mapVals fun y => y / s

/-- `erase_zeros`, fast_sparse_vector.h:349-355; `big x` is `fabs(x) > EPSILON`. -/
def FSV.eraseZeros (L : Nat) (v : FSV T) (big : T → Bool) : FSV T :=
  v.entries.foldl (fun o p => if big p.2 then o.setValue L p.1 p.2 else o) .empty

/-- `dot(const std::vector<T>&)`, fast_sparse_vector.h:382-391. -/
def FSV.dotDense [Add T] [Mul T] (v : FSV T) (w : List T) : T :=
  v.entries.foldl (fun r p => if p.1 < w.length then r + p.2 * w.getD p.1 0 else r) 0

/-- `dot(const FastSparseVector<T>&)`, fast_sparse_vector.h:392-401. -/
def FSV.dot [Add T] [Mul T] (v o : FSV T) : T :=
  v.entries.foldl (fun r p => r + o.value p.1 * p.2) 0

/-- `operator==`, fast_sparse_vector.h:402-408. -/
def FSV.eq [DecidableEq T] (v o : FSV T) : Bool :=
  if o.size ≠ v.size then false
  else v.entries.all fun p => decide (o.value p.1 = p.2)

/-- fast_sparse_vector.h:203-206: shift the cells after `i` down by one. -/
def shiftDown (i : Nat) (a : List (Nat × T)) : List (Nat × T) :=
  (List.range' (i + 1) (a.length - (i + 1))).foldl (fun a j => a.set (j - 1) (a.getD j (0, 0))) a

/-- `erase(k)`, fast_sparse_vector.h:197-211.  In the local case `local_size_` is decremented whether or
not `k` was found; on an empty vector the `unsigned char` wraps to 255 and later accesses are out of
bounds, modelled by `none`. -/
def FSV.erase (v : FSV T) (k : Nat) : Option (FSV T) :=
  match v with
  | .rem m => some (.rem (m.filter fun p => p.1 != k))
  | .loc l =>
    let l' := (List.range l.length).foldl (fun a i => if (a.getD i (0, 0)).1 = k then shiftDown i a else a) l
    if l'.length = 0 then none else some (.loc l'.dropLast)

end Cdec.Sparse
