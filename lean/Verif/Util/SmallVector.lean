/-!
# SmallVector

Models utils/small_vector.h.  `M` is the template argument `SV_MAX` (2 in `SmallVectorInt`).  The union
`StorageType` (lines 309-312) is an inductive type, and reading the inactive member is the value `none`,
as are a failing assertion and an access outside an array.  `junk` stands for every indeterminate value
(`new T[n]` of a plain-old-data type, pointer bits read as elements).  Allocation always succeeds.
-/
namespace Cdec
variable {T : Type}

/-- small_vector.h:309-312. -/
inductive SVStorage (T : Type) where
  | vals (l : List T)
  | ptr (l : List T)

/-- small_vector.h:313-315. -/
structure SV (T : Type) where
  size : Nat
  cap : Nat
  data : SVStorage T

/-- Access through `data_.vals`. -/
def SVStorage.asVals : SVStorage T → Option (List T)
  | .vals l => some l
  | .ptr _ => none

/-- Access through `data_.ptr`. -/
def SVStorage.asPtr : SVStorage T → Option (List T)
  | .ptr l => some l
  | .vals _ => none

/-- Write `vs` into `l` from position `i` on (a loop `l[i++] = *vs++` or `memcpy`); `none` if it does
not fit. -/
def writeAt (l : List T) (i : Nat) (vs : List T) : Option (List T) :=
  if i + vs.length ≤ l.length then some (l.take i ++ vs ++ l.drop (i + vs.length)) else none

/-- The first `n` elements of an array; `none` if it is shorter. -/
def readN (l : List T) (n : Nat) : Option (List T) := if n ≤ l.length then some (l.take n) else none

namespace SV
variable (M : Nat) (junk : T)

/-- A union whose bytes mean nothing yet. -/
def freshVals : List T := List.replicate M junk

/-- `SmallVector()`, small_vector.h:38. -/
def mk0 : SV T := ⟨0, 0, .vals (freshVals M junk)⟩

/-- `begin()..end()`, small_vector.h:46-49: what a reader of the vector sees. -/
def contents (s : SV T) : Option (List T) :=
  if M < s.size then s.data.asPtr.bind fun l => readN l s.size
  else s.data.asVals.bind fun l => readN l s.size

/-- `SmallVector(size_t s, T const& v)`, small_vector.h:58-65, with `Alloc` (small_vector.h:25-33). -/
def fill (n : Nat) (v : T) : Option (SV T) :=
  if n < 0xA000 then
    if M < n then (writeAt (List.replicate n junk) 0 (List.replicate n v)).map fun l => ⟨n, n, .ptr l⟩
    else (writeAt (freshVals M junk) 0 (List.replicate n v)).map fun l => ⟨n, 0, .vals l⟩
  else none

/-- Copy constructor, small_vector.h:78-87. -/
def copy (o : SV T) : Option (SV T) :=
  if o.size ≤ M then do
    let src ← o.data.asVals
    let x ← readN src o.size
    let l ← writeAt (freshVals M junk) 0 x
    return ⟨o.size, 0, .vals l⟩
  else do
    let src ← o.data.asPtr
    let x ← readN src o.size
    let l ← writeAt (List.replicate o.size junk) 0 x
    return ⟨o.size, o.size, .ptr l⟩

/-- `operator=`, small_vector.h:106-133. -/
def assign (s o : SV T) : Option (SV T) :=
  if s.size ≤ M then
    if o.size ≤ M then do
      let src ← o.data.asVals
      let x ← readN src M
      let dst ← s.data.asVals
      let l ← writeAt dst 0 x
      return ⟨o.size, s.cap, .vals l⟩
    else do
      let src ← o.data.asPtr
      let x ← readN src o.size
      let l ← writeAt (List.replicate o.size junk) 0 x
      return ⟨o.size, o.size, .ptr l⟩
  else
    if o.size ≤ M then do
      let src ← o.data.asVals
      let x ← readN src o.size
      let l ← writeAt (freshVals M junk) 0 x
      return ⟨o.size, s.cap, .vals l⟩
    else do
      let src ← o.data.asPtr
      let x ← readN src o.size
      let dst ← s.data.asPtr
      let (cap, dst) := if s.cap < o.size then (o.size, List.replicate o.size junk) else (s.cap, dst)
      let l ← writeAt dst 0 x
      return ⟨o.size, cap, .ptr l⟩

/-- `clear`, small_vector.h:145-150. -/
def clear (s : SV T) : SV T :=
  if M < s.size then ⟨0, s.cap, .vals (freshVals M junk)⟩ else { s with size := 0 }

/-- `ensure_capacity(min_size)`, small_vector.h:155-164; `capacity_ << 1` is truncated to 16 bits and so
is the argument. -/
def ensureCapacity (minSize : Nat) (s : SV T) : Option (SV T) :=
  let m := minSize % 65536
  if M < m then
    if m < s.cap then some s
    else do
      let newCap := max (s.cap * 2 % 65536) m
      let src ← s.data.asPtr
      let x ← readN src s.cap
      let l ← writeAt (List.replicate newCap junk) 0 x
      return { s with cap := newCap, data := .ptr l }
  else none

/-- `copy_vals_to_ptr`, small_vector.h:167-172. -/
def copyValsToPtr (s : SV T) : Option (SV T) := do
  let src ← s.data.asVals
  let x ← readN src M
  let l ← writeAt (List.replicate (M * 2) junk) 0 x
  return { s with cap := M * 2, data := .ptr l }

/-- `ptr_to_small`, small_vector.h:173-179. -/
def ptrToSmall (s : SV T) : Option (SV T) :=
  if s.size ≤ M then do
    let tmp ← s.data.asPtr
    let x ← readN tmp s.size
    let l ← writeAt (freshVals M junk) 0 x
    return { s with data := .vals l }
  else none

/-- `push_back`, small_vector.h:183-195, with a value that is not an element of the vector itself. -/
def pushBack (s : SV T) (v : T) : Option (SV T) :=
  if s.size < M then do
    let dst ← s.data.asVals
    let l ← writeAt dst s.size [v]
    return { s with size := (s.size + 1) % 65536, data := .vals l }
  else
    (if s.size = M then copyValsToPtr M junk s
      else if s.size = s.cap then ensureCapacity M junk (s.size + 1) s
      else some s).bind fun s' =>
    s'.data.asPtr.bind fun dst =>
    (writeAt dst s'.size [v]).bind fun l =>
    some { s' with size := (s'.size + 1) % 65536, data := .ptr l }

/-- `v.push_back(v[i])`, small_vector.h:183-195: the reference is read after the storage was replaced.  It
still points to the old storage: `data_.vals` in the inline case, or the buffer `ensure_capacity` deleted
(reading which is undefined). -/
def pushBackOwn (s : SV T) (i : Nat) : Option (SV T) :=
  if s.size < M then do
    let dst ← s.data.asVals
    let v ← dst[i]?
    let l ← writeAt dst s.size [v]
    return { s with size := (s.size + 1) % 65536, data := .vals l }
  else if s.size = M then
    (copyValsToPtr M junk s).bind fun s' =>
    s'.data.asVals.bind fun old =>
    old[i]?.bind fun v =>
    s'.data.asPtr.bind fun dst =>
    (writeAt dst s'.size [v]).bind fun l =>
    some { s' with size := (s'.size + 1) % 65536, data := .ptr l }
  else if s.size = s.cap then none
  else do
    let dst ← s.data.asPtr
    let v ← dst[i]?
    let l ← writeAt dst s.size [v]
    return { s with size := (s.size + 1) % 65536, data := .ptr l }

/-- `pop_back`, small_vector.h:202-207. -/
def popBack (s : SV T) : Option (SV T) :=
  if 0 < s.size then
    let s' := { s with size := s.size - 1 }
    if s'.size = M then ptrToSmall M junk s' else some s'
  else none

/-- `compact(size)`, small_vector.h:214-222. -/
def compact (s : SV T) (n : Nat) : Option (SV T) :=
  if n ≤ s.size then
    if M < s.size then
      let s' := { s with size := n }
      if n ≤ M then ptrToSmall M junk s' else some s'
    else some { s with size := n }
  else none

/-- `resize(s, v)`, small_vector.h:224-254. -/
def resize (s : SV T) (n : Nat) (v : T) : Option (SV T) :=
  if n ≤ M then
    if M < s.size then do
      let tmp ← s.data.asPtr
      let x ← readN tmp n
      let l ← writeAt (freshVals M junk) 0 x
      return { s with size := n, data := .vals l }
    else if n ≤ s.size then some { s with size := n }
    else do
      let dst ← s.data.asVals
      let l ← writeAt dst s.size (List.replicate (n - s.size) v)
      return { s with size := n, data := .vals l }
  else
    (if s.size ≤ M then copyValsToPtr M junk s else some s).bind fun s1 =>
    (if s1.cap < n then ensureCapacity M junk n s1 else some s1).bind fun s2 =>
    s2.data.asPtr.bind fun dst =>
    (if s2.size < n then writeAt dst s2.size (List.replicate (n - s2.size) v) else some dst).bind fun l =>
    some { s2 with size := n % 65536, data := .ptr l }

/-- `operator[](i) = v`, small_vector.h:256-259. -/
def set (s : SV T) (i : Nat) (v : T) : Option (SV T) :=
  if s.size ≤ M then do
    let dst ← s.data.asVals
    let l ← writeAt dst i [v]
    return { s with data := .vals l }
  else do
    let dst ← s.data.asPtr
    let l ← writeAt dst i [v]
    return { s with data := .ptr l }

/-- The `memmove` of `erase`, small_vector.h:98-101. -/
def eraseMove (s : SV T) (b e : Nat) : Option (SV T) :=
  if s.size ≤ M then do
    let dst ← s.data.asVals
    let all ← readN dst s.size
    let l ← writeAt dst b (all.drop e)
    return { s with data := .vals l }
  else do
    let dst ← s.data.asPtr
    let all ← readN dst s.size
    let l ← writeAt dst b (all.drop e)
    return { s with data := .ptr l }

/-- `erase(b, e)`, small_vector.h:93-104, with positions relative to `begin()`. -/
def erase (s : SV T) (b e : Nat) (zero : T) : Option (SV T) :=
  if e = s.size then resize M junk s b zero
  else
    (eraseMove M s b e).bind fun s' => resize M junk s' (b + (s.size - e)) zero

/-- `operator==`, small_vector.h:266-277. -/
def eq [DecidableEq T] (s o : SV T) : Option Bool :=
  if s.size ≠ o.size then some false
  else do
    let a ← contents M s
    let b ← contents M o
    return decide (a = b)

end SV
end Cdec
