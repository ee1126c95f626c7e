import Mathlib.Data.List.Basic
/-!
# Linear probing hash tables

Models klm/util/probing_hash_table.hh.  A bucket is a pair of a key and a payload; `inv` is the key that marks an
empty bucket.  `equal_` is equality of keys.  Payloads of empty buckets are arbitrary.  A loop that has looked at
every bucket without stopping goes round for ever; the models then return `none` (`Outcome.diverge`).
-/
namespace Cdec.Klm

variable {K V : Type _} [DecidableEq K]

/-- `for (i = start;;) { … if (++i == end_) i = begin_; }` over `N` buckets, where the body leaves the loop at `i`
with `stop i`. -/
def probe {R : Type _} (N : Nat) (stop : Nat → Option R) : Nat → Nat → Option R
  | 0, _ => none
  | n + 1, i =>
    match stop i with
    | some r => some r
    | none => probe N stop n (if i + 1 = N then 0 else i + 1)

/-- `Find` / `UnsafeMutableFind`, probing_hash_table.hh:107-117 and 130-140: `some (some p)` when true is returned
and `out` points to bucket `p`, `some none` when false is returned. -/
def find (inv : K) (hash : K → Nat) (t : List (K × V)) (key : K) : Option (Option Nat) :=
  probe t.length (fun i => match t[i]? with
    | none => none
    | some e => if e.1 = key then some (some i) else if e.1 = inv then some none else none)
    t.length (hash key % t.length)

/-- `UncheckedInsert`, probing_hash_table.hh:237-242: the table afterwards. -/
def uncheckedInsert (inv : K) (hash : K → Nat) (t : List (K × V)) (x : K × V) : Option (List (K × V)) :=
  (probe t.length (fun i => match t[i]? with
    | none => none
    | some e => if e.1 = inv then some i else none)
    t.length (hash x.1 % t.length)).map fun i => t.set i x

/-- `ProbingHashTable`: the buckets and `entries_`. -/
structure Table (K V : Type _) where
  t : List (K × V)
  entries : Nat
deriving DecidableEq

/-- How a call ends. -/
inductive Outcome (A : Type _) where
  | ok (a : A)
  | throw
  | diverge
deriving DecidableEq

/-- `Insert`, probing_hash_table.hh:78-84. -/
def Table.insert (inv : K) (hash : K → Nat) (s : Table K V) (x : K × V) : Outcome (Table K V) :=
  if s.entries + 1 ≥ s.t.length then .throw
  else match uncheckedInsert inv hash s.t x with
    | none => .diverge
    | some t => .ok ⟨t, s.entries + 1⟩

/-- The body of the loop of `FindOrInsert`, probing_hash_table.hh:92-99: it leaves with true and the bucket of the
key, or with false and an empty bucket. -/
def foiStop (inv : K) (t : List (K × V)) (key : K) (i : Nat) : Option (Bool × Nat) :=
  match t[i]? with
  | none => none
  | some e => if e.1 = key then some (true, i) else if e.1 = inv then some (false, i) else none

/-- `FindOrInsert`, probing_hash_table.hh:87-102: whether the key was found, and the table. -/
def Table.findOrInsert (inv : K) (hash : K → Nat) (s : Table K V) (x : K × V) : Outcome (Bool × Table K V) :=
  match probe s.t.length (foiStop inv s.t x.1) s.t.length (hash x.1 % s.t.length) with
  | none => .diverge
  | some (true, _) => .ok (true, s)
  | some (false, i) =>
    if s.entries + 1 ≥ s.t.length then .throw
    else .ok (false, ⟨s.t.set i x, s.entries + 1⟩)

/-- `Clear`, probing_hash_table.hh:152-157; `junk` is the payload of the local `invalid`. -/
def Table.clear (inv : K) (junk : V) (s : Table K V) : Table K V :=
  ⟨List.replicate s.t.length (inv, junk), 0⟩

/-- One round of the re-insertion loop of `Double`, probing_hash_table.hh:195-201. -/
def doubleStep (inv : K) (hash : K → Nat) (t : List (K × V)) (i : Nat) : Option (List (K × V)) :=
  match t[i]? with
  | none => none
  | some e => if e.1 = inv then some t else uncheckedInsert inv hash (t.set i (inv, e.2)) e

/-- `Double`, probing_hash_table.hh:172-206. -/
def double (inv : K) (hash : K → Nat) (junk : V) (t : List (K × V)) : Option (List (K × V)) :=
  -- lines 182-187: the entries before the first empty bucket
  let rolled := t.takeWhile (fun e => decide (e.1 ≠ inv))
  let t1 := rolled.map (fun e => (inv, e.2)) ++ t.drop rolled.length
  -- lines 173-181: the new half is empty
  let t2 := t1 ++ List.replicate t.length (inv, junk)
  -- lines 195-201
  match (List.range t.length).foldlM (doubleStep inv hash) t2 with
  | none => none
  -- lines 203-205
  | some t3 => rolled.foldlM (uncheckedInsert inv hash) t3

def Table.double (inv : K) (hash : K → Nat) (junk : V) (s : Table K V) : Option (Table K V) :=
  (Klm.double inv hash junk s.t).map fun t => ⟨t, s.entries⟩

/-- `AutoProbing`, probing_hash_table.hh:257-327. -/
structure Auto (K V : Type _) where
  b : Table K V
  threshold : Nat
deriving DecidableEq

/-- The constructor, probing_hash_table.hh:272-276, with `Backend::Size`, lines 48-51 (exact arithmetic). -/
def Auto.new (inv : K) (junk : V) (initial : Nat) : Auto K V :=
  ⟨⟨List.replicate (max (initial + 1) (3 * initial / 2)) (inv, junk), 0⟩, 6 * initial / 5⟩

/-- `DoubleIfNeeded`, probing_hash_table.hh:314-321. -/
def Auto.doubleIfNeeded (inv : K) (hash : K → Nat) (junk : V) (a : Auto K V) : Option (Auto K V) :=
  if a.b.entries < a.threshold then some a
  else (a.b.double inv hash junk).map fun b => ⟨b, a.threshold * 2⟩

/-- `AutoProbing::Insert`, probing_hash_table.hh:279-282. -/
def Auto.insert (inv : K) (hash : K → Nat) (junk : V) (a : Auto K V) (x : K × V) : Outcome (Auto K V) :=
  match a.doubleIfNeeded inv hash junk with
  | none => .diverge
  | some a =>
    match uncheckedInsert inv hash a.b.t x with
    | none => .diverge
    | some t => .ok ⟨⟨t, a.b.entries⟩, a.threshold⟩

/-- `AutoProbing::FindOrInsert`, probing_hash_table.hh:284-287. -/
def Auto.findOrInsert (inv : K) (hash : K → Nat) (junk : V) (a : Auto K V) (x : K × V) :
    Outcome (Bool × Auto K V) :=
  match a.doubleIfNeeded inv hash junk with
  | none => .diverge
  | some a =>
    match a.b.findOrInsert inv hash x with
    | .ok (r, b) => .ok (r, ⟨b, a.threshold⟩)
    | .throw => .throw
    | .diverge => .diverge

/-- `AutoProbing::Clear`, probing_hash_table.hh:309-311. -/
def Auto.clear (inv : K) (junk : V) (a : Auto K V) : Auto K V := ⟨a.b.clear inv junk, a.threshold⟩

end Cdec.Klm
