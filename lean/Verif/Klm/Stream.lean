import Mathlib.Data.List.Basic
/-!
# Records in the blocks of a chain

Models klm/util/stream/stream.hh and the sources and sinks of klm/util/stream/io.cc.  A block is the list of the records
in its valid part; `c` is the number of records that fit into a block, `BlockSize() / EntrySize()`.  Reading from a
file and writing to it do not fail, and a file holds whole records (the code throws otherwise).
-/
namespace Cdec.Klm.Stream
variable {ρ : Type}

/-- A `Stream` that writes: the records before `current_` in the block it is at, and the blocks passed on. -/
structure Writer (ρ : Type) where
  cur : List ρ
  out : List (List ρ)

/-- One record is stored at `Get()` and then `operator++`, stream.hh:40-49.  The next block is a recycled one: its valid size is
the whole block, so `StartBlock` (stream.hh:52-56) takes it. -/
def put (c : Nat) (w : Writer ρ) (r : ρ) : Writer ρ :=
  if (w.cur ++ [r]).length = c then ⟨[], w.out ++ [w.cur ++ [r]]⟩ else ⟨w.cur ++ [r], w.out⟩

/-- `Poison`, stream.hh:34-38: what has been written of the last block, which may be nothing, is passed on. -/
def poison (w : Writer ρ) : List (List ρ) := w.out ++ [w.cur]

/-- The blocks that a `Stream` puts into the chain when `rs` are written to it. -/
def writeAll (c : Nat) (rs : List ρ) : List (List ρ) := poison (rs.foldl (put c) ⟨[], []⟩)

/-- `StartBlock`, stream.hh:52-56: the record at `current_`, those after it in the block, and the blocks to come; `none` when the
poison has come. -/
def startBlock : List (List ρ) → Option (ρ × List ρ × List (List ρ))
  | [] => none
  | [] :: bs => startBlock bs
  | (r :: rs) :: bs => some (r, rs, bs)

/-- `operator++` of a `Stream` that reads, stream.hh:40-49. -/
def next : ρ × List ρ × List (List ρ) → Option (ρ × List ρ × List (List ρ))
  | (_, [], bs) => startBlock bs
  | (_, r :: rs, bs) => some (r, rs, bs)

/-- `for (Stream s(position); s; ++s) … s.Get() …`: the records it goes through, at most `n` of them. -/
def readUpTo : Nat → Option (ρ × List ρ × List (List ρ)) → List ρ
  | 0, _ => []
  | _ + 1, none => []
  | n + 1, some x => x.1 :: readUpTo n (next x)

/-- `Read::Run`, io.cc:14-28: blocks of up to `c` records until the file has no more. -/
def readFile (c : Nat) (rs : List ρ) : List (List ρ) :=
  if h : c = 0 ∨ rs = [] then [] else rs.take c :: readFile c (rs.drop c)
termination_by rs.length
decreasing_by
  have : rs.length ≠ 0 := fun e => h (Or.inr (List.eq_nil_of_length_eq_zero e))
  simp only [List.length_drop]; omega

/-- The loop of `PRead::Run`, io.cc:39-42 and what follows, 44-49. -/
def preadFrom (c : Nat) (rs : List ρ) (offset : Nat) : List (List ρ) :=
  if h : c ≠ 0 ∧ offset + c < rs.length then (rs.drop offset).take c :: preadFrom c rs (offset + c)
  else if rs.length - offset ≠ 0 then [(rs.drop offset).take (rs.length - offset)] else []
termination_by rs.length - offset
decreasing_by omega

/-- `PRead::Run`, io.cc:30-50. -/
def pread (c : Nat) (rs : List ρ) : List (List ρ) := preadFrom c rs 0

/-- The body of the loop of `WriteAndRecycle::Run`, io.cc:58-64: the state is what has been written to the file.  `full` is the block with its
valid part set to all of it; what is in the part that was not valid is not known. -/
def writeAndRecycle (full : List ρ → List ρ) (file : List ρ) (b : List ρ) : List ρ × List ρ := (file ++ b, full b)

/-- The body of the loop of `Write::Run`, io.cc:52-56: the block is passed on as it is. -/
def write (file : List ρ) (b : List ρ) : List ρ × List ρ := (file ++ b, b)

/-- A worker that changes each record in place: `for (Stream s(position); s; ++s) change(s.Get())`. -/
def each (g : ρ → ρ) (st : List ρ) (b : List ρ) : List ρ × List ρ := (st, b.map g)

end Cdec.Klm.Stream
