import Mathlib.Data.List.Basic
/-!
# The language model filter with several threads

Models klm/lm/filter/thread.hh (`ThreadBatch`, `FilterWorker`, `OutputWorker`, `Controller`) and
klm/util/thread_pool.hh.  Three kinds of threads: the one that reads the model and calls the
`Controller` (`main`), the filter workers, and the one output worker.  They share memory: batches are
known by their index in `batches_`, a queue holds indices, and every thread reads and writes the
batch it has taken from a queue.

A queue (`PCQueue`, the subject of property C53) is a FIFO list; `Produce` waits while it holds `Q`
requests, `Consume` waits while it is empty, and both are atomic.  Between two operations on shared
data a thread does one step; a schedule picks the thread that does the next step.

`α` are the lines with their n-grams, `β` what the filter calls on the output for them and `ε` what
the reader itself calls on the output (`BeginLength`, `EndLength`, …).  The output buffer of a batch is the
list of calls made so far, which is what `BinaryOutputBuffer` holds (for `MultipleOutputBuffer` see
`Verif/Klm/FilterBuffer.lean`).  Memory use and exceptions in a handler (which abort) are not modelled.
-/
namespace Cdec.Klm.FilterThread

variable {α β ε : Type}

/-- `ThreadBatch`, thread.hh:13-48. -/
structure Batch (α β : Type) where
  seq : Nat
  input : List α
  output : List β

/-- What the reading thread does: calls `AddNGram` or `Flush` of the controller, or the output itself. -/
inductive Cmd (α ε : Type) where
  | add (l : α)
  | flush
  | emit (e : ε)

/-- What arrives at the output. -/
inductive Ev (β ε : Type) where
  | call (c : β)
  | main (e : ε)
deriving DecidableEq

/-- What follows `FlushInput`: `NewInput` (in `AddNGram`) or the loop of `Flush`. -/
inductive Next where
  | fill
  | drain

/-- Where the reading thread is. -/
inductive Pc (α ε : Type) where
  /-- about to execute the next command -/
  | run (cs : List (Cmd α ε))
  /-- at the start of `FlushInput` -/
  | send (k : Next) (cs : List (Cmd α ε))
  /-- at `MoveRead` in `FlushInput` -/
  | move (k : Next) (cs : List (Cmd α ε))
  /-- at the head of the loop in `Flush` -/
  | drain (cs : List (Cmd α ε))
  /-- at `NewInput` -/
  | fill (cs : List (Cmd α ε))
  /-- in the destructor of the filter pool, with `n` poisons to send -/
  | kill (n : Nat)
  /-- joining the filter workers -/
  | joinF
  /-- in the destructor of the output pool -/
  | killO
  | joinO
  | done

def Next.go (k : Next) (cs : List (Cmd α ε)) : Pc α ε :=
  match k with
  | .fill => .fill cs
  | .drain => .drain cs

/-- A filter worker, thread_pool.hh:25-42 with thread.hh:56-59. -/
inductive Wk where
  /-- at `Consume` -/
  | idle
  /-- at `CallFilter` with a batch -/
  | got (b : Nat)
  /-- at `Produce` with a batch -/
  | filtered (b : Nat)
  /-- returned -/
  | dead
deriving DecidableEq

/-- The output worker, thread.hh:74-88. -/
inductive Ow where
  /-- at `Consume` -/
  | idle
  /-- at the head of the loop -/
  | loop
  /-- at `Produce` after `Flush` -/
  | flushed
  /-- returned -/
  | dead
deriving DecidableEq

structure St (α β ε : Type) where
  pc : Pc α ε
  /-- `batches_` -/
  mem : Nat → Batch α β
  /-- the batch of which `input_` is the input buffer -/
  cur : Nat
  /-- `local_read_`, top first -/
  loc : List Nat
  /-- `sequence_` -/
  seq : Nat
  /-- `filter_.in_`; `none` is the poison -/
  fq : List (Option Nat)
  /-- `output_.in_` -/
  oq : List (Option Nat)
  /-- `to_read_` -/
  rq : List Nat
  workers : List Wk
  out : Ow
  /-- `ordering_` -/
  ordering : List (Option Nat)
  /-- `base_sequence_` -/
  base : Nat
  file : List (Ev β ε)

def upd (m : Nat → Batch α β) (b : Nat) (x : Batch α β) : Nat → Batch α β := fun a => if a = b then x else m a

/-- The result of a step: the thread has to wait (or has ended), undefined behaviour, or the new state. -/
inductive Res (σ : Type) where
  | blocked
  | bad
  | ok (s : σ)

/-- The reading thread: `Controller`, thread.hh:119-149, and the destructors of its pools,
thread_pool.hh:69-76 (`filter_` is destroyed before `output_`).  `B` is the batch size, `Q` the
number of batches and the capacity of the queues. -/
def stepMain (B Q : Nat) (s : St α β ε) : Res (St α β ε) :=
  match s.pc with
  | .run [] => .ok { s with pc := .kill s.workers.length }
  | .run (.add l :: cs) =>
    -- AddNGram, thread.hh:119-125; InputBuffer::AddNGram, format.hh:145-152
    let x := s.mem s.cur
    let y : Batch α β := ⟨x.seq, x.input ++ [l], x.output⟩
    .ok { s with mem := upd s.mem s.cur y, pc := if y.input.length = B then .send .fill cs else .run cs }
  | .run (.flush :: cs) => .ok { s with pc := .send .drain cs }
  | .run (.emit e :: cs) => .ok { s with file := s.file ++ [.main e], pc := .run cs }
  | .send k cs =>
    -- FlushInput, thread.hh:136-141
    if (s.mem s.cur).input.isEmpty then .ok { s with pc := k.go cs }
    else
      match s.loc with
      | [] => .bad
      | b :: rest =>
        if s.fq.length < Q then
          .ok { s with fq := s.fq ++ [some b], loc := rest, pc := if rest.isEmpty then .move k cs else k.go cs }
        else .blocked
  | .move k cs =>
    -- MoveRead, thread.hh:147-149
    match s.rq with
    | [] => .blocked
    | b :: r => .ok { s with loc := b :: s.loc, rq := r, pc := k.go cs }
  | .drain cs =>
    -- Flush, thread.hh:127-133
    if s.loc.length < Q then
      match s.rq with
      | [] => .blocked
      | b :: r => .ok { s with loc := b :: s.loc, rq := r, pc := .drain cs }
    else .ok { s with pc := .fill cs }
  | .fill cs =>
    -- NewInput, thread.hh:143-145; Fill, thread.hh:23-29
    match s.loc with
    | [] => .bad
    | b :: _ =>
      .ok { s with mem := upd s.mem b ⟨s.seq, [], (s.mem b).output⟩, cur := b, seq := s.seq + 1, pc := .run cs }
  | .kill (n + 1) => if s.fq.length < Q then .ok { s with fq := s.fq ++ [none], pc := .kill n } else .blocked
  | .kill 0 => .ok { s with pc := .joinF }
  | .joinF => if s.workers.all (· = .dead) then .ok { s with pc := .killO } else .blocked
  | .killO => if s.oq.length < Q then .ok { s with oq := s.oq ++ [none], pc := .joinO } else .blocked
  | .joinO => if s.out = .dead then .ok { s with pc := .done } else .blocked
  | .done => .blocked

/-- A filter worker: `Worker::operator()`, thread_pool.hh:25-42; `FilterWorker::operator()`,
thread.hh:56-59; `CallFilter`, thread.hh:32-34 and format.hh:154-158. -/
def stepWorker (Q : Nat) (f : α → List β) (i : Nat) (s : St α β ε) : Res (St α β ε) :=
  match s.workers[i]? with
  | none => .blocked
  | some .idle =>
    match s.fq with
    | [] => .blocked
    | none :: q => .ok { s with fq := q, workers := s.workers.set i .dead }
    | some b :: q => .ok { s with fq := q, workers := s.workers.set i (.got b) }
  | some (.got b) =>
    let x := s.mem b
    .ok { s with mem := upd s.mem b ⟨x.seq, x.input, x.output ++ x.input.flatMap f⟩, workers := s.workers.set i (.filtered b) }
  | some (.filtered b) =>
    if s.oq.length < Q then .ok { s with oq := s.oq ++ [some b], workers := s.workers.set i .idle } else .blocked
  | some .dead => .blocked

/-- `resize` and assignment of `ordering_`, thread.hh:77-81. -/
def place (o : List (Option Nat)) (pos b : Nat) : List (Option Nat) :=
  (if pos ≥ o.length then o ++ List.replicate (pos + 1 - o.length) none else o).set pos (some b)

/-- The output worker: `OutputWorker::operator()`, thread.hh:74-88.  A sequence number below
`base_sequence_` is the assertion at thread.hh:75. -/
def stepOut (Q : Nat) (s : St α β ε) : Res (St α β ε) :=
  match s.out with
  | .idle =>
    match s.oq with
    | [] => .blocked
    | none :: q => .ok { s with oq := q, out := .dead }
    | some b :: q =>
      if (s.mem b).seq < s.base then .bad
      else .ok { s with oq := q, ordering := place s.ordering ((s.mem b).seq - s.base) b, out := .loop }
  | .loop =>
    match s.ordering with
    | some b :: _ =>
      let x := s.mem b
      .ok { s with mem := upd s.mem b ⟨x.seq, x.input, []⟩, file := s.file ++ x.output.map .call, out := .flushed }
    | none :: _ => .ok { s with out := .idle }
    | [] => .ok { s with out := .idle }
  | .flushed =>
    match s.ordering with
    | some b :: o =>
      if s.rq.length < Q then .ok { s with rq := s.rq ++ [b], ordering := o, base := s.base + 1, out := .loop }
      else .blocked
    | none :: _ => .bad
    | [] => .bad
  | .dead => .blocked

inductive Thread where
  | main
  | worker (i : Nat)
  | out

def step (B Q : Nat) (f : α → List β) (s : St α β ε) : Thread → Res (St α β ε)
  | .main => stepMain B Q s
  | .worker i => stepWorker Q f i s
  | .out => stepOut Q s

/-- The constructor, thread.hh:105-117: the threads have started, all batches are on the stack, and
`NewInput` is next. -/
def init (Q W : Nat) (cs : List (Cmd α ε)) : St α β ε where
  pc := .fill cs
  mem := fun _ => ⟨0, [], []⟩
  cur := 0
  loc := (List.range Q).reverse
  seq := 0
  fq := []
  oq := []
  rq := []
  workers := List.replicate W .idle
  out := .idle
  ordering := []
  base := 0
  file := []

/-- The states of all schedules. -/
inductive Reach (B Q W : Nat) (f : α → List β) (cs : List (Cmd α ε)) : St α β ε → Prop where
  | init : Reach B Q W f cs (init Q W cs)
  | step {s s'} (t : Thread) (h : Reach B Q W f cs s) (e : step B Q f s t = .ok s') : Reach B Q W f cs s'

end Cdec.Klm.FilterThread
