import Mathlib.Data.List.Basic
/-!
# Chains of workers that pass blocks in a ring

Models klm/util/stream/chain.hh, chain.cc, block.hh and the workers of io.cc.  Worker 0 is the
source; workers 1, …, `W - 1` are the others, the last of them the one that recycles.  Queue `i` is what
worker `i` consumes from; it is `queues_[i]` of the chain, and the last worker produces into queue 0.  A
block is known by its number; its memory, with its valid size, is `mem`.  A poison is `none`.

A queue (`PCQueue`, the subject of property C53) is a FIFO list; `Produce` waits while it holds `B`
requests, `Consume` waits while it is empty, and both are atomic.  A schedule picks the thread that does the
next step.  All queues exist from the beginning (`Add` makes the queue into which a worker produces before
it starts the thread); a thread that has not been started yet is one that is not scheduled.

What a worker does with a block is `f i`: from its own state and the contents of the block to its new
state and the new contents.  What the source puts into the blocks is the list `src`; it poisons the chain when
there is nothing left, as `Read`, `PRead` and `Stream::Poison` do.  Exceptions (which abort) are not modelled.
-/
namespace Cdec.Klm.Chain

variable {σ γ : Type}

/-- Where a worker is: `Link`, chain.cc:112-162. -/
inductive Pc where
  /-- at `in_->Consume(current_)` -/
  | wait
  /-- in the body of the loop, with a block -/
  | have (b : Nat)
  /-- at `out_->Produce(current_)` in `operator++` -/
  | send (b : Nat)
  /-- at `out_->Produce(current_)` with a poison -/
  | poison
  /-- returned -/
  | done
deriving DecidableEq, Repr

/-- `Chain::Wait`, chain.cc:67-84: the loop that empties the first queue, after `k` blocks. -/
inductive Main where
  | run (k : Nat)
  | finished (k : Nat)
  | aborted (k : Nat)
deriving DecidableEq, Repr

structure St (σ γ : Type) where
  q : Nat → List (Option Nat)
  pc : Nat → Pc
  mem : Nat → γ
  st : Nat → σ
  src : List γ
  main : Main
  /-- a log: the contents of the blocks that worker `i` has got -/
  seen : Nat → List γ
  /-- a log: the contents of the blocks that worker `i` has passed on -/
  sent : Nat → List γ

def upd {α : Type} (f : Nat → α) (i : Nat) (x : α) : Nat → α := fun j => if j = i then x else f j

/-- The queue that worker `i` produces into, chain.cc:50-55 and 105-110. -/
def nxt (W i : Nat) : Nat := if i + 1 = W then 0 else i + 1

/-- One step of worker `i`; `none` when it has to wait or has returned. -/
def stepWorker (W B : Nat) (f : Nat → σ → γ → σ × γ) (i : Nat) (s : St σ γ) : Option (St σ γ) :=
  match s.pc i with
  | .wait =>
    -- Init, chain.cc:114-121, and operator++, chain.cc:145-155
    match s.q i with
    | [] => none
    | some b :: r => some { s with q := upd s.q i r, pc := upd s.pc i (.have b), seen := upd s.seen i (s.seen i ++ [s.mem b]) }
    | none :: r => some { s with q := upd s.q i r, pc := upd s.pc i .poison }
  | .have b =>
    if i = 0 then
      match s.src with
      | [] => some { s with pc := upd s.pc i .poison }
      | c :: cs => some { s with mem := upd s.mem b c, src := cs, pc := upd s.pc i (.send b) }
    else
      let r := f i (s.st i) (s.mem b)
      some { s with mem := upd s.mem b r.2, st := upd s.st i r.1, pc := upd s.pc i (.send b) }
  | .send b =>
    -- operator++, chain.cc:145-149
    if (s.q (nxt W i)).length < B then
      some { s with q := upd s.q (nxt W i) (s.q (nxt W i) ++ [some b]), pc := upd s.pc i .wait, sent := upd s.sent i (s.sent i ++ [s.mem b]) }
    else none
  | .poison =>
    -- operator++, chain.cc:150-153; ~Link, chain.cc:127-143; Poison, chain.cc:157-162
    if (s.q (nxt W i)).length < B then
      some { s with q := upd s.q (nxt W i) (s.q (nxt W i) ++ [none]), pc := upd s.pc i .done }
    else none
  | .done => none

/-- The thread that called `Wait`: after joining the workers it empties the first queue, chain.cc:73-79. -/
def stepMain (W B : Nat) (s : St σ γ) : Option (St σ γ) :=
  match s.main with
  | .run k =>
    if (List.range W).all fun i => s.pc i == .done then
      match s.q 0 with
      | [] => none
      | some _ :: r => some { s with q := upd s.q 0 r, main := if k = B then .aborted (k + 1) else .run (k + 1) }
      | none :: r => some { s with q := upd s.q 0 r, main := .finished (k + 1) }
    else none
  | .finished _ => none
  | .aborted _ => none

inductive Thread where
  | main
  | worker (i : Nat)

def step (W B : Nat) (f : Nat → σ → γ → σ × γ) (s : St σ γ) : Thread → Option (St σ γ)
  | .main => stepMain W B s
  | .worker i => if i < W then stepWorker W B f i s else none

/-- `Start`, chain.cc:86-103: all blocks are in the first queue. -/
def init (B : Nat) (st : Nat → σ) (mem : Nat → γ) (src : List γ) : St σ γ where
  q := fun i => if i = 0 then (List.range B).map some else []
  pc := fun _ => .wait
  mem := mem
  st := st
  src := src
  main := .run 0
  seen := fun _ => []
  sent := fun _ => []

/-- The states of all schedules. -/
inductive Reach (W B : Nat) (f : Nat → σ → γ → σ × γ) (s₀ : St σ γ) : St σ γ → Prop where
  | init : Reach W B f s₀ s₀
  | step {s s'} (t : Thread) (h : Reach W B f s₀ s) (e : step W B f s t = some s') : Reach W B f s₀ s'

end Cdec.Klm.Chain
