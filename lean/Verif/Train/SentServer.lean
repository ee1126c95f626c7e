/-!
# The sentence server

Model of training/utils/sentserver.cc: a server that hands the lines of its input out to clients, one thread per
client, and writes the answers.  A run is a list of actions: which thread goes on, and what its client or the memory
allocator did.  What is done while `queue_mutex` is held is one action.  `input_mutex` is explicit, because it is held
while waiting for `queue_mutex`.  Reading the input takes no account of errors of `read`.  After undefined behaviour
(use of a freed or null pointer) and after `exit` nothing happens any more.
-/
namespace Cdec.SentServer

/-- A line with its `\n`. -/
abbrev Line := String

/-- `"===SYNCH===\n"`, training/utils/sentserver.cc:97. -/
def synch : Line := "===SYNCH===\n"

/-- `struct line`, training/utils/sentserver.cc:24-29.  A pointer to it is represented by `id`, which no other one has. -/
structure Node where
  id : Nat
  s : Line
  status : Nat
  deriving DecidableEq, Repr

/-- `STATUS_RUNNING`, training/utils/sentserver.cc:33. -/
def RUNNING : Nat := 0

/-- `STATUS_ABORTED`, training/utils/sentserver.cc:34. -/
def ABORTED : Nat := 1

/-- `STATUS_FINISHED`, training/utils/sentserver.cc:35. -/
def FINISHED : Nat := 2

/-- Where the thread of a client is, training/utils/sentserver.cc:51-129 (`queue_get`) and 310-372 (`new_client`).
`gone` is also the state of threads that do not exist yet. -/
inductive Pc where
  /-- about to count its client, line 317 -/
  | start
  /-- about to look for aborted lines, line 57 -/
  | get
  /-- about to lock the input, lines 79 and 111 -/
  | wantInput
  /-- has read a line and holds the lock of the input, line 84 -/
  | hasLine (l : Line)
  /-- has put the synchronisation line in the queue, line 106 -/
  | synchFin (id : Nat)
  /-- has seen the end of the input, line 125 -/
  | atEof
  /-- `queue_get` returned `NULL`, line 352 -/
  | dismissed
  /-- about to send the line to the client, line 331 -/
  | sending (id : Nat)
  /-- waiting for the answer, line 360 -/
  | waiting (id : Nat)
  /-- about to hand the answer over, line 365 -/
  | answered (id : Nat) (a : Line)
  /-- the client died, lines 337 and 367 -/
  | dying (id : Nat)
  /-- the client has been counted off, lines 342 and 372 -/
  | aborting (id : Nat)
  | gone
  deriving DecidableEq, Repr

/-- The global variables of training/utils/sentserver.cc:29-47, the rest of the input, what was written to the output,
the exit code, whether undefined behaviour has occurred, and the threads.  `eof` means that `ptail` is `NULL`. -/
structure State where
  input : List Line
  inputLock : Bool
  queue : List Node
  eof : Bool
  nSent : Nat
  out : List Line
  nClients : Int
  halt : Option Nat
  ub : Bool
  nThreads : Nat
  pcs : Nat → Pc

/-- The state before the first client connects, training/utils/sentserver.cc:31, 42 and 424-425. -/
def init (input : List Line) : State :=
  ⟨input, false, [], false, 0, [], 0, none, false, 0, fun _ => .gone⟩

/-- What the client of a thread or the memory allocator does: the client goes on (`ok`), dies (`fail`) or answers; the
status field of a new node holds `raw v` before it is assigned. -/
inductive Env where
  | ok
  | fail
  | reply (a : Line)
  | raw (v : Nat)
  deriving DecidableEq, Repr

/-- One action of a run: a client connects, or thread `t` goes on. -/
inductive Act where
  | connect
  | step (t : Nat) (e : Env)
  deriving DecidableEq, Repr

/-- Thread `t` goes on to `p`. -/
def State.goto (s : State) (t : Nat) (p : Pc) : State :=
  { s with pcs := fun i => if i = t then p else s.pcs i }

/-- Assigning to the fields of a node. -/
def setNode (id : Nat) (f : Node → Node) (q : List Node) : List Node := q.map fun n => if n.id = id then f n else n

/-- Writing out the finished nodes at the head of the queue, training/utils/sentserver.cc:211-238 and 133-148 (in
`queue_panic` the loop also stops at the first node that is not finished, so that the blank line is never written). -/
def flush : List Line → List Node → List Line × List Node
  | out, [] => (out, [])
  | out, n :: q => if n.status = FINISHED then flush (out ++ [n.s]) q else (out, n :: q)

/-- `queue_finish`, training/utils/sentserver.cc:199-247, of thread `t`, which goes on to `p`. -/
def finish (s : State) (t id : Nat) (a : Line) (p : Pc) : State :=
  if s.queue.any (fun n => n.id = id) then
    let r := flush s.out (setNode id (fun n => ⟨n.id, a, FINISHED⟩) s.queue)
    { s with out := r.1, queue := r.2, halt := if r.2 = [] ∧ s.eof then some 0 else s.halt }.goto t p
  else { s with ub := true }

/-- `queue_abort`, training/utils/sentserver.cc:156-170, with `queue_panic`, lines 131-154. -/
def abort (stayAlive : Bool) (s : State) (t id : Nat) : State :=
  if s.queue.any (fun n => n.id = id) then
    let q := setNode id (fun n => ⟨n.id, n.s, ABORTED⟩) s.queue
    if s.nClients = 0 ∧ ¬ stayAlive then
      let r := flush s.out q
      { s with out := r.1, queue := r.2, halt := some 1 }.goto t .gone
    else { s with queue := q }.goto t .gone
  else { s with ub := true }

/-- Putting a line that was read into the queue, training/utils/sentserver.cc:84-121.  The status of a synchronisation
line is not assigned before the lock is given back. -/
def enqueue (s : State) (t : Nat) (l : Line) (raw : Nat) : State :=
  if s.eof then { s with ub := true }
  else if l = synch then
    { s with inputLock := false, queue := s.queue ++ [(⟨s.nSent, l, raw⟩ : Node)], nSent := s.nSent + 1 }.goto t (.synchFin s.nSent)
  else
    { s with inputLock := false, queue := s.queue ++ [(⟨s.nSent, l, RUNNING⟩ : Node)], nSent := s.nSent + 1 }.goto t (.sending s.nSent)

/-- What thread `t` does next when it is at `p`; `none`: it waits.  training/utils/sentserver.cc:51-129 and 310-377. -/
def threadStep (stayAlive : Bool) (s : State) (t : Nat) (e : Env) : Pc → Option State
  | .start => some ({ s with nClients := s.nClients + 1 }.goto t .get)
  | .get =>
    match s.queue.find? (fun n => n.status = ABORTED) with
    | some n => some ({ s with queue := setNode n.id (fun n => ⟨n.id, n.s, RUNNING⟩) s.queue }.goto t (.sending n.id))
    | none => some (s.goto t .wantInput)
  | .wantInput =>
    if s.inputLock then none
    else
      match s.input with
      | l :: ls => some ({ s with input := ls, inputLock := true }.goto t (.hasLine l))
      | [] => some (s.goto t .atEof)
  | .hasLine l => some (enqueue s t l (match e with | .raw v => v | _ => 0))
  | .synchFin id => some (finish s t id synch .wantInput)
  | .atEof => if s.queue = [] then some { s with halt := some 0 } else some ({ s with eof := true }.goto t .dismissed)
  | .dismissed => some ({ s with nClients := s.nClients - 1 }.goto t .gone)
  | .sending id =>
    if s.queue.any (fun n => n.id = id) then
      match e with
      | .ok => some (s.goto t (.waiting id))
      | .fail => some (s.goto t (.dying id))
      | _ => none
    else some { s with ub := true }
  | .waiting id =>
    match e with
    | .reply a => some (s.goto t (.answered id a))
    | .fail => some (s.goto t (.dying id))
    | _ => none
  | .answered id a => some (finish s t id a .get)
  | .dying id => some ({ s with nClients := s.nClients - 1 }.goto t (.aborting id))
  | .aborting id => some (abort stayAlive s t id)
  | .gone => none

/-- One action.  `none`: it is not possible.  training/utils/sentserver.cc:466-472 for `connect` (without the key). -/
def exec (stayAlive : Bool) (s : State) : Act → Option State
  | .connect =>
    if s.halt.isSome ∨ s.ub then none
    else some ({ s with nThreads := s.nThreads + 1 }.goto s.nThreads .start)
  | .step t e => if s.halt.isSome ∨ s.ub then none else threadStep stayAlive s t e (s.pcs t)

/-- `read_line(fd, 0)`, training/utils/sentserver.cc:249-308, of a connection whose other side writes `bytes` and then
closes it: the line and what is left.  Without errors of `read`. -/
def readLine (bytes : List Char) : Option (List Char × List Char) :=
  let i := bytes.takeWhile (· ≠ '\n')
  if i = [] ∧ bytes = [] then none
  else some (i ++ ['\n'], (bytes.dropWhile (· ≠ '\n')).drop 1)

/-! ## Specification -/

/-- The actions of a run that are allowed.  `R k l a`: a client to which line number `k` of the input, `l`, was sent may
answer `a`.  `Raw v`: a new node may have status `v` before it is assigned. -/
def Allowed (N : List Line) (R : Nat → Line → Line → Prop) (Raw : Nat → Prop) (s : State) : Act → Prop
  | .connect => True
  | .step t e =>
    match s.pcs t, e with
    | .waiting id, .reply a => ∀ l, N[id]? = some l → R id l a
    | .hasLine l, .raw v => l = synch → Raw v
    | _, _ => True

/-- `as` is a run with input `N` that ends in the given state. -/
inductive Run (stayAlive : Bool) (N : List Line) (R : Nat → Line → Line → Prop) (Raw : Nat → Prop) :
    List Act → State → Prop where
  | init : Run stayAlive N R Raw [] (init N)
  | step {as : List Act} {s s' : State} (a : Act) : Run stayAlive N R Raw as s → Allowed N R Raw s a →
      exec stayAlive s a = some s' → Run stayAlive N R Raw (as ++ [a]) s'

/-- No thread can go on, whatever its client does. -/
def Stuck (stayAlive : Bool) (s : State) : Prop := ∀ t e, exec stayAlive s (.step t e) = none

/-- `a` answers line number `k` of the input: a synchronisation line is answered by itself, the others by a client. -/
def Answers (N : List Line) (R : Nat → Line → Line → Prop) (k : Nat) (a : Line) : Prop :=
  ∃ l, N[k]? = some l ∧ if l = synch then a = synch else R k l a

end Cdec.SentServer
