import Mathlib.Data.List.Basic
/-!
# Producer/consumer queue

Models klm/util/pcqueue.hh:82-152 as a transition system.  Any number of threads call `Produce` and `Consume` in any
order; a step of the system is one atomic action of one thread.  The assignment of an element may throw, leaving
anything in the cell it was assigned to.  Semaphores and mutexes are those of the C++ library: `wait` blocks while
the count is zero, a mutex is held by at most one thread.  (The semaphores themselves do not throw; the header says
so.)
-/
namespace Cdec.Klm.PCQ

variable {V : Type _}

/-- Where a thread is. -/
inductive PC (V : Type _) where
  | idle
  /-- line 93, in `WaitSemaphore(empty_)` -/
  | pWait (v : V)
  /-- line 95, before the lock -/
  | pLock (v : V)
  /-- line 97, in the assignment -/
  | pWrite (v : V)
  /-- line 103 -/
  | pAdv (v : V)
  /-- line 105, before `used_.post()`; the lock has been released -/
  | pPost (v : V)
  /-- line 101, the exception leaves the block and releases the lock -/
  | pExc (v : V)
  /-- line 110, in `WaitSemaphore(used_)` -/
  | cWait
  /-- line 112, before the lock -/
  | cLock
  /-- line 114, in the assignment -/
  | cRead
  /-- line 120, `v` is what has been assigned to `out` -/
  | cAdv (v : V)
  /-- line 122, before `empty_.post()` -/
  | cPost (v : V)
  /-- line 118 -/
  | cExc

/-- The members of `PCQueue` (lines 135-151), the threads, and the observable history: `produced` and `consumed`
record the calls in the order in which they move the index (with the thread), `returnedP` and `returnedC` record
the calls that have returned normally. -/
structure State (V : Type _) where
  empty : Nat
  used : Nat
  cells : List V
  pAt : Nat
  cAt : Nat
  pMutex : Bool
  cMutex : Bool
  threads : List (PC V)
  produced : List (Nat × V)
  consumed : List (Nat × V)
  returnedP : List (Nat × V)
  returnedC : List (Nat × V)

/-- The constructor, lines 84-89, with `cells` the default-constructed elements, and any number of threads. -/
def init (cells : List V) (nthreads : Nat) : State V :=
  ⟨cells.length, 0, cells, 0, 0, false, false, List.replicate nthreads .idle, [], [], [], []⟩

/-- `if (++at == end_) at = storage_.get();`, lines 103 and 120. -/
def nextAt (n at' : Nat) : Nat := if at' + 1 = n then 0 else at' + 1

/-- One step of thread `i`. -/
inductive Step (s : State V) : Nat → State V → Prop
  /-- a call of `Produce` -/
  | callP (i v) (h : s.threads[i]? = some .idle) : Step s i { s with threads := s.threads.set i (.pWait v) }
  /-- line 93 -/
  | waitP (i v) (h : s.threads[i]? = some (.pWait v)) (he : 0 < s.empty) :
      Step s i { s with empty := s.empty - 1, threads := s.threads.set i (.pLock v) }
  /-- line 95 -/
  | lockP (i v) (h : s.threads[i]? = some (.pLock v)) (hm : s.pMutex = false) :
      Step s i { s with pMutex := true, threads := s.threads.set i (.pWrite v) }
  /-- line 97 -/
  | write (i v) (h : s.threads[i]? = some (.pWrite v)) :
      Step s i { s with cells := s.cells.set s.pAt v, threads := s.threads.set i (.pAdv v) }
  /-- lines 99-100: the assignment throws after leaving `g` in the cell -/
  | throwP (i v g) (h : s.threads[i]? = some (.pWrite v)) :
      Step s i { s with cells := s.cells.set s.pAt g, empty := s.empty + 1, threads := s.threads.set i (.pExc v) }
  /-- line 101 and the end of the block -/
  | unwindP (i v) (h : s.threads[i]? = some (.pExc v)) :
      Step s i { s with pMutex := false, threads := s.threads.set i .idle }
  /-- line 103 and the end of the block -/
  | advP (i v) (h : s.threads[i]? = some (.pAdv v)) :
      Step s i { s with pAt := nextAt s.cells.length s.pAt, pMutex := false, threads := s.threads.set i (.pPost v),
                        produced := s.produced ++ [(i, v)] }
  /-- line 105 -/
  | postP (i v) (h : s.threads[i]? = some (.pPost v)) :
      Step s i { s with used := s.used + 1, threads := s.threads.set i .idle,
                        returnedP := s.returnedP ++ [(i, v)] }
  /-- a call of `Consume` -/
  | callC (i) (h : s.threads[i]? = some .idle) : Step s i { s with threads := s.threads.set i .cWait }
  /-- line 110 -/
  | waitC (i) (h : s.threads[i]? = some .cWait) (he : 0 < s.used) :
      Step s i { s with used := s.used - 1, threads := s.threads.set i .cLock }
  /-- line 112 -/
  | lockC (i) (h : s.threads[i]? = some .cLock) (hm : s.cMutex = false) :
      Step s i { s with cMutex := true, threads := s.threads.set i .cRead }
  /-- line 114 -/
  | read (i v) (h : s.threads[i]? = some .cRead) (hv : s.cells[s.cAt]? = some v) :
      Step s i { s with threads := s.threads.set i (.cAdv v) }
  /-- lines 116-117 -/
  | throwC (i) (h : s.threads[i]? = some .cRead) :
      Step s i { s with used := s.used + 1, threads := s.threads.set i .cExc }
  /-- line 118 and the end of the block -/
  | unwindC (i) (h : s.threads[i]? = some .cExc) :
      Step s i { s with cMutex := false, threads := s.threads.set i .idle }
  /-- line 120 and the end of the block -/
  | advC (i v) (h : s.threads[i]? = some (.cAdv v)) :
      Step s i { s with cAt := nextAt s.cells.length s.cAt, cMutex := false, threads := s.threads.set i (.cPost v),
                        consumed := s.consumed ++ [(i, v)] }
  /-- lines 122-123 -/
  | postC (i v) (h : s.threads[i]? = some (.cPost v)) :
      Step s i { s with empty := s.empty + 1, threads := s.threads.set i .idle,
                        returnedC := s.returnedC ++ [(i, v)] }

/-- The states that a queue constructed with these cells can be in, for all schedules. -/
inductive Reach (cells : List V) (nthreads : Nat) : State V → Prop
  | start : Reach cells nthreads (init cells nthreads)
  | step {s s' i} : Reach cells nthreads s → Step s i s' → Reach cells nthreads s'

end Cdec.Klm.PCQ
