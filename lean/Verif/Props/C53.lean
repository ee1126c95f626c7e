import Verif.Klm.PCQueueLemmas
import Mathlib.Tactic.ByContra
/-!
# C53: the producer/consumer queue is a bounded FIFO, for every schedule

The number of threads, the size of the queue, the sequence of calls of each thread, the interleaving, and which
assignments throw are all arbitrary: they are what `Reach` ranges over.
-/
namespace Cdec.Klm.PCQ

variable {V : Type _}

/-- The values taken out are, in order, a prefix of the values put in; and no more values are outstanding than
there are cells. -/
theorem C53_fifo (cells : List V) (k : Nat) (s : State V) (h : Reach cells k s) :
    s.consumed.map Prod.snd <+: s.produced.map Prod.snd ∧
      s.produced.length ≤ s.consumed.length + cells.length := by
  have hi := inv_reach h
  refine ⟨?_, ?_⟩
  · rw [hi.fifo]; exact List.take_prefix _ _
  · have := hi.sumE; have := hi.le; omega

/-- What a thread's completed calls put in and took out, in the order of its calls, is what the queue records for
that thread, apart from a last call that is about to return.  So nothing is lost or duplicated: a call that
returned normally counts once, a call that threw does not count. -/
theorem C53_calls (cells : List V) (k : Nat) (s : State V) (h : Reach cells k s) (i : Nat) :
    (∃ rest : List V, rest.length ≤ 1 ∧
      (s.produced.filter (·.1 = i)).map Prod.snd = (s.returnedP.filter (·.1 = i)).map Prod.snd ++ rest ∧
      (s.threads[i]? = some .idle → rest = [])) ∧
    (∃ rest : List V, rest.length ≤ 1 ∧
      (s.consumed.filter (·.1 = i)).map Prod.snd = (s.returnedC.filter (·.1 = i)).map Prod.snd ++ rest ∧
      (s.threads[i]? = some .idle → rest = [])) := by
  have hi := inv_reach h
  have e : ∀ l : List (Nat × V), (l.filter (·.1 = i)).map Prod.snd = ofThread i l := fun l => by
    unfold ofThread
    congr 1
  refine ⟨⟨pendingP s.threads[i]?, ?_, ?_, ?_⟩, ⟨pendingC s.threads[i]?, ?_, ?_, ?_⟩⟩
  · rcases s.threads[i]? with _ | x
    · simp [pendingP]
    · cases x <;> simp [pendingP]
  · rw [e, e]; exact hi.retP i
  · intro h; rw [h]; rfl
  · rcases s.threads[i]? with _ | x
    · simp [pendingC]
    · cases x <;> simp [pendingC]
  · rw [e, e]; exact hi.retC i
  · intro h; rw [h]; rfl

/-- A cell is never written while it is read, never by two threads at once, and never before what it holds has
been read: the cell being written is none of the cells with an outstanding value. -/
theorem C53_no_overwrite (cells : List V) (k : Nat) (s : State V) (h : Reach cells k s) (i : Nat) (v : V)
    (hw : s.threads[i]? = some (.pWrite v)) :
    s.pAt < s.cells.length ∧
    (∀ m, s.consumed.length ≤ m → m < s.produced.length → m % cells.length ≠ s.pAt) ∧
    (∀ j : Nat, s.threads[j]? = some .cRead → s.cAt ≠ s.pAt ∧ (s.cells[s.cAt]?).isSome) ∧
    (∀ (j : Nat) (w : V), j ≠ i → s.threads[j]? ≠ some (.pWrite w)) := by
  have hi := inv_reach h
  have hE := hi.sumE
  have hU := hi.sumU
  have hle := hi.le
  have hroom := le_total np1 s.threads i _ hw
  simp only [np1] at hroom
  have hmain : ∀ m, s.consumed.length ≤ m → m < s.produced.length → m % cells.length ≠ s.pAt := by
    intro m h1 h2
    rw [hi.pAt]
    exact mod_ne cells.length m s.produced.length h2 (by omega)
  refine ⟨?_, hmain, ?_, ?_⟩
  · rw [hi.len, hi.pAt]; exact Nat.mod_lt _ (by omega)
  · intro j hj
    have hsome := le_total nc1 s.threads j _ hj
    simp only [nc1] at hsome
    refine ⟨?_, ?_⟩
    · rw [hi.cAt]; exact hmain _ (Nat.le_refl _) (by omega)
    · have : s.cAt < s.cells.length := by
        rw [hi.len, hi.cAt]; exact Nat.mod_lt _ (by omega)
      simp [List.getElem?_eq_getElem this]
  · intro j w hj hw'
    exact hi.pUnique hj.symm hw hw' rfl rfl

/-- A consumer's read never goes outside the storage and gets the oldest outstanding value; no two consumers read
at once. -/
theorem C53_reads_oldest (cells : List V) (k : Nat) (s : State V) (h : Reach cells k s) (i : Nat)
    (hr : s.threads[i]? = some .cRead) :
    s.consumed.length < s.produced.length ∧
    s.cells[s.cAt]? = (s.produced.map Prod.snd)[s.consumed.length]? ∧
    (∀ j : Nat, j ≠ i → s.threads[j]? ≠ some .cRead) := by
  have hi := inv_reach h
  have hU := hi.sumU
  have hsome := le_total nc1 s.threads i _ hr
  simp only [nc1] at hsome
  refine ⟨by omega, ?_, ?_⟩
  · rw [hi.cAt]; exact hi.cell _ (Nat.le_refl _) (by omega)
  · intro j hj hw
    exact hi.cUnique hj.symm hr hw rfl rfl

theorem exists_of_total {f : PC V → Nat} : ∀ {l : List (PC V)}, 0 < total f l →
    ∃ (i : Nat) (x : PC V), l[i]? = some x ∧ 0 < f x
  | [], h => by simp [total] at h
  | x :: l, h => by
    by_cases hx : 0 < f x
    · exact ⟨0, x, rfl, hx⟩
    · have h0 : f x = 0 := by omega
      have : 0 < total f l := by simpa [total, h0] using h
      obtain ⟨i, y, hi, hy⟩ := exists_of_total this
      exact ⟨i + 1, y, by simpa using hi, hy⟩

/-- The queue never gets stuck by itself: in a state in which no thread can take a step (other than starting a new
call), every thread is between calls, or is in a call of `Produce` while every cell is occupied, or is in a call of
`Consume` while no value is outstanding. -/
theorem C53_no_deadlock (cells : List V) (k : Nat) (s : State V) (h : Reach cells k s)
    (stuck : ∀ i s', Step s i s' → s.threads[i]? = some .idle) (i : Nat) (x : PC V)
    (hx : s.threads[i]? = some x) :
    x = .idle ∨ (∃ v, x = .pWait v ∧ s.produced.length = s.consumed.length + cells.length) ∨
      (x = .cWait ∧ s.produced.length = s.consumed.length) := by
  have hi := inv_reach h
  have nope : ∀ {j s'} {y : PC V}, s.threads[j]? = some y → y ≠ .idle → Step s j s' → False := by
    intro j s' y hj hy hs
    have := stuck j s' hs
    rw [hj] at this
    exact hy (Option.some.inj this)
  -- no thread is anywhere but at rest or waiting for a semaphore or a mutex
  have hread : ∀ j : Nat, s.threads[j]? = some .cRead → False := fun j hj => nope hj (by simp) (.throwC j hj)
  have hpc : total PCQ.pcrit s.threads = 0 := by
    by_contra hne
    obtain ⟨j, y, hj, hy⟩ := exists_of_total (Nat.pos_of_ne_zero hne)
    cases y with
    | pWrite v => exact nope hj (by simp) (.write j v hj)
    | pAdv v => exact nope hj (by simp) (.advP j v hj)
    | pExc v => exact nope hj (by simp) (.unwindP j v hj)
    | _ => simp [PCQ.pcrit] at hy
  have hcc : total PCQ.ccrit s.threads = 0 := by
    by_contra hne
    obtain ⟨j, y, hj, hy⟩ := exists_of_total (Nat.pos_of_ne_zero hne)
    cases y with
    | cRead => exact hread j hj
    | cAdv v => exact nope hj (by simp) (.advC j v hj)
    | cExc => exact nope hj (by simp) (.unwindC j hj)
    | _ => simp [PCQ.ccrit] at hy
  have hpm : s.pMutex = false := by
    have := hi.pcrit
    rw [hpc] at this
    cases hb : s.pMutex with
    | false => rfl
    | true => simp [hb] at this
  have hcm : s.cMutex = false := by
    have := hi.ccrit
    rw [hcc] at this
    cases hb : s.cMutex with
    | false => rfl
    | true => simp [hb] at this
  have hlockP : ∀ (j : Nat) (v : V), s.threads[j]? = some (.pLock v) → False := fun j v hj =>
    nope hj (by simp) (.lockP j v hj hpm)
  have hlockC : ∀ j : Nat, s.threads[j]? = some .cLock → False := fun j hj => nope hj (by simp) (.lockC j hj hcm)
  have z1 : total np1 s.threads = 0 := by
    by_contra hne
    obtain ⟨j, y, hj, hy⟩ := exists_of_total (Nat.pos_of_ne_zero hne)
    cases y with
    | pLock v => exact hlockP j v hj
    | pWrite v => exact nope hj (by simp) (.write j v hj)
    | pAdv v => exact nope hj (by simp) (.advP j v hj)
    | _ => simp [np1] at hy
  have z2 : total np2 s.threads = 0 := by
    by_contra hne
    obtain ⟨j, y, hj, hy⟩ := exists_of_total (Nat.pos_of_ne_zero hne)
    cases y with
    | pPost v => exact nope hj (by simp) (.postP j v hj)
    | _ => simp [np2] at hy
  have z3 : total nc1 s.threads = 0 := by
    by_contra hne
    obtain ⟨j, y, hj, hy⟩ := exists_of_total (Nat.pos_of_ne_zero hne)
    cases y with
    | cLock => exact hlockC j hj
    | cRead => exact hread j hj
    | cAdv v => exact nope hj (by simp) (.advC j v hj)
    | _ => simp [nc1] at hy
  have z4 : total nc2 s.threads = 0 := by
    by_contra hne
    obtain ⟨j, y, hj, hy⟩ := exists_of_total (Nat.pos_of_ne_zero hne)
    cases y with
    | cPost v => exact nope hj (by simp) (.postC j v hj)
    | _ => simp [nc2] at hy
  have hE := hi.sumE
  have hU := hi.sumU
  have hle := hi.le
  cases x with
  | idle => exact .inl rfl
  | pWait v =>
    refine .inr (.inl ⟨v, rfl, ?_⟩)
    have : s.empty = 0 := by
      by_contra hne
      exact nope hx (by simp) (.waitP i v hx (Nat.pos_of_ne_zero hne))
    omega
  | cWait =>
    refine .inr (.inr ⟨rfl, ?_⟩)
    have : s.used = 0 := by
      by_contra hne
      exact nope hx (by simp) (.waitC i hx (Nat.pos_of_ne_zero hne))
    omega
  | pLock v => exact (hlockP i v hx).elim
  | pWrite v => exact (nope hx (by simp) (.write i v hx)).elim
  | pAdv v => exact (nope hx (by simp) (.advP i v hx)).elim
  | pPost v => exact (nope hx (by simp) (.postP i v hx)).elim
  | pExc v => exact (nope hx (by simp) (.unwindP i v hx)).elim
  | cLock => exact (hlockC i hx).elim
  | cRead => exact (hread i hx).elim
  | cAdv v => exact (nope hx (by simp) (.advC i v hx)).elim
  | cPost v => exact (nope hx (by simp) (.postC i v hx)).elim
  | cExc => exact (nope hx (by simp) (.unwindC i hx)).elim

/-- A run with one cell and two threads: thread 0 puts 7 in, and puts 8 in while thread 1 takes 7 out; thread 0
ends up writing 8. -/
example : ∃ s : State Nat, Reach [0] 2 s ∧ s.threads = [.pWrite 8, .idle] ∧ s.returnedP = [(0, 7)] ∧
    s.returnedC = [(1, 7)] := by
  have h1 : Reach [0] 2 (⟨0, 1, [7], 0, 0, false, false, [.idle, .cWait], [(0, 7)], [], [(0, 7)], []⟩ : State Nat) :=
    (((((((Reach.start (cells := [0]) (nthreads := 2)).step (.callP 0 7 rfl)).step
      (.waitP 0 7 rfl (by decide))).step (.lockP 0 7 rfl rfl)).step (.write 0 7 rfl)).step (.advP 0 7 rfl)).step
      (.callC 1 rfl)).step (.postP 0 7 rfl)
  have h2 : Reach [0] 2 (⟨1, 0, [7], 0, 0, false, false, [.pWait 8, .idle], [(0, 7)], [(1, 7)], [(0, 7)],
      [(1, 7)]⟩ : State Nat) :=
    (((((h1.step (.callP 0 8 rfl)).step (.waitC 1 rfl (by decide))).step (.lockC 1 rfl rfl)).step
      (.read 1 7 rfl rfl)).step (.advC 1 7 rfl)).step (.postC 1 7 rfl)
  have h := (h2.step (.waitP 0 8 rfl (by decide))).step (.lockP 0 8 rfl rfl)
  exact ⟨_, h, rfl, rfl, rfl⟩

/-- A reachable state in which nobody can move: one cell, one value outstanding, and the thread wants to put another
one in. -/
example : ∃ s : State Nat, Reach [0] 1 s ∧ s.threads = [.pWait 8] ∧ s.empty = 0 := by
  have h := (((((((Reach.start (cells := [0]) (nthreads := 1)).step (.callP 0 7 rfl)).step (.waitP 0 7 rfl (by decide))).step
      (.lockP 0 7 rfl rfl)).step (.write 0 7 rfl)).step (.advP 0 7 rfl)).step (.postP 0 7 rfl)).step
      (.callP 0 8 rfl)
  exact ⟨_, h, rfl, rfl⟩

end Cdec.Klm.PCQ
