import Verif.Train.SentServerLemmas
/-!
# C92: the sentence server

`sentserver` hands the lines of its input out to the clients that connect and writes the answers.  A run is any
interleaving of any number of client threads, in which clients may die at any point.
-/
namespace Cdec.SentServer

/-- Statuses that a freshly allocated node may have without being mistaken for an aborted or finished one. -/
def Harmless (v : Nat) : Prop := v ≠ ABORTED ∧ v ≠ FINISHED

theorem harmless_raw : ∀ v, Harmless v → v ≠ ABORTED ∧ v ≠ FINISHED := fun _ h => h

/-- **C92** (partial).  At every point of every run, line number `k` of the output answers line number `k` of the input:
it was returned by a client to which that line was sent (`R`), and a synchronisation line is copied.  So no answer is
lost, written twice or moved, whatever the clients do, and no freed memory is used.  What is missing: this is only so
when the uninitialised status of a new synchronisation line does not happen to be that of an aborted or finished one
(`C92_synch_fails`), and what a client "returned" may be cut off (`C92_cut_fails`). -/
theorem C92_order_partial (stayAlive : Bool) (N : List Line) (R : Nat → Line → Line → Prop) (as : List Act) (s : State)
    (h : Run stayAlive N R Harmless as s) :
    s.ub = false ∧ s.out.length ≤ N.length ∧ ∀ k a, s.out[k]? = some a → Answers N R k a := by
  have hi := Inv.run Harmless harmless_raw h
  refine ⟨hi.ub, ?_, hi.out⟩
  by_contra hlt
  have hk : N.length < s.out.length := by omega
  obtain ⟨l, hl, _⟩ := hi.out N.length _ (List.getElem?_eq_getElem hk)
  simp at hl

/-- **C92** (partial).  When the server exits with code 0, every line of the input has been answered. -/
theorem C92_exit_partial (stayAlive : Bool) (N : List Line) (R : Nat → Line → Line → Prop) (as : List Act) (s : State)
    (h : Run stayAlive N R Harmless as s) (h0 : s.halt = some 0) : s.out.length = N.length := by
  have hi := Inv.run Harmless harmless_raw h
  obtain ⟨hq, hin, hl⟩ := hi.h0 h0
  have hlen := hi.len
  have hd := hi.lock0 hl
  rw [hin] at hd
  have h1 : N.length ≤ s.nSent := by simpa using List.drop_eq_nil_iff.1 hd
  have h2 := (C92_order_partial stayAlive N R as s h).2.1
  rw [hq] at hlen
  simp only [List.length_nil] at hlen
  omega

/-- **C92** (partial).  The only other exit is code 1, never with `--stay-alive`, and only when no client is left: every
thread has ended, has not started or belongs to a client that died. -/
theorem C92_panic_partial (stayAlive : Bool) (N : List Line) (R : Nat → Line → Line → Prop) (as : List Act) (s : State)
    (h : Run stayAlive N R Harmless as s) (c : Nat) (hc : s.halt = some c) (h0 : c ≠ 0) :
    c = 1 ∧ stayAlive = false ∧ ∀ t, s.pcs t = .gone ∨ s.pcs t = .start ∨ ∃ id, s.pcs t = .aborting id := by
  have hi := Inv.run Harmless harmless_raw h
  rcases hi.hh with e | e | e
  · rw [hc] at e; simp at e
  · rw [hc] at e; injection e with e; exact absurd e h0
  · have hc1 : c = 1 := by rw [hc] at e; injection e
    refine ⟨hc1, (hi.h1 e).1, fun t => ?_⟩
    have := (hi.h1 e).2 t
    cases hp : s.pcs t <;> rw [hp] at this <;> simp [Pc.counted] at this ⊢

/-- **C92** (partial).  Every run ends: with `c` clients, the threads together make at most `11 |N| + 9 c + 1` steps. -/
theorem C92_ends_partial (stayAlive : Bool) (N : List Line) (R : Nat → Line → Line → Prop) (as : List Act) (s : State)
    (h : Run stayAlive N R Harmless as s) : as.length ≤ 11 * N.length + 10 * as.count .connect + 1 := by
  have key : s.measure + as.length ≤ 11 * N.length + 10 * as.count .connect + 1 := by
    induction h with
    | init => simp [State.measure, init, aborted]
    | @step as s s' a hr ha he ih =>
      have hi := Inv.run Harmless harmless_raw hr
      cases a with
      | connect =>
        rw [exec] at he
        split at he
        · simp at he
        · injection he with he
          have hw := weight_goto s.pcs (s.nThreads + 1) s.nThreads (Nat.lt_succ_self _) .start
          rw [Finset.sum_range_succ (fun i => (s.pcs i).weight), hi.bound s.nThreads (Nat.le_refl _)] at hw
          have e1 : s'.measure = (∑ i ∈ Finset.range (s.nThreads + 1), ((if i = s.nThreads then .start else s.pcs i) : Pc).weight) +
              11 * s.input.length + 5 * aborted s.queue + (if s.halt.isNone then 1 else 0) := by rw [← he]; rfl
          have e2 : s.measure = (∑ i ∈ Finset.range s.nThreads, (s.pcs i).weight) +
              11 * s.input.length + 5 * aborted s.queue + (if s.halt.isNone then 1 else 0) := rfl
          have e3 : Pc.weight .start = 9 := rfl
          have e4 : Pc.weight .gone = 0 := rfl
          rw [e3, e4] at hw
          have hcnt : (as ++ [Act.connect]).count .connect = as.count .connect + 1 := by simp
          rw [hcnt, List.length_append, List.length_singleton]
          omega
      | step t e =>
        have := hi.measure Harmless harmless_raw t e ha he
        have hcnt : (as ++ [Act.step t e]).count .connect = as.count .connect := by simp
        rw [hcnt, List.length_append, List.length_singleton]
        omega
  omega

/-- **C92** (partial).  There is no deadlock: a server of which no thread can go on has exited, or no client is
connected any more. -/
theorem C92_progress_partial (stayAlive : Bool) (N : List Line) (R : Nat → Line → Line → Prop) (as : List Act) (s : State)
    (h : Run stayAlive N R Harmless as s) (hs : Stuck stayAlive s) : s.halt ≠ none ∨ ∀ t, s.pcs t = .gone :=
  (Inv.run Harmless harmless_raw h).stuck hs

/-- **C92** (partial).  If at least one client connects and none dies, then a server of which no thread can go on has
exited with code 0 and has answered the whole input. -/
theorem C92_served_partial (stayAlive : Bool) (N : List Line) (R : Nat → Line → Line → Prop) (as : List Act) (s : State)
    (h : Run stayAlive N R Harmless as s) (hc : Act.connect ∈ as) (hf : ∀ a ∈ as, ∀ t, a ≠ .step t .fail)
    (hs : Stuck stayAlive s) : s.halt = some 0 ∧ s.out.length = N.length := by
  have hi := Inv.run Harmless harmless_raw h
  have hA := Alive.run Harmless harmless_raw h hf
  have hn : 0 < s.nThreads := by
    rw [nThreads_run Harmless h]; exact List.count_pos_iff.2 hc
  have h0 : s.halt = some 0 := by
    rcases hi.hh with e | e | e
    · exfalso
      rcases hi.stuck hs with hx | hg
      · exact hx e
      · have he := hA.eof 0 hn (Or.inl (hg 0))
        have hq := (hi.eof he).2.2 e
        cases hsq : s.queue with
        | nil => exact hq hsq
        | cons n q =>
          have hm : n ∈ s.queue := by rw [hsq]; exact List.mem_cons_self
          obtain ⟨t, ht⟩ := hi.owned n hm (hA.node n hm) (hi.head n q hsq)
          rw [hg t] at ht
          simp [Pc.own] at ht
    · exact e
    · exfalso
      -- the server panics only when a client has died
      have key : ∀ {as : List Act} {s : State}, Run stayAlive N R Harmless as s →
          (∀ a ∈ as, ∀ t, a ≠ .step t .fail) → s.halt ≠ some 1 := by
        intro as s h hf
        induction h with
        | init => simp [init]
        | @step as s s' a hr ha he ih =>
          have hf' := fun b hb => hf b (List.mem_append_left _ hb)
          have hA := Alive.run Harmless harmless_raw hr hf'
          have hih := ih hf'
          cases a with
          | connect =>
            rw [exec] at he
            split at he
            · simp at he
            · injection he with he; rw [← he]; exact hih
          | step t e =>
            rw [exec] at he
            split at he
            · simp at he
            · cases hp : s.pcs t <;> rw [hp] at he <;> simp only [threadStep] at he
              case aborting id => exact absurd hp (hA.pc t id).2
              all_goals repeat' split at he
              all_goals first
                | (injection he with he; subst he; exact hih)
                | (injection he with he; subst he; simp only [enqueue, finish]; repeat' split) <;>
                    first | exact hih | (simp only [goto_halt]; split <;> simp_all) | simp
                | simp at he
      exact key h hf e
  exact ⟨h0, C92_exit_partial stayAlive N R as s h h0⟩

/-! ### Runs of concrete servers -/

/-- Runs the actions. -/
def runs (stayAlive : Bool) (s : State) : List Act → Option State
  | [] => some s
  | a :: as => (exec stayAlive s a).bind fun s' => runs stayAlive s' as

/-- The clients are free to answer what they like. -/
def anything (_ : Nat) (_ _ : Line) : Prop := True

theorem runs_run (stayAlive : Bool) (N : List Line) (Raw : Nat → Prop) (as bs : List Act) (s s' : State)
    (hR : ∀ a ∈ as, ∀ t v, a = .step t (.raw v) → Raw v)
    (h : Run stayAlive N anything Raw bs s) (hr : runs stayAlive s as = some s') :
    Run stayAlive N anything Raw (bs ++ as) s' := by
  induction as generalizing bs s with
  | nil => injection hr with hr; rw [← hr]; simpa using h
  | cons a as ih =>
    rw [runs] at hr
    cases he : exec stayAlive s a with
    | none => rw [he] at hr; simp at hr
    | some s1 =>
      rw [he] at hr
      have := ih (bs ++ [a]) s1 (fun b hb => hR b (List.mem_cons_of_mem _ hb))
        (.step a h (by
          cases a with
          | connect => trivial
          | step t e =>
            simp only [Allowed]
            split
            · intros; trivial
            · rename_i l v hh
              exact fun _ => hR _ List.mem_cons_self t v rfl
            · trivial) he) hr
      simpa using this

/-- Thread `t` makes these steps. -/
def steps (t : Nat) (es : List Env) : List Act := es.map (.step t)

/-- Two clients, two lines, answers in the other order: the run meets the hypotheses of the theorems above. -/
def sample : List Act :=
  [.connect, .connect] ++ steps 0 [.ok, .ok, .ok, .ok, .ok] ++ steps 1 [.ok, .ok, .ok, .ok, .ok] ++
    steps 1 [.reply "B\n", .ok] ++ steps 0 [.reply "A\n", .ok, .ok, .ok, .ok]

example : ∃ s, Run false ["a\n", "b\n"] anything Harmless sample s ∧ s.halt = some 0 ∧ s.out = ["A\n", "B\n"] ∧
    Act.connect ∈ sample ∧ (∀ a ∈ sample, ∀ t, a ≠ .step t .fail) ∧ Stuck false s := by
  have h : ∃ s, runs false (init ["a\n", "b\n"]) sample = some s ∧ s.halt = some 0 ∧ s.out = ["A\n", "B\n"] := by
    refine ⟨_, rfl, ?_, ?_⟩ <;> decide
  obtain ⟨s, h1, h2, h3⟩ := h
  refine ⟨s, by simpa using runs_run false _ Harmless sample [] _ s (by simp [sample, steps]) .init h1, h2, h3, by decide, ?_, ?_⟩
  · intro a ha t
    revert a
    simp [sample, steps]
  · intro t e
    simp [exec, h2]

/-- A client dies and its line is sent to another one: `--stay-alive` is not needed while a client is left. -/
example : ∃ s, Run false ["a\n"] anything Harmless
      ([.connect, .connect] ++ steps 1 [.ok] ++ steps 0 [.ok, .ok, .ok, .ok, .ok, .fail, .ok, .ok] ++
        steps 1 [.ok, .ok, .reply "A\n", .ok, .ok, .ok, .ok]) s ∧
    s.halt = some 0 ∧ s.out = ["A\n"] := by
  have h : ∃ s, runs false (init ["a\n"]) ([.connect, .connect] ++ steps 1 [.ok] ++ steps 0 [.ok, .ok, .ok, .ok, .ok, .fail, .ok, .ok] ++
        steps 1 [.ok, .ok, .reply "A\n", .ok, .ok, .ok, .ok]) = some s ∧ s.halt = some 0 ∧ s.out = ["A\n"] := by
    refine ⟨_, rfl, ?_, ?_⟩ <;> decide
  obtain ⟨s, h1, h2, h3⟩ := h
  exact ⟨s, by simpa using runs_run false _ Harmless _ [] _ s (by simp [steps]) .init h1, h2, h3⟩

/-- **C92** fails when the memory of a new synchronisation line happens to hold the status of an aborted line: another
thread sends it to its client, and later uses the node after it was freed. -/
theorem C92_synch_fails : ∃ as s, Run false [synch, "a\n"] anything (fun _ => True) as s ∧ s.ub = true := by
  have h : ∃ s, runs false (init [synch, "a\n"]) ([.connect, .connect] ++ steps 0 [.ok, .ok, .ok, .raw 1] ++
      steps 1 [.ok, .ok, .ok] ++ steps 0 [.ok] ++ steps 1 [.reply "x\n", .ok]) = some s ∧ s.ub = true := by
    refine ⟨_, rfl, ?_⟩; decide
  obtain ⟨s, h1, h2⟩ := h
  exact ⟨_, s, runs_run false _ _ _ [] _ s (fun _ _ _ _ _ => trivial) .init h1, h2⟩

/-- **C92** fails to end: a client is dismissed at the end of the input while the other one works on a line.  If that one
dies before the first has been counted off, the line is never sent again and the server neither exits nor panics. -/
theorem C92_hang_fails : ∃ as s, Run false ["a\n"] anything Harmless as s ∧ Stuck false s ∧ s.halt = none ∧ s.out = [] := by
  have h : ∃ s, runs false (init ["a\n"]) ([.connect, .connect] ++ steps 0 [.ok, .ok, .ok, .ok, .ok] ++
      steps 1 [.ok, .ok, .ok, .ok] ++ steps 0 [.fail, .ok, .ok] ++ steps 1 [.ok]) = some s ∧ s.halt = none ∧ s.out = [] ∧
        (∀ t, s.pcs t = .gone) := by
    refine ⟨_, rfl, by decide, by decide, ?_⟩
    intro t
    match t with
    | 0 => rfl
    | 1 => rfl
    | n + 2 => rfl
  obtain ⟨s, h1, h2, h3, h4⟩ := h
  refine ⟨_, s, runs_run false _ _ _ [] _ s (by simp [steps]) .init h1, ?_, h2, h3⟩
  intro t e
  rw [exec]
  split
  · rfl
  · rw [h4 t]; rfl

/-- **C92**: when the server panics, answers behind the first unanswered line are lost, although the code means to write
a blank line for that one. -/
theorem C92_panic_fails : ∃ as s, Run false ["a\n", "b\n"] anything Harmless as s ∧ s.halt = some 1 ∧ s.out = [] ∧
    ∃ n ∈ s.queue, n.id = 1 ∧ n.status = FINISHED ∧ n.s = "B\n" := by
  have h : ∃ s, runs false (init ["a\n", "b\n"]) ([.connect, .connect] ++ steps 0 [.ok, .ok, .ok, .ok, .ok] ++
      steps 1 [.ok, .ok, .ok, .ok, .ok, .reply "B\n", .ok, .ok, .ok, .ok, .ok] ++ steps 0 [.fail, .ok, .ok]) = some s ∧
        s.halt = some 1 ∧ s.out = [] ∧ ∃ n ∈ s.queue, n.id = 1 ∧ n.status = FINISHED ∧ n.s = "B\n" := by
    refine ⟨_, rfl, by decide, by decide, ⟨1, "B\n", 2⟩, by decide, by decide, by decide, by decide⟩
  obtain ⟨s, h1, h2, h3, h4⟩ := h
  exact ⟨_, s, runs_run false _ _ _ [] _ s (by simp [steps]) .init h1, h2, h3, h4⟩

/-! ### Reading an answer -/

/-- **C92**: an answer that the client wrote to its end is read as it is, up to its `\n`. -/
theorem C92_read (l rest : List Char) (h : '\n' ∉ l) : readLine (l ++ '\n' :: rest) = some (l ++ ['\n'], rest) := by
  have h1 : (l ++ '\n' :: rest).takeWhile (· ≠ '\n') = l := by
    rw [List.takeWhile_append_of_pos (by intro c hc; simp; rintro rfl; exact h hc)]
    simp
  have h2 : (l ++ '\n' :: rest).dropWhile (· ≠ '\n') = '\n' :: rest := by
    rw [List.dropWhile_append_of_pos (by intro c hc; simp; rintro rfl; exact h hc)]
    simp
  simp only [readLine, h1, h2]
  rw [if_neg (by simp)]
  simp

/-- **C92**: a client that dies before it wrote anything is noticed. -/
theorem C92_read_dead : readLine [] = none := by decide

/-- **C92** fails for a client that dies while it writes: what it has written so far is taken for its answer. -/
theorem C92_cut_fails : ∃ bytes : List Char, '\n' ∉ bytes ∧ readLine bytes = some (bytes ++ ['\n'], []) :=
  ⟨['h', 'a'], by decide, by decide⟩

end Cdec.SentServer
