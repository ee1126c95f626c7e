import Verif.Klm.ChainEnd
import Verif.Klm.StreamLemmas
/-!
# C99: a chain of workers gives the result of running them one after the other, under every schedule

`alone` and `given` (`Verif.Klm.ChainSpec`) say what one worker does with a list of blocks and what each worker is given when
they run one after the other.  `Reach W B f (init B st mem src) s` says that some schedule leads to `s`, for a chain of `W` workers and
`B` blocks.
-/
namespace Cdec.Klm.Chain
open Cdec.Klm

variable {σ γ : Type} {W B : Nat} {f : Nat → σ → γ → σ × γ} {st : Nat → σ} {mem : Nat → γ} {src : List γ} {s : St σ γ}

private theorem inv (hW : 2 ≤ W) (h : Reach W B f (init B st mem src) s) : Inv W B f st src (fun _ => True) s :=
  Inv.reach hW (fun _ _ => trivial) (fun _ => trivial) h

/-- At every moment of every schedule what a worker has got is the beginning of what it would be given if the workers ran one after
the other: nothing is lost, doubled, reordered or torn. -/
theorem C99_in_order (hW : 2 ≤ W) (h : Reach W B f (init B st mem src) s) (i : Nat) (hi : i + 1 < W) :
    s.seen (i + 1) <+: given f st src i := (inv hW h).seen_prefix i hi

/-- When `Wait` has returned every worker has got all it should get and is in the state it would have reached alone. -/
theorem C99_complete (hW : 2 ≤ W) (h : Reach W B f (init B st mem src) s) {k : Nat} (hf : s.main = .finished k) (i : Nat)
    (hi : i + 1 < W) : s.seen (i + 1) = given f st src i ∧ s.st (i + 1) = (alone (f (i + 1)) (st (i + 1)) (given f st src i)).1 :=
  (inv hW h).complete hW hf i hi

/-- No two workers have the same block at the same time, and none has a block that is in a queue. -/
theorem C99_one_holder (hW : 2 ≤ W) (h : Reach W B f (init B st mem src) s) {i j b : Nat} (hi : i < W) (hj : j < W)
    (hb : s.pc i = .have b ∨ s.pc i = .send b) :
    ((s.pc j = .have b ∨ s.pc j = .send b) → i = j) ∧ some b ∉ s.q j := by
  have hI := inv hW h
  have key : ∀ k, (s.pc k = .have b ∨ s.pc k = .send b) → b ∈ (s.pc k).held := by
    rintro k (e | e) <;> rw [e] <;> simp [Pc.held]
  refine ⟨fun hb' => hI.uniq i hi j hj b (by simp [seg, key i hb]) (by simp [seg, key j hb']), fun hq => ?_⟩
  have hq' : b ∈ (s.q j).filterMap id := by rw [List.mem_filterMap]; exact ⟨some b, hq, rfl⟩
  have hij : i = j := hI.uniq i hi j hj b (by simp [seg, key i hb]) (by simp only [seg, List.mem_append]; exact Or.inl hq')
  subst hij
  have := hI.nodup i hi
  unfold seg at this
  rw [List.nodup_append] at this
  exact this.2.2 b hq' b (key i hb) rfl

/-- If the blocks are fit for use at the beginning (`P`), and the last worker makes them fit again, then every block the source gets is
fit for use. -/
theorem C99_recycled (hW : 2 ≤ W) (h : Reach W B f (init B st mem src) s) (P : γ → Prop) (h0 : ∀ b, P (mem b))
    (hl : ∀ t x, P (f (W - 1) t x).2) {b : Nat} (hb : s.pc 0 = .have b) : P (s.mem b) :=
  (Inv.reach hW hl h0 h).fresh b (by simp [seg, hb, Pc.held]) (by rw [hb]; simp)

/-- A chain with at least one block never blocks: until `Wait` has returned some thread can go on. -/
theorem C99_no_deadlock (hW : 2 ≤ W) (hB : 1 ≤ B) (h : Reach W B f (init B st mem src) s) (hf : ∀ k, s.main ≠ .finished k) :
    ∃ t s', step W B f s t = some s' := (inv hW h).progress hW hB hf

/-- `Wait` never finds more blocks than there are ("Chain ending without poison"). -/
theorem C99_no_abort (hW : 2 ≤ W) (h : Reach W B f (init B st mem src) s) (k : Nat) : s.main ≠ .aborted k :=
  (inv hW h).not_aborted k

/-- Every schedule ends, after at most this many steps. -/
theorem C99_terminates (hW : 2 ≤ W) (ts : List Thread) (h : ts.foldlM (step W B f) (init B st mem src) = some s) :
    ts.length ≤ (4 * W + 10) * (src.length + 1) + 3 * B := by
  have key : ∀ (ts : List Thread) (s₀ : St σ γ), ts.foldlM (step W B f) s₀ = some s → ts.length + left W s ≤ left W s₀ := by
    intro ts
    induction ts with
    | nil => intro s₀ h; simp only [List.foldlM_nil, Option.pure_def, Option.some.injEq] at h; rw [h]; simp
    | cons t ts ih =>
      intro s₀ h
      rw [List.foldlM_cons] at h
      cases e : step W B f s₀ t with
      | none => rw [e] at h; cases h
      | some s₁ =>
        rw [e] at h
        have h1 := ih s₁ h
        have h2 := left_step hW e
        simp only [List.length_cons]
        omega
  have := key ts _ h
  rw [left_init hW] at this
  rw [Nat.mul_add]
  omega

theorem reach_of_run (ts : List Thread) : ∀ s₀ s₁ : St σ γ, Reach W B f s₀ s₁ → ts.foldlM (step W B f) s₁ = some s → Reach W B f s₀ s := by
  induction ts with
  | nil => intro s₀ s₁ h e; simp only [List.foldlM_nil, Option.pure_def, Option.some.injEq] at e; rw [← e]; exact h
  | cons t ts ih =>
    intro s₀ s₁ h e
    rw [List.foldlM_cons] at e
    cases e1 : step W B f s₁ t with
    | none => rw [e1] at e; cases e
    | some s₂ => rw [e1] at e; exact ih s₀ s₂ (h.step t e1) e

/-- All of it together: a schedule that cannot go on has finished, and has done the work. -/
theorem C99_run (hW : 2 ≤ W) (hB : 1 ≤ B) (ts : List Thread) (h : ts.foldlM (step W B f) (init B st mem src) = some s)
    (hs : ∀ t, step W B f s t = none) :
    (∃ k, s.main = .finished k) ∧ ∀ i, i + 1 < W →
      s.seen (i + 1) = given f st src i ∧ s.st (i + 1) = (alone (f (i + 1)) (st (i + 1)) (given f st src i)).1 := by
  have hr : Reach W B f (init B st mem src) s := reach_of_run ts _ _ .init h
  have hf : ∃ k, s.main = .finished k := by
    by_contra hn
    obtain ⟨t, s', e⟩ := C99_no_deadlock hW hB hr (fun k e => hn ⟨k, e⟩)
    rw [hs t] at e; cases e
  obtain ⟨k, hk⟩ := hf
  exact ⟨⟨k, hk⟩, fun i hi => C99_complete hW hr hk i hi⟩

/-! ## Records -/

variable {ρ : Type}

/-- What a `Stream` writes is in the blocks, in order, and no block has more than `c` records. -/
theorem C99_stream_writes {c : Nat} (hc : 0 < c) (rs : List ρ) :
    (Stream.writeAll c rs).flatten = rs ∧ ∀ b ∈ Stream.writeAll c rs, b.length ≤ c := by
  constructor
  · unfold Stream.writeAll; rw [Stream.fold_flat]; simp [Stream.poison]
  · have h := Stream.fold_len (c := c) rs ⟨[], []⟩ (by simpa using hc) (by simp)
    intro b hb
    unfold Stream.writeAll Stream.poison at hb
    rcases List.mem_append.1 hb with hb | hb
    · exact Nat.le_of_eq (h.2 b hb)
    · rw [List.mem_singleton.1 hb]; omega

/-- A `Stream` goes through the records of all blocks, in order, skipping empty blocks, and then ends. -/
theorem C99_stream_reads (bs : List (List ρ)) (n : Nat) (hn : bs.flatten.length ≤ n) :
    Stream.readUpTo n (Stream.startBlock bs) = bs.flatten := by
  rw [Stream.readUpTo_take, Stream.startBlock_remaining, List.take_of_length_le hn]

/-- The two ways to read a file give the same blocks: all of the file, in blocks that are not empty and not too large. -/
theorem C99_read_file {c : Nat} (hc : 0 < c) (rs : List ρ) :
    Stream.pread c rs = Stream.readFile c rs ∧ (Stream.readFile c rs).flatten = rs ∧
      ∀ b ∈ Stream.readFile c rs, b ≠ [] ∧ b.length ≤ c := by
  refine ⟨?_, Stream.readFile_flat hc _ rs (Nat.le_refl _)⟩
  unfold Stream.pread
  rw [Stream.pread_eq hc rs _ 0 (Nat.le_refl _)]
  rfl

/-- The workers of a chain over records: changes `g 1`, …, `g (W - 2)` in place, then a file. -/
def recordWorkers (W : Nat) (g : Nat → ρ → ρ) (full : List ρ → List ρ) (i : Nat) : List ρ → List ρ → List ρ × List ρ :=
  if i = W - 1 then Stream.writeAndRecycle full else Stream.each (g i)

/-- `g i ∘ … ∘ g 1`. -/
def upTo (g : Nat → ρ → ρ) : Nat → ρ → ρ
  | 0, r => r
  | i + 1, r => g (i + 1) (upTo g i r)

theorem alone_each (g : ρ → ρ) (bs : List (List ρ)) : ∀ t : List ρ, (alone (Stream.each g) t bs).2 = bs.map (List.map g) := by
  induction bs with
  | nil => intro t; rfl
  | cons b bs ih => intro t; simp [alone, Stream.each, ih]

theorem alone_write (full : List ρ → List ρ) (bs : List (List ρ)) : ∀ t : List ρ,
    (alone (Stream.writeAndRecycle full) t bs).1 = t ++ bs.flatten := by
  induction bs with
  | nil => intro t; simp [alone]
  | cons b bs ih => intro t; simp only [alone, Stream.writeAndRecycle] at ih ⊢; rw [ih]; simp

theorem given_records {W : Nat} (g : Nat → ρ → ρ) (full : List ρ → List ρ) (st : Nat → List ρ) (src : List (List ρ)) :
    ∀ i, i + 1 < W → given (recordWorkers W g full) st src i = src.map (List.map (upTo g i)) := by
  intro i
  induction i with
  | zero =>
    intro _
    show src = _
    have h1 : (upTo g 0) = id := rfl
    rw [h1, List.map_id_fun, List.map_id]
  | succ i ih =>
    intro hi
    rw [given, ih (by omega)]
    unfold recordWorkers
    rw [if_neg (by omega), alone_each, List.map_map]
    apply List.map_congr_left
    intro b _
    show List.map (g (i + 1)) (List.map (upTo g i) b) = _
    rw [List.map_map]; rfl

/-- Records written to a `Stream`, changed by some workers and written to a file: under every schedule the file ends up with all of them,
changed, in order. -/
theorem C99_records {c : Nat} (hc : 0 < c) (hW : 2 ≤ W) (g : Nat → ρ → ρ) (full : List ρ → List ρ) (rs : List ρ)
    {mem : Nat → List ρ} {s : St (List ρ) (List ρ)}
    (h : Reach W B (recordWorkers W g full) (init B (fun _ => []) mem (Stream.writeAll c rs)) s) {k : Nat}
    (hf : s.main = .finished k) : s.st (W - 1) = rs.map (upTo g (W - 2)) := by
  obtain ⟨i, rfl⟩ : ∃ i, W = i + 2 := ⟨W - 2, by omega⟩
  have := (C99_complete hW h hf i (by omega)).2
  rw [given_records g full _ _ i (by omega)] at this
  have e : recordWorkers (i + 2) g full (i + 1) = Stream.writeAndRecycle full := by
    unfold recordWorkers; rw [if_pos (by omega)]
  rw [e, alone_write] at this
  rw [show i + 2 - 1 = i + 1 by omega, this, show i + 2 - 2 = i by omega, List.nil_append, ← List.map_flatten,
    (C99_stream_writes hc rs).1]

/-! ## Examples -/

/-- A schedule: the threads in turn, those that cannot go on passed over. -/
def turns (W B : Nat) (f : Nat → σ → γ → σ × γ) : Nat → Nat → St σ γ → St σ γ
  | 0, _, s => s
  | n + 1, i, s =>
    let t := if i % (W + 1) = W then Thread.main else Thread.worker (i % (W + 1))
    turns W B f n (i + 1) ((step W B f s t).getD s)

theorem turns_reach (W B : Nat) (f : Nat → σ → γ → σ × γ) (s₀ : St σ γ) : ∀ n i (s : St σ γ), Reach W B f s₀ s →
    Reach W B f s₀ (turns W B f n i s) := by
  intro n
  induction n with
  | zero => intro i s h; exact h
  | succ n ih =>
    intro i s h
    apply ih
    cases e : step W B f s (if i % (W + 1) = W then Thread.main else Thread.worker (i % (W + 1))) with
    | none => exact h
    | some s' => exact h.step _ e

/-- Five records in blocks of two, two blocks, three workers: the run finishes and the file has all records, changed. -/
example : ∃ s : St (List Nat) (List Nat),
    Reach 3 2 (recordWorkers 3 (fun _ r => r + 10) id) (init 2 (fun _ => []) (fun _ => [0, 0]) (Stream.writeAll 2 [1, 2, 3, 4, 5])) s ∧
    s.main = .finished 2 ∧ s.st 2 = [11, 12, 13, 14, 15] :=
  ⟨_, turns_reach 3 2 _ _ 100 0 _ .init, by decide +kernel, by decide +kernel⟩

/-- In the middle of a run two workers hold different blocks. -/
example : ∃ s : St (List Nat) (List Nat),
    Reach 3 2 (recordWorkers 3 (fun _ r => r + 10) id) (init 2 (fun _ => []) (fun _ => [0, 0]) (Stream.writeAll 2 [1, 2, 3, 4, 5])) s ∧
    s.pc 0 = .have 1 ∧ s.pc 1 = .have 0 :=
  ⟨_, (((((Reach.init.step (.worker 0) rfl).step (.worker 0) rfl).step (.worker 0) rfl).step (.worker 1) rfl).step (.worker 0) rfl), by
    decide +kernel, by decide +kernel⟩

/-- Without blocks (which the constructor rejects) nothing can move. -/
example : ∀ t, step 3 0 (recordWorkers 3 (fun _ r => r + 10) id) (init 0 (fun _ => []) (fun _ => [0]) (Stream.writeAll 2 [1])) t = none
  | .main => by decide +kernel
  | .worker 0 => by decide +kernel
  | .worker 1 => by decide +kernel
  | .worker 2 => by decide +kernel
  | .worker (n + 3) => rfl

example : Stream.writeAll 2 [1, 2, 3, 4] = [[1, 2], [3, 4], []] := by decide +kernel
example : Stream.readUpTo 10 (Stream.startBlock [[], [1, 2], [], [3]]) = [1, 2, 3] := by decide +kernel

end Cdec.Klm.Chain
