import Verif.Klm.FilterThreadSpec
import Mathlib.Data.List.Count
/-!
# The invariant of the threaded filter
-/
namespace Cdec.Klm.FilterThread

variable {α β ε : Type}

/-- The batch a worker has. -/
def Wk.held : Wk → Option Nat
  | .idle => none
  | .got b => some b
  | .filtered b => some b
  | .dead => none

/-- In how many places a batch is. -/
def cnt (s : St α β ε) (b : Nat) : Nat :=
  (s.fq.filterMap id).count b + (s.workers.filterMap Wk.held).count b + (s.oq.filterMap id).count b +
    (s.ordering.filterMap id).count b + s.rq.count b + s.loc.count b

/-- The batch has been sent and not yet written. -/
def InF (s : St α β ε) (b : Nat) : Prop :=
  some b ∈ s.fq ∨ (∃ w ∈ s.workers, w.held = some b) ∨ some b ∈ s.oq ∨ some b ∈ s.ordering

/-- Ghost state: what was written up to the last time nothing was pending (and by `emit` since), the
sequence number of the first batch since, the contents of the batches sent since, how many of them
have been taken off `ordering_`, and whether lines have been added since the last `Flush`. -/
structure Ghost (α β ε : Type) where
  pre : List (Ev α ε)
  s0 : Nat
  P : List (List α)
  n : Nat
  dirty : Bool

/-- the batch holds the lines that were sent under its number, and its output buffer is `o` of them -/
def Holds (g : Ghost α β ε) (x : Batch α β) (o : List α → List β) : Prop :=
  g.s0 ≤ x.seq ∧ g.P[x.seq - g.s0]? = some x.input ∧ x.output = o x.input

def Wk.Ok (f : α → List β) (g : Ghost α β ε) (m : Nat → Batch α β) : Wk → Prop
  | .idle => True
  | .got b => Holds g (m b) (fun _ => [])
  | .filtered b => Holds g (m b) (·.flatMap f)
  | .dead => True

def calls (f : α → List β) (ls : List α) : List (Ev β ε) := (ls.flatMap f).map .call

/-- The calls for a sequence of lines and of events of the reader. -/
def expand (f : α → List β) : List (Ev α ε) → List (Ev β ε)
  | [] => []
  | .call l :: es => (f l).map .call ++ expand f es
  | .main e :: es => .main e :: expand f es

/-- The lines and events in the commands. -/
def sym : List (Cmd α ε) → List (Ev α ε)
  | [] => []
  | .add l :: cs => .call l :: sym cs
  | .flush :: cs => sym cs
  | .emit e :: cs => .main e :: sym cs

/-- What was to be written, is pending, and is to be done. -/
def Whole (cmds : List (Cmd α ε)) (g : Ghost α β ε) (pend : List α) (cs : List (Cmd α ε)) : Prop :=
  sym cmds = g.pre ++ g.P.flatten.map .call ++ pend.map .call ++ sym cs

/-- The lines left in the current batch in the end. -/
def Rest (B : Nat) (cmds : List (Cmd α ε)) (g : Ghost α β ε) : Prop :=
  ∃ pend, Whole cmds g pend [] ∧ pend.length < B ∧ (fin false cmds = false → pend = [])

/-- The commands to come are good, and end as all the commands do. -/
def GoodF (B : Nat) (cmds : List (Cmd α ε)) (d : Bool) (k : Nat) (cs : List (Cmd α ε)) : Prop :=
  Good B d k cs ∧ fin d cs = fin false cmds

/-- What is left to do for the reading thread, and where its lines are. -/
def PcOk (B : Nat) (cmds : List (Cmd α ε)) (s : St α β ε) (g : Ghost α β ε) : Prop :=
  match s.pc with
  | .run cs => s.loc.head? = some s.cur ∧ Whole cmds g (s.mem s.cur).input cs ∧ (s.mem s.cur).input.length < B ∧ GoodF B cmds g.dirty (s.mem s.cur).input.length cs ∧
      s.seq = (s.mem s.cur).seq + 1 ∧ ((s.mem s.cur).seq = g.s0 + g.P.length ∨ NoAdd cs ∧ (s.mem s.cur).input = []) ∧
      (g.dirty = false → g.P = [] ∧ (∀ b, ¬ InF s b) ∧ (s.mem s.cur).input = [])
  | .send .fill cs => s.loc.head? = some s.cur ∧ Whole cmds g (s.mem s.cur).input cs ∧ (s.mem s.cur).input.length = B ∧ GoodF B cmds true 0 cs ∧
      s.seq = (s.mem s.cur).seq + 1 ∧ (s.mem s.cur).seq = g.s0 + g.P.length ∧ g.dirty = true
  | .send .drain cs => s.loc.head? = some s.cur ∧ Whole cmds g (s.mem s.cur).input cs ∧ (s.mem s.cur).input.length < B ∧ GoodF B cmds false 0 cs ∧
      s.seq = (s.mem s.cur).seq + 1 ∧ ((s.mem s.cur).seq = g.s0 + g.P.length ∨ NoAdd cs ∧ (s.mem s.cur).input = []) ∧
      ((s.mem s.cur).input ≠ [] ∨ NoAdd cs)
  | .move .fill cs => Whole cmds g [] cs ∧ GoodF B cmds true 0 cs ∧ s.seq = g.s0 + g.P.length ∧ g.dirty = true ∧ s.loc = []
  | .move .drain cs => Whole cmds g [] cs ∧ GoodF B cmds false 0 cs ∧ (s.seq = g.s0 + g.P.length ∨ NoAdd cs) ∧ s.loc = []
  | .drain cs => Whole cmds g [] cs ∧ GoodF B cmds false 0 cs ∧ (s.seq = g.s0 + g.P.length ∨ NoAdd cs)
  | .fill cs => Whole cmds g [] cs ∧ GoodF B cmds g.dirty 0 cs ∧ (s.seq = g.s0 + g.P.length ∨ NoAdd cs) ∧ s.loc ≠ [] ∧
      (g.dirty = false → g.P = [] ∧ ∀ b, ¬ InF s b)
  | .kill _ => Rest B cmds g
  | .joinF => Rest B cmds g
  | .killO => Rest B cmds g
  | .joinO => Rest B cmds g
  | .done => Rest B cmds g

/-- The workers that have not returned. -/
def alive (ws : List Wk) : Nat := ws.countP (· ≠ .dead)

/-- Poisons sent and not sent, and who is dead. -/
def Poison (s : St α β ε) (g : Ghost α β ε) : Prop :=
  match s.pc with
  | .kill m => none ∉ s.oq ∧ s.out ≠ .dead ∧
      ∃ (l : List Nat) (k : Nat), s.fq = l.map some ++ List.replicate k none ∧ alive s.workers = k + m ∧ (.dead ∈ s.workers → l = [])
  | .joinF => none ∉ s.oq ∧ s.out ≠ .dead ∧
      ∃ (l : List Nat) (k : Nat), s.fq = l.map some ++ List.replicate k none ∧ alive s.workers = k ∧ (.dead ∈ s.workers → l = [])
  | .killO => none ∉ s.oq ∧ s.out ≠ .dead ∧ s.fq = [] ∧ (∀ w ∈ s.workers, w = .dead)
  | .joinO => s.fq = [] ∧ (∀ w ∈ s.workers, w = .dead) ∧
      ((s.out ≠ .dead ∧ ∃ l : List Nat, s.oq = l.map some ++ [none]) ∨ (s.out = .dead ∧ s.oq = [] ∧ g.n = g.P.length))
  | .done => s.fq = [] ∧ (∀ w ∈ s.workers, w = .dead) ∧ s.out = .dead ∧ s.oq = [] ∧ g.n = g.P.length
  | .run _ => none ∉ s.oq ∧ s.out ≠ .dead ∧ none ∉ s.fq ∧ .dead ∉ s.workers
  | .send _ _ => none ∉ s.oq ∧ s.out ≠ .dead ∧ none ∉ s.fq ∧ .dead ∉ s.workers
  | .move _ _ => none ∉ s.oq ∧ s.out ≠ .dead ∧ none ∉ s.fq ∧ .dead ∉ s.workers
  | .drain _ => none ∉ s.oq ∧ s.out ≠ .dead ∧ none ∉ s.fq ∧ .dead ∉ s.workers
  | .fill _ => none ∉ s.oq ∧ s.out ≠ .dead ∧ none ∉ s.fq ∧ .dead ∉ s.workers

/-- No `Flush`. -/
def NoFlush (cs : List (Cmd α ε)) : Prop := Cmd.flush ∉ cs

/-- Without `Flush` the reading thread is never in it. -/
def RawOk (s : St α β ε) : Prop :=
  match s.pc with
  | .run cs => NoFlush cs
  | .send .fill cs => NoFlush cs
  | .send .drain _ => False
  | .move .fill cs => NoFlush cs
  | .move .drain _ => False
  | .drain _ => False
  | .fill cs => NoFlush cs
  | .kill _ => True
  | .joinF => True
  | .killO => True
  | .joinO => True
  | .done => True

structure Inv (B Q W : Nat) (f : α → List β) (cmds : List (Cmd α ε)) (s : St α β ε) (g : Ghost α β ε) : Prop where
  own : ∀ b, cnt s b = if b < Q then 1 else 0
  wlen : s.workers.length = W
  fresh : ∀ b, b ∈ s.loc ∨ b ∈ s.rq → (s.mem b).output = []
  fqI : ∀ b, some b ∈ s.fq → Holds g (s.mem b) (fun _ => [])
  wI : ∀ w ∈ s.workers, w.Ok f g s.mem
  oqI : ∀ b, some b ∈ s.oq → Holds g (s.mem b) (·.flatMap f)
  ordI : ∀ p b, s.ordering[p]? = some (some b) → (s.mem b).seq = s.base + p ∧
    Holds g (s.mem b) (fun ls => if s.out = .flushed ∧ p = 0 then [] else ls.flatMap f)
  base : s.base = g.s0 + g.n ∧ g.n ≤ g.P.length
  low : ∀ b, InF s b → s.base ≤ (s.mem b).seq
  cover : ∀ q, s.base ≤ q → q < g.s0 + g.P.length → ∃ b, InF s b ∧ (s.mem b).seq = q
  inj : ∀ b b', InF s b → InF s b' → (s.mem b).seq = (s.mem b').seq → b = b'
  file : s.file = expand f g.pre ++ calls f (g.P.take (g.n + if s.out = .flushed then 1 else 0)).flatten
  flushedHd : s.out = .flushed → ∃ b o, s.ordering = some b :: o
  idleHd : s.out = .idle ∨ s.out = .dead → ∀ b o, s.ordering ≠ some b :: o
  pcOk : PcOk B cmds s g
  poison : Poison s g
  raw : NoFlush cmds → RawOk s ∧ (∀ ls ∈ g.P, ls.length = B) ∧ ∀ l, .call l ∉ g.pre

/-! ## Lists -/

theorem set_split {γ : Type} {l : List γ} {i : Nat} {w : γ} (h : l[i]? = some w) :
    ∃ l1 l2, l = l1 ++ w :: l2 ∧ ∀ w', l.set i w' = l1 ++ w' :: l2 := by
  obtain ⟨hi, he⟩ := List.getElem?_eq_some_iff.mp h
  refine ⟨l.take i, l.drop (i + 1), ?_, fun w' => ?_⟩
  · rw [← he, List.getElem_cons_drop, List.take_append_drop]
  · exact List.set_eq_take_append_cons_drop ▸ by rw [if_pos hi]

def pad (o : List (Option Nat)) (pos : Nat) : List (Option Nat) :=
  if pos ≥ o.length then o ++ List.replicate (pos + 1 - o.length) none else o

theorem pad_get (o : List (Option Nat)) (pos : Nat) (h : ∀ b, o[pos]? ≠ some (some b)) :
    (pad o pos)[pos]? = some none := by
  unfold pad
  split
  · rename_i hp
    rw [List.getElem?_append_right hp, List.getElem?_replicate, if_pos (by omega)]
  · rename_i hp
    have hp : pos < o.length := by omega
    rw [List.getElem?_eq_getElem hp] at h ⊢
    cases hx : o[pos] with
    | none => rfl
    | some b => exact absurd (by rw [hx]) (h b)

theorem pad_some (o : List (Option Nat)) (pos p b : Nat) :
    (pad o pos)[p]? = some (some b) ↔ o[p]? = some (some b) := by
  unfold pad
  split
  · by_cases hp : p < o.length
    · rw [List.getElem?_append_left hp]
    · rw [List.getElem?_append_right (by omega), List.getElem?_replicate, List.getElem?_eq_none (by omega)]
      split <;> simp
  · rfl

theorem pad_filter (o : List (Option Nat)) (pos : Nat) : (pad o pos).filterMap id = o.filterMap id := by
  unfold pad
  split
  · rw [List.filterMap_append]
    have : (List.replicate (pos + 1 - o.length) (none : Option Nat)).filterMap id = [] := by
      rw [List.filterMap_eq_nil_iff]; intro a ha; rw [List.mem_replicate] at ha; rw [ha.2]; rfl
    rw [this, List.append_nil]
  · rfl

theorem place_eq (o : List (Option Nat)) (pos b : Nat) : place o pos b = (pad o pos).set pos (some b) := rfl

theorem place_count (o : List (Option Nat)) (pos b : Nat) (h : ∀ b, o[pos]? ≠ some (some b)) (a : Nat) :
    ((place o pos b).filterMap id).count a = (o.filterMap id).count a + if b == a then 1 else 0 := by
  obtain ⟨l1, l2, e1, e2⟩ := set_split (pad_get o pos h)
  have h3 := pad_filter o pos
  rw [place_eq, e2, ← h3, e1]
  simp only [List.filterMap_append, List.filterMap_cons, id, List.count_append, List.count_cons]
  omega

theorem place_get (o : List (Option Nat)) (pos b p a : Nat) :
    (place o pos b)[p]? = some (some a) ↔ (p = pos ∧ a = b) ∨ (p ≠ pos ∧ o[p]? = some (some a)) := by
  rw [place_eq, List.getElem?_set]
  by_cases hp : pos = p
  · subst hp
    have hl : pos < (pad o pos).length := by
      unfold pad; split
      · simp; omega
      · omega
    simp [hl, eq_comm]
  · rw [if_neg hp, pad_some]
    have : p ≠ pos := fun h => hp h.symm
    simp [this]

theorem place_mem (o : List (Option Nat)) (pos b a : Nat) (h : ∀ b, o[pos]? ≠ some (some b)) :
    some a ∈ place o pos b ↔ a = b ∨ some a ∈ o := by
  constructor
  · intro hm
    obtain ⟨p, hp⟩ := List.getElem?_of_mem hm
    rcases (place_get o pos b p a).mp hp with h1 | h1
    · exact Or.inl h1.2
    · exact Or.inr (List.mem_of_getElem? h1.2)
  · rintro (rfl | hm)
    · exact List.mem_of_getElem? ((place_get o pos a pos a).mpr (Or.inl ⟨rfl, rfl⟩))
    · obtain ⟨p, hp⟩ := List.getElem?_of_mem hm
      refine List.mem_of_getElem? ((place_get o pos b p a).mpr (Or.inr ⟨?_, hp⟩))
      rintro rfl
      exact h a hp

theorem mem_fm {l : List (Option Nat)} {b : Nat} : b ∈ l.filterMap id ↔ some b ∈ l := by
  simp [List.mem_filterMap]

theorem mem_held {l : List Wk} {b : Nat} : b ∈ l.filterMap Wk.held ↔ ∃ w ∈ l, w.held = some b := by
  simp [List.mem_filterMap]

variable {B Q W : Nat} {f : α → List β} {cmds : List (Cmd α ε)} {s s' : St α β ε} {g : Ghost α β ε}

/-- A batch is in one place. -/
theorem Inv.uniq (h : Inv B Q W f cmds s g) (b : Nat) : cnt s b ≤ 1 := by
  rw [h.own b]; split <;> omega

theorem pos_of_mem {l : List Nat} {b : Nat} (h : b ∈ l) : 1 ≤ l.count b := List.count_pos_iff.mpr h

theorem Inv.loc_notInF (h : Inv B Q W f cmds s g) {b : Nat} (hb : b ∈ s.loc ∨ b ∈ s.rq) : ¬ InF s b := by
  have hu := h.uniq b
  have h1 : 1 ≤ s.rq.count b + s.loc.count b := by
    rcases hb with hb | hb <;> have := pos_of_mem hb <;> omega
  unfold cnt at hu
  rintro (hf | hw | ho | hr)
  · have := pos_of_mem (mem_fm.mpr hf); omega
  · have := pos_of_mem (mem_held.mpr hw); omega
  · have := pos_of_mem (mem_fm.mpr ho); omega
  · have := pos_of_mem (mem_fm.mpr hr); omega

end Cdec.Klm.FilterThread
