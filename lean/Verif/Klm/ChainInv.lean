import Verif.Klm.Chain
import Verif.Klm.ChainSpec
import Mathlib.Data.List.Nodup
/-!
# The invariant of a chain
-/
namespace Cdec.Klm.Chain
variable {σ γ : Type}

theorem upd_same {α : Type} (f : Nat → α) (i : Nat) (x : α) : upd f i x i = x := by simp [upd]
theorem upd_ne {α : Type} (f : Nat → α) {i j : Nat} (x : α) (h : j ≠ i) : upd f i x j = f j := by simp [upd, h]

/-- The sum of the first `n` values. -/
def tot (g : Nat → Nat) : Nat → Nat
  | 0 => 0
  | n + 1 => tot g n + g n

theorem tot_same {g g' : Nat → Nat} {n : Nat} (h : ∀ j < n, g' j = g j) : tot g' n = tot g n := by
  induction n with
  | zero => rfl
  | succ n ih => rw [tot, tot, ih (fun j hj => h j (by omega)), h n (by omega)]

theorem tot_change {g g' : Nat → Nat} {n i : Nat} (hi : i < n) (h : ∀ j < n, j ≠ i → g' j = g j) :
    tot g' n + g i = tot g n + g' i := by
  induction n with
  | zero => omega
  | succ n ih =>
    rw [tot, tot]
    by_cases hin : i = n
    · subst hin
      rw [tot_same (fun j hj => h j (by omega) (by omega))]
      omega
    · have := ih (by omega) (fun j hj hne => h j (by omega) hne)
      rw [h n (by omega) (fun e => hin e.symm)]
      omega

theorem le_tot {g : Nat → Nat} {n i : Nat} (hi : i < n) : g i ≤ tot g n := by
  induction n with
  | zero => omega
  | succ n ih =>
    rw [tot]
    by_cases hin : i = n
    · subst hin; omega
    · have := ih (by omega); omega

theorem tot_zero {g : Nat → Nat} {n : Nat} (h : ∀ j < n, g j = 0) : tot g n = 0 := by
  induction n with
  | zero => rfl
  | succ n ih => rw [tot, ih (fun j hj => h j (by omega)), h n (by omega)]

/-- The blocks a worker holds. -/
def Pc.held : Pc → List Nat
  | .have b => [b]
  | .send b => [b]
  | _ => []

/-- Blocks and poisons a worker holds. -/
def Pc.num : Pc → Nat
  | .have _ => 1
  | .send _ => 1
  | .poison => 1
  | _ => 0

def tok (s : St σ γ) (i : Nat) : Nat := (s.q i).length + (s.pc i).num

/-- The blocks at worker `i`: those in its queue and the one it holds. -/
def seg (s : St σ γ) (i : Nat) : List Nat := (s.q i).filterMap id ++ (s.pc i).held

def Main.count : Main → Nat
  | .run k => k
  | .finished k => k
  | .aborted k => k

def Ended : Pc → Prop
  | .poison => True
  | .done => True
  | _ => False

/-- A queue without poison, and one with a poison at its end. -/
def Open (l : List (Option Nat)) : Prop := ∃ bs : List Nat, l = bs.map some
def Closed (l : List (Option Nat)) : Prop := ∃ bs : List Nat, l = bs.map some ++ [none]

/-- The contents of the blocks in a queue. -/
def conts (mem : Nat → γ) (l : List (Option Nat)) : List γ := (l.filterMap id).map mem

/-- What worker `i` has done. -/
def Work (f : σ → γ → σ × γ) (s₀ : σ) (mem : Nat → γ) (pc : Pc) (st : σ) (seen sent : List γ) : Prop :=
  match pc with
  | .have b => ∃ l, seen = l ++ [mem b] ∧ sent = (alone f s₀ l).2 ∧ st = (alone f s₀ l).1
  | .send b => sent ++ [mem b] = (alone f s₀ seen).2 ∧ st = (alone f s₀ seen).1
  | _ => sent = (alone f s₀ seen).2 ∧ st = (alone f s₀ seen).1

def pend (mem : Nat → γ) : Pc → List γ
  | .send b => [mem b]
  | _ => []

structure Inv (W B : Nat) (f : Nat → σ → γ → σ × γ) (st₀ : Nat → σ) (src₀ : List γ) (P : γ → Prop) (s : St σ γ) : Prop where
  total : tot (tok s) W + s.main.count = B
  nodup : ∀ i < W, (seg s i).Nodup
  uniq : ∀ i < W, ∀ j < W, ∀ b ∈ seg s i, b ∈ seg s j → i = j
  flow : ∀ i, i + 1 < W → s.sent i = s.seen (i + 1) ++ conts s.mem (s.q (i + 1))
  before : ∀ i, i + 1 < W → s.pc i ≠ .done → Open (s.q (i + 1)) ∧ ¬ Ended (s.pc (i + 1))
  after : ∀ i, i + 1 < W → s.pc i = .done → (Ended (s.pc (i + 1)) ∧ s.q (i + 1) = []) ∨ (¬ Ended (s.pc (i + 1)) ∧ Closed (s.q (i + 1)))
  ring : s.pc (W - 1) ≠ .done → Open (s.q 0) ∧ s.main = .run 0
  ring' : s.pc (W - 1) = .done → (Closed (s.q 0) ∧ ∃ k, s.main = .run k) ∨ (s.q 0 = [] ∧ ∃ k, s.main = .finished k)
  source : s.sent 0 ++ pend s.mem (s.pc 0) ++ s.src = src₀
  sourceEnd : Ended (s.pc 0) → s.src = []
  work : ∀ i, 1 ≤ i → i < W → Work (f i) (st₀ i) s.mem (s.pc i) (s.st i) (s.seen i) (s.sent i)
  fresh : ∀ b ∈ seg s 0, s.pc 0 ≠ .send b → P (s.mem b)
  freshLast : ∀ b, s.pc (W - 1) = .send b → P (s.mem b)

theorem alone_snoc (f : σ → γ → σ × γ) (l : List γ) (x : γ) : ∀ s, alone f s (l ++ [x]) =
    ((f (alone f s l).1 x).1, (alone f s l).2 ++ [(f (alone f s l).1 x).2]) := by
  induction l with
  | nil => intro s; rfl
  | cons y l ih => intro s; simp only [List.cons_append, alone, ih]

/-- Once worker `i` has returned so have those before it. -/
theorem Inv.done_before {W B : Nat} {f : Nat → σ → γ → σ × γ} {st₀ : Nat → σ} {src₀ : List γ} {P : γ → Prop} {s : St σ γ}
    (h : Inv W B f st₀ src₀ P s) : ∀ i, i < W → s.pc i = .done → ∀ j ≤ i, s.pc j = .done := by
  intro i
  induction i with
  | zero => intro _ hd j hj; have : j = 0 := by omega
            subst this; exact hd
  | succ i ih =>
    intro hi hd j hj
    by_cases he : j = i + 1
    · subst he; exact hd
    · apply ih (by omega) ?_ j (by omega)
      by_contra hn
      have := (h.before i hi hn).2
      rw [hd] at this
      exact this trivial

theorem Inv.init {W B : Nat} (hW : 2 ≤ W) {f : Nat → σ → γ → σ × γ} {st₀ : Nat → σ} {mem : Nat → γ} {src₀ : List γ} {P : γ → Prop}
    (hP : ∀ b, P (mem b)) : Inv W B f st₀ src₀ P (init B st₀ mem src₀) := by
  have e0 : ∀ i, i ≠ 0 → seg (Chain.init B st₀ mem src₀) i = [] := by intro i hi; simp [seg, Chain.init, hi, Pc.held]
  have e1 : seg (Chain.init B st₀ mem src₀) 0 = List.range B := by
    simp [seg, Chain.init, Pc.held, List.filterMap_map]
  constructor
  · have h1 := tot_change (g := fun _ => 0) (g' := tok (Chain.init B st₀ mem src₀)) (n := W) (i := 0) (by omega)
      (fun j _ hj => by simp [tok, Chain.init, hj, Pc.num])
    have h2 : tot (fun _ => 0) W = 0 := tot_zero (fun _ _ => rfl)
    have h3 : tok (Chain.init B st₀ mem src₀) 0 = B := by simp [tok, Chain.init, Pc.num]
    have h4 : (Chain.init B st₀ mem src₀).main.count = 0 := rfl
    omega
  · intro i _
    by_cases hi : i = 0
    · subst hi; rw [e1]; exact List.nodup_range
    · rw [e0 i hi]; exact List.nodup_nil
  · intro i _ j _ b hb hb'
    by_cases hi : i = 0
    · by_cases hj : j = 0
      · omega
      · rw [e0 j hj] at hb'; cases hb'
    · rw [e0 i hi] at hb; cases hb
  · intro i _; simp [Chain.init, conts]
  · intro i _ _; exact ⟨⟨[], by simp [Chain.init]⟩, fun h => h⟩
  · intro i _ h; simp [Chain.init] at h
  · intro _; exact ⟨⟨List.range B, by simp [Chain.init]⟩, rfl⟩
  · intro h; simp [Chain.init] at h
  · simp [Chain.init, pend]
  · intro h; exact h.elim
  · intro i _ _; exact ⟨rfl, rfl⟩
  · intro b _ _; exact hP b
  · intro b h; simp [Chain.init] at h

end Cdec.Klm.Chain
