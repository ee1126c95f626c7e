import Verif.Klm.PCQueue
import Mathlib.Tactic.ByContra
/-!
# The invariant of the producer/consumer queue
-/
namespace Cdec.Klm.PCQ

variable {V : Type _}

/-- holds an empty place that it has not filled yet -/
def np1 : PC V → Nat
  | .pLock _ => 1 | .pWrite _ => 1 | .pAdv _ => 1 | _ => 0
/-- has filled a place and not announced it yet -/
def np2 : PC V → Nat
  | .pPost _ => 1 | _ => 0
def nc1 : PC V → Nat
  | .cLock => 1 | .cRead => 1 | .cAdv _ => 1 | _ => 0
def nc2 : PC V → Nat
  | .cPost _ => 1 | _ => 0
def pcrit : PC V → Nat
  | .pWrite _ => 1 | .pAdv _ => 1 | .pExc _ => 1 | _ => 0
def ccrit : PC V → Nat
  | .cRead => 1 | .cAdv _ => 1 | .cExc => 1 | _ => 0

def total (f : PC V → Nat) (l : List (PC V)) : Nat := (l.map f).sum

theorem total_set (f : PC V → Nat) (l : List (PC V)) (i : Nat) (a b : PC V) (h : l[i]? = some a) :
    total f (l.set i b) + f a = total f l + f b := by
  induction l generalizing i with
  | nil => cases h
  | cons x l ih =>
    cases i with
    | zero => cases h; simp [total]; omega
    | succ i =>
      have := ih i (by simpa using h)
      simp only [total, List.set_cons_succ, List.map_cons, List.sum_cons] at this ⊢
      omega

theorem le_total (f : PC V → Nat) (l : List (PC V)) (i : Nat) (a : PC V) (h : l[i]? = some a) : f a ≤ total f l := by
  induction l generalizing i with
  | nil => cases h
  | cons x l ih =>
    cases i with
    | zero => cases h; simp [total]
    | succ i =>
      have := ih i (by simpa using h)
      simp only [total, List.map_cons, List.sum_cons] at this ⊢
      omega

theorem two_le_total (f : PC V → Nat) (l : List (PC V)) (i j : Nat) (a b : PC V) (hij : i ≠ j)
    (hi : l[i]? = some a) (hj : l[j]? = some b) : f a + f b ≤ total f l := by
  induction l generalizing i j with
  | nil => cases hi
  | cons x l ih =>
    cases i with
    | zero =>
      cases j with
      | zero => exact absurd rfl hij
      | succ j =>
        cases hi
        have := le_total f l j b (by simpa using hj)
        simp only [total, List.map_cons, List.sum_cons] at this ⊢
        omega
    | succ i =>
      cases j with
      | zero =>
        cases hj
        have := le_total f l i a (by simpa using hi)
        simp only [total, List.map_cons, List.sum_cons] at this ⊢
        omega
      | succ j =>
        have := ih i j (by omega) (by simpa using hi) (by simpa using hj)
        simp only [total, List.map_cons, List.sum_cons] at this ⊢
        omega

/-- The calls of thread `i` among the records. -/
def ofThread (i : Nat) (l : List (Nat × V)) : List V := (l.filter (fun x => x.1 == i)).map Prod.snd

/-- A call that has moved the index and not returned yet. -/
def pendingP : Option (PC V) → List V
  | some (.pPost v) => [v]
  | _ => []
def pendingC : Option (PC V) → List V
  | some (.cPost v) => [v]
  | _ => []

structure Inv (n : Nat) (s : State V) : Prop where
  len : s.cells.length = n
  le : s.consumed.length ≤ s.produced.length
  sumE : s.empty + total np1 s.threads + total nc2 s.threads + (s.produced.length - s.consumed.length) = n
  sumU : s.used + total nc1 s.threads + total np2 s.threads = s.produced.length - s.consumed.length
  pcrit : total pcrit s.threads = if s.pMutex then 1 else 0
  ccrit : total ccrit s.threads = if s.cMutex then 1 else 0
  pAt : s.pAt = s.produced.length % n
  cAt : s.cAt = s.consumed.length % n
  fifo : s.consumed.map Prod.snd = (s.produced.map Prod.snd).take s.consumed.length
  cell : ∀ j, s.consumed.length ≤ j → j < s.produced.length →
    s.cells[j % n]? = (s.produced.map Prod.snd)[j]?
  adv : ∀ (i : Nat) v, s.threads[i]? = some (.pAdv v) → s.cells[s.pAt]? = some v
  read : ∀ (i : Nat) v, s.threads[i]? = some (.cAdv v) → (s.produced.map Prod.snd)[s.consumed.length]? = some v
  retP : ∀ i : Nat, ofThread i s.produced = ofThread i s.returnedP ++ pendingP s.threads[i]?
  retC : ∀ i : Nat, ofThread i s.consumed = ofThread i s.returnedC ++ pendingC s.threads[i]?

theorem nextAt_mod (n k : Nat) (hn : 0 < n) : nextAt n (k % n) = (k + 1) % n := by
  unfold nextAt
  have := Nat.mod_lt k hn
  rw [Nat.add_mod k 1 n]
  split
  · rename_i h
    by_cases h1 : n = 1
    · subst h1; omega
    · rw [Nat.mod_eq_of_lt (a := 1) (by omega), h, Nat.mod_self]
  · by_cases h1 : n = 1
    · subst h1; omega
    · rw [Nat.mod_eq_of_lt (a := 1) (by omega), Nat.mod_eq_of_lt (a := k % n + 1) (by omega)]

/-- Two indices less than `n` apart are in different cells. -/
theorem mod_ne (n a b : Nat) (h1 : a < b) (h2 : b - a < n) : a % n ≠ b % n := by
  intro h
  have : (b - a) % n = 0 := Nat.sub_mod_eq_zero_of_mod_eq h.symm
  rw [Nat.mod_eq_of_lt h2] at this
  omega

theorem getElem?_set_eq' {l : List (PC V)} {i j : Nat} {a b : PC V} (h : l[i]? = some a) :
    (l.set i b)[j]? = if i = j then some b else l[j]? := by
  rw [List.getElem?_set]
  have := (List.getElem?_eq_some_iff.mp h).1
  split <;> simp [this]

theorem advFrame {l : List (PC V)} {i j : Nat} {a b : PC V} (h : l[i]? = some a) {v : V} (hb : ∀ v, b ≠ .pAdv v)
    (hj : (l.set i b)[j]? = some (.pAdv v)) : i ≠ j ∧ l[j]? = some (.pAdv v) := by
  rw [getElem?_set_eq' h] at hj
  split at hj
  · cases hj; exact absurd rfl (hb v)
  · rename_i hij; exact ⟨hij, hj⟩

theorem readFrame {l : List (PC V)} {i j : Nat} {a b : PC V} (h : l[i]? = some a) {v : V} (hb : ∀ v, b ≠ .cAdv v)
    (hj : (l.set i b)[j]? = some (.cAdv v)) : i ≠ j ∧ l[j]? = some (.cAdv v) := by
  rw [getElem?_set_eq' h] at hj
  split at hj
  · cases hj; exact absurd rfl (hb v)
  · rename_i hij; exact ⟨hij, hj⟩

theorem pendPFrame {l : List (PC V)} {i : Nat} {a b : PC V} (h : l[i]? = some a)
    (hb : pendingP (some b) = pendingP (some a)) (j : Nat) : pendingP (l.set i b)[j]? = pendingP l[j]? := by
  rw [getElem?_set_eq' h]
  split
  · rename_i hij; subst hij; rw [h, hb]
  · rfl

theorem pendCFrame {l : List (PC V)} {i : Nat} {a b : PC V} (h : l[i]? = some a)
    (hb : pendingC (some b) = pendingC (some a)) (j : Nat) : pendingC (l.set i b)[j]? = pendingC l[j]? := by
  rw [getElem?_set_eq' h]
  split
  · rename_i hij; subst hij; rw [h, hb]
  · rfl

theorem ofThread_snoc (j i : Nat) (v : V) (l : List (Nat × V)) :
    ofThread j (l ++ [(i, v)]) = ofThread j l ++ if i = j then [v] else [] := by
  unfold ofThread
  rw [List.filter_append, List.map_append]
  congr 1
  by_cases h : i = j
  · simp [h]
  · have : (i == j) = false := by simpa using h
    simp [List.filter_cons, this, h]

/-- At most one thread is inside the locked block of `Produce`. -/
theorem Inv.pUnique {n : Nat} {s : State V} (h : Inv n s) {i j : Nat} {a b : PC V} (hij : i ≠ j)
    (hi : s.threads[i]? = some a) (hj : s.threads[j]? = some b) (ha : PCQ.pcrit a = 1) (hb : PCQ.pcrit b = 1) :
    False := by
  have := two_le_total PCQ.pcrit s.threads i j a b hij hi hj
  rw [h.pcrit] at this
  split at this <;> omega

theorem Inv.cUnique {n : Nat} {s : State V} (h : Inv n s) {i j : Nat} {a b : PC V} (hij : i ≠ j)
    (hi : s.threads[i]? = some a) (hj : s.threads[j]? = some b) (ha : PCQ.ccrit a = 1) (hb : PCQ.ccrit b = 1) :
    False := by
  have := two_le_total PCQ.ccrit s.threads i j a b hij hi hj
  rw [h.ccrit] at this
  split at this <;> omega

theorem inv_init (cells : List V) (k : Nat) : Inv cells.length (init cells k) := by
  have ht : ∀ f : PC V → Nat, f .idle = 0 → total f (List.replicate k .idle) = 0 := by
    intro f hf; simp [total, hf]
  have hg : ∀ (i : Nat) (x : PC V), (List.replicate k PC.idle)[i]? = some x → x = .idle := by
    intro i x hx
    rw [List.getElem?_replicate] at hx
    split at hx <;> cases hx; rfl
  refine ⟨rfl, Nat.le_refl _, ?_, ?_, ?_, ?_, by simp [init], by simp [init], rfl, ?_, ?_, ?_, ?_, ?_⟩
  · simp [init, ht np1 rfl, ht nc2 rfl]
  · simp [init, ht nc1 rfl, ht np2 rfl]
  · simp [init, ht PCQ.pcrit rfl]
  · simp [init, ht PCQ.ccrit rfl]
  · intro j _ hj; simp [init] at hj
  · intro i v h; cases hg i _ h
  · intro i v h; cases hg i _ h
  · intro i
    have : pendingP (init cells k).threads[i]? = [] := by
      cases h : (init cells k).threads[i]? with
      | none => rfl
      | some x => rw [hg i x h]; rfl
    rw [this]; rfl
  · intro i
    have : pendingC (init cells k).threads[i]? = [] := by
      cases h : (init cells k).threads[i]? with
      | none => rfl
      | some x => rw [hg i x h]; rfl
    rw [this]; rfl

/-- Writing the next cell to be filled leaves the filled ones alone. -/
theorem cell_write {n : Nat} {s : State V} (h : Inv n s) (hroom : s.produced.length - s.consumed.length < n) (g : V)
    (j : Nat) (h1 : s.consumed.length ≤ j) (h2 : j < s.produced.length) :
    (s.cells.set s.pAt g)[j % n]? = (s.produced.map Prod.snd)[j]? := by
  rw [List.getElem?_set, if_neg, h.cell j h1 h2]
  rw [h.pAt]
  exact (mod_ne n j s.produced.length h2 (by omega)).symm

theorem inv_step {n : Nat} {s s' : State V} {i : Nat} (h : Inv n s) (hs : Step s i s') : Inv n s' := by
  cases hs with
  | callP v ht =>
    have a1 := total_set np1 s.threads i _ (.pWait v) ht
    have a2 := total_set np2 s.threads i _ (.pWait v) ht
    have a3 := total_set nc1 s.threads i _ (.pWait v) ht
    have a4 := total_set nc2 s.threads i _ (.pWait v) ht
    have a5 := total_set PCQ.pcrit s.threads i _ (.pWait v) ht
    have a6 := total_set PCQ.ccrit s.threads i _ (.pWait v) ht
    simp only [np1, np2, nc1, nc2, PCQ.pcrit, PCQ.ccrit, Nat.add_zero] at a1 a2 a3 a4 a5 a6
    exact ⟨h.len, h.le, by simp only [a1, a4]; exact h.sumE, by simp only [a2, a3]; exact h.sumU,
      a5.trans h.pcrit, a6.trans h.ccrit, h.pAt, h.cAt, h.fifo, h.cell,
      fun j w hj => h.adv j w (advFrame ht (by intro v h; cases h) hj).2,
      fun j w hj => h.read j w (readFrame ht (by intro v h; cases h) hj).2,
      fun j => by simp only; rw [pendPFrame ht (by rfl)]; exact h.retP j,
      fun j => by simp only; rw [pendCFrame ht (by rfl)]; exact h.retC j⟩
  | waitP v ht he =>
    have a1 := total_set np1 s.threads i _ (.pLock v) ht
    have a2 := total_set np2 s.threads i _ (.pLock v) ht
    have a3 := total_set nc1 s.threads i _ (.pLock v) ht
    have a4 := total_set nc2 s.threads i _ (.pLock v) ht
    have a5 := total_set PCQ.pcrit s.threads i _ (.pLock v) ht
    have a6 := total_set PCQ.ccrit s.threads i _ (.pLock v) ht
    simp only [np1, np2, nc1, nc2, PCQ.pcrit, PCQ.ccrit, Nat.add_zero] at a1 a2 a3 a4 a5 a6
    have hE := h.sumE
    exact ⟨h.len, h.le, by simp only [a1, a4]; omega, by simp only [a2, a3]; exact h.sumU,
      a5.trans h.pcrit, a6.trans h.ccrit, h.pAt, h.cAt, h.fifo, h.cell,
      fun j w hj => h.adv j w (advFrame ht (by intro v h; cases h) hj).2,
      fun j w hj => h.read j w (readFrame ht (by intro v h; cases h) hj).2,
      fun j => by simp only; rw [pendPFrame ht (by rfl)]; exact h.retP j,
      fun j => by simp only; rw [pendCFrame ht (by rfl)]; exact h.retC j⟩
  | lockP v ht hm =>
    have a1 := total_set np1 s.threads i _ (.pWrite v) ht
    have a2 := total_set np2 s.threads i _ (.pWrite v) ht
    have a3 := total_set nc1 s.threads i _ (.pWrite v) ht
    have a4 := total_set nc2 s.threads i _ (.pWrite v) ht
    have a5 := total_set PCQ.pcrit s.threads i _ (.pWrite v) ht
    have a6 := total_set PCQ.ccrit s.threads i _ (.pWrite v) ht
    simp only [np1, np2, nc1, nc2, PCQ.pcrit, PCQ.ccrit, Nat.add_zero] at a1 a2 a3 a4 a5 a6
    have hE := h.sumE
    have hP := h.pcrit
    rw [hm] at hP
    exact ⟨h.len, h.le, by simp only; omega, by simp only [a2, a3]; exact h.sumU,
      by simp only [if_true]; simpa [hP] using a5, a6.trans h.ccrit, h.pAt, h.cAt, h.fifo, h.cell,
      fun j w hj => h.adv j w (advFrame ht (by intro v h; cases h) hj).2,
      fun j w hj => h.read j w (readFrame ht (by intro v h; cases h) hj).2,
      fun j => by simp only; rw [pendPFrame ht (by rfl)]; exact h.retP j,
      fun j => by simp only; rw [pendCFrame ht (by rfl)]; exact h.retC j⟩
  | write v ht =>
    have a1 := total_set np1 s.threads i _ (.pAdv v) ht
    have a2 := total_set np2 s.threads i _ (.pAdv v) ht
    have a3 := total_set nc1 s.threads i _ (.pAdv v) ht
    have a4 := total_set nc2 s.threads i _ (.pAdv v) ht
    have a5 := total_set PCQ.pcrit s.threads i _ (.pAdv v) ht
    have a6 := total_set PCQ.ccrit s.threads i _ (.pAdv v) ht
    simp only [np1, np2, nc1, nc2, PCQ.pcrit, PCQ.ccrit, Nat.add_zero, Nat.add_right_cancel_iff] at a1 a2 a3 a4 a5 a6
    have hE := h.sumE
    have hroom := le_total np1 s.threads i _ ht
    simp only [np1] at hroom
    have hpn : s.pAt < n := by rw [h.pAt]; exact Nat.mod_lt _ (by omega)
    refine ⟨by simp [h.len], h.le, by simp only [a1, a4]; exact h.sumE, by simp only [a2, a3]; exact h.sumU,
      a5.trans h.pcrit, a6.trans h.ccrit, h.pAt, h.cAt, h.fifo, cell_write h (by omega) v, ?_,
      fun j w hj => h.read j w (readFrame ht (by intro v h; cases h) hj).2,
      fun j => by simp only; rw [pendPFrame ht (by rfl)]; exact h.retP j,
      fun j => by simp only; rw [pendCFrame ht (by rfl)]; exact h.retC j⟩
    intro j w hj
    simp only at hj ⊢
    rw [getElem?_set_eq' ht] at hj
    split at hj
    · cases hj
      rw [List.getElem?_set, if_pos rfl, if_pos (by rw [h.len]; exact hpn)]
    · rename_i hij
      exact absurd (h.pUnique hij ht hj rfl rfl) id
  | throwP v g ht =>
    have a1 := total_set np1 s.threads i _ (.pExc v) ht
    have a2 := total_set np2 s.threads i _ (.pExc v) ht
    have a3 := total_set nc1 s.threads i _ (.pExc v) ht
    have a4 := total_set nc2 s.threads i _ (.pExc v) ht
    have a5 := total_set PCQ.pcrit s.threads i _ (.pExc v) ht
    have a6 := total_set PCQ.ccrit s.threads i _ (.pExc v) ht
    simp only [np1, np2, nc1, nc2, PCQ.pcrit, PCQ.ccrit, Nat.add_zero, Nat.add_right_cancel_iff] at a1 a2 a3 a4 a5 a6
    have hE := h.sumE
    have hroom := le_total np1 s.threads i _ ht
    simp only [np1] at hroom
    refine ⟨by simp [h.len], h.le, by simp only; omega, by simp only [a2, a3]; exact h.sumU,
      a5.trans h.pcrit, a6.trans h.ccrit, h.pAt, h.cAt, h.fifo, cell_write h (by omega) g, ?_,
      fun j w hj => h.read j w (readFrame ht (by intro v h; cases h) hj).2,
      fun j => by simp only; rw [pendPFrame ht (by rfl)]; exact h.retP j,
      fun j => by simp only; rw [pendCFrame ht (by rfl)]; exact h.retC j⟩
    intro j w hj
    obtain ⟨hij, hj⟩ := advFrame ht (by intro v h; cases h) hj
    exact absurd (h.pUnique hij ht hj rfl rfl) id
  | unwindP v ht =>
    have a1 := total_set np1 s.threads i _ .idle ht
    have a2 := total_set np2 s.threads i _ .idle ht
    have a3 := total_set nc1 s.threads i _ .idle ht
    have a4 := total_set nc2 s.threads i _ .idle ht
    have a5 := total_set PCQ.pcrit s.threads i _ .idle ht
    have a6 := total_set PCQ.ccrit s.threads i _ .idle ht
    simp only [np1, np2, nc1, nc2, PCQ.pcrit, PCQ.ccrit, Nat.add_zero, Nat.add_right_cancel_iff] at a1 a2 a3 a4 a5 a6
    have hP := h.pcrit
    have hle := le_total PCQ.pcrit s.threads i _ ht
    simp only [PCQ.pcrit] at hle
    have hP1 : total PCQ.pcrit s.threads = 1 := by rw [hP] at hle ⊢; split at hle <;> simp_all
    refine ⟨h.len, h.le, by simp only [a1, a4]; exact h.sumE, by simp only [a2, a3]; exact h.sumU,
      by simp only [Bool.false_eq_true, if_false]; omega, a6.trans h.ccrit, h.pAt, h.cAt, h.fifo, h.cell,
      fun j w hj => h.adv j w (advFrame ht (by intro v h; cases h) hj).2,
      fun j w hj => h.read j w (readFrame ht (by intro v h; cases h) hj).2,
      fun j => by simp only; rw [pendPFrame ht (by rfl)]; exact h.retP j,
      fun j => by simp only; rw [pendCFrame ht (by rfl)]; exact h.retC j⟩
  | advP v ht =>
    have a1 := total_set np1 s.threads i _ (.pPost v) ht
    have a2 := total_set np2 s.threads i _ (.pPost v) ht
    have a3 := total_set nc1 s.threads i _ (.pPost v) ht
    have a4 := total_set nc2 s.threads i _ (.pPost v) ht
    have a5 := total_set PCQ.pcrit s.threads i _ (.pPost v) ht
    have a6 := total_set PCQ.ccrit s.threads i _ (.pPost v) ht
    simp only [np1, np2, nc1, nc2, PCQ.pcrit, PCQ.ccrit, Nat.add_zero, Nat.add_right_cancel_iff] at a1 a2 a3 a4 a5 a6
    have hP := h.pcrit
    have hle := le_total PCQ.pcrit s.threads i _ ht
    simp only [PCQ.pcrit] at hle
    have hP1 : total PCQ.pcrit s.threads = 1 := by rw [hP] at hle ⊢; split at hle <;> simp_all
    have hE := h.sumE
    have hU := h.sumU
    have hcl := h.le
    have hroom := le_total np1 s.threads i _ ht
    simp only [np1] at hroom
    refine ⟨h.len, by simp only [List.length_append, List.length_singleton]; omega,
      by simp only [List.length_append, List.length_singleton]; omega,
      by simp only [List.length_append, List.length_singleton]; omega,
      by simp only [Bool.false_eq_true, if_false]; omega, a6.trans h.ccrit, ?_, h.cAt, ?_, ?_, ?_, ?_, ?_,
      fun j => by simp only; rw [pendCFrame ht (by rfl)]; exact h.retC j⟩
    · simp only [List.length_append, List.length_singleton]
      rw [h.len, h.pAt]; exact nextAt_mod _ _ (by omega)
    · simp only [List.map_append]
      rw [List.take_append_of_le_length (by simpa using h.le)]
      exact h.fifo
    · intro j h1 h2
      simp only [List.length_append, List.length_singleton, List.map_append] at h2 ⊢
      by_cases hj : j < s.produced.length
      · rw [List.getElem?_append_left (by simpa using hj)]
        exact h.cell j h1 hj
      · have : j = s.produced.length := by omega
        subst this
        rw [List.getElem?_append_right (by simp), ← h.pAt, h.adv i v ht]
        simp
    · intro j w hj
      obtain ⟨hij, hj⟩ := advFrame ht (by intro v h; cases h) hj
      exact absurd (h.pUnique hij ht hj rfl rfl) id
    · intro j w hj
      obtain ⟨hij, hj⟩ := readFrame ht (by intro v h; cases h) hj
      have := h.read j w hj
      simp only [List.map_append]
      rw [List.getElem?_append_left (List.getElem?_eq_some_iff.mp this).1]
      exact this
    · intro j
      simp only [ofThread_snoc]
      rw [getElem?_set_eq' ht]
      have := h.retP j
      split
      · rename_i hij; subst hij
        rw [ht] at this
        rw [this]; simp [pendingP]
      · rw [List.append_nil]; exact this
  | postP v ht =>
    have a1 := total_set np1 s.threads i _ .idle ht
    have a2 := total_set np2 s.threads i _ .idle ht
    have a3 := total_set nc1 s.threads i _ .idle ht
    have a4 := total_set nc2 s.threads i _ .idle ht
    have a5 := total_set PCQ.pcrit s.threads i _ .idle ht
    have a6 := total_set PCQ.ccrit s.threads i _ .idle ht
    simp only [np1, np2, nc1, nc2, PCQ.pcrit, PCQ.ccrit, Nat.add_zero, Nat.add_right_cancel_iff] at a1 a2 a3 a4 a5 a6
    have hU := h.sumU
    refine ⟨h.len, h.le, by simp only [a1, a4]; exact h.sumE, by simp only; omega,
      a5.trans h.pcrit, a6.trans h.ccrit, h.pAt, h.cAt, h.fifo, h.cell,
      fun j w hj => h.adv j w (advFrame ht (by intro v h; cases h) hj).2,
      fun j w hj => h.read j w (readFrame ht (by intro v h; cases h) hj).2, ?_,
      fun j => by simp only; rw [pendCFrame ht (by rfl)]; exact h.retC j⟩
    intro j
    simp only [ofThread_snoc]
    rw [getElem?_set_eq' ht]
    have := h.retP j
    split
    · rename_i hij; subst hij
      rw [ht] at this
      rw [this]; simp [pendingP]
    · rw [List.append_nil]; exact this
  | callC ht =>
    have a1 := total_set np1 s.threads i _ .cWait ht
    have a2 := total_set np2 s.threads i _ .cWait ht
    have a3 := total_set nc1 s.threads i _ .cWait ht
    have a4 := total_set nc2 s.threads i _ .cWait ht
    have a5 := total_set PCQ.pcrit s.threads i _ .cWait ht
    have a6 := total_set PCQ.ccrit s.threads i _ .cWait ht
    simp only [np1, np2, nc1, nc2, PCQ.pcrit, PCQ.ccrit, Nat.add_zero] at a1 a2 a3 a4 a5 a6
    exact ⟨h.len, h.le, by simp only [a1, a4]; exact h.sumE, by simp only [a2, a3]; exact h.sumU,
      a5.trans h.pcrit, a6.trans h.ccrit, h.pAt, h.cAt, h.fifo, h.cell,
      fun j w hj => h.adv j w (advFrame ht (by intro v h; cases h) hj).2,
      fun j w hj => h.read j w (readFrame ht (by intro v h; cases h) hj).2,
      fun j => by simp only; rw [pendPFrame ht (by rfl)]; exact h.retP j,
      fun j => by simp only; rw [pendCFrame ht (by rfl)]; exact h.retC j⟩
  | waitC ht he =>
    have a1 := total_set np1 s.threads i _ .cLock ht
    have a2 := total_set np2 s.threads i _ .cLock ht
    have a3 := total_set nc1 s.threads i _ .cLock ht
    have a4 := total_set nc2 s.threads i _ .cLock ht
    have a5 := total_set PCQ.pcrit s.threads i _ .cLock ht
    have a6 := total_set PCQ.ccrit s.threads i _ .cLock ht
    simp only [np1, np2, nc1, nc2, PCQ.pcrit, PCQ.ccrit, Nat.add_zero] at a1 a2 a3 a4 a5 a6
    have hU := h.sumU
    exact ⟨h.len, h.le, by simp only [a1, a4]; exact h.sumE, by simp only; omega,
      a5.trans h.pcrit, a6.trans h.ccrit, h.pAt, h.cAt, h.fifo, h.cell,
      fun j w hj => h.adv j w (advFrame ht (by intro v h; cases h) hj).2,
      fun j w hj => h.read j w (readFrame ht (by intro v h; cases h) hj).2,
      fun j => by simp only; rw [pendPFrame ht (by rfl)]; exact h.retP j,
      fun j => by simp only; rw [pendCFrame ht (by rfl)]; exact h.retC j⟩
  | lockC ht hm =>
    have a1 := total_set np1 s.threads i _ .cRead ht
    have a2 := total_set np2 s.threads i _ .cRead ht
    have a3 := total_set nc1 s.threads i _ .cRead ht
    have a4 := total_set nc2 s.threads i _ .cRead ht
    have a5 := total_set PCQ.pcrit s.threads i _ .cRead ht
    have a6 := total_set PCQ.ccrit s.threads i _ .cRead ht
    simp only [np1, np2, nc1, nc2, PCQ.pcrit, PCQ.ccrit, Nat.add_zero] at a1 a2 a3 a4 a5 a6
    have hU := h.sumU
    have hP := h.ccrit
    rw [hm] at hP
    exact ⟨h.len, h.le, by simp only [a1, a4]; exact h.sumE, by simp only; omega,
      a5.trans h.pcrit, by simp only [if_true]; simpa [hP] using a6, h.pAt, h.cAt, h.fifo, h.cell,
      fun j w hj => h.adv j w (advFrame ht (by intro v h; cases h) hj).2,
      fun j w hj => h.read j w (readFrame ht (by intro v h; cases h) hj).2,
      fun j => by simp only; rw [pendPFrame ht (by rfl)]; exact h.retP j,
      fun j => by simp only; rw [pendCFrame ht (by rfl)]; exact h.retC j⟩
  | read v ht hv =>
    have a1 := total_set np1 s.threads i _ (.cAdv v) ht
    have a2 := total_set np2 s.threads i _ (.cAdv v) ht
    have a3 := total_set nc1 s.threads i _ (.cAdv v) ht
    have a4 := total_set nc2 s.threads i _ (.cAdv v) ht
    have a5 := total_set PCQ.pcrit s.threads i _ (.cAdv v) ht
    have a6 := total_set PCQ.ccrit s.threads i _ (.cAdv v) ht
    simp only [np1, np2, nc1, nc2, PCQ.pcrit, PCQ.ccrit, Nat.add_zero, Nat.add_right_cancel_iff] at a1 a2 a3 a4 a5 a6
    have hU := h.sumU
    have hsome := le_total nc1 s.threads i _ ht
    simp only [nc1] at hsome
    refine ⟨h.len, h.le, by simp only [a1, a4]; exact h.sumE, by simp only [a2, a3]; exact h.sumU,
      a5.trans h.pcrit, a6.trans h.ccrit, h.pAt, h.cAt, h.fifo, h.cell,
      fun j w hj => h.adv j w (advFrame ht (by intro v h; cases h) hj).2, ?_,
      fun j => by simp only; rw [pendPFrame ht (by rfl)]; exact h.retP j,
      fun j => by simp only; rw [pendCFrame ht (by rfl)]; exact h.retC j⟩
    intro j w hj
    simp only at hj ⊢
    rw [getElem?_set_eq' ht] at hj
    split at hj
    · cases hj
      rw [← h.cell _ (Nat.le_refl _) (by omega), ← h.cAt]; exact hv
    · exact h.read j w hj
  | throwC ht =>
    have a1 := total_set np1 s.threads i _ .cExc ht
    have a2 := total_set np2 s.threads i _ .cExc ht
    have a3 := total_set nc1 s.threads i _ .cExc ht
    have a4 := total_set nc2 s.threads i _ .cExc ht
    have a5 := total_set PCQ.pcrit s.threads i _ .cExc ht
    have a6 := total_set PCQ.ccrit s.threads i _ .cExc ht
    simp only [np1, np2, nc1, nc2, PCQ.pcrit, PCQ.ccrit, Nat.add_zero, Nat.add_right_cancel_iff] at a1 a2 a3 a4 a5 a6
    have hU := h.sumU
    exact ⟨h.len, h.le, by simp only [a1, a4]; exact h.sumE, by simp only; omega,
      a5.trans h.pcrit, a6.trans h.ccrit, h.pAt, h.cAt, h.fifo, h.cell,
      fun j w hj => h.adv j w (advFrame ht (by intro v h; cases h) hj).2,
      fun j w hj => h.read j w (readFrame ht (by intro v h; cases h) hj).2,
      fun j => by simp only; rw [pendPFrame ht (by rfl)]; exact h.retP j,
      fun j => by simp only; rw [pendCFrame ht (by rfl)]; exact h.retC j⟩
  | unwindC ht =>
    have a1 := total_set np1 s.threads i _ .idle ht
    have a2 := total_set np2 s.threads i _ .idle ht
    have a3 := total_set nc1 s.threads i _ .idle ht
    have a4 := total_set nc2 s.threads i _ .idle ht
    have a5 := total_set PCQ.pcrit s.threads i _ .idle ht
    have a6 := total_set PCQ.ccrit s.threads i _ .idle ht
    simp only [np1, np2, nc1, nc2, PCQ.pcrit, PCQ.ccrit, Nat.add_zero, Nat.add_right_cancel_iff] at a1 a2 a3 a4 a5 a6
    have hP := h.ccrit
    have hle := le_total PCQ.ccrit s.threads i _ ht
    simp only [PCQ.ccrit] at hle
    have hP1 : total PCQ.ccrit s.threads = 1 := by rw [hP] at hle ⊢; split at hle <;> simp_all
    refine ⟨h.len, h.le, by simp only [a1, a4]; exact h.sumE, by simp only [a2, a3]; exact h.sumU,
      a5.trans h.pcrit, by simp only [Bool.false_eq_true, if_false]; omega, h.pAt, h.cAt, h.fifo, h.cell,
      fun j w hj => h.adv j w (advFrame ht (by intro v h; cases h) hj).2,
      fun j w hj => h.read j w (readFrame ht (by intro v h; cases h) hj).2,
      fun j => by simp only; rw [pendPFrame ht (by rfl)]; exact h.retP j,
      fun j => by simp only; rw [pendCFrame ht (by rfl)]; exact h.retC j⟩
  | advC v ht =>
    have a1 := total_set np1 s.threads i _ (.cPost v) ht
    have a2 := total_set np2 s.threads i _ (.cPost v) ht
    have a3 := total_set nc1 s.threads i _ (.cPost v) ht
    have a4 := total_set nc2 s.threads i _ (.cPost v) ht
    have a5 := total_set PCQ.pcrit s.threads i _ (.cPost v) ht
    have a6 := total_set PCQ.ccrit s.threads i _ (.cPost v) ht
    simp only [np1, np2, nc1, nc2, PCQ.pcrit, PCQ.ccrit, Nat.add_zero, Nat.add_right_cancel_iff] at a1 a2 a3 a4 a5 a6
    have hP := h.ccrit
    have hle := le_total PCQ.ccrit s.threads i _ ht
    simp only [PCQ.ccrit] at hle
    have hP1 : total PCQ.ccrit s.threads = 1 := by rw [hP] at hle ⊢; split at hle <;> simp_all
    have hE := h.sumE
    have hU := h.sumU
    have hcl := h.le
    have hroom := le_total nc1 s.threads i _ ht
    simp only [nc1] at hroom
    refine ⟨h.len, by simp only [List.length_append, List.length_singleton]; omega,
      by simp only [List.length_append, List.length_singleton]; omega,
      by simp only [List.length_append, List.length_singleton]; omega,
      a5.trans h.pcrit, by simp only [Bool.false_eq_true, if_false]; omega, h.pAt, ?_, ?_, ?_,
      fun j w hj => h.adv j w (advFrame ht (by intro v h; cases h) hj).2, ?_,
      fun j => by simp only; rw [pendPFrame ht (by rfl)]; exact h.retP j, ?_⟩
    · simp only [List.length_append, List.length_singleton]
      rw [h.len, h.cAt]; exact nextAt_mod _ _ (by omega)
    · simp only [List.map_append, List.length_append, List.length_singleton, List.map_cons, List.map_nil]
      rw [h.fifo, List.take_succ, h.read i v ht]
      simp
    · intro j h1 h2
      simp only [List.length_append, List.length_singleton] at h1
      exact h.cell j (by omega) h2
    · intro j w hj
      obtain ⟨hij, hj⟩ := readFrame ht (by intro v h; cases h) hj
      exact absurd (h.cUnique hij ht hj rfl rfl) id
    · intro j
      simp only [ofThread_snoc]
      rw [getElem?_set_eq' ht]
      have := h.retC j
      split
      · rename_i hij; subst hij
        rw [ht] at this
        rw [this]; simp [pendingC]
      · rw [List.append_nil]; exact this
  | postC v ht =>
    have a1 := total_set np1 s.threads i _ .idle ht
    have a2 := total_set np2 s.threads i _ .idle ht
    have a3 := total_set nc1 s.threads i _ .idle ht
    have a4 := total_set nc2 s.threads i _ .idle ht
    have a5 := total_set PCQ.pcrit s.threads i _ .idle ht
    have a6 := total_set PCQ.ccrit s.threads i _ .idle ht
    simp only [np1, np2, nc1, nc2, PCQ.pcrit, PCQ.ccrit, Nat.add_zero, Nat.add_right_cancel_iff] at a1 a2 a3 a4 a5 a6
    have hE := h.sumE
    refine ⟨h.len, h.le, by simp only; omega, by simp only [a2, a3]; exact h.sumU,
      a5.trans h.pcrit, a6.trans h.ccrit, h.pAt, h.cAt, h.fifo, h.cell,
      fun j w hj => h.adv j w (advFrame ht (by intro v h; cases h) hj).2,
      fun j w hj => h.read j w (readFrame ht (by intro v h; cases h) hj).2,
      fun j => by simp only; rw [pendPFrame ht (by rfl)]; exact h.retP j, ?_⟩
    intro j
    simp only [ofThread_snoc]
    rw [getElem?_set_eq' ht]
    have := h.retC j
    split
    · rename_i hij; subst hij
      rw [ht] at this
      rw [this]; simp [pendingC]
    · rw [List.append_nil]; exact this

theorem inv_reach {cells : List V} {k : Nat} {s : State V} (h : Reach cells k s) : Inv cells.length s := by
  induction h with
  | start => exact inv_init cells k
  | step _ hs ih => exact inv_step ih hs

end Cdec.Klm.PCQ
