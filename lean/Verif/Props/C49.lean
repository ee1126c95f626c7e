import Verif.Klm.DoubleLemmas
/-!
# C49: the linear probing table is a map

Specification: `Spec` is a finite map with a size and a capacity.  `insert` and `findOrInsert` of an absent key add
an entry, or throw when the size would reach the capacity; `double` doubles the capacity.
-/
namespace Cdec.Klm

variable {K V : Type _} [DecidableEq K]

/-- The calls of a history. -/
inductive TOp (K V : Type _) where
  | insert (k : K) (v : V)
  | findOrInsert (k : K) (v : V)
  | double
  | clear

/-- The abstract table. -/
structure Spec (K V : Type _) where
  map : K → Option V
  size : Nat
  cap : Nat

def Spec.empty (cap : Nat) : Spec K V := ⟨fun _ => none, 0, cap⟩

/-- Adding an entry under an absent key; `none`: the call throws. -/
def Spec.add (σ : Spec K V) (k : K) (v : V) : Option (Spec K V) :=
  if σ.size + 1 ≥ σ.cap then none
  else some ⟨Function.update σ.map k (some v), σ.size + 1, σ.cap⟩

/-- Result of a call (whether `FindOrInsert` found the key) and the table after it. -/
def Spec.step (σ : Spec K V) : TOp K V → Option (Bool × Spec K V)
  | .insert k v => (σ.add k v).map (false, ·)
  | .findOrInsert k v => if (σ.map k).isSome then some (true, σ) else (σ.add k v).map (false, ·)
  | .double => some (false, ⟨σ.map, σ.size, 2 * σ.cap⟩)
  | .clear => some (false, Spec.empty σ.cap)

/-- The documented conditions: keys are not the invalid key, and `Insert` is for new keys. -/
def Legal (inv : K) (σ : Spec K V) : TOp K V → Prop
  | .insert k _ => k ≠ inv ∧ σ.map k = none
  | .findOrInsert k _ => k ≠ inv
  | .double => True
  | .clear => True

/-- The calls of the model. -/
def Table.step (inv : K) (hash : K → Nat) (junk : V) (s : Table K V) : TOp K V → Outcome (Bool × Table K V)
  | .insert k v => match s.insert inv hash (k, v) with
    | .ok s' => .ok (false, s')
    | .throw => .throw
    | .diverge => .diverge
  | .findOrInsert k v => s.findOrInsert inv hash (k, v)
  | .double => match s.double inv hash junk with
    | some s' => .ok (false, s')
    | none => .diverge
  | .clear => .ok (false, s.clear inv junk)

/-- The results of a history of calls, up to the first exception (`none`), and the final table. -/
def Spec.run (σ : Spec K V) : List (TOp K V) → Option (List Bool × Spec K V)
  | [] => some ([], σ)
  | o :: os => match σ.step o with
    | none => none
    | some (r, σ') => (Spec.run σ' os).map fun x => (r :: x.1, x.2)

def Table.run (inv : K) (hash : K → Nat) (junk : V) (s : Table K V) : List (TOp K V) → Outcome (List Bool × Table K V)
  | [] => .ok ([], s)
  | o :: os => match s.step inv hash junk o with
    | .ok (r, s') => match Table.run inv hash junk s' os with
      | .ok x => .ok (r :: x.1, x.2)
      | .throw => .throw
      | .diverge => .diverge
    | .throw => .throw
    | .diverge => .diverge

def LegalAll (inv : K) (σ : Spec K V) : List (TOp K V) → Prop
  | [] => True
  | o :: os => Legal inv σ o ∧ ∀ r σ', σ.step o = some (r, σ') → LegalAll inv σ' os

/-- What the lookups of a concrete table show. -/
def Shows (inv : K) (hash : K → Nat) (s : Table K V) (σ : Spec K V) : Prop :=
  s.entries = σ.size ∧ s.t.length = σ.cap ∧ ∀ k, k ≠ inv →
    (∀ v, σ.map k = some v → ∃ p, find inv hash s.t k = some (some p) ∧ s.t[p]? = some (k, v)) ∧
    (σ.map k = none → find inv hash s.t k = some none)

structure Agree (inv : K) (hash : K → Nat) (s : Table K V) (σ : Spec K V) : Prop where
  rep : Rep inv hash s.t σ.map
  entries : s.entries = σ.size
  used : used inv s.t = σ.size
  cap : s.t.length = σ.cap
  room : σ.size < σ.cap

theorem Agree.shows {inv : K} {hash : K → Nat} {s : Table K V} {σ : Spec K V} (h : Agree inv hash s σ) :
    Shows inv hash s σ :=
  ⟨h.entries, h.cap, fun k hk => find_spec h.rep (by rw [h.used, h.cap]; exact h.room) k hk⟩

theorem rep_empty (inv : K) (hash : K → Nat) (junk : V) (N : Nat) :
    Rep inv hash (List.replicate N (inv, junk)) (fun _ => none) := by
  have hget : ∀ (p : Nat) (e : K × V), (List.replicate N (inv, junk))[p]? = some e → e.1 = inv := by
    intro p e he
    rw [List.getElem?_replicate] at he
    split at he
    · cases he; rfl
    · cases he
  refine ⟨fun p e he hne => absurd (hget p e he) hne, fun p q e e' h1 _ _ h4 => absurd (hget p e h1) h4, ?_⟩
  intro k v hk
  constructor
  · intro h; cases h
  · rintro ⟨p, hp⟩; exact absurd (hget p _ hp) hk

theorem agree_empty (inv : K) (hash : K → Nat) (junk : V) (N : Nat) (hN : 0 < N) :
    Agree inv hash ⟨List.replicate N (inv, junk), 0⟩ (Spec.empty (V := V) N) := by
  refine ⟨rep_empty inv hash junk N, rfl, ?_, by simp [Spec.empty], hN⟩
  unfold Klm.used
  rw [List.countP_eq_zero.mpr]
  · rfl
  · intro e he
    rw [(List.mem_replicate.mp he).2]; simp [valid]

theorem findOrInsert_spec {inv : K} {hash : K → Nat} {s : Table K V} {σ : Spec K V} (h : Agree inv hash s σ)
    (k : K) (v : V) (hk : k ≠ inv) :
    match σ.step (.findOrInsert k v) with
    | none => s.findOrInsert inv hash (k, v) = .throw
    | some (r, σ') => ∃ s', s.findOrInsert inv hash (k, v) = .ok (r, s') ∧ Agree inv hash s' σ' := by
  have hN : 0 < s.t.length := by rw [h.cap]; exact lt_of_le_of_lt (Nat.zero_le _) h.room
  cases hm : σ.map k with
  | some w =>
    simp only [Spec.step, hm, Option.isSome_some, if_true]
    obtain ⟨p, hp⟩ := (h.rep.holds k w hk).mp hm
    obtain ⟨d, hd, h1, h2⟩ := h.rep.paths p (k, w) hp hk
    refine ⟨s, ?_, h⟩
    unfold Table.findOrInsert
    simp only at h1 h2
    -- the first bucket on the path that holds the key
    obtain ⟨d', hd', g1, g2⟩ := least (fun d => ∃ e, s.t[(hash k % s.t.length + d) % s.t.length]? = some e ∧ e.1 = k) d
      ⟨(k, w), by rw [← h1]; exact hp, rfl⟩
    rw [probe_spec s.t.length _ d' s.t.length (hash k % s.t.length)
      (true, (hash k % s.t.length + d') % s.t.length) (Nat.mod_lt _ hN) (by omega)]
    · obtain ⟨e, he, hek⟩ := g1
      simp only [foiStop, he, hek, if_true]
    · intro c hc
      obtain ⟨e, he, hei⟩ := h2 c (by omega)
      have : e.1 ≠ k := fun hek => g2 c hc ⟨e, he, hek⟩
      simp only [foiStop, he, hei, this, if_false]
  | none =>
    simp only [Spec.step, hm, Option.isSome_none, Bool.false_eq_true, if_false]
    have hno : ∀ (p : Nat) (e : K × V), s.t[p]? = some e → e.1 ≠ k := by
      intro p e he hek
      have := (h.rep.holds k e.2 hk).mpr ⟨p, by rw [he, ← hek]⟩
      rw [hm] at this; cases this
    obtain ⟨p, hp, hfp⟩ := exists_free (inv := inv) (t := s.t) (by rw [h.used, h.cap]; exact h.room)
    obtain ⟨df, hdf, hd⟩ := reach s.t.length (hash k % s.t.length) p (Nat.mod_lt _ hN) hp
    obtain ⟨d, hle, h1, h2, h3⟩ := uncheckedInsert_spec inv hash s.t (k, v) df hN hdf (by rw [hd]; exact hfp)
    simp only at h1 h2 h3
    obtain ⟨t', g1, g2, g3, g4⟩ := rep_uncheckedInsert h.rep (by rw [h.used, h.cap]; exact h.room) k v hk hm
    rw [g1] at h3
    cases h3
    have hprobe : probe s.t.length (foiStop inv s.t k) s.t.length (hash k % s.t.length) = some (false, (hash k % s.t.length + d) % s.t.length) := by
      apply probe_spec s.t.length _ d s.t.length _ _ (Nat.mod_lt _ hN) (by omega)
      · obtain ⟨e, he, hei⟩ := h1
        simp only [foiStop, he, hno _ _ he, hei, if_false, if_true]
        rw [if_neg]
        intro h'; exact hno _ _ he (hei.trans h')
      · intro c hc
        obtain ⟨e, he, hei⟩ := h2 c hc
        simp only [foiStop, he, hno _ _ he, hei, if_false]
    unfold Spec.add
    by_cases hfull : σ.size + 1 ≥ σ.cap
    · rw [if_pos hfull]
      simp only [Option.map_none]
      unfold Table.findOrInsert
      simp only [hprobe]
      rw [if_pos (by rw [h.entries, h.cap]; exact hfull)]
    · rw [if_neg hfull]
      simp only [Option.map_some]
      unfold Table.findOrInsert
      simp only [hprobe]
      rw [if_neg (by rw [h.entries, h.cap]; exact hfull)]
      refine ⟨_, rfl, g2, by simp [h.entries], by rw [g3, h.used], ?_, by simp only; omega⟩
      rw [g4, h.cap]

theorem step_spec {inv : K} {hash : K → Nat} {s : Table K V} {σ : Spec K V} (junk : V) (h : Agree inv hash s σ)
    (o : TOp K V) (hl : Legal inv σ o) :
    match σ.step o with
    | none => s.step inv hash junk o = .throw
    | some (r, σ') => ∃ s', s.step inv hash junk o = .ok (r, s') ∧ Agree inv hash s' σ' := by
  cases o with
  | insert k v =>
    obtain ⟨hk, hn⟩ := hl
    simp only [Spec.step, Spec.add, Table.step, Table.insert]
    by_cases hfull : σ.size + 1 ≥ σ.cap
    · rw [if_pos hfull, if_pos (by rw [h.entries, h.cap]; exact hfull)]; simp
    · rw [if_neg hfull, if_neg (by rw [h.entries, h.cap]; exact hfull)]
      obtain ⟨t', g1, g2, g3, g4⟩ := rep_uncheckedInsert h.rep (by rw [h.used, h.cap]; exact h.room) k v hk hn
      rw [g1]
      exact ⟨_, rfl, g2, by simp [h.entries], by rw [g3, h.used], by rw [g4, h.cap], by simp only; omega⟩
  | findOrInsert k v => exact findOrInsert_spec h k v hl
  | double =>
    obtain ⟨t', g1, g2, g3, g4⟩ := double_spec junk h.rep (by rw [h.used, h.cap]; exact h.room)
    simp only [Spec.step, Table.step, Table.double, g1, Option.map_some]
    have := h.room
    exact ⟨_, rfl, g2, h.entries, by rw [g3, h.used], by rw [g4, h.cap], by simp only; omega⟩
  | clear =>
    simp only [Spec.step, Table.step, Table.clear]
    refine ⟨_, rfl, ?_⟩
    rw [h.cap]
    exact agree_empty inv hash junk σ.cap (lt_of_le_of_lt (Nat.zero_le _) h.room)

theorem run_spec {inv : K} {hash : K → Nat} {s : Table K V} {σ : Spec K V} (junk : V) (h : Agree inv hash s σ)
    (os : List (TOp K V)) (hl : LegalAll inv σ os) :
    match σ.run os with
    | none => s.run inv hash junk os = .throw
    | some (r, σ') => ∃ s', s.run inv hash junk os = .ok (r, s') ∧ Agree inv hash s' σ' := by
  induction os generalizing s σ with
  | nil => exact ⟨s, rfl, h⟩
  | cons o os ih =>
    have hs := step_spec junk h o hl.1
    unfold Spec.run Table.run
    cases ho : σ.step o with
    | none => rw [ho] at hs; simp only at hs ⊢; rw [hs]
    | some x =>
      obtain ⟨r, σ'⟩ := x
      rw [ho] at hs
      obtain ⟨s', h1, h2⟩ := hs
      have := ih h2 (hl.2 r σ' ho)
      simp only [h1]
      cases hr : σ'.run os with
      | none => rw [hr] at this; simp only at this; simp [this]
      | some y =>
        rw [hr] at this
        obtain ⟨s'', h3, h4⟩ := this
        exact ⟨s'', by simp [h3], h4⟩

/-- **C49.**  For every history of calls that respects the documented conditions, every hash function and every
number of buckets: no loop is endless, an exception is thrown exactly when the abstract table would be full, every
`FindOrInsert` reports whether the key was there, and afterwards every lookup finds exactly the entry the map
holds. -/
theorem C49_history (inv : K) (hash : K → Nat) (junk : V) (N : Nat) (hN : 0 < N) (os : List (TOp K V))
    (hl : LegalAll inv (Spec.empty N) os) :
    match (Spec.empty N).run os with
    | none => Table.run inv hash junk ⟨List.replicate N (inv, junk), 0⟩ os = .throw
    | some (r, σ) => ∃ s, Table.run inv hash junk ⟨List.replicate N (inv, junk), 0⟩ os = .ok (r, s) ∧
        Shows inv hash s σ := by
  have := run_spec junk (agree_empty inv hash junk N hN) os hl
  cases hr : (Spec.empty N).run os with
  | none => rw [hr] at this; exact this
  | some x =>
    rw [hr] at this
    obtain ⟨s, h1, h2⟩ := this
    exact ⟨s, h1, h2.shows⟩

/-- Looking up the invalid key, which the documentation does not exclude, reports an empty bucket as a hit. -/
theorem C49_invalid_key_fails : find 0 id [(0, 7), (0, 8)] 0 = some (some 0) := by decide

/-- Non-vacuity: with three buckets and colliding keys the entry 5 rolls over to the front; after the doubling it
is found in the second half. -/
def osEx : List (TOp Nat Nat) := [.insert 2 20, .findOrInsert 5 50, .double, .findOrInsert 5 51, .insert 11 110]

example : LegalAll 0 (Spec.empty 3) osEx := by
  simp [osEx, LegalAll, Legal, Spec.empty, Spec.step, Spec.add, Function.update]

example : Table.run 0 id 0 ⟨List.replicate 3 (0, 0), 0⟩ (osEx.take 2) = .ok ([false, false], ⟨[(5, 50), (0, 0), (2, 20)], 2⟩) ∧
    Table.run 0 id 0 ⟨List.replicate 3 (0, 0), 0⟩ osEx =
      .ok ([false, false, false, true, false], ⟨[(11, 110), (0, 0), (2, 20), (0, 0), (0, 0), (5, 50)], 3⟩) := by
  decide

end Cdec.Klm
