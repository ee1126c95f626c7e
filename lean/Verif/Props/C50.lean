import Verif.Props.C49
/-!
# C50: the growing table

The claim is that `AutoProbing` accepts any number of insertions.  It holds for `FindOrInsert`.  It does not hold
for `Insert`, which does not count the entry: the table never grows, and the insertion after the one that fills
the last bucket does not return (neither do lookups of absent keys).
-/
namespace Cdec.Klm

variable {K V : Type _} [DecidableEq K]

/-- The calls of a history of `FindOrInsert`. -/
inductive AOp (K V : Type _) where
  | findOrInsert (k : K) (v : V)
  | clear

/-- The specification: a map of unlimited size. -/
def specStep (m : K → Option V) : AOp K V → Bool × (K → Option V)
  | .findOrInsert k v => if (m k).isSome then (true, m) else (false, Function.update m k (some v))
  | .clear => (false, fun _ => none)

def specRun (m : K → Option V) : List (AOp K V) → List Bool × (K → Option V)
  | [] => ([], m)
  | o :: os => let r := specStep m o
    let x := specRun r.2 os
    (r.1 :: x.1, x.2)

def Auto.step (inv : K) (hash : K → Nat) (junk : V) (a : Auto K V) : AOp K V → Outcome (Bool × Auto K V)
  | .findOrInsert k v => a.findOrInsert inv hash junk (k, v)
  | .clear => .ok (false, a.clear inv junk)

def Auto.run (inv : K) (hash : K → Nat) (junk : V) (a : Auto K V) : List (AOp K V) → Outcome (List Bool × Auto K V)
  | [] => .ok ([], a)
  | o :: os => match a.step inv hash junk o with
    | .ok (r, a') => match Auto.run inv hash junk a' os with
      | .ok x => .ok (r :: x.1, x.2)
      | .throw => .throw
      | .diverge => .diverge
    | .throw => .throw
    | .diverge => .diverge

/-- Lookups find exactly the entries of `m`. -/
def Lookups (inv : K) (hash : K → Nat) (t : List (K × V)) (m : K → Option V) : Prop :=
  ∀ k, k ≠ inv →
    (∀ v, m k = some v → ∃ p, find inv hash t k = some (some p) ∧ t[p]? = some (k, v)) ∧
    (m k = none → find inv hash t k = some none)

structure AInv (inv : K) (hash : K → Nat) (a : Auto K V) (m : K → Option V) : Prop where
  agree : ∃ σ : Spec K V, σ.map = m ∧ Agree inv hash a.b σ
  small : a.b.entries ≤ a.threshold ∨ a.threshold = 0
  thr : a.threshold < a.b.t.length

theorem doubleIfNeeded_spec {inv : K} {hash : K → Nat} (junk : V) {a : Auto K V} {m : K → Option V}
    (h : AInv inv hash a m) : ∃ a', a.doubleIfNeeded inv hash junk = some a' ∧
      (∃ σ : Spec K V, σ.map = m ∧ Agree inv hash a'.b σ) ∧ a'.b.entries + 1 < a'.b.t.length ∧
      (a'.b.entries + 1 ≤ a'.threshold ∨ a'.threshold = 0) ∧ a'.threshold < a'.b.t.length := by
  obtain ⟨σ, hσ, hA⟩ := h.agree
  have h1 := h.thr
  have h2 := h.small
  unfold Auto.doubleIfNeeded
  split
  · rename_i hlt
    exact ⟨a, rfl, ⟨σ, hσ, hA⟩, by omega, by omega, h1⟩
  · rename_i hge
    have hs := step_spec junk hA .double trivial
    simp only [Spec.step, Table.step] at hs
    obtain ⟨s', g1, g2⟩ := hs
    cases hd : a.b.double inv hash junk with
    | none => rw [hd] at g1; cases g1
    | some b =>
      rw [hd] at g1
      simp only [Outcome.ok.injEq, Prod.mk.injEq, true_and] at g1
      subst g1
      have e1 := g2.entries
      have e2 := g2.cap
      have e3 := hA.entries
      have e4 := hA.cap
      have e5 := hA.room
      simp only at e1 e2
      refine ⟨_, rfl, ⟨⟨σ.map, σ.size, 2 * σ.cap⟩, hσ, g2⟩, ?_, ?_, ?_⟩ <;> simp only <;> omega

theorem auto_step {inv : K} {hash : K → Nat} (junk : V) {a : Auto K V} {m : K → Option V}
    (h : AInv inv hash a m) (o : AOp K V) (hk : ∀ k v, o = .findOrInsert k v → k ≠ inv) :
    ∃ a', a.step inv hash junk o = .ok ((specStep m o).1, a') ∧ AInv inv hash a' (specStep m o).2 := by
  cases o with
  | clear =>
    obtain ⟨σ, hσ, hA⟩ := h.agree
    have h1 := h.thr
    refine ⟨_, rfl, ⟨Spec.empty a.b.t.length, rfl, agree_empty inv hash junk _ (by omega)⟩, Or.inl (by simp [Auto.clear, Table.clear]), ?_⟩
    simp [Auto.clear, Table.clear]; exact h1
  | findOrInsert k v =>
    have hk := hk k v rfl
    obtain ⟨a', h1, ⟨σ, hσ, hA⟩, h2, h3, h4⟩ := doubleIfNeeded_spec junk h
    have hs := findOrInsert_spec hA k v hk
    have he := hA.entries
    have hc := hA.cap
    simp only [Auto.step, Auto.findOrInsert, h1, specStep]
    by_cases hm : (m k).isSome
    · simp only [Spec.step, hσ, hm, if_true] at hs
      obtain ⟨s', g1, g2⟩ := hs
      have hss : s' = a'.b := by
        have e1 := g1
        unfold Table.findOrInsert at e1
        split at e1
        · cases e1
        · cases e1; rfl
        · split at e1 <;> cases e1
      subst hss
      rw [g1, hm]
      exact ⟨_, rfl, ⟨σ, hσ, hA⟩, by simp only; omega, h4⟩
    · simp only [Spec.step, hσ, hm, Bool.false_eq_true, if_false, Spec.add, if_neg (show ¬ σ.size + 1 ≥ σ.cap by omega),
        Option.map_some] at hs
      obtain ⟨s', g1, g2⟩ := hs
      rw [g1, if_neg hm]
      have e1 := g2.entries
      have e2 := g2.cap
      simp only at e1 e2
      refine ⟨_, rfl, ⟨_, rfl, g2⟩, ?_, ?_⟩ <;> simp only <;> omega

theorem ainv_new (inv : K) (hash : K → Nat) (junk : V) (n : Nat) :
    AInv inv hash (Auto.new inv junk n) (fun _ => none) := by
  refine ⟨⟨Spec.empty _, rfl, agree_empty inv hash junk _ (by omega)⟩, Or.inl (Nat.zero_le _), ?_⟩
  simp only [Auto.new, List.length_replicate]
  omega

/-- **C50 for `FindOrInsert`.**  Any number of `FindOrInsert` (and `Clear`) calls on a table of any initial size
return, without an exception; each reports whether the key was there, and afterwards lookups find exactly the
inserted entries.  Missing for the full claim: `Insert`, see below. -/
theorem C50_find_or_insert_partial (inv : K) (hash : K → Nat) (junk : V) (n : Nat) (os : List (AOp K V))
    (hk : ∀ k v, AOp.findOrInsert k v ∈ os → k ≠ inv) :
    ∃ a, Auto.run inv hash junk (Auto.new inv junk n) os = .ok ((specRun (fun _ => none) os).1, a) ∧
      Lookups inv hash a.b.t (specRun (fun _ => none) os).2 := by
  suffices H : ∀ (a : Auto K V) (m : K → Option V), AInv inv hash a m →
      ∃ a', Auto.run inv hash junk a os = .ok ((specRun m os).1, a') ∧ AInv inv hash a' (specRun m os).2 by
    obtain ⟨a, h1, h2⟩ := H _ _ (ainv_new inv hash junk n)
    obtain ⟨σ, hσ, hA⟩ := h2.agree
    refine ⟨a, h1, ?_⟩
    rw [← hσ]
    exact hA.shows.2.2
  induction os with
  | nil => exact fun a m h => ⟨a, rfl, h⟩
  | cons o os ih =>
    intro a m h
    obtain ⟨a', h1, h2⟩ := auto_step junk h o (fun k v ho => hk k v (ho ▸ List.mem_cons_self))
    obtain ⟨a'', h3, h4⟩ := ih (fun k v ho => hk k v (List.mem_cons_of_mem _ ho)) _ _ h2
    refine ⟨a'', ?_, h4⟩
    simp only [Auto.run, h1, h3, specRun]

/-- A sequence of `Insert` calls. -/
def Auto.inserts (inv : K) (hash : K → Nat) (junk : V) (a : Auto K V) : List (K × V) → Outcome (Auto K V)
  | [] => .ok a
  | x :: xs => match a.insert inv hash junk x with
    | .ok a' => Auto.inserts inv hash junk a' xs
    | .throw => .throw
    | .diverge => .diverge

theorem inserts_spec (inv : K) (hash : K → Nat) (junk : V) (thr : Nat) (hthr : 0 < thr) (xs : List (K × V))
    (t : List (K × V)) (m : K → Option V) (hr : Rep inv hash t m) (hf : used inv t + xs.length ≤ t.length)
    (hx : ∀ x ∈ xs, x.1 ≠ inv ∧ m x.1 = none) (hnd : (xs.map Prod.fst).Nodup) :
    ∃ t', Auto.inserts inv hash junk ⟨⟨t, 0⟩, thr⟩ xs = .ok ⟨⟨t', 0⟩, thr⟩ ∧
      Rep inv hash t' (xs.foldl (fun (m : K → Option V) x => Function.update m x.1 (some x.2)) m) ∧
      used inv t' = used inv t + xs.length ∧ t'.length = t.length := by
  induction xs generalizing t m with
  | nil => exact ⟨t, rfl, hr, rfl, rfl⟩
  | cons x xs ih =>
    simp only [List.length_cons] at hf
    obtain ⟨t', h1, h2, h3, h4⟩ := rep_uncheckedInsert hr (by omega) x.1 x.2 (hx x List.mem_cons_self).1
      (hx x List.mem_cons_self).2
    simp only [List.map_cons, List.nodup_cons] at hnd
    obtain ⟨t'', g1, g2, g3, g4⟩ := ih t' _ h2 (by omega) (fun y hy => by
      refine ⟨(hx y (List.mem_cons_of_mem _ hy)).1, ?_⟩
      rw [Function.update_of_ne]
      · exact (hx y (List.mem_cons_of_mem _ hy)).2
      · intro he; exact hnd.1 (he ▸ List.mem_map_of_mem hy)) hnd.2
    refine ⟨t'', ?_, g2, by simp only [List.length_cons]; omega, by omega⟩
    unfold Auto.inserts Auto.insert Auto.doubleIfNeeded
    simp only [hthr, if_true]
    rw [show x = (x.1, x.2) from rfl, h1]
    exact g1

/-- **C50 for few `Insert` calls.**  Distinct keys, fewer of them than there are buckets: the calls return and
every lookup is right.  (A table of initial size `n` has `max (n+1) (3n/2)` buckets.) -/
theorem C50_few_inserts_partial (inv : K) (hash : K → Nat) (junk : V) (n : Nat) (hn : 0 < n) (xs : List (K × V))
    (hx : ∀ x ∈ xs, x.1 ≠ inv) (hnd : (xs.map Prod.fst).Nodup) (hlen : xs.length < max (n + 1) (3 * n / 2)) :
    ∃ a, Auto.inserts inv hash junk (Auto.new inv junk n) xs = .ok a ∧
      Lookups inv hash a.b.t (fun k => (xs.find? (fun x => x.1 == k)).map Prod.snd) := by
  have he := agree_empty inv hash junk (max (n + 1) (3 * n / 2)) (by omega)
  have hu : used inv (List.replicate (max (n + 1) (3 * n / 2)) (inv, junk)) = 0 := he.used
  obtain ⟨t', h1, h2, h3, h4⟩ := inserts_spec inv hash junk (6 * n / 5) (by omega) xs _ _ he.rep
    (by simp only [List.length_replicate]; omega) (fun x h => ⟨hx x h, rfl⟩) hnd
  refine ⟨_, h1, ?_⟩
  simp only [List.length_replicate] at h4
  have hm : xs.foldl (fun (m : K → Option V) x => Function.update m x.1 (some x.2)) (fun _ => none) =
      fun k => (xs.find? (fun x => x.1 == k)).map Prod.snd := by
    funext k
    rw [foldl_update _ _ hnd]
    cases xs.find? (fun x => x.1 == k) <;> rfl
  rw [← hm]
  exact fun k hk => find_spec h2 (by simp only at *; omega) k hk

theorem probe_none {R : Type _} (N : Nat) (stop : Nat → Option R) (n h : Nat) (hN : h < N)
    (hs : ∀ i < N, stop i = none) : probe N stop n h = none := by
  induction n generalizing h with
  | zero => rfl
  | succ n ih =>
    unfold probe
    rw [hs h hN]
    exact ih _ (by split <;> omega)

theorem all_occ {inv : K} {t : List (K × V)} (h : used inv t = t.length) (i : Nat) (hi : i < t.length) :
    ∃ e, t[i]? = some e ∧ e.1 ≠ inv := by
  refine ⟨t[i], List.getElem?_eq_getElem hi, ?_⟩
  have := List.countP_eq_length.mp h _ (List.getElem_mem hi)
  simpa [valid] using this

/-- **C50 fails for `Insert`.**  For every initial size, every hash function and any distinct keys: after as many
insertions as there are buckets the next `Insert`, whatever its key, does not return; neither does the lookup of a
key that is not in the table. -/
theorem C50_insert_fails (inv : K) (hash : K → Nat) (junk : V) (n : Nat) (hn : 0 < n) (xs : List (K × V))
    (hx : ∀ x ∈ xs, x.1 ≠ inv) (hnd : (xs.map Prod.fst).Nodup) (hlen : xs.length = max (n + 1) (3 * n / 2)) :
    ∃ a, Auto.inserts inv hash junk (Auto.new inv junk n) xs = .ok a ∧
      (∀ x, a.insert inv hash junk x = .diverge) ∧
      ∀ k, k ≠ inv → k ∉ xs.map Prod.fst → find inv hash a.b.t k = none := by
  have he := agree_empty inv hash junk (max (n + 1) (3 * n / 2)) (by omega)
  have hu : used inv (List.replicate (max (n + 1) (3 * n / 2)) (inv, junk)) = 0 := he.used
  obtain ⟨t', h1, h2, h3, h4⟩ := inserts_spec inv hash junk (6 * n / 5) (by omega) xs _ _ he.rep
    (by simp only [List.length_replicate]; omega) (fun x h => ⟨hx x h, rfl⟩) hnd
  simp only [List.length_replicate] at h4
  simp only [hu] at h3
  have hfull : used inv t' = t'.length := by omega
  refine ⟨_, h1, fun x => ?_, fun k hk hkx => ?_⟩
  · unfold Auto.insert Auto.doubleIfNeeded
    have hthr : 0 < 6 * n / 5 := by omega
    simp only [hthr, if_true]
    unfold uncheckedInsert
    rw [probe_none _ _ _ _ (Nat.mod_lt _ (by omega))]
    · rfl
    · intro i hi
      obtain ⟨e, h5, h6⟩ := all_occ hfull i hi
      simp only [h5, h6, if_false]
  · unfold find
    simp only
    rw [probe_none _ _ _ _ (Nat.mod_lt _ (by omega))]
    intro i hi
    obtain ⟨e, h5, h6⟩ := all_occ hfull i hi
    have : e.1 ≠ k := by
      rintro rfl
      have hm := (h2.holds e.1 e.2 hk).mpr ⟨i, h5⟩
      rw [foldl_update _ _ hnd] at hm
      have hnone : xs.find? (fun x => x.1 == e.1) = none := by
        rw [List.find?_eq_none]
        intro y hy hye
        simp only [beq_iff_eq] at hye
        exact hkx (hye ▸ List.mem_map_of_mem hy)
      rw [hnone] at hm; cases hm
    simp only [h5, h6, this, if_false]

/-- Non-vacuity: a table that starts with two buckets takes five keys by `FindOrInsert` (it grows twice). -/
example : ∃ a, Auto.run 0 id 0 (Auto.new 0 0 1) [.findOrInsert 1 10, .findOrInsert 3 30, .findOrInsert 1 11,
      .findOrInsert 5 50, .findOrInsert 7 70, .findOrInsert 8 80] =
    .ok ([false, false, true, false, false, false], a) ∧ a.b.t.length = 16 ∧ a.b.entries = 5 := by
  refine ⟨_, rfl, ?_, ?_⟩ <;> decide

/-- The default table (initial size 10) hangs at the sixteenth insertion. -/
example : (Auto.inserts 0 id 0 (Auto.new 0 0 10) ((List.range 15).map fun i => (i + 1, i))) ≠ .diverge ∧
    Auto.inserts 0 id 0 (Auto.new 0 0 10) ((List.range 16).map fun i => (i + 1, i)) = .diverge := by decide

end Cdec.Klm
