import Verif.Klm.Probing
import Mathlib.Tactic.ByContra
import Mathlib.Data.Nat.Find
import Mathlib.Logic.Function.Basic
/-!
# Lemmas about linear probing tables
-/
namespace Cdec.Klm

variable {K V : Type _} [DecidableEq K]

def occ (inv : K) (t : List (K × V)) (p : Nat) : Prop := ∃ e, t[p]? = some e ∧ e.1 ≠ inv
def free (inv : K) (t : List (K × V)) (p : Nat) : Prop := ∃ e, t[p]? = some e ∧ e.1 = inv

/-- Every bucket between the ideal position of an entry and its position is in use. -/
def Path (inv : K) (hash : K → Nat) (t : List (K × V)) (p : Nat) (k : K) : Prop :=
  ∃ d < t.length, p = (hash k % t.length + d) % t.length ∧
    ∀ c < d, occ inv t ((hash k % t.length + c) % t.length)

def Paths (inv : K) (hash : K → Nat) (t : List (K × V)) : Prop :=
  ∀ (p : Nat) (e : K × V), t[p]? = some e → e.1 ≠ inv → Path inv hash t p e.1

def Uniq (inv : K) (t : List (K × V)) : Prop :=
  ∀ (p q : Nat) (e e' : K × V), t[p]? = some e → t[q]? = some e' → e.1 = e'.1 → e.1 ≠ inv → p = q

/-- The entries of the table are the graph of `m`. -/
def Holds (inv : K) (t : List (K × V)) (m : K → Option V) : Prop :=
  ∀ k v, k ≠ inv → (m k = some v ↔ ∃ p : Nat, t[p]? = some (k, v))

def valid (inv : K) (e : K × V) : Bool := decide (e.1 ≠ inv)

def used (inv : K) (t : List (K × V)) : Nat := t.countP (valid inv)

theorem occ_or_free (inv : K) (t : List (K × V)) (p : Nat) (hp : p < t.length) : occ inv t p ∨ free inv t p := by
  have h := List.getElem?_eq_getElem hp
  by_cases he : t[p].1 = inv
  · exact Or.inr ⟨_, h, he⟩
  · exact Or.inl ⟨_, h, he⟩

theorem not_occ_of_free {inv : K} {t : List (K × V)} {p : Nat} (h : free inv t p) : ¬ occ inv t p := by
  rintro ⟨e, h1, h2⟩
  obtain ⟨e', h3, h4⟩ := h
  rw [h1] at h3; cases h3; exact h2 h4

theorem probe_spec {R : Type _} (N : Nat) (stop : Nat → Option R) (d n h : Nat) (r : R) (hN : h < N) (hd : d < n)
    (h1 : stop ((h + d) % N) = some r) (h2 : ∀ c < d, stop ((h + c) % N) = none) :
    probe N stop n h = some r := by
  induction d generalizing n h with
  | zero =>
    obtain ⟨m, rfl⟩ := Nat.exists_eq_succ_of_ne_zero (show n ≠ 0 by omega)
    unfold probe
    rw [Nat.add_zero, Nat.mod_eq_of_lt hN] at h1
    rw [h1]
  | succ d ih =>
    obtain ⟨m, rfl⟩ := Nat.exists_eq_succ_of_ne_zero (show n ≠ 0 by omega)
    unfold probe
    have h0 := h2 0 (by omega)
    rw [Nat.add_zero, Nat.mod_eq_of_lt hN] at h0
    rw [h0]
    have hnext : ∀ c, ((if h + 1 = N then 0 else h + 1) + c) % N = (h + (c + 1)) % N := by
      intro c
      split
      · rename_i hh
        rw [show h + (c + 1) = N + c by omega, Nat.add_mod_left, Nat.zero_add]
      · congr 1; omega
    apply ih
    · split <;> omega
    · omega
    · rw [hnext]; exact h1
    · intro c hc; rw [hnext]; exact h2 (c + 1) (by omega)

theorem least (P : Nat → Prop) (d : Nat) (h : P d) : ∃ e ≤ d, P e ∧ ∀ c < e, ¬ P c := by
  classical
  exact ⟨Nat.find ⟨d, h⟩, Nat.find_min' ⟨d, h⟩ h, Nat.find_spec ⟨d, h⟩, fun c hc => Nat.find_min ⟨d, h⟩ hc⟩

/-- Any position can be reached from any other going round. -/
theorem reach (N h p : Nat) (hh : h < N) (hp : p < N) : ∃ d < N, (h + d) % N = p := by
  by_cases hc : h ≤ p
  · exact ⟨p - h, by omega, by rw [show h + (p - h) = p by omega, Nat.mod_eq_of_lt hp]⟩
  · refine ⟨N - h + p, by omega, ?_⟩
    rw [show h + (N - h + p) = N + p by omega, Nat.add_mod_left, Nat.mod_eq_of_lt hp]

theorem uncheckedInsert_spec (inv : K) (hash : K → Nat) (t : List (K × V)) (x : K × V) (df : Nat)
    (hN : 0 < t.length) (hdf : df < t.length) (hf : free inv t ((hash x.1 % t.length + df) % t.length)) :
    ∃ d ≤ df, free inv t ((hash x.1 % t.length + d) % t.length) ∧
      (∀ c < d, occ inv t ((hash x.1 % t.length + c) % t.length)) ∧
      uncheckedInsert inv hash t x = some (t.set ((hash x.1 % t.length + d) % t.length) x) := by
  obtain ⟨d, hd, h1, h2⟩ := least (fun d => free inv t ((hash x.1 % t.length + d) % t.length)) df hf
  have h2' : ∀ c < d, occ inv t ((hash x.1 % t.length + c) % t.length) := fun c hc =>
    (occ_or_free inv t _ (Nat.mod_lt _ hN)).resolve_right (h2 c hc)
  refine ⟨d, hd, h1, h2', ?_⟩
  unfold uncheckedInsert
  rw [probe_spec t.length _ d t.length (hash x.1 % t.length) ((hash x.1 % t.length + d) % t.length)
    (Nat.mod_lt _ hN) (by omega)]
  · rfl
  · obtain ⟨e, he, hi⟩ := h1
    simp only [he, hi, if_true]
  · intro c hc
    obtain ⟨e, he, hi⟩ := h2' c hc
    simp only [he, hi, if_false]

theorem getElem?_set_of_lt (t : List (K × V)) (q p : Nat) (x : K × V) (hq : q < t.length) :
    (t.set q x)[p]? = if q = p then some x else t[p]? := by
  rw [List.getElem?_set]
  split <;> simp [hq]

theorem occ_set (inv : K) (t : List (K × V)) (q : Nat) (x : K × V) (hq : q < t.length) (hx : x.1 ≠ inv) (p : Nat) :
    occ inv (t.set q x) p ↔ p = q ∨ occ inv t p := by
  unfold occ
  rw [getElem?_set_of_lt t q p x hq]
  constructor
  · rintro ⟨e, he, h⟩
    split at he
    · rename_i h'; exact Or.inl h'.symm
    · exact Or.inr ⟨e, he, h⟩
  · rintro (rfl | ⟨e, he, h⟩)
    · exact ⟨x, by simp, hx⟩
    · split
      · exact ⟨x, rfl, hx⟩
      · exact ⟨e, he, h⟩

theorem holds_insert {inv : K} {t : List (K × V)} {m : K → Option V} (hm : Holds inv t m) {q : Nat} {k : K} {v : V}
    (hk : k ≠ inv) (hq : free inv t q) (hn : m k = none) :
    Holds inv (t.set q (k, v)) (Function.update m k (some v)) := by
  obtain ⟨e, he, hi⟩ := hq
  have hq : q < t.length := (List.getElem?_eq_some_iff.mp he).1
  intro k' v' hk'
  by_cases h : k' = k
  · subst h
    rw [Function.update_self]
    constructor
    · intro hv; cases hv; exact ⟨q, by rw [getElem?_set_of_lt _ _ _ _ hq]; simp⟩
    · rintro ⟨p, hp⟩
      rw [getElem?_set_of_lt _ _ _ _ hq] at hp
      split at hp
      · cases hp; rfl
      · have := (hm k' v' hk').mpr ⟨p, hp⟩
        rw [hn] at this; cases this
  · rw [Function.update_of_ne h, hm k' v' hk']
    constructor
    · rintro ⟨p, hp⟩
      refine ⟨p, ?_⟩
      rw [getElem?_set_of_lt _ _ _ _ hq, if_neg, hp]
      rintro rfl
      rw [hp] at he; cases he; exact hk' hi
    · rintro ⟨p, hp⟩
      rw [getElem?_set_of_lt _ _ _ _ hq] at hp
      split at hp
      · cases hp; exact absurd rfl h
      · exact ⟨p, hp⟩

theorem uniq_insert {inv : K} {t : List (K × V)} {m : K → Option V} (hm : Holds inv t m) (hu : Uniq inv t)
    {q : Nat} {k : K} {v : V} (hk : k ≠ inv) (hq : q < t.length) (hn : m k = none) :
    Uniq inv (t.set q (k, v)) := by
  have hnot : ∀ (p : Nat) (e : K × V), t[p]? = some e → e.1 ≠ k := by
    intro p e he hek
    have := (hm k e.2 hk).mpr ⟨p, by rw [he, ← hek]⟩
    rw [hn] at this; cases this
  intro p p' e e' h1 h2 h3 h4
  rw [getElem?_set_of_lt _ _ _ _ hq] at h1 h2
  split at h1 <;> split at h2
  · rename_i a b; rw [← a, ← b]
  · cases h1; exact absurd h3.symm (hnot _ _ h2)
  · cases h2; exact absurd h3 (hnot _ _ h1)
  · exact hu _ _ _ _ h1 h2 h3 h4

theorem used_insert {inv : K} {t : List (K × V)} {q : Nat} {x : K × V} (hx : x.1 ≠ inv) (hq : free inv t q) :
    used inv (t.set q x) = used inv t + 1 := by
  obtain ⟨e, he, hi⟩ := hq
  obtain ⟨hq, rfl⟩ := List.getElem?_eq_some_iff.mp he
  unfold used
  rw [List.countP_set hq]
  simp [valid, hi, hx]

theorem holds_remove {inv : K} {t : List (K × V)} {m : K → Option V} (hm : Holds inv t m) (hu : Uniq inv t)
    {q : Nat} {k : K} {v w : V} (hk : k ≠ inv) (hq : t[q]? = some (k, v)) :
    Holds inv (t.set q (inv, w)) (Function.update m k none) := by
  have hql : q < t.length := (List.getElem?_eq_some_iff.mp hq).1
  intro k' v' hk'
  by_cases h : k' = k
  · subst h
    rw [Function.update_self]
    constructor
    · intro hv; cases hv
    · rintro ⟨p, hp⟩
      rw [getElem?_set_of_lt _ _ _ _ hql] at hp
      split at hp
      · cases hp; exact absurd rfl hk
      · rename_i hne
        exact absurd (hu _ _ _ _ hq hp rfl hk) hne
  · rw [Function.update_of_ne h, hm k' v' hk']
    constructor
    · rintro ⟨p, hp⟩
      refine ⟨p, ?_⟩
      rw [getElem?_set_of_lt _ _ _ _ hql, if_neg, hp]
      rintro rfl
      rw [hp] at hq; cases hq; exact h rfl
    · rintro ⟨p, hp⟩
      rw [getElem?_set_of_lt _ _ _ _ hql] at hp
      split at hp
      · cases hp; exact absurd rfl hk'
      · exact ⟨p, hp⟩

theorem uniq_remove {inv : K} {t : List (K × V)} (hu : Uniq inv t) {q : Nat} {w : V} (hq : q < t.length) :
    Uniq inv (t.set q (inv, w)) := by
  intro p p' e e' h1 h2 h3 h4
  rw [getElem?_set_of_lt _ _ _ _ hq] at h1 h2
  split at h1 <;> split at h2
  · rename_i a b; rw [← a, ← b]
  · cases h1; exact absurd rfl h4
  · cases h2; exact absurd h3 h4
  · exact hu _ _ _ _ h1 h2 h3 h4

theorem used_remove {inv : K} {t : List (K × V)} {q : Nat} {x : K × V} {w : V} (hx : x.1 ≠ inv)
    (hq : t[q]? = some x) : used inv (t.set q (inv, w)) + 1 = used inv t := by
  obtain ⟨hql, rfl⟩ := List.getElem?_eq_some_iff.mp hq
  unfold used
  rw [List.countP_set hql]
  have hpos : 0 < t.countP (valid inv) := List.countP_pos_iff.mpr ⟨t[q], List.getElem_mem hql, by simp [valid, hx]⟩
  simp [valid, hx]
  change List.countP (valid inv) t - 1 + 1 = _
  omega

theorem exists_free {inv : K} {t : List (K × V)} (h : used inv t < t.length) : ∃ p < t.length, free inv t p := by
  by_contra hc
  have : used inv t = t.length := by
    unfold used
    rw [List.countP_eq_length]
    intro e he
    obtain ⟨p, hp, rfl⟩ := List.mem_iff_getElem.mp he
    have h1 := (occ_or_free inv t p hp).resolve_right (fun hf => hc ⟨p, hp, hf⟩)
    obtain ⟨e, h2, h3⟩ := h1
    rw [List.getElem?_eq_getElem hp] at h2; cases h2
    simp [valid, h3]
  omega

/-- The invariant of a table that represents `m`. -/
structure Rep (inv : K) (hash : K → Nat) (t : List (K × V)) (m : K → Option V) : Prop where
  paths : Paths inv hash t
  uniq : Uniq inv t
  holds : Holds inv t m

theorem rep_uncheckedInsert {inv : K} {hash : K → Nat} {t : List (K × V)} {m : K → Option V}
    (hr : Rep inv hash t m) (hf : used inv t < t.length) (k : K) (v : V) (hk : k ≠ inv) (hn : m k = none) :
    ∃ t', uncheckedInsert inv hash t (k, v) = some t' ∧ Rep inv hash t' (Function.update m k (some v)) ∧
      used inv t' = used inv t + 1 ∧ t'.length = t.length := by
  have hN : 0 < t.length := by omega
  obtain ⟨p, hp, hfp⟩ := exists_free hf
  obtain ⟨df, hdf, hd⟩ := reach t.length (hash k % t.length) p (Nat.mod_lt _ hN) hp
  obtain ⟨d, hle, h1, h2, h3⟩ := uncheckedInsert_spec inv hash t (k, v) df hN hdf (by rw [hd]; exact hfp)
  have hq := Nat.mod_lt (hash k % t.length + d) hN
  refine ⟨_, h3, ⟨?_, ?_, holds_insert hr.holds hk h1 hn⟩, used_insert hk h1, List.length_set⟩
  · intro p e he hei
    rw [getElem?_set_of_lt _ _ _ _ hq] at he
    unfold Path
    rw [List.length_set]
    split at he
    · rename_i hqp
      cases he
      refine ⟨d, by omega, hqp.symm, fun c hc => ?_⟩
      rw [occ_set inv t _ _ hq hk]
      exact Or.inr (h2 c hc)
    · obtain ⟨d', a, b, c⟩ := hr.paths p e he hei
      refine ⟨d', a, b, fun c' hc' => ?_⟩
      rw [occ_set inv t _ _ hq hk]
      exact Or.inr (c c' hc')
  · exact uniq_insert hr.holds hr.uniq hk hq hn

theorem find_spec {inv : K} {hash : K → Nat} {t : List (K × V)} {m : K → Option V}
    (hr : Rep inv hash t m) (hf : used inv t < t.length) (k : K) (hk : k ≠ inv) :
    (∀ v, m k = some v → ∃ p, find inv hash t k = some (some p) ∧ t[p]? = some (k, v)) ∧
    (m k = none → find inv hash t k = some none) := by
  have hN : 0 < t.length := by omega
  constructor
  · intro v hv
    obtain ⟨p, hp⟩ := (hr.holds k v hk).mp hv
    refine ⟨p, ?_, hp⟩
    obtain ⟨d, hd, h1, h2⟩ := hr.paths p (k, v) hp hk
    unfold find
    apply probe_spec t.length _ d t.length _ _ (Nat.mod_lt _ hN) hd
    · simp only at h1
      rw [← h1, hp]; simp
    · intro c hc
      obtain ⟨e, he, hei⟩ := h2 c hc
      simp only at he
      simp only [he, hei, if_false]
      rw [if_neg]
      intro hek
      have hl : (hash k % t.length + c) % t.length = p := hr.uniq _ _ _ _ he hp hek hei
      rw [h1] at hl
      have hh := Nat.mod_lt (hash k) hN
      simp only at hl
      -- c < d < N
      by_cases ha : hash k % t.length + d < t.length
      · rw [Nat.mod_eq_of_lt ha, Nat.mod_eq_of_lt (by omega)] at hl; omega
      · rw [Nat.mod_eq_sub_mod (a := hash k % t.length + d) (by omega),
          Nat.mod_eq_of_lt (a := hash k % t.length + d - t.length) (by omega)] at hl
        by_cases hb : hash k % t.length + c < t.length
        · rw [Nat.mod_eq_of_lt hb] at hl; omega
        · rw [Nat.mod_eq_sub_mod (by omega), Nat.mod_eq_of_lt (by omega)] at hl; omega
  · intro hn
    obtain ⟨p, hp, hfp⟩ := exists_free hf
    obtain ⟨df, hdf, hd⟩ := reach t.length (hash k % t.length) p (Nat.mod_lt _ hN) hp
    obtain ⟨d, hle, h1, h2⟩ := least (fun d => free inv t ((hash k % t.length + d) % t.length)) df
      (by simp only [hd]; exact hfp)
    have hno : ∀ (p : Nat) (e : K × V), t[p]? = some e → e.1 ≠ k := by
      intro p e he hek
      have := (hr.holds k e.2 hk).mpr ⟨p, by rw [he, ← hek]⟩
      rw [hn] at this; cases this
    unfold find
    apply probe_spec t.length _ d t.length _ _ (Nat.mod_lt _ hN) (by omega)
    · obtain ⟨e, he, hei⟩ := h1
      simp only [he, hei, if_true, if_neg (hei ▸ hno _ _ he)]
    · intro c hc
      obtain ⟨e, he, hei⟩ := (occ_or_free inv t _ (Nat.mod_lt _ hN)).resolve_right (h2 c hc)
      simp only [he, hei, if_false, if_neg (hno _ _ he)]

end Cdec.Klm
