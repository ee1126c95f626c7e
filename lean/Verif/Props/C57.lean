import Verif.HG.FFSet
import Mathlib.Algebra.Order.BigOperators.Group.List
import Mathlib.Data.List.Induction
import Mathlib.Tactic.ByContra
/-! # C57: layout of feature-function states -/
namespace Cdec.HG

/-- Byte `b` is an ignored byte of model `k`: one of the last `ignored` bytes of its region. -/
def IgnoredByte (ms : List FFSize) (l : Layout) (k b : Nat) : Prop :=
  ∃ m, ms[k]? = some m ∧ ∃ p, l.pos[k]? = some p ∧ p + m.size - m.ignored ≤ b ∧ b < p + m.size

theorem layout_append (ms : List FFSize) (m : FFSize) : layout (ms ++ [m]) = (layout ms).add m := by
  simp [layout]

/-- C57, regions: there is one region per model, all inside the state buffer, and regions of different models
are disjoint (an earlier model's region ends before a later model's begins); together they fill the buffer. -/
theorem C57_regions (ms : List FFSize) :
    (layout ms).pos.length = ms.length ∧ (layout ms).stateSize = (ms.map FFSize.size).sum ∧
    (∀ (k p : Nat) (m : FFSize), (layout ms).pos[k]? = some p → ms[k]? = some m → p + m.size ≤ (layout ms).stateSize) ∧
    (∀ (k k' p p' : Nat) (m : FFSize), k < k' → (layout ms).pos[k]? = some p → (layout ms).pos[k']? = some p' → ms[k]? = some m →
      p + m.size ≤ p') := by
  induction ms using List.reverseRecOn with
  | nil => simp [layout]
  | append_singleton ms m ih =>
    obtain ⟨h1, h2, h3, h4⟩ := ih
    rw [layout_append]
    generalize layout ms = l at *
    refine ⟨by simp [Layout.add, h1], by simp [Layout.add, h2], ?_, ?_⟩
    · intro k p m' hp hm
      simp only [Layout.add] at hp ⊢
      by_cases hk : k < ms.length
      · rw [List.getElem?_append_left (by omega)] at hp hm
        have := h3 k p m' hp hm
        omega
      · rw [List.getElem?_append_right (by omega)] at hp hm
        have hk' : k = ms.length := by
          by_contra hne
          rw [List.getElem?_eq_none (by simp; omega)] at hm
          cases hm
        subst hk'
        simp [h1] at hp hm
        subst hm; omega
    · intro k k' p p' m' hkk hp hp' hm
      simp only [Layout.add] at hp hp'
      have hk'l : k' < ms.length + 1 := by
        have := (List.getElem?_eq_some_iff.1 hp').1
        simp [h1] at this; exact this
      have hk : k < ms.length := by omega
      rw [List.getElem?_append_left (by omega)] at hp hm
      by_cases hk' : k' < ms.length
      · rw [List.getElem?_append_left (by omega)] at hp'
        exact h4 k k' p p' m' hkk hp hp' hm
      · rw [List.getElem?_append_right (by omega)] at hp'
        have : k' = ms.length := by omega
        subst this
        simp [h1] at hp'
        have := h3 k p m' hp hm
        omega

theorem zero_range (s : List UInt8) (a n : Nat) (h : a + n ≤ s.length) :
    ∃ s', ((List.range n).map fun k : Nat => (a : Int) + (k : Int)).foldlM zeroAt s = some s' ∧ s'.length = s.length ∧
      ∀ b, s'[b]? = if a ≤ b ∧ b < a + n then some 0 else s[b]? := by
  induction n with
  | zero => exact ⟨s, rfl, rfl, fun b => by rw [if_neg (by omega)]⟩
  | succ n ih =>
    obtain ⟨s', h1, h2, h3⟩ := ih (by omega)
    rw [List.range_succ, List.map_append, List.foldlM_append, h1]
    have hz : zeroAt s' ((a : Int) + (n : Int)) = some (s'.set (a + n) 0) := by
      unfold zeroAt
      rw [if_pos (by omega)]
      congr 2
    refine ⟨s'.set (a + n) 0, ?_, by simpa using h2, fun b => ?_⟩
    · simp [List.foldlM_cons, hz]
    · by_cases hb : b = a + n
      · subst hb
        rw [List.getElem?_set_self (by omega), if_pos (by omega)]
      · rw [List.getElem?_set_ne (by omega), h3 b]
        by_cases hc : a ≤ b ∧ b < a + n
        · rw [if_pos hc, if_pos (by omega)]
        · rw [if_neg hc, if_neg (by omega)]

theorem intRange_nat (s : Nat) (n : Nat) (h : n ≤ s) :
    intRange ((s : Int) - n) s = (List.range n).map fun k : Nat => ((s - n : Nat) : Int) + (k : Int) := by
  unfold intRange
  have : ((s : Int) - ((s : Int) - n)).toNat = n := by omega
  rw [this]
  apply List.map_congr_left
  intro k _
  omega

theorem erase_spec (ms : List FFSize) (hig : ∀ m ∈ ms, m.ignored ≤ m.size) (s : List UInt8)
    (hs : (layout ms).stateSize ≤ s.length) :
    ∃ s', eraseIgnored (layout ms) s = some s' ∧ s'.length = s.length ∧
      ∀ b, ((∃ k, IgnoredByte ms (layout ms) k b) → s'[b]? = some 0) ∧
           ((¬ ∃ k, IgnoredByte ms (layout ms) k b) → s'[b]? = s[b]?) := by
  induction ms using List.reverseRecOn with
  | nil =>
    refine ⟨s, by simp [layout, eraseIgnored], rfl, fun b => ⟨?_, fun _ => rfl⟩⟩
    rintro ⟨k, m, hm, _⟩
    simp at hm
  | append_singleton ms m ih =>
    rw [layout_append] at hs ⊢
    obtain ⟨hlen, _, _, _⟩ := C57_regions ms
    have hs' : (layout ms).stateSize ≤ s.length := by simp only [Layout.add] at hs; omega
    obtain ⟨s1, h1, h2, h3⟩ := ih (fun m' hm => hig m' (by simp [hm])) hs'
    have him : m.ignored ≤ m.size := hig m (by simp)
    generalize layout ms = l at *
    -- ignored bytes of the extended layout
    have hig' : ∀ b, (∃ k, IgnoredByte (ms ++ [m]) (l.add m) k b) ↔
        ((∃ k, IgnoredByte ms l k b) ∨ (l.stateSize + m.size - m.ignored ≤ b ∧ b < l.stateSize + m.size)) := by
      intro b
      constructor
      · rintro ⟨k, m', hm, p, hp, hb1, hb2⟩
        simp only [Layout.add] at hp
        by_cases hk : k < ms.length
        · rw [List.getElem?_append_left (by omega)] at hp hm
          exact .inl ⟨k, m', hm, p, hp, hb1, hb2⟩
        · rw [List.getElem?_append_right (by omega)] at hp hm
          have hk' : k = ms.length := by
            by_contra hne
            rw [List.getElem?_eq_none (by simp; omega)] at hm
            cases hm
          subst hk'
          simp [hlen] at hp hm
          subst hm; subst hp
          exact .inr ⟨hb1, hb2⟩
      · rintro (⟨k, m', hm, p, hp, hb1, hb2⟩ | ⟨hb1, hb2⟩)
        · have hk : k < ms.length := (List.getElem?_eq_some_iff.1 hm).1
          refine ⟨k, m', ?_, p, ?_, hb1, hb2⟩
          · rw [List.getElem?_append_left hk]; exact hm
          · simp only [Layout.add]
            rw [List.getElem?_append_left (by omega)]; exact hp
        · refine ⟨ms.length, m, by simp, l.stateSize, ?_, hb1, hb2⟩
          simp only [Layout.add]
          rw [List.getElem?_append_right (by omega)]; simp [hlen]
    by_cases h0 : 0 < m.ignored
    · have hsz : l.stateSize + m.size ≤ s.length := by simpa [Layout.add] using hs
      obtain ⟨s2, g1, g2, g3⟩ := zero_range s1 (l.stateSize + m.size - m.ignored) m.ignored (by omega)
      refine ⟨s2, ?_, by omega, fun b => ?_⟩
      · unfold eraseIgnored at h1 ⊢
        simp only [Layout.add, if_pos h0, List.foldlM_append, h1]
        simp only [List.foldlM_cons, List.foldlM_nil]
        change ((intRange _ _).foldlM zeroAt s1).bind _ = _
        rw [intRange_nat _ _ (by omega), g1]
        rfl
      · rw [hig' b, g3 b]
        constructor
        · intro h
          split
          · rfl
          · rename_i hn
            rcases h with h | h
            · exact (h3 b).1 h
            · exact absurd h (by omega)
        · intro h
          rw [if_neg (fun hc => h (.inr (by omega)))]
          exact (h3 b).2 fun hc => h (.inl hc)
    · refine ⟨s1, ?_, h2, fun b => ?_⟩
      · unfold eraseIgnored at h1 ⊢
        simp only [Layout.add, if_neg h0, h1]
      · rw [hig' b]
        constructor
        · rintro (h | h)
          · exact (h3 b).1 h
          · exact absurd h (by omega)
        · intro h
          exact (h3 b).2 fun hc => h (.inl hc)

/-- C57, erasing: for feature functions whose ignored part is not larger than their state, on every state buffer of
the right size, EraseIgnoredBytes stays inside the buffer, sets every ignored byte to zero and leaves every
other byte as it was. -/
theorem C57_erase (ms : List FFSize) (hig : ∀ m ∈ ms, m.ignored ≤ m.size) (s : List UInt8)
    (hs : s.length = (layout ms).stateSize) :
    ∃ s', eraseIgnored (layout ms) s = some s' ∧ s'.length = s.length ∧
      ∀ b, ((∃ k, IgnoredByte ms (layout ms) k b) → s'[b]? = some 0) ∧
           ((¬ ∃ k, IgnoredByte ms (layout ms) k b) → s'[b]? = s[b]?) :=
  erase_spec ms hig s (by omega)

/-- Non-vacuity: three models, the second without state, the third with two ignored bytes. -/
example : (layout [⟨2, 1⟩, ⟨0, 0⟩, ⟨3, 2⟩]).pos = [0, 2, 2] ∧
    eraseIgnored (layout [⟨2, 1⟩, ⟨0, 0⟩, ⟨3, 2⟩]) [1, 2, 3, 4, 5] = some [1, 0, 3, 0, 0] := by decide

end Cdec.HG
