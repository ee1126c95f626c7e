import Verif.Klm.Packed
/-!
# Lemmas about the packed tables
-/
namespace Cdec.Klm.Packed
open Cdec.Klm

/-! ## Memory -/

/-- The bits of a field are those that the call stores. -/
def Has (m : Mem) (w : Write) : Prop := ∀ i, i < w.len → bit m (w.off + i) = w.payload i

theorem run_frame {w : Write} (h : w.ok) (m : Mem) {j : Nat} (hj : j < w.off ∨ w.off + w.len ≤ j) : bit (w.run m) j = bit m j := by
  rw [Write.bit_run m w h]
  rcases hj with hj | hj
  · have : ¬ w.off ≤ j := by omega
    simp [this]
  · rw [Write.payload_ge w h _ (by omega)]; simp

theorem has_run {w : Write} (h : w.ok) {m : Mem} (hz : ∀ j, w.off ≤ j → j < w.off + w.len → bit m j = false) : Has (w.run m) w := by
  intro i hi
  rw [Write.bit_run m w h, hz _ (by omega) (by omega)]
  have : w.off + i - w.off = i := by omega
  simp [this]

theorem has_congr {m m' : Mem} {w : Write} (h : Has m w) (e : ∀ j, w.off ≤ j → j < w.off + w.len → bit m' j = bit m j) : Has m' w := by
  intro i hi; rw [e _ (by omega) (by omega)]; exact h i hi

theorem bits_of_bytes {m m' : Mem} {j : Nat} (h : m' (j / 8) = m (j / 8)) : bit m' j = bit m j := by unfold bit; rw [h]

theorem byte_of_bits {m m' : Mem} {x : Nat} (h : ∀ j, 8 * x ≤ j → j < 8 * x + 8 → bit m' j = bit m j) : m' x = m x := by
  apply BitVec.eq_of_getLsbD_eq
  intro i hi
  have := h (8 * x + i) (by omega) (by omega)
  unfold bit at this
  have h1 : (8 * x + i) / 8 = x := by omega
  have h2 : (8 * x + i) % 8 = i := by omega
  rwa [h1, h2] at this

theorem load64_congr {m m' : Mem} {a : Nat} (h : ∀ j, 8 * a ≤ j → j < 8 * a + 64 → bit m' j = bit m j) : load64 m' a = load64 m a := by
  apply BitVec.eq_of_getLsbD_eq
  intro i hi
  rw [getLsbD_load64 _ _ _ hi, getLsbD_load64 _ _ _ hi, h _ (by omega) (by omega)]

theorem load64_store64 (m : Mem) (a : Nat) (v : BitVec 64) : load64 (store64 m a v) a = v := by
  apply BitVec.eq_of_getLsbD_eq
  intro i hi
  rw [getLsbD_load64 _ _ _ hi, bit_store64, if_pos (by omega)]
  congr 1; omega

theorem bit_store8 (m : Mem) (a : Nat) (v : BitVec 8) {j : Nat} (h : j / 8 ≠ a) : bit (store8 m a v) j = bit m j := by
  unfold bit store8; rw [if_neg h]

theorem run_all_frame {ws : List Write} (hok : ∀ w ∈ ws, w.ok) : ∀ (m : Mem) {j : Nat}, (∀ w ∈ ws, j < w.off ∨ w.off + w.len ≤ j) → bit (ws.foldl Write.run m) j = bit m j :=
  fun m j hj => C48_frame ws m hok j hj

theorem has_run_all {ws : List Write} (hok : ∀ w ∈ ws, w.ok) (hd : ws.Pairwise Write.disj) : ∀ (m : Mem), (∀ w ∈ ws, ∀ j, w.off ≤ j → j < w.off + w.len → bit m j = false) →
    ∀ w ∈ ws, Has (ws.foldl Write.run m) w := by
  induction ws with
  | nil => intro m _ w hw; cases hw
  | cons w ws ih =>
    intro m hz x hx
    obtain ⟨hd1, hd2⟩ := List.pairwise_cons.mp hd
    have hok' : ∀ y ∈ ws, y.ok := fun y hy => hok y (List.mem_cons_of_mem _ hy)
    rw [List.foldl_cons]
    rcases List.mem_cons.mp hx with rfl | hx
    · apply has_congr (has_run (hok x List.mem_cons_self) (hz x List.mem_cons_self))
      intro j h1 h2
      apply run_all_frame hok'
      intro y hy
      have := hd1 y hy
      unfold Write.disj at this; omega
    · refine ih hok' hd2 _ ?_ x hx
      intro y hy j h1 h2
      rw [run_frame (hok w List.mem_cons_self) m (by have := hd1 y hy; unfold Write.disj at this; omega)]
      exact hz y (List.mem_cons_of_mem _ hy) j h1 h2

/-! ## The layout -/

/-- The limits of the program: words are numbers of 32 bits (the last two are not used, for the search), trie.cc:71 for the sizes, and `pointer_bhiksha_bits` is a byte. -/
structure Table.Ok (t : Table) : Prop where
  vocab : t.vocab + 1 < 2 ^ 32
  entries : t.entries + 1 < 2 ^ 57
  maxNext : t.maxNext < 2 ^ 57
  bits : ∀ b, t.kind = .array b → b < 256

theorem required_le {n b : Nat} (h : n < 2 ^ b) : requiredBits n ≤ b := (C48_required_bits n).2 b fun v hv => by omega

theorem lt_required (n : Nat) : n < 2 ^ requiredBits n := (C48_required_bits n).1 n (Nat.le_refl n)

theorem Table.Ok.wordBits_le {t : Table} (h : t.Ok) : t.wordBits ≤ 32 := by
  have h1 := h.vocab
  exact required_le (by omega)

theorem Table.Ok.inline_le {t : Table} (h : t.Ok) : t.inlineBits ≤ 57 := by
  have h1 := required_le h.maxNext
  unfold Table.inlineBits
  split <;> omega

theorem Table.count_array {t : Table} {b : Nat} (h : t.kind = .array b) : t.count = (t.maxNext >>> t.inlineBits) + 1 := by
  unfold Table.count Table.inlineBits; rw [h]; rfl

theorem alignTo8_le (a : Nat) : a ≤ alignTo8 a ∧ alignTo8 a ≤ a + 7 ∧ alignTo8 a % 8 = 0 := by
  unfold alignTo8; split <;> omega

theorem Table.array_end {t : Table} {b : Nat} (h : t.kind = .array b) : t.base + 8 ≤ t.offsetBegin ∧ t.offsetBegin + 8 * t.count ≤ t.base + t.headSize := by
  have := alignTo8_le t.base
  unfold Table.headSize Table.offsetBegin
  rw [h]; dsimp only; omega

theorem Table.start_eq (t : Table) : t.start = 8 * t.base + 8 * t.headSize := by unfold Table.start; omega

theorem Table.end_le (t : Table) : t.start + (t.entries + 1) * t.totalBits + 64 ≤ 8 * (t.base + t.size) := by
  unfold Table.start Table.size
  have : (1 + t.entries) * t.totalBits = (t.entries + 1) * t.totalBits := by rw [Nat.add_comm]
  rw [this]; omega

/-! ## Filling the array -/

theorem bit_fill (t : Table) (index : Nat) : ∀ (n k : Nat) (m : Mem) (j : Nat), (j < 8 * (t.offsetBegin + 8 * k) ∨ 8 * (t.offsetBegin + 8 * (k + n)) ≤ j) → bit (fill t index k n m) j = bit m j
  | 0, _, _, _, _ => rfl
  | n + 1, k, m, j, h => by
    rw [fill, bit_fill t index n (k + 1) _ j (by omega), bit_store64, if_neg (by omega)]

theorem load_fill (t : Table) {index : Nat} (hi : index < 2 ^ 64) : ∀ (n k : Nat) (m : Mem) (k' : Nat), k ≤ k' → k' < k + n → t.offset (fill t index k n m) k' = index
  | 0, _, _, _, h1, h2 => by omega
  | n + 1, k, m, k', h1, h2 => by
    rw [fill]
    by_cases he : k' = k
    · subst he
      unfold Table.offset
      rw [load64_congr (m := store64 m (t.offsetBegin + 8 * k') (BitVec.ofNat 64 index)) (fun j h3 h4 => bit_fill t index n (k' + 1) _ j (by omega)), load64_store64, BitVec.toNat_ofNat,
        Nat.mod_eq_of_lt hi]
    · exact load_fill t hi n (k + 1) _ k' (by omega) (by omega)

/-! ## The array of high bits -/

/-- The elements `1`, …, `writeTo - 1` say where the high bits reach their number. -/
structure Offsets (t : Table) (m : Mem) (writeTo : Nat) (nexts : List Nat) : Prop where
  pos : writeTo = (nexts.getLast?.getD 0 >>> t.inlineBits) + 1
  elem : ∀ k, 1 ≤ k → k < writeTo → ∃ v, nexts[t.offset m k]? = some v ∧ k ≤ v >>> t.inlineBits ∧ ∀ i v', i < t.offset m k → nexts[i]? = some v' → v' >>> t.inlineBits < k

theorem shiftRight_mono {a b n : Nat} (h : a ≤ b) : a >>> n ≤ b >>> n := by
  rw [Nat.shiftRight_eq_div_pow, Nat.shiftRight_eq_div_pow]; exact Nat.div_le_div_right h

theorem Offsets.congr {t : Table} {m m' : Mem} {k : Nat} {ns : List Nat} (h : Offsets t m k ns)
    (e : ∀ i, 1 ≤ i → i < k → t.offset m' i = t.offset m i) : Offsets t m' k ns := by
  refine ⟨h.pos, fun i h1 h2 => ?_⟩
  rw [e i h1 h2]; exact h.elem i h1 h2

theorem getElem?_snoc {α : Type*} {l : List α} {a x : α} {i : Nat} (h : (l ++ [a])[i]? = some x) : l[i]? = some x ∨ (i = l.length ∧ x = a) := by
  rcases Nat.lt_trichotomy i l.length with hi | hi | hi
  · left; rwa [List.getElem?_append_left hi] at h
  · right; subst hi; rw [List.getElem?_concat_length] at h; exact ⟨rfl, (Option.some.inj h).symm⟩
  · rw [List.getElem?_eq_none (by simp; omega)] at h; cases h

theorem snoc_getElem? {α : Type*} {l : List α} {a x : α} {i : Nat} (h : l[i]? = some x) : (l ++ [a])[i]? = some x := by
  rw [List.getElem?_append_left (List.getElem?_eq_some_iff.mp h).1]; exact h

theorem Offsets.fill {t : Table} {m : Mem} {k : Nat} {ns : List Nat} (h : Offsets t m k ns) (hs : ns.Pairwise (· ≤ ·)) {v : Nat} (hv : ∀ x ∈ ns, x ≤ v) (hl : ns.length < 2 ^ 64) :
    Offsets t (Packed.fill t ns.length k ((v >>> t.inlineBits) + 1 - k) m) (max k ((v >>> t.inlineBits) + 1)) (ns ++ [v]) := by
  have hlast : ∀ x ∈ ns, x ≤ ns.getLast?.getD 0 := by
    intro x hx
    rcases List.eq_nil_or_concat ns with rfl | ⟨l, a, rfl⟩
    · cases hx
    · rw [List.concat_eq_append] at *
      rw [List.getLast?_concat]
      rcases List.mem_append.mp hx with hx | hx
      · exact (List.pairwise_append.mp hs).2.2 x hx a (by simp)
      · simp only [List.mem_singleton] at hx; subst hx; exact Nat.le_refl _
  have hlv : ns.getLast?.getD 0 ≤ v := by
    cases e : ns.getLast? with
    | none => exact Nat.zero_le v
    | some a => exact hv a (List.mem_of_getLast? e)
  have hk : k ≤ (v >>> t.inlineBits) + 1 := by rw [h.pos]; exact Nat.succ_le_succ (shiftRight_mono hlv)
  constructor
  · rw [List.getLast?_concat]; exact max_eq_right hk
  · intro i h1 h2
    rw [max_eq_right hk] at h2
    by_cases hi : i < k
    · have e : t.offset (Packed.fill t ns.length k ((v >>> t.inlineBits) + 1 - k) m) i = t.offset m i := by
        unfold Table.offset
        rw [load64_congr (fun j h3 h4 => bit_fill t ns.length _ k m j (by omega))]
      rw [e]
      obtain ⟨x, e1, e2, e3⟩ := h.elem i h1 hi
      refine ⟨x, snoc_getElem? e1, e2, fun i' v' h4 h5 => ?_⟩
      rw [List.getElem?_append_left (by have := (List.getElem?_eq_some_iff.mp e1).1; omega)] at h5
      exact e3 i' v' h4 h5
    · rw [load_fill t hl _ k m i (by omega) (by omega)]
      refine ⟨v, List.getElem?_concat_length, by omega, fun i' v' h4 h5 => ?_⟩
      rw [List.getElem?_append_left h4] at h5
      have := shiftRight_mono (n := t.inlineBits) (hlast v' (List.mem_of_getElem? h5))
      have := h.pos; omega

end Cdec.Klm.Packed
