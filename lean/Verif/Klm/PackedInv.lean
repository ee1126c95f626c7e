import Verif.Klm.PackedLemmas
/-!
# Writing a packed table
-/
namespace Cdec.Klm.Packed
open Cdec.Klm

/-- What one call of `Insert` and the writing of the values put into a table. -/
structure Entry where
  word : Nat
  vals : List Write
  next : Nat

/-- The conditions of the calls: the word is in the vocabulary, the values fit into their bits and do not overlap, the pointer is not above its maximum. -/
structure Entry.Ok (t : Table) (e : Entry) : Prop where
  word : e.word ≤ t.vocab
  ok : ∀ w ∈ e.vals, w.ok
  disj : e.vals.Pairwise Write.disj
  fit : ∀ w ∈ e.vals, w.off + w.len ≤ t.quant
  next : t.kind ≠ .longest → e.next ≤ t.maxNext

/-- The address of an entry. -/
def Table.at (t : Table) (i : Nat) : Nat := t.start + i * t.totalBits

/-- The fields of an entry. -/
def wordField (t : Table) (i w : Nat) : Write := .int57 (t.at i) t.wordBits (BitVec.ofNat 64 w)

def nextField (t : Table) (i v : Nat) : Write := .int57 (t.at i + t.wordBits + t.quant) t.inlineBits (BitVec.ofNat 64 (v % 2 ^ t.inlineBits))

theorem wordField_ok {t : Table} (h : t.Ok) {i w : Nat} (hw : w ≤ t.vocab) : (wordField t i w).ok := by
  have h1 := h.wordBits_le
  refine ⟨by omega, ?_⟩
  have h2 : w < 2 ^ t.wordBits := (C48_required_bits t.vocab).1 w hw
  have h3 : 2 ^ t.wordBits ≤ 2 ^ 64 := Nat.pow_le_pow_right (by omega) (by omega)
  rw [BitVec.toNat_ofNat, Nat.mod_eq_of_lt (by omega)]; exact h2

theorem nextField_ok {t : Table} (h : t.Ok) {i v : Nat} : (nextField t i v).ok := by
  have h1 := h.inline_le
  refine ⟨by omega, ?_⟩
  have h2 : v % 2 ^ t.inlineBits < 2 ^ t.inlineBits := Nat.mod_lt _ (Nat.two_pow_pos _)
  have h3 : 2 ^ t.inlineBits ≤ 2 ^ 64 := Nat.pow_le_pow_right (by omega) (by omega)
  rw [BitVec.toNat_ofNat, Nat.mod_eq_of_lt (by omega)]; exact h2

theorem shift_off (a : Nat) (w : Write) : (shift a w).off = a + w.off := by cases w <;> rfl
theorem shift_len (a : Nat) (w : Write) : (shift a w).len = w.len := by cases w <;> rfl
theorem shift_ok (a : Nat) (w : Write) (h : w.ok) : (shift a w).ok := by cases w <;> exact h
theorem shift_disj (a : Nat) {v w : Write} (h : v.disj w) : (shift a v).disj (shift a w) := by
  unfold Write.disj at *; rw [shift_off, shift_off, shift_len, shift_len]; omega

theorem Table.at_succ (t : Table) (i : Nat) : t.at (i + 1) = t.at i + t.wordBits + t.quant + t.inlineBits := by
  unfold Table.at Table.totalBits; rw [Nat.succ_mul]; omega

theorem Table.at_mono (t : Table) {i j : Nat} (h : i ≤ j) : t.at i ≤ t.at j := by
  unfold Table.at; have := Nat.mul_le_mul_right t.totalBits h; omega

theorem Table.at_end (t : Table) {i : Nat} (h : i ≤ t.entries + 1) : t.at i + 64 ≤ 8 * (t.base + t.size) := by
  have := t.at_mono h
  have h2 := t.end_le
  unfold Table.at at *; omega

theorem Table.start_le (t : Table) (i : Nat) : t.start ≤ t.at i := by unfold Table.at; omega

/-! ## `WriteNext` -/

/-- A bit that belongs to the table. -/
def Table.Inside (t : Table) (j : Nat) : Prop := 8 * t.base ≤ j ∧ j < 8 * (t.base + t.size)

/-- A bit of the array of high bits, without its first element. -/
def Table.InArray (t : Table) (j : Nat) : Prop := 8 * (t.offsetBegin + 8) ≤ j ∧ j < 8 * (t.offsetBegin + 8 * t.count)

/-- What has been written of the pointers: nothing is claimed of the table of the highest order. -/
structure Pointers (t : Table) (s : State) (nexts : List Nat) : Prop where
  fields : ∀ i v, nexts[i]? = some v → Has s.mem (nextField t i v)
  offs : ∀ b, t.kind = .array b → Offsets t s.mem s.writeTo nexts

theorem has_longest {t : Table} (h : t.kind = .longest) (m : Mem) (i v : Nat) : Has m (nextField t i v) := by
  intro j hj
  have : t.inlineBits = 0 := by unfold Table.inlineBits; rw [h]
  have hj' : j < t.inlineBits := hj
  omega

theorem and_mask {v b : Nat} (hb : b ≤ 57) : BitVec.ofNat 64 v &&& maskOf b = BitVec.ofNat 64 (v % 2 ^ b) := by
  apply BitVec.eq_of_getLsbD_eq
  intro i hi
  rw [BitVec.getLsbD_and, getLsbD_maskOf b i (by omega), BitVec.getLsbD_ofNat, BitVec.getLsbD_ofNat, Nat.testBit_mod_two_pow]
  cases decide (i < b) <;> simp [hi]

theorem array_below_start {t : Table} {b : Nat} (h : t.kind = .array b) {k : Nat} (hk : k ≤ t.count) : 8 * (t.offsetBegin + 8 * k) ≤ t.start := by
  have := Table.array_end h
  rw [t.start_eq]; omega

theorem offset_congr {t : Table} {m m' : Mem} {k : Nat} (h : ∀ j, 8 * (t.offsetBegin + 8 * k) ≤ j → j < 8 * (t.offsetBegin + 8 * k) + 64 → bit m' j = bit m j) : t.offset m' k = t.offset m k := by
  unfold Table.offset; rw [load64_congr h]

theorem writeNext_index (t : Table) (s : State) (off i v : Nat) : (writeNext t s off i v).index = s.index := by
  unfold writeNext; split <;> rfl

/-- `WriteNext` for the next entry. -/
theorem writeNext_spec {t : Table} (ht : t.Ok) {s : State} {ns : List Nat} {v : Nat} (hp : Pointers t s ns) (hs : (ns ++ [v]).Pairwise (· ≤ ·)) (hv : t.kind ≠ .longest → v ≤ t.maxNext)
    (hl : ns.length < 2 ^ 64) (hz : ∀ j, (nextField t ns.length v).off ≤ j → j < (nextField t ns.length v).off + (nextField t ns.length v).len → bit s.mem j = false) :
    Pointers t (writeNext t s (t.at ns.length + t.wordBits + t.quant) ns.length v) (ns ++ [v]) ∧
      ∀ j, ¬ (t.at ns.length + t.wordBits + t.quant ≤ j ∧ j < t.at (ns.length + 1)) → ¬ ((∃ b, t.kind = .array b) ∧ t.InArray j) →
        bit (writeNext t s (t.at ns.length + t.wordBits + t.quant) ns.length v).mem j = bit s.mem j := by
  have hf := nextField_ok ht (i := ns.length) (v := v)
  have hoff : (nextField t ns.length v).off = t.at ns.length + t.wordBits + t.quant := rfl
  have hlen : (nextField t ns.length v).len = t.inlineBits := rfl
  have hsucc := t.at_succ ns.length
  cases hk : t.kind with
  | longest =>
    have e : writeNext t s (t.at ns.length + t.wordBits + t.quant) ns.length v = s := by unfold writeNext; rw [hk]
    rw [e]
    exact ⟨⟨fun i x _ => has_longest hk _ i x, fun b hb => by rw [hk] at hb; cases hb⟩, fun j _ _ => rfl⟩
  | plain =>
    have hv' : v < 2 ^ t.inlineBits := by
      unfold Table.inlineBits; rw [hk]
      exact (C48_required_bits t.maxNext).1 v (hv (by rw [hk]; simp))
    have e : (writeNext t s (t.at ns.length + t.wordBits + t.quant) ns.length v).mem = (nextField t ns.length v).run s.mem := by
      unfold writeNext nextField; rw [hk, Nat.mod_eq_of_lt hv']; rfl
    refine ⟨⟨fun i x hx => ?_, fun b hb => by rw [hk] at hb; cases hb⟩, fun j hj _ => ?_⟩
    · rw [e]
      rcases getElem?_snoc hx with hx | ⟨rfl, rfl⟩
      · refine has_congr (hp.fields i x hx) fun j h1 h2 => run_frame hf _ ?_
        have hi := (List.getElem?_eq_some_iff.mp hx).1
        have := t.at_mono (show i + 1 ≤ _ from hi)
        have := t.at_succ i
        have h2' : j < t.at i + t.wordBits + t.quant + t.inlineBits := h2
        left; rw [hoff]; omega
      · exact has_run hf hz
    · rw [e]; exact run_frame hf _ (by rw [hoff, hlen]; omega)
  | array b =>
    have hcount := Table.count_array hk
    have hle : v >>> t.inlineBits + 1 ≤ t.count := by rw [hcount]; exact Nat.succ_le_succ (shiftRight_mono (hv (by rw [hk]; simp)))
    have hO := hp.offs b hk
    have hv1 : ∀ x ∈ ns, x ≤ v := fun x hx => (List.pairwise_append.mp hs).2.2 x hx v (by simp)
    have hF := hO.fill (List.pairwise_append.mp hs).1 hv1 hl
    have hw1 : 1 ≤ s.writeTo := by rw [hO.pos]; exact Nat.le_add_left 1 _
    have e : (writeNext t s (t.at ns.length + t.wordBits + t.quant) ns.length v).mem =
        (nextField t ns.length v).run (fill t ns.length s.writeTo (v >>> t.inlineBits + 1 - s.writeTo) s.mem) := by
      unfold writeNext nextField; rw [hk]; dsimp only; rw [and_mask ht.inline_le]; rfl
    have e2 : (writeNext t s (t.at ns.length + t.wordBits + t.quant) ns.length v).writeTo = max s.writeTo (v >>> t.inlineBits + 1) := by unfold writeNext; rw [hk]
    have hfill : ∀ j, ¬ t.InArray j → bit (fill t ns.length s.writeTo (v >>> t.inlineBits + 1 - s.writeTo) s.mem) j = bit s.mem j := by
      intro j hj
      by_cases hc : s.writeTo ≤ v >>> t.inlineBits + 1
      · apply bit_fill
        unfold Table.InArray at hj; omega
      · have : v >>> t.inlineBits + 1 - s.writeTo = 0 := by omega
        rw [this]; rfl
    have hout : ∀ j, t.start ≤ j → ¬ t.InArray j := fun j h1 h2 => by
      have := array_below_start hk (Nat.le_refl t.count)
      have := h2.2; omega
    refine ⟨⟨fun i x hx => ?_, fun b' hb => ?_⟩, fun j hj hj2 => ?_⟩
    · rw [e]
      rcases getElem?_snoc hx with hx | ⟨rfl, rfl⟩
      · refine has_congr (hp.fields i x hx) fun j h1 h2 => ?_
        have hi := (List.getElem?_eq_some_iff.mp hx).1
        have := t.at_mono (show i + 1 ≤ _ from hi)
        have := t.at_succ i
        have := t.start_le i
        have h2' : j < t.at i + t.wordBits + t.quant + t.inlineBits := h2
        have h1' : t.at i + t.wordBits + t.quant ≤ j := h1
        rw [run_frame hf _ (by left; rw [hoff]; omega), hfill j (hout j (by omega))]
      · refine has_run hf fun j h1 h2 => ?_
        have := t.start_le ns.length
        have h1' : t.at ns.length + t.wordBits + t.quant ≤ j := h1
        rw [hfill j (hout j (by omega)), hz j h1 h2]
    · rw [e2]
      have hwle : max s.writeTo (v >>> t.inlineBits + 1) ≤ t.count := by
        have h5 := hF.pos
        rw [List.getLast?_concat] at h5
        simp only [Option.getD_some] at h5
        omega
      refine hF.congr fun k h1 h2 => ?_
      apply offset_congr
      intro j h3 h4
      rw [e]
      apply run_frame hf
      left
      have := array_below_start hk (show k + 1 ≤ t.count by omega)
      have := t.start_le ns.length
      rw [hoff]; omega
    · rw [e, run_frame hf _ (by rw [hoff, hlen]; omega)]
      exact hfill j fun h => hj2 ⟨⟨b, rfl⟩, h⟩

/-! ## The invariant -/

structure Inv (t : Table) (es : List Entry) (s : State) : Prop where
  index : s.index = es.length
  words : ∀ i e, es[i]? = some e → Has s.mem (wordField t i e.word)
  vals : ∀ i e, es[i]? = some e → ∀ w ∈ e.vals, Has s.mem (shift (t.at i + t.wordBits) w)
  ptrs : Pointers t s (es.map (·.next))
  zero : ∀ j, t.at es.length ≤ j → j < t.at (t.entries + 1) → bit s.mem j = false

theorem inside_field {t : Table} {i : Nat} (hi : i ≤ t.entries) {j : Nat} (h1 : t.at i ≤ j) (h2 : j < t.at (i + 1)) : t.Inside j := by
  have h3 := t.start_le i
  have h4 := t.at_end (show i + 1 ≤ t.entries + 1 by omega)
  have h5 := t.start_eq
  exact ⟨by omega, by omega⟩

theorem inside_array {t : Table} {b : Nat} (h : t.kind = .array b) {j : Nat} (h1 : 8 * t.offsetBegin ≤ j) (h2 : j < 8 * (t.offsetBegin + 8 * t.count)) : t.Inside j := by
  have h3 := Table.array_end h
  have h4 := t.at_end (Nat.zero_le _)
  have h5 := t.start_eq
  have h6 := t.start_le 0
  have : t.base + t.headSize ≤ t.base + t.size := by unfold Table.size; omega
  exact ⟨by omega, by omega⟩

theorem Pointers.congr {t : Table} {s : State} {ns : List Nat} (h : Pointers t s ns) {m : Mem} (hl : ns.length ≤ t.entries + 1) (hw : ∀ b, t.kind = .array b → s.writeTo ≤ t.count)
    (e : ∀ j, (∃ i, i < ns.length ∧ t.at i + t.wordBits + t.quant ≤ j ∧ j < t.at (i + 1)) ∨ ((∃ b, t.kind = .array b) ∧ t.InArray j) → bit m j = bit s.mem j) : Pointers t { s with mem := m } ns := by
  refine ⟨fun i v hv => has_congr (h.fields i v hv) fun j h1 h2 => e j (.inl ⟨i, (List.getElem?_eq_some_iff.mp hv).1, h1, ?_⟩), fun b hb => ?_⟩
  · rw [t.at_succ]; exact h2
  · refine (h.offs b hb).congr fun k h1 h2 => offset_congr fun j h3 h4 => e j (.inr ⟨⟨b, hb⟩, ?_⟩)
    have := hw b hb
    exact ⟨by omega, by omega⟩

theorem Offsets.le_count {t : Table} {b : Nat} (hk : t.kind = .array b) {m : Mem} {k : Nat} {ns : List Nat} (h : Offsets t m k ns) (hn : ∀ v ∈ ns, v ≤ t.maxNext) : k ≤ t.count := by
  rw [h.pos, Table.count_array hk]
  apply Nat.succ_le_succ
  apply shiftRight_mono
  cases e : ns.getLast? with
  | none => exact Nat.zero_le _
  | some a => exact hn a (List.mem_of_getLast? e)

theorem Inv.other {t : Table} {es : List Entry} {s : State} (h : Inv t es s) (hl : es.length ≤ t.entries) (hok : ∀ e ∈ es, e.Ok t) {m : Mem} (e : ∀ j, t.Inside j → bit m j = bit s.mem j) :
    Inv t es { s with mem := m } := by
  have hin : ∀ i, i < es.length → ∀ j, t.at i ≤ j → j < t.at (i + 1) → bit m j = bit s.mem j := fun i hi j h1 h2 => e j (inside_field (by omega) h1 h2)
  refine ⟨h.index, fun i x hx => has_congr (h.words i x hx) fun j h1 h2 => ?_, fun i x hx w hw => has_congr (h.vals i x hx w hw) fun j h1 h2 => ?_, ?_, fun j h1 h2 => ?_⟩
  · refine hin i (List.getElem?_eq_some_iff.mp hx).1 j h1 ?_
    have h2' : j < t.at i + t.wordBits := h2
    rw [t.at_succ]; omega
  · rw [shift_off] at h1 h2
    rw [shift_len] at h2
    have := (hok x (List.mem_of_getElem? hx)).fit w hw
    exact hin i (List.getElem?_eq_some_iff.mp hx).1 j (by omega) (by rw [t.at_succ]; omega)
  · apply h.ptrs.congr (by simp; omega)
    · intro b hb
      refine (h.ptrs.offs b hb).le_count hb fun v hv => ?_
      obtain ⟨x, hx, rfl⟩ := List.mem_map.mp hv
      exact (hok x hx).next (by rw [hb]; simp)
    · rintro j (⟨i, h1, h2, h3⟩ | ⟨⟨b, hb⟩, h1, h2⟩)
      · exact hin i (by simpa using h1) j (by omega) h3
      · exact e j (inside_array hb (by omega) h2)
  · have h3 := t.start_le es.length
    have h4 := t.at_end (Nat.le_refl (t.entries + 1))
    have h5 := t.start_eq
    rw [e j ⟨by omega, by omega⟩]
    exact h.zero j h1 h2

theorem map_snoc {es : List Entry} {x : Entry} : (es ++ [x]).map (·.next) = es.map (·.next) ++ [x.next] := by simp

theorem Inv.insert {t : Table} (ht : t.Ok) {es : List Entry} {s : State} (h : Inv t es s) {x : Entry} (hl : es.length < t.entries) (hok : ∀ e ∈ es ++ [x], e.Ok t)
    (hs : ((es ++ [x]).map (·.next)).Pairwise (· ≤ ·)) :
    Inv t (es ++ [x]) (Packed.insert t s x.word x.vals x.next) ∧ ∀ j, ¬ t.Inside j → bit (Packed.insert t s x.word x.vals x.next).mem j = bit s.mem j := by
  obtain ⟨m0, i0, w0⟩ := s
  obtain rfl : i0 = es.length := h.index
  have hx : x.Ok t := hok x (by simp)
  have hle := ht.entries
  have hsucc := t.at_succ es.length
  have hmax : t.at (es.length + 1) ≤ t.at (t.entries + 1) := t.at_mono (by omega)
  have hmax' : t.at (es.length + 1) ≤ t.at t.entries := t.at_mono (by omega)
  have hst := t.start_le es.length
  -- the word
  have hwok := wordField_ok ht (i := es.length) hx.word
  have woff : (wordField t es.length x.word).off = t.at es.length := rfl
  have wlen : (wordField t es.length x.word).len = t.wordBits := rfl
  let s1 : State := ⟨(wordField t es.length x.word).run m0, es.length, w0⟩
  have hw1 : Has s1.mem (wordField t es.length x.word) := has_run hwok fun j h1 h2 => h.zero j h1 (by rw [woff, wlen] at h2; omega)
  have f1 : ∀ j, ¬ (t.at es.length ≤ j ∧ j < t.at es.length + t.wordBits) → bit s1.mem j = bit m0 j := fun j hj => run_frame hwok _ (by rw [woff, wlen]; omega)
  -- the pointer
  have hnm : ∀ v ∈ es.map (·.next), t.kind ≠ .longest → v ≤ t.maxNext := by
    intro v hv
    obtain ⟨y, hy, rfl⟩ := List.mem_map.mp hv
    exact (hok y (by simp [hy])).next
  have hwto : ∀ b, t.kind = .array b → w0 ≤ t.count := fun b hb => (h.ptrs.offs b hb).le_count hb fun v hv => hnm v hv (by rw [hb]; simp)
  have hnotarr : ∀ j, t.start ≤ j → ¬ ((∃ b, t.kind = .array b) ∧ t.InArray j) := by
    rintro j h1 ⟨⟨b, hb⟩, h2, h3⟩
    have := array_below_start hb (Nat.le_refl t.count)
    omega
  have hp1 : Pointers t s1 (es.map (·.next)) := by
    refine h.ptrs.congr (by simp; omega) hwto ?_
    rintro j (⟨i, h1, h2, h3⟩ | h1)
    · have := t.at_mono (show i + 1 ≤ es.length by rw [List.length_map] at h1; omega)
      exact f1 j (by omega)
    · refine f1 j fun h2 => hnotarr j (by omega) h1
  have hN := writeNext_spec ht (v := x.next) hp1 (by rw [← map_snoc]; exact hs) hx.next (by simp; omega) (by
    intro j h1 h2
    have h1' : t.at (es.map (·.next)).length + t.wordBits + t.quant ≤ j := h1
    have h2' : j < t.at (es.map (·.next)).length + t.wordBits + t.quant + t.inlineBits := h2
    rw [List.length_map] at h1' h2'
    rw [f1 j (by omega)]
    exact h.zero j (by omega) (by omega))
  rw [List.length_map, ← map_snoc] at hN
  obtain ⟨hp2, f2⟩ := hN
  let s2 := writeNext t s1 (t.at es.length + t.wordBits + t.quant) es.length x.next
  -- the values
  have vok : ∀ w ∈ x.vals.map (shift (t.at es.length + t.wordBits)), w.ok := by
    intro w hw
    obtain ⟨w', hw', rfl⟩ := List.mem_map.mp hw
    exact shift_ok _ _ (hx.ok w' hw')
  have vdisj : (x.vals.map (shift (t.at es.length + t.wordBits))).Pairwise Write.disj := by
    rw [List.pairwise_map]
    exact hx.disj.imp fun h => shift_disj _ h
  have vfit : ∀ w ∈ x.vals.map (shift (t.at es.length + t.wordBits)), t.at es.length + t.wordBits ≤ w.off ∧ w.off + w.len ≤ t.at es.length + t.wordBits + t.quant := by
    intro w hw
    obtain ⟨w', hw', rfl⟩ := List.mem_map.mp hw
    rw [shift_off, shift_len]
    have := hx.fit w' hw'
    omega
  let m3 := (x.vals.map (shift (t.at es.length + t.wordBits))).foldl Write.run s2.mem
  have f3 : ∀ j, ¬ (t.at es.length + t.wordBits ≤ j ∧ j < t.at es.length + t.wordBits + t.quant) → bit m3 j = bit s2.mem j := by
    intro j hj
    apply run_all_frame vok
    intro w hw
    have := vfit w hw
    omega
  have hv3 : ∀ w ∈ x.vals.map (shift (t.at es.length + t.wordBits)), Has m3 w := by
    apply has_run_all vok vdisj
    intro w hw j h1 h2
    have := vfit w hw
    rw [f2 j (by omega) (hnotarr j (by omega)), f1 j (by omega)]
    exact h.zero j (by omega) (by omega)
  have e1 : Packed.insert t ⟨m0, es.length, w0⟩ x.word x.vals x.next = { mem := m3, index := s2.index + 1, writeTo := s2.writeTo } := by
    rfl
  have hidx : s2.index = es.length := by exact writeNext_index _ _ _ _ _
  rw [e1]
  have old : ∀ j, t.start ≤ j → ¬ (t.at es.length ≤ j ∧ j < t.at (es.length + 1)) → bit m3 j = bit m0 j := by
    intro j h1 h2
    rw [f3 j (by omega), f2 j (by omega) (hnotarr j h1), f1 j (by omega)]
  have oldi : ∀ i, i < es.length → ∀ j, t.at i ≤ j → j < t.at (i + 1) → bit m3 j = bit m0 j := by
    intro i hi j h1 h2
    have := t.at_mono (show i + 1 ≤ _ from hi)
    have := t.start_le i
    exact old j (by omega) (by omega)
  constructor
  · refine ⟨by simp [hidx], ?_, ?_, ?_, ?_⟩
    · intro i y hy
      rcases getElem?_snoc hy with hy | ⟨rfl, rfl⟩
      · refine has_congr (h.words i y hy) fun j h1 h2 => oldi i (List.getElem?_eq_some_iff.mp hy).1 j h1 ?_
        have h2' : j < t.at i + t.wordBits := h2
        rw [t.at_succ]; omega
      · refine has_congr hw1 fun j h1 h2 => ?_
        rw [woff] at h1 h2
        rw [wlen] at h2
        show bit m3 j = bit s1.mem j
        rw [f3 j (by omega), f2 j (by omega) (hnotarr j (by omega))]
    · intro i y hy w hw
      rcases getElem?_snoc hy with hy | ⟨rfl, rfl⟩
      · refine has_congr (h.vals i y hy w hw) fun j h1 h2 => oldi i (List.getElem?_eq_some_iff.mp hy).1 j ?_ ?_
        · rw [shift_off] at h1; omega
        · rw [shift_off, shift_len] at h2
          have := (hok y (by simp [List.mem_of_getElem? hy])).fit w hw
          rw [t.at_succ]; omega
      · exact hv3 _ (List.mem_map_of_mem hw)
    · refine (Pointers.congr (s := s2) hp2 (by simp; omega) (fun b hb => ?_) ?_ : Pointers t { s2 with mem := m3 } _) |> fun p => ⟨p.fields, p.offs⟩
      · refine (hp2.offs b hb).le_count hb fun v hv => ?_
        obtain ⟨y, hy, rfl⟩ := List.mem_map.mp hv
        exact (hok y hy).next (by rw [hb]; simp)
      · rintro j (⟨i, h1, h2, h3⟩ | h1)
        · apply f3
          have hi : i ≤ es.length := by rw [List.length_map, List.length_append, List.length_singleton] at h1; omega
          rcases Nat.lt_or_eq_of_le hi with hi | rfl
          · have := t.at_mono (show i + 1 ≤ _ from hi); omega
          · omega
        · exact f3 j fun h2 => hnotarr j (by omega) h1
    · intro j h1 h2
      rw [List.length_append, List.length_singleton] at h1
      rw [old j (by omega) (by omega)]
      exact h.zero j (by omega) h2
  · intro j hj
    have h1 : ¬ (t.at es.length ≤ j ∧ j < t.at (es.length + 1)) := fun h => hj (inside_field (by omega) h.1 h.2)
    show bit m3 j = _
    rw [f3 j (by omega), f2 j (by omega) (fun h => ?_), f1 j (by omega)]
    obtain ⟨⟨b, hb⟩, h2, h3⟩ := h
    exact hj (inside_array hb (by omega) h3)

end Cdec.Klm.Packed
