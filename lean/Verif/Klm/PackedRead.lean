import Verif.Klm.PackedInv
import Verif.Klm.TrieFind
/-!
# Reading a packed table
-/
namespace Cdec.Klm.Packed
open Cdec.Klm

/-! ## The array of high bits -/

theorem upperBound_spec (get : Nat → Nat) (x p : Nat) : ∀ (fuel first len : Nat), len ≤ fuel → first ≤ p → p ≤ first + len → (∀ k, first ≤ k → k < first + len → (get k ≤ x ↔ k < p)) →
    upperBound get x fuel first len = p
  | 0, first, len, h1, h2, h3, _ => by unfold upperBound; omega
  | fuel + 1, first, len, h1, h2, h3, h4 => by
    have hh : len >>> 1 = len / 2 := Nat.shiftRight_one _
    unfold upperBound
    split
    · rename_i hl
      dsimp only
      rw [hh]
      have h5 := h4 (first + len / 2) (by omega) (by omega)
      split
      · exact upperBound_spec get x p fuel first (len / 2) (by omega) h2 (by omega) fun k h6 h7 => h4 k h6 (by omega)
      · exact upperBound_spec get x p fuel _ _ (by omega) (by omega) (by omega) fun k h6 h7 => h4 k (by omega) (by omega)
    · omega

theorem skip_spec (get : Nat → Nat) (x p : Nat) : ∀ (n k : Nat), k ≤ p → p ≤ k + n → (∀ i, k ≤ i → i < k + n → (get i ≤ x ↔ i < p)) → skip get x k n = p
  | 0, k, h1, h2, _ => by unfold skip; omega
  | n + 1, k, h1, h2, h3 => by
    have h4 := h3 k (Nat.le_refl k) (by omega)
    unfold skip
    split
    · exact skip_spec get x p n (k + 1) (by omega) (by omega) fun i h5 h6 => h3 i (by omega) (by omega)
    · omega

theorem sorted_le {ns : List Nat} (hs : ns.Pairwise (· ≤ ·)) {i j u v : Nat} (hi : ns[i]? = some u) (hj : ns[j]? = some v) (h : i ≤ j) : u ≤ v := sorted_get hs hi hj h

/-- How the elements of the array compare with an index. -/
theorem Offsets.high {t : Table} {m : Mem} {ns : List Nat} (h : Offsets t m t.count ns) (h0 : t.offset m 0 = 0) (hs : ns.Pairwise (· ≤ ·)) {i v : Nat} (hv : ns[i]? = some v) {k : Nat} (hk : k < t.count) :
    t.offset m k ≤ i ↔ k < v >>> t.inlineBits + 1 := by
  by_cases hz : k = 0
  · subst hz; rw [h0]; simp
  · obtain ⟨u, h1, h2, h3⟩ := h.elem k (by omega) hk
    constructor
    · intro h4
      have := shiftRight_mono (n := t.inlineBits) (sorted_le hs h1 hv h4)
      exact Nat.lt_succ_of_le (Nat.le_trans h2 this)
    · intro h4
      by_contra hc
      exact absurd (h3 i v (by omega) hv) (Nat.not_lt.mpr (Nat.le_of_lt_succ h4))

theorem shift_or (v n : Nat) : (v >>> n) <<< n ||| v % 2 ^ n = v := by
  rw [← Nat.shiftLeft_add_eq_or_of_lt (Nat.mod_lt _ (Nat.two_pow_pos n)), Nat.shiftLeft_eq, Nat.shiftRight_eq_div_pow]
  exact Nat.div_add_mod' v (2 ^ n)

/-! ## After `FinishedLoading` -/

/-- What a finished table holds. -/
structure Holds (t : Table) (es : List Entry) (nextEnd : Nat) (m : Mem) : Prop where
  words : ∀ i e, es[i]? = some e → Has m (wordField t i e.word)
  vals : ∀ i e, es[i]? = some e → ∀ w ∈ e.vals, Has m (shift (t.at i + t.wordBits) w)
  fields : ∀ i v, (es.map (·.next) ++ [nextEnd])[i]? = some v → Has m (nextField t i v)
  offs : ∀ b, t.kind = .array b → Offsets t m t.count (es.map (·.next) ++ [nextEnd])
  first : ∀ b, t.kind = .array b → t.offset m 0 = 0
  header : ∀ b, t.kind = .array b → m t.base = 0#8 ∧ m (t.base + 1) = BitVec.ofNat 8 b

theorem Holds.congr {t : Table} {es : List Entry} {ne : Nat} {m m' : Mem} (h : Holds t es ne m) (hl : es.length ≤ t.entries) (hok : ∀ e ∈ es, e.Ok t)
    (e : ∀ x, t.base ≤ x → x < t.base + t.size → m' x = m x) : Holds t es ne m' := by
  have eb : ∀ j, t.Inside j → bit m' j = bit m j := fun j hj => bits_of_bytes (e _ (by have := hj.1; omega) (by have := hj.2; omega))
  have hin : ∀ i, i ≤ es.length → ∀ j, t.at i ≤ j → j < t.at (i + 1) → bit m' j = bit m j := fun i hi j h1 h2 => eb j (inside_field (by omega) h1 h2)
  refine ⟨fun i x hx => has_congr (h.words i x hx) fun j h1 h2 => ?_, fun i x hx w hw => has_congr (h.vals i x hx w hw) fun j h1 h2 => ?_,
    fun i v hv => has_congr (h.fields i v hv) fun j h1 h2 => ?_, fun b hb => ?_, fun b hb => ?_, fun b hb => ?_⟩
  · refine hin i (Nat.le_of_lt (List.getElem?_eq_some_iff.mp hx).1) j h1 ?_
    have h2' : j < t.at i + t.wordBits := h2
    rw [t.at_succ]; omega
  · rw [shift_off] at h1 h2
    rw [shift_len] at h2
    have := (hok x (List.mem_of_getElem? hx)).fit w hw
    exact hin i (Nat.le_of_lt (List.getElem?_eq_some_iff.mp hx).1) j (by omega) (by rw [t.at_succ]; omega)
  · have h1' : t.at i + t.wordBits + t.quant ≤ j := h1
    have h2' : j < t.at i + t.wordBits + t.quant + t.inlineBits := h2
    have hi := (List.getElem?_eq_some_iff.mp hv).1
    rw [List.length_append, List.length_map, List.length_singleton] at hi
    exact hin i (by omega) j (by omega) (by rw [t.at_succ]; omega)
  · refine (h.offs b hb).congr fun k h1 h2 => offset_congr fun j h3 h4 => eb j (inside_array hb (by omega) (by omega))
  · refine Eq.trans ?_ (h.first b hb)
    refine offset_congr fun j h3 h4 => eb j (inside_array hb (by omega) ?_)
    have := Table.count_array hb
    have : 1 ≤ t.count := by rw [this]; exact Nat.le_add_left 1 _
    omega
  · have := Table.array_end hb
    have hs : t.base + 2 ≤ t.base + t.size := by unfold Table.size; omega
    have e1 := e t.base (by omega) (by omega)
    have e2 := e (t.base + 1) (by omega) (by omega)
    exact ⟨e1.trans (h.header b hb).1, e2.trans (h.header b hb).2⟩

theorem finish_spec {t : Table} (ht : t.Ok) {es : List Entry} {s : State} (h : Inv t es s) (hl : es.length ≤ t.entries) (hok : ∀ e ∈ es, e.Ok t) {ne : Nat}
    (hs : (es.map (·.next) ++ [ne]).Pairwise (· ≤ ·)) (hne : t.kind ≠ .longest → ne = t.maxNext) :
    ∃ s', finish t s ne = some s' ∧ Holds t es ne s'.mem ∧ ∀ j, ¬ t.Inside j → bit s'.mem j = bit s.mem j := by
  have hle := ht.entries
  have hsucc := t.at_succ es.length
  have hmax : t.at (es.length + 1) ≤ t.at (t.entries + 1) := t.at_mono (by omega)
  have hst := t.start_le es.length
  have hN := writeNext_spec ht (v := ne) h.ptrs hs (fun h => Nat.le_of_eq (hne h)) (by simp; omega) (by
    intro j h1 h2
    have h1' : t.at (es.map (·.next)).length + t.wordBits + t.quant ≤ j := h1
    have h2' : j < t.at (es.map (·.next)).length + t.wordBits + t.quant + t.inlineBits := h2
    rw [List.length_map] at h1' h2'
    exact h.zero j (by omega) (by omega))
  rw [List.length_map] at hN
  obtain ⟨hp, f⟩ := hN
  have eoff : t.start + s.index * t.totalBits + (t.totalBits - t.inlineBits) = t.at es.length + t.wordBits + t.quant := by
    rw [h.index]; unfold Table.at Table.totalBits; omega
  let s1 := writeNext t s (t.at es.length + t.wordBits + t.quant) es.length ne
  have hnotarr : ∀ j, t.start ≤ j → ¬ ((∃ b, t.kind = .array b) ∧ t.InArray j) := by
    rintro j h1 ⟨⟨b, hb⟩, h2, h3⟩
    have := array_below_start hb (Nat.le_refl t.count)
    omega
  have old : ∀ i, i < es.length → ∀ j, t.at i ≤ j → j < t.at (i + 1) → bit s1.mem j = bit s.mem j := by
    intro i hi j h1 h2
    have := t.at_mono (show i + 1 ≤ es.length from hi)
    have := t.start_le i
    exact f j (by omega) (hnotarr j (by omega))
  have hw : ∀ i e, es[i]? = some e → Has s1.mem (wordField t i e.word) := by
    intro i y hy
    refine has_congr (h.words i y hy) fun j h1 h2 => old i (List.getElem?_eq_some_iff.mp hy).1 j h1 ?_
    have h2' : j < t.at i + t.wordBits := h2
    rw [t.at_succ]; omega
  have hv : ∀ i e, es[i]? = some e → ∀ w ∈ e.vals, Has s1.mem (shift (t.at i + t.wordBits) w) := by
    intro i y hy w hw
    refine has_congr (h.vals i y hy w hw) fun j h1 h2 => old i (List.getElem?_eq_some_iff.mp hy).1 j ?_ ?_
    · rw [shift_off] at h1; omega
    · rw [shift_off, shift_len] at h2
      have := (hok y (List.mem_of_getElem? hy)).fit w hw
      rw [t.at_succ]; omega
  have hframe : ∀ j, ¬ t.Inside j → bit s1.mem j = bit s.mem j := by
    intro j hj
    refine f j (fun h => hj (inside_field hl (by omega) h.2)) ?_
    rintro ⟨⟨b, hb⟩, h2, h3⟩
    exact hj (inside_array hb (by omega) h3)
  cases hk : t.kind with
  | longest =>
    refine ⟨s1, ?_, ⟨hw, hv, hp.fields, fun b hb => absurd (hk.symm.trans hb) (by simp), fun b hb => absurd (hk.symm.trans hb) (by simp), fun b hb => absurd (hk.symm.trans hb) (by simp)⟩, hframe⟩
    unfold finish; rw [eoff, hk, h.index]
  | plain =>
    refine ⟨s1, ?_, ⟨hw, hv, hp.fields, fun b hb => absurd (hk.symm.trans hb) (by simp), fun b hb => absurd (hk.symm.trans hb) (by simp), fun b hb => absurd (hk.symm.trans hb) (by simp)⟩, hframe⟩
    unfold finish; rw [eoff, hk, h.index]
  | array b =>
    have hO := hp.offs b hk
    have hcount := Table.count_array hk
    have hend := Table.array_end hk
    have hpos : s1.writeTo = t.count := by
      rw [hO.pos, List.getLast?_concat, hcount, Option.getD_some, hne (by rw [hk]; simp)]
    let m2 := store8 (store8 (store64 s1.mem t.offsetBegin 0#64) t.base 0#8) (t.base + 1) (BitVec.ofNat 8 b)
    have efin : finish t s ne = some { s1 with mem := m2 } := by
      have : ¬ s1.writeTo ≠ t.count := fun h => h hpos
      unfold finish; rw [eoff, hk, h.index]
      exact if_neg this
    have f2 : ∀ j, 8 * (t.offsetBegin + 8) ≤ j → bit m2 j = bit s1.mem j := by
      intro j hj
      show bit (store8 (store8 _ _ _) _ _) j = _
      rw [bit_store8 _ _ _ (by omega), bit_store8 _ _ _ (by omega), bit_store64, if_neg (by omega)]
    have hc1 : 1 ≤ t.count := by rw [hcount]; exact Nat.le_add_left 1 _
    have hstart : 8 * (t.offsetBegin + 8) ≤ t.start := by have := array_below_start hk hc1; omega
    refine ⟨_, efin, ⟨fun i y hy => has_congr (hw i y hy) fun j h1 _ => f2 j ?_, fun i y hy w hw' => has_congr (hv i y hy w hw') fun j h1 _ => f2 j ?_,
      fun i v hv => has_congr (hp.fields i v hv) fun j h1 _ => f2 j ?_, fun b' hb => ?_, fun b' hb => ?_, fun b' hb => ?_⟩, fun j hj => ?_⟩
    · have h1' : t.at i ≤ j := h1
      have := t.start_le i; omega
    · rw [shift_off] at h1
      have := t.start_le i; omega
    · have h1' : t.at i + t.wordBits + t.quant ≤ j := h1
      have := t.start_le i; omega
    · have := hO.congr (m' := m2) fun k h1 h2 => offset_congr fun j h3 h4 => f2 j (by omega)
      rwa [show (writeNext t s (t.at es.length + t.wordBits + t.quant) es.length ne).writeTo = t.count from hpos] at this
    · show (load64 m2 (t.offsetBegin + 8 * 0)).toNat = 0
      rw [load64_congr (m := store64 s1.mem t.offsetBegin 0#64), Nat.mul_zero, Nat.add_zero, load64_store64]
      · rfl
      · intro j h3 h4
        show bit (store8 (store8 _ _ _) _ _) j = _
        rw [bit_store8 _ _ _ (by omega), bit_store8 _ _ _ (by omega)]
    · have hbb : b' = b := by rw [hk] at hb; cases hb; rfl
      subst hbb
      constructor
      · show store8 (store8 _ _ _) _ _ t.base = _
        unfold store8; rw [if_neg (by omega), if_pos rfl]
      · show store8 (store8 _ _ _) _ _ (t.base + 1) = _
        unfold store8; rw [if_pos rfl]
    · have hout : j < 8 * t.base ∨ 8 * (t.offsetBegin + 8) ≤ j := by
        by_contra hc
        have h1 : t.base + t.headSize ≤ t.base + t.size := by unfold Table.size; omega
        exact hj ⟨by omega, by omega⟩
      rcases hout with ho | ho
      · show bit (store8 (store8 _ _ _) _ _) j = _
        rw [bit_store8 _ _ _ (by omega), bit_store8 _ _ _ (by omega), bit_store64, if_neg (by omega)]
        exact hframe j hj
      · show bit m2 j = _
        rw [f2 j ho]; exact hframe j hj

/-! ## Reading back -/

theorem read_next_field {t : Table} (ht : t.Ok) {m : Mem} {i v : Nat} (h : Has m (nextField t i v)) :
    (readInt57 m (t.at i + t.wordBits + t.quant) t.inlineBits (maskOf t.inlineBits)).toNat = v % 2 ^ t.inlineBits := by
  have h1 := Write.readBack_of_bits m _ (nextField_ok ht) h
  have h2 : readInt57 m (t.at i + t.wordBits + t.quant) t.inlineBits (maskOf t.inlineBits) = BitVec.ofNat 64 (v % 2 ^ t.inlineBits) := h1
  have h3 : v % 2 ^ t.inlineBits < 2 ^ t.inlineBits := Nat.mod_lt _ (Nat.two_pow_pos _)
  have h4 : 2 ^ t.inlineBits ≤ 2 ^ 64 := Nat.pow_le_pow_right (by omega) (by have := ht.inline_le; omega)
  rw [h2, BitVec.toNat_ofNat, Nat.mod_eq_of_lt (by omega)]

theorem read_key {t : Table} (ht : t.Ok) {m : Mem} {i w : Nat} (hw : w ≤ t.vocab) (h : Has m (wordField t i w)) : t.key m i = w := by
  have h1 := Write.readBack_of_bits m _ (wordField_ok ht hw) h
  have h2 : readInt57 m (t.at i) t.wordBits (maskOf t.wordBits) = BitVec.ofNat 64 w := h1
  have hv := ht.vocab
  have hb := ht.wordBits_le
  have h3 : ((maskOf t.wordBits).setWidth 32).setWidth 64 = maskOf t.wordBits := by
    apply BitVec.eq_of_getLsbD_eq
    intro j hj
    rw [BitVec.getLsbD_setWidth, BitVec.getLsbD_setWidth, getLsbD_maskOf _ _ (by omega)]
    by_cases hjb : j < t.wordBits
    · simp [hj, hjb]; omega
    · simp [hjb]
  have h4 : t.key m i = (readInt57 m (t.at i) t.wordBits (maskOf t.wordBits)).toNat := by
    unfold Table.key; rw [h3]; rfl
  rw [h4, h2, BitVec.toNat_ofNat, Nat.mod_eq_of_lt (by omega)]

theorem Holds.range {t : Table} (ht : t.Ok) {es : List Entry} {ne : Nat} {m : Mem} (h : Holds t es ne m) (hs : (es.map (·.next) ++ [ne]).Pairwise (· ≤ ·)) (hne : t.kind ≠ .longest → ne = t.maxNext)
    (hk : t.kind ≠ .longest) {i u v : Nat} (hu : (es.map (·.next) ++ [ne])[i]? = some u) (hv : (es.map (·.next) ++ [ne])[i + 1]? = some v) : (readEntry t m i).2 = (u, v) := by
  have r1 := read_next_field ht (h.fields i u hu)
  have r2 := read_next_field ht (h.fields (i + 1) v hv)
  have eo : t.at (i + 1) + t.wordBits + t.quant = t.at i + t.wordBits + t.quant + t.totalBits := by rw [t.at_succ]; unfold Table.totalBits; omega
  rw [eo] at r2
  have bnd : ∀ (j x : Nat), (es.map (·.next) ++ [ne])[j]? = some x → x ≤ t.maxNext := by
    intro j x hx
    rw [← hne hk]
    have hj := (List.getElem?_eq_some_iff.mp hx).1
    rw [List.length_append, List.length_singleton] at hj
    exact sorted_le hs hx List.getElem?_concat_length (by omega)
  unfold readEntry readNext
  cases hkind : t.kind with
  | longest => exact absurd hkind hk
  | plain =>
    have e : ∀ x, x ≤ t.maxNext → x % 2 ^ t.inlineBits = x := by
      intro x hx
      apply Nat.mod_eq_of_lt
      unfold Table.inlineBits; rw [hkind]
      exact (C48_required_bits t.maxNext).1 x hx
    rw [e u (bnd i u hu)] at r1
    rw [e v (bnd _ v hv)] at r2
    exact Prod.ext r1 r2
  | array b =>
    have hO := h.offs b hkind
    have h0 := h.first b hkind
    have hcount := Table.count_array hkind
    have lim : ∀ (j x : Nat), (es.map (·.next) ++ [ne])[j]? = some x → x >>> t.inlineBits + 1 ≤ t.count := by
      intro j x hx; rw [hcount]; exact Nat.succ_le_succ (shiftRight_mono (bnd j x hx))
    have e1 : upperBound (t.offset m) i t.count 0 t.count = u >>> t.inlineBits + 1 :=
      upperBound_spec _ _ _ _ _ _ (Nat.le_refl _) (Nat.zero_le _) (by have := lim i u hu; omega) fun k _ hk => hO.high h0 hs hu (by omega)
    have e2 : skip (t.offset m) (i + 1) (u >>> t.inlineBits + 1) (t.count - (u >>> t.inlineBits + 1)) = v >>> t.inlineBits + 1 := by
      refine skip_spec _ _ _ _ _ (Nat.succ_le_succ (shiftRight_mono (sorted_le hs hu hv (by omega)))) ?_ fun k _ hk => hO.high h0 hs hv ?_
      · have := lim i u hu; have := lim _ v hv; omega
      · have := lim i u hu; omega
    dsimp only
    rw [e1, Nat.add_sub_cancel, e2, Nat.add_sub_cancel]
    refine Prod.ext ?_ ?_
    · show _ <<< _ ||| (readInt57 m (t.at i + t.wordBits + t.quant) t.inlineBits (maskOf t.inlineBits)).toNat = u
      rw [r1]; exact shift_or u _
    · show _ <<< _ ||| (readInt57 m (t.at i + t.wordBits + t.quant + t.totalBits) t.inlineBits (maskOf t.inlineBits)).toNat = v
      rw [r2]; exact shift_or v _

theorem Holds.keys {t : Table} (ht : t.Ok) {es : List Entry} {ne : Nat} {m : Mem} (h : Holds t es ne m) (hok : ∀ e ∈ es, e.Ok t) : (List.range es.length).map (t.key m) = es.map (·.word) := by
  apply List.ext_getElem?
  intro i
  rw [List.getElem?_map, List.getElem?_map]
  by_cases hi : i < es.length
  · rw [List.getElem?_range hi, List.getElem?_eq_getElem hi]
    exact congrArg some (read_key ht (hok _ (List.getElem_mem hi)).word (h.words i _ (List.getElem?_eq_getElem hi)))
  · rw [List.getElem?_eq_none (by simp; omega), List.getElem?_eq_none (by omega)]; rfl

/-! ## Searching -/

/-- Increasing words that are at most the vocabulary are at most so many. -/
theorem increasing_count {es : List Entry} {b e : Nat} (he : e ≤ es.length)
    (hs : ∀ (i j : Nat) (x y : Entry), b ≤ i → i < j → j < e → es[i]? = some x → es[j]? = some y → x.word < y.word) : ∀ (k : Nat) (x : Entry), b + k < e → es[b + k]? = some x → k ≤ x.word
  | 0, _, _, _ => Nat.zero_le _
  | k + 1, x, h1, h2 => by
    have h3 : es[b + k]? = some (es[b + k]'(by omega)) := List.getElem?_eq_getElem (by omega)
    have h4 := increasing_count he hs k _ (by omega) h3
    have h5 := hs (b + k) (b + (k + 1)) _ _ (by omega) (by omega) h1 h3 h2
    omega

theorem Holds.find {t : Table} (ht : t.Ok) {es : List Entry} {ne : Nat} {m : Mem} (h : Holds t es ne m) (hok : ∀ e ∈ es, e.Ok t) {b e : Nat} (he : e ≤ es.length)
    (hs : ∀ (i j : Nat) (x y : Entry), b ≤ i → i < j → j < e → es[i]? = some x → es[j]? = some y → x.word < y.word) (w i : Nat) :
    findIndex t m es.length w b e = some i ↔ b ≤ i ∧ i < e ∧ ∃ x, es[i]? = some x ∧ x.word = w := by
  unfold findIndex
  rw [h.keys ht hok]
  have hget : ∀ (p x : Nat), (0 :: es.map (·.word))[p + 1]? = some x → ∃ y, es[p]? = some y ∧ y.word = x := by
    intro p x hx
    rw [List.getElem?_cons_succ, List.getElem?_map, Option.map_eq_some_iff] at hx
    exact hx
  by_cases hw : w ≤ t.vocab
  · have hN : e + 1 - b - 1 ≤ t.vocab + 1 := by
      by_contra hc
      have h1 : b + (t.vocab + 1) < e := by omega
      have h2 : es[b + (t.vocab + 1)]? = some (es[b + (t.vocab + 1)]'(by omega)) := List.getElem?_eq_getElem (by omega)
      have h3 := increasing_count he hs _ _ h1 h2
      have h4 := (hok _ (List.mem_of_getElem? h2)).word
      omega
    have hpiv : PivotOk t.vocab (t.vocab + 1) pivot32 := by
      have hv := ht.vocab
      refine (C51_pivots_in_range _ _).1 ?_ (by omega)
      have : (t.vocab + 1) * (t.vocab + 1) ≤ (2 ^ 32 - 1) * (2 ^ 32 - 1) := Nat.mul_le_mul (by omega) (by omega)
      exact Nat.lt_of_le_of_lt this (by decide)
    obtain ⟨r, hr, ha⟩ := bounded_find_range t.vocab (t.vocab + 1) pivot32 hpiv (0 :: es.map (·.word)) b (e + 1) (by
      intro i j x y h1 h2 h3 h4 h5
      obtain ⟨i, rfl⟩ : ∃ k, i = k + 1 := ⟨i - 1, by omega⟩
      obtain ⟨j, rfl⟩ : ∃ k, j = k + 1 := ⟨j - 1, by omega⟩
      obtain ⟨x, h6, rfl⟩ := hget _ _ h4
      obtain ⟨y, h7, rfl⟩ := hget _ _ h5
      rcases Nat.lt_or_eq_of_le h2 with h | h
      · exact Nat.le_of_lt (hs i j x y (by omega) (by omega) (by omega) h6 h7)
      · obtain rfl : i = j := by omega
        rw [h6] at h7; cases h7; exact Nat.le_refl _) w b 0 (e + 1) t.vocab (Nat.le_refl b) (Nat.le_refl _) (by simp; omega) (Nat.zero_le w) hw (by
      intro p x h1 h2 h3
      obtain ⟨p, rfl⟩ : ∃ k, p = k + 1 := ⟨p - 1, by omega⟩
      obtain ⟨x, h6, rfl⟩ := hget _ _ h3
      exact ⟨Nat.zero_le _, (hok x (List.mem_of_getElem? h6)).word⟩) (Nat.le_refl _) hN
    rw [hr]
    cases r with
    | none =>
      constructor
      · intro h; cases h
      · rintro ⟨h1, h2, x, h3, rfl⟩
        exact absurd (by rw [List.getElem?_cons_succ, List.getElem?_map, h3]; rfl) (ha (i + 1) (by omega) (by omega))
    | some p =>
      obtain ⟨h1, h2, h3⟩ := ha
      obtain ⟨p, rfl⟩ : ∃ k, p = k + 1 := ⟨p - 1, by omega⟩
      obtain ⟨y, h4, rfl⟩ := hget _ _ h3
      constructor
      · intro h
        have : p = i := by simpa using h
        subst this
        exact ⟨by omega, by omega, y, h4, rfl⟩
      · rintro ⟨h5, h6, x, h7, h8⟩
        have : p = i := by
          rcases Nat.lt_trichotomy p i with h | h | h
          · have := hs p i y x (by omega) h h6 h4 h7; omega
          · exact h
          · have := hs i p x y h5 h (by omega) h7 h4; omega
        subst this; rfl
  · constructor
    · intro h
      exfalso
      split at h
      · rename_i p hp
        obtain ⟨h1, h2, h3⟩ := LM.boundedFind_sound _ _ _ _ _ _ _ hp
        obtain ⟨q, rfl⟩ : ∃ q, p = q + 1 := ⟨p - 1, by omega⟩
        obtain ⟨y, h4, rfl⟩ := hget _ _ h3
        exact hw (hok y (List.mem_of_getElem? h4)).word
      · cases h
    · rintro ⟨h1, h2, x, h3, rfl⟩
      exact absurd (hok x (List.mem_of_getElem? h3)).word hw

end Cdec.Klm.Packed
