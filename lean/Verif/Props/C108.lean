import Verif.Klm.QuantizeLemmas
import Verif.Klm.PackedLemmas
/-!
# C108: quantisation

`Binning` and `Nearest` of `Klm/QuantizeSpec.lean` say what the bins are and what a quantised value may be;
`bit` of C48 is a bit of memory.
-/
namespace Cdec.Klm.Quantize
open Cdec.Klm

/-! ## Probabilities -/

/-- The values are divided into bins of equal size, every number gets one of the available codes, and its code
decodes to the average of a bin that is as close to it as any. -/
theorem C108_nearest (bits : Nat) {values : List Rat} (hv : values ≠ []) :
    ∃ bs, Binning values (2 ^ bits) bs ∧ ∀ v, encodeProb (trainProb bits values) v < 2 ^ bits ∧
      ∃ x, decode (trainProb bits values) (encodeProb (trainProb bits values) v) = .fin x ∧ Nearest bs v x := by
  have hk : 0 < 2 ^ bits := Nat.two_pow_pos bits
  refine ⟨binsOf values (2 ^ bits), binsOf_binning values hk, fun v => ?_⟩
  have := encode_makeBins hv hk [] v
  simpa [encodeProb, trainProb] using this

theorem mem_bin {values : List Rat} {k : Nat} {bs : List (List Rat)} (h : Binning values k bs) {v : Rat} (hv : v ∈ values) : ∃ b ∈ bs, v ∈ b := by
  have := (h.perm.mem_iff (a := v)).2 hv
  exact List.mem_flatten.1 this

/-- With at least as many codes as values nothing is lost. -/
theorem C108_lossless (bits : Nat) (values : List Rat) (hn : values.length ≤ 2 ^ bits) :
    ∀ v ∈ values, decode (trainProb bits values) (encodeProb (trainProb bits values) v) = .fin v := by
  intro v hv
  have hne : values ≠ [] := List.ne_nil_of_mem hv
  obtain ⟨bs, hb, hall⟩ := C108_nearest bits hne
  obtain ⟨_, x, hx, _, hnear⟩ := hall v
  obtain ⟨b, hbm, hvb⟩ := mem_bin hb hv
  rw [hx]; congr 1
  -- the bin has one element
  have hall' : ∀ y ∈ b, y = v := by
    have hk : 0 < 2 ^ bits := Nat.two_pow_pos bits
    rcases Nat.eq_or_lt_of_le hn with heq | hlt
    · -- all bins have exactly one element
      have h1 : values.length / 2 ^ bits = 1 := by rw [heq]; exact Nat.div_self hk
      -- the sizes sum up to the number of bins
      have hsum : (bs.map List.length).sum = bs.length := by
        rw [← List.length_flatten, hb.perm.length_eq, hb.count, heq]
      have hge : ∀ c ∈ bs, 1 ≤ c.length := fun c hc => by rcases hb.equal c hc with h | h <;> omega
      have key : ∀ (l : List (List Rat)), (∀ c ∈ l, 1 ≤ c.length) → l.length ≤ (l.map List.length).sum ∧
          ((l.map List.length).sum = l.length → ∀ c ∈ l, c.length = 1) := by
        intro l
        induction l with
        | nil => intro _; exact ⟨by simp, fun _ c hc => by cases hc⟩
        | cons d l ih =>
          intro hd
          have h2 := hd d (by simp)
          obtain ⟨i1, i2⟩ := ih fun c hc => hd c (by simp [hc])
          simp only [List.map_cons, List.sum_cons, List.length_cons]
          refine ⟨by omega, fun he c hc => ?_⟩
          rcases List.mem_cons.1 hc with rfl | hc
          · omega
          · exact i2 (by omega) c hc
      have hlen := (key bs hge).2 hsum b hbm
      obtain ⟨z, hz⟩ := List.length_eq_one_iff.1 hlen
      rw [hz] at hvb ⊢
      intro y hy
      rw [List.mem_singleton] at hvb hy
      rw [hvb, hy]
    · have h0 : values.length / 2 ^ bits = 0 := Nat.div_eq_of_lt hlt
      have hlen : b.length = 1 := by
        have := List.length_pos_of_mem hvb
        rcases hb.equal b hbm with h | h <;> omega
      obtain ⟨z, hz⟩ := List.length_eq_one_iff.1 hlen
      rw [hz] at hvb ⊢
      intro y hy
      rw [List.mem_singleton] at hvb hy
      rw [hvb, hy]
  have hbne : b ≠ [] := List.ne_nil_of_mem hvb
  have ha : average b = v := le_antisymm (average_le hbne fun y hy => le_of_eq (hall' y hy)) (le_average hbne fun y hy => le_of_eq (hall' y hy).symm)
  have := hnear b hbm hbne
  rw [ha, sub_self, abs_zero] at this
  have h0 := abs_eq_zero.1 (le_antisymm this (abs_nonneg _))
  linarith

/-- A value that was trained on moves at most by the width of its bin. -/
theorem C108_error (bits : Nat) {values : List Rat} (hv : values ≠ []) :
    ∃ bs, Binning values (2 ^ bits) bs ∧ ∀ b ∈ bs, ∀ lo hi, (∀ y ∈ b, lo ≤ y ∧ y ≤ hi) → ∀ v ∈ b,
      ∃ x, decode (trainProb bits values) (encodeProb (trainProb bits values) v) = .fin x ∧ |v - x| ≤ hi - lo := by
  obtain ⟨bs, hb, hall⟩ := C108_nearest bits hv
  refine ⟨bs, hb, fun b hbm lo hi hr v hvb => ?_⟩
  obtain ⟨_, x, hx, _, hn⟩ := hall v
  have hbne : b ≠ [] := List.ne_nil_of_mem hvb
  refine ⟨x, hx, le_trans (hn b hbm hbne) ?_⟩
  have h1 := average_le hbne fun y hy => (hr y hy).2
  have h2 := le_average hbne fun y hy => (hr y hy).1
  have h3 := hr v hvb
  rw [abs_le]; constructor <;> linarith [h3.1, h3.2]

/-- Quantisation never swaps two values. -/
theorem C108_order (bits : Nat) {values : List Rat} (hv : values ≠ []) {v w x y : Rat} (hvw : v ≤ w)
    (hx : decode (trainProb bits values) (encodeProb (trainProb bits values) v) = .fin x)
    (hy : decode (trainProb bits values) (encodeProb (trainProb bits values) w) = .fin y) : x ≤ y := by
  obtain ⟨bs, _, hall⟩ := C108_nearest bits hv
  obtain ⟨_, x', hx', ⟨bx, hbx, hbxn, ex⟩, nx⟩ := hall v
  obtain ⟨_, y', hy', ⟨by', hby, hbyn, ey⟩, ny⟩ := hall w
  rw [hx] at hx'; cases hx'
  rw [hy] at hy'; cases hy'
  by_contra hlt
  have hlt : y < x := lt_of_not_ge hlt
  have h1 := nx by' hby hbyn
  have h2 := ny bx hbx hbxn
  rw [← ey] at h1
  rw [← ex] at h2
  have hvm : x + y ≤ 2 * v := by
    by_contra hn
    have hn : 2 * v < x + y := lt_of_not_ge hn
    have hvx : v < x := by linarith
    rw [abs_of_neg (by linarith)] at h1
    rcases abs_cases (v - y) with ⟨e, _⟩ | ⟨e, _⟩ <;> rw [e] at h1 <;> linarith
  have hwm : 2 * w ≤ x + y := by
    by_contra hn
    have hn : x + y < 2 * w := lt_of_not_ge hn
    have hwy : y < w := by linarith
    rw [abs_of_pos (by linarith)] at h2
    rcases abs_cases (w - x) with ⟨e, _⟩ | ⟨e, _⟩ <;> rw [e] at h2 <;> linarith
  have : v = w := by linarith
  subst this
  rw [hx] at hy; cases hy
  exact lt_irrefl _ hlt

/-! ## In memory -/

theorem readInt25_of_bits {m : Mem} {off len v : Nat} (hl : len ≤ 25) (hv : v < 2 ^ len) (h : ∀ i, i < len → bit m (off + i) = v.testBit i) :
    (readInt25 m off len (mask len)).toNat = v := by
  have h32 : v < 2 ^ 32 := lt_of_lt_of_le hv (Nat.pow_le_pow_right (by omega) (by omega))
  have hn : (BitVec.ofNat 32 v).toNat = v := by rw [BitVec.toNat_ofNat]; exact Nat.mod_eq_of_lt h32
  have := Write.readBack_of_bits m (.int25 off len (BitVec.ofNat 32 v)) ⟨hl, by rw [hn]; exact hv⟩ (fun i hi => by
    show bit m (off + i) = (BitVec.ofNat 32 v).getLsbD i
    rw [h i hi, BitVec.getLsbD, hn])
  have h2 : readInt25 m off len ((maskOf len).truncate 32) = BitVec.ofNat 32 v := this
  unfold mask; rw [h2, hn]

/-- The written bits of a pair of codes. -/
theorem pair_bits {p b P B : Nat} (hp : P < 2 ^ p) (hb : B < 2 ^ b) (hle : p + b ≤ 57) :
    ((BitVec.ofNat 64 P <<< b) ||| BitVec.ofNat 64 B).toNat < 2 ^ (p + b) ∧
    (∀ i, i < b → ((BitVec.ofNat 64 P <<< b) ||| BitVec.ofNat 64 B).getLsbD i = B.testBit i) ∧
    (∀ i, i < p → ((BitVec.ofNat 64 P <<< b) ||| BitVec.ofNat 64 B).getLsbD (b + i) = P.testBit i) := by
  have hP : P < 2 ^ 64 := lt_of_lt_of_le hp (Nat.pow_le_pow_right (by omega) (by omega))
  have hB : B < 2 ^ 64 := lt_of_lt_of_le hb (Nat.pow_le_pow_right (by omega) (by omega))
  have hPb : P <<< b < 2 ^ (p + b) := by
    rw [Nat.shiftLeft_eq, Nat.pow_add]
    exact Nat.mul_lt_mul_of_pos_right hp (Nat.two_pow_pos b)
  have h64 : 2 ^ (p + b) ≤ 2 ^ 64 := Nat.pow_le_pow_right (by omega) (by omega)
  have e : ((BitVec.ofNat 64 P <<< b) ||| BitVec.ofNat 64 B).toNat = P <<< b ||| B := by
    rw [BitVec.toNat_or, BitVec.toNat_shiftLeft, BitVec.toNat_ofNat, BitVec.toNat_ofNat, Nat.mod_eq_of_lt hP, Nat.mod_eq_of_lt hB, Nat.mod_eq_of_lt (by omega)]
  refine ⟨?_, ?_, ?_⟩
  · rw [e]
    exact Nat.or_lt_two_pow hPb (lt_of_lt_of_le hb (Nat.pow_le_pow_right (by omega) (by omega)))
  · intro i hi
    rw [BitVec.getLsbD, e, Nat.testBit_or, Nat.testBit_shiftLeft]
    have : ¬ i ≥ b := by omega
    simp [this]
  · intro i hi
    rw [BitVec.getLsbD, e, Nat.testBit_or, Nat.testBit_shiftLeft]
    have h1 : B.testBit (b + i) = false := Nat.testBit_lt_two_pow (lt_of_lt_of_le hb (Nat.pow_le_pow_right (by omega) (by omega)))
    have h2 : b + i ≥ b := by omega
    have h3 : b + i - b = i := by omega
    rw [h1, h3]; simp

/-- The backoffs that are not zero. -/
def nonZeroBackoffs (records : List (Rat × Num)) : List Rat :=
  records.filterMap fun r => match r.2 with
    | .fin q => if q = 0 then none else some q
    | _ => none

theorem nonZero_eq (records : List (Rat × Num)) : nonZero (records.map Prod.snd) = nonZeroBackoffs records := by
  unfold nonZeroBackoffs
  induction records with
  | nil => rfl
  | cons r l ih =>
    obtain ⟨p, x⟩ := r
    cases x with
    | negInf => simp only [List.map_cons, nonZero, List.filterMap_cons]; exact ih
    | negZero => simp only [List.map_cons, nonZero, List.filterMap_cons]; exact ih
    | fin q =>
      simp only [List.map_cons, nonZero, List.filterMap_cons]
      by_cases hq : q = 0
      · simp only [hq, if_true]; exact ih
      · simp only [hq, if_false]; rw [ih]

theorem accepted_bounds {b : Bits} (h : b.accepted = true) : 1 ≤ b.prob ∧ b.prob ≤ 25 ∧ 1 ≤ b.backoff ∧ b.backoff ≤ 25 := by
  simp [Bits.accepted] at h
  omega

/-- An entry that is neither a unigram nor of the longest order, with at least two bits for the backoff: after
`Write` into zero bits at any bit address, and after whatever else is written elsewhere, the probability read is a
nearest average of a bin of probabilities; the backoff is a nearest average of a bin of the non-zero backoffs, or
exactly the zero with the sign that was written; and the n-gram is marked as extensible exactly if it was.  No bit
outside of the field changes. -/
theorem C108_middle_partial {b : Bits} (ha : b.accepted = true) (h2 : 2 ≤ b.backoff) (additional : List Rat) (records : List (Rat × Num))
    (hne : additional ≠ [] ∨ records ≠ []) :
    ∃ pbs bbs, Binning (additional ++ records.map Prod.fst) (2 ^ b.prob) pbs ∧ Binning (nonZeroBackoffs records) (2 ^ b.backoff - 2) bbs ∧
    ∀ (m : Mem) (off : Nat) (prob : Rat) (backoff : Num),
      (∀ j, off ≤ j → j < off + (b.prob + b.backoff) → bit m j = false) →
      (backoff = .negZero ∨ ∃ q, backoff = .fin q ∧ (q ≠ 0 → nonZeroBackoffs records ≠ [])) →
      (∀ j, j < off ∨ off + (b.prob + b.backoff) ≤ j → bit (writeMiddle b (trainQuantizer b additional records) m off prob backoff) j = bit m j) ∧
      ∀ m', (∀ j, off ≤ j → j < off + (b.prob + b.backoff) → bit m' j = bit (writeMiddle b (trainQuantizer b additional records) m off prob backoff) j) →
        (∃ x, readProb b (trainQuantizer b additional records) m' off = .fin x ∧ Nearest pbs prob x) ∧
        (backoff = .negZero → readBackoff b (trainQuantizer b additional records) m' off = .negZero) ∧
        (backoff = .fin 0 → readBackoff b (trainQuantizer b additional records) m' off = .fin 0) ∧
        (∀ q, backoff = .fin q → q ≠ 0 → ∃ x, readBackoff b (trainQuantizer b additional records) m' off = .fin x ∧ Nearest bbs q x) ∧
        hasExtension (readBackoff b (trainQuantizer b additional records) m' off) = hasExtension backoff := by
  obtain ⟨hp1, hp2, hb1, hb2⟩ := accepted_bounds ha
  have hpne : additional ++ records.map Prod.fst ≠ [] := by
    rcases hne with h | h
    · simp [h]
    · simp [h]
  have hkp : 0 < 2 ^ b.prob := Nat.two_pow_pos _
  have h4 : 4 ≤ 2 ^ b.backoff := by
    calc 4 = 2 ^ 2 := rfl
      _ ≤ 2 ^ b.backoff := Nat.pow_le_pow_right (by omega) h2
  have hkb : 0 < 2 ^ b.backoff - 2 := by omega
  refine ⟨binsOf _ (2 ^ b.prob), binsOf _ (2 ^ b.backoff - 2), binsOf_binning _ hkp, binsOf_binning _ hkb, ?_⟩
  intro m off prob backoff hz hbk
  have ep : (trainQuantizer b additional records).prob = makeBins (additional ++ records.map Prod.fst) (2 ^ b.prob) := rfl
  have eb : (trainQuantizer b additional records).backoff = [Num.negZero, Num.fin 0] ++ makeBins (nonZeroBackoffs records) (2 ^ b.backoff - 2) := by
    rw [← nonZero_eq]; rfl
  obtain ⟨hP, xp, hdp, hnp⟩ := encode_makeBins hpne hkp [] prob
  simp only [List.nil_append, List.length_nil, Nat.zero_add] at hP hdp
  rw [← ep] at hP hdp
  have hP : encodeProb (trainQuantizer b additional records).prob prob < 2 ^ b.prob := hP
  have hdp : decode (trainQuantizer b additional records).prob (encodeProb (trainQuantizer b additional records).prob prob) = .fin xp := hdp
  -- the code of the backoff
  have hB : encodeBackoff (trainQuantizer b additional records).backoff backoff < 2 ^ b.backoff ∧
      (backoff = .negZero → decode (trainQuantizer b additional records).backoff (encodeBackoff (trainQuantizer b additional records).backoff backoff) = .negZero) ∧
      (backoff = .fin 0 → decode (trainQuantizer b additional records).backoff (encodeBackoff (trainQuantizer b additional records).backoff backoff) = .fin 0) ∧
      (∀ q, backoff = .fin q → q ≠ 0 → ∃ x, decode (trainQuantizer b additional records).backoff (encodeBackoff (trainQuantizer b additional records).backoff backoff) = .fin x ∧
        Nearest (binsOf (nonZeroBackoffs records) (2 ^ b.backoff - 2)) q x) := by
    rcases hbk with rfl | ⟨q, rfl, hq⟩
    · have e : encodeBackoff (trainQuantizer b additional records).backoff .negZero = 0 := by simp [encodeBackoff, Num.isZero, hasExtension]
      rw [e]
      exact ⟨by omega, fun _ => by rw [eb]; rfl, fun h => (nomatch h), fun q h => (nomatch h)⟩
    · by_cases hq0 : q = 0
      · subst hq0
        have e : encodeBackoff (trainQuantizer b additional records).backoff (.fin 0) = 1 := by simp [encodeBackoff, Num.isZero, hasExtension]
        rw [e]
        exact ⟨by omega, fun h => (nomatch h), fun _ => by rw [eb]; rfl, fun q h hn => absurd (Num.fin.inj h).symm hn⟩
      · have e : encodeBackoff (trainQuantizer b additional records).backoff (.fin q) = encode (trainQuantizer b additional records).backoff 2 q := by
          simp [encodeBackoff, Num.isZero, hq0]
        obtain ⟨h1, x, h3, h5⟩ := encode_makeBins (hq hq0) hkb [Num.negZero, Num.fin 0] q
        rw [← eb] at h1 h3
        rw [e]
        refine ⟨?_, fun h => (nomatch h), fun h => ?_, fun q' h hn => ?_⟩
        · have h1 : encode (trainQuantizer b additional records).backoff 2 q < 2 + (2 ^ b.backoff - 2) := h1
          omega
        · cases h; exact absurd rfl hq0
        · cases h; exact ⟨x, h3, h5⟩
  obtain ⟨hB, hd1, hd2, hd3⟩ := hB
  obtain ⟨hw1, hw2, hw3⟩ := pair_bits hP hB (show b.prob + b.backoff ≤ 57 by omega)
  have hok : (Write.int57 off (b.prob + b.backoff) ((BitVec.ofNat 64 (encodeProb (trainQuantizer b additional records).prob prob) <<< b.backoff) |||
      BitVec.ofNat 64 (encodeBackoff (trainQuantizer b additional records).backoff backoff))).ok := ⟨by omega, hw1⟩
  refine ⟨fun j hj => Packed.run_frame hok m hj, fun m' hm' => ?_⟩
  have hhas := Packed.has_run hok hz
  have hbits : ∀ i, i < b.prob + b.backoff → bit m' (off + i) = ((BitVec.ofNat 64 (encodeProb (trainQuantizer b additional records).prob prob) <<< b.backoff) |||
      BitVec.ofNat 64 (encodeBackoff (trainQuantizer b additional records).backoff backoff)).getLsbD i := fun i hi => by
    rw [hm' _ (by omega) (by omega)]; exact hhas i hi
  have hrp : readProb b (trainQuantizer b additional records) m' off = .fin xp := by
    unfold readProb
    rw [readInt25_of_bits hp2 hP fun i hi => by rw [Nat.add_assoc, hbits _ (by omega)]; exact hw3 i hi]
    exact hdp
  have hrb : readBackoff b (trainQuantizer b additional records) m' off =
      decode (trainQuantizer b additional records).backoff (encodeBackoff (trainQuantizer b additional records).backoff backoff) := by
    unfold readBackoff
    rw [readInt25_of_bits hb2 hB fun i hi => by rw [hbits _ (by omega)]; exact hw2 i hi]
  rw [hrb]
  refine ⟨⟨xp, hrp, hnp⟩, hd1, hd2, hd3, ?_⟩
  rcases hbk with rfl | ⟨q, rfl, _⟩
  · rw [hd1 rfl]
  · by_cases hq0 : q = 0
    · subst hq0; rw [hd2 rfl]
    · obtain ⟨x, hx, _⟩ := hd3 q rfl hq0
      rw [hx]; simp [hasExtension]

/-- An entry of the longest order. -/
theorem C108_longest {bits : Nat} (hb : bits ≤ 25) {values : List Rat} (hv : values ≠ []) :
    ∃ bs, Binning values (2 ^ bits) bs ∧ ∀ (m : Mem) (off : Nat) (prob : Rat), (∀ j, off ≤ j → j < off + bits → bit m j = false) →
      (∀ j, j < off ∨ off + bits ≤ j → bit (writeLongest bits (trainProb bits values) m off prob) j = bit m j) ∧
      ∀ m', (∀ j, off ≤ j → j < off + bits → bit m' j = bit (writeLongest bits (trainProb bits values) m off prob) j) →
        ∃ x, readLongest bits (trainProb bits values) m' off = .fin x ∧ Nearest bs prob x := by
  obtain ⟨bs, hbs, hall⟩ := C108_nearest bits hv
  refine ⟨bs, hbs, fun m off prob hz => ?_⟩
  obtain ⟨hlt, x, hx, hn⟩ := hall prob
  have h32 : encodeProb (trainProb bits values) prob < 2 ^ 32 := lt_of_lt_of_le hlt (Nat.pow_le_pow_right (by omega) (by omega))
  have hnat : (BitVec.ofNat 32 (encodeProb (trainProb bits values) prob)).toNat = encodeProb (trainProb bits values) prob := by
    rw [BitVec.toNat_ofNat]; exact Nat.mod_eq_of_lt h32
  have hok : (Write.int25 off bits (BitVec.ofNat 32 (encodeProb (trainProb bits values) prob))).ok := ⟨hb, by rw [hnat]; exact hlt⟩
  refine ⟨fun j hj => Packed.run_frame hok m hj, fun m' hm' => ⟨x, ?_, hn⟩⟩
  have hhas := Packed.has_run hok hz
  unfold readLongest
  rw [readInt25_of_bits hb hlt fun i hi => by
    rw [hm' _ (by omega) (by omega)]
    have := hhas i hi
    rw [show bit (writeLongest bits (trainProb bits values) m off prob) (off + i) = _ from this]
    show (BitVec.ofNat 32 (encodeProb (trainProb bits values) prob)).getLsbD i = _
    rw [BitVec.getLsbD, hnat]]
  exact hx

/-- One bit for the backoff is accepted, but the code of a non-zero backoff does not fit in it: it is read as a zero
that says that the n-gram cannot be extended, and it also overwrites the probability. -/
theorem C108_one_bit_fails : ∃ (b : Bits) (records : List (Rat × Num)) (prob : Rat) (q : Rat),
    b.accepted = true ∧ (prob, Num.fin q) ∈ records ∧ q ≠ 0 ∧ records.length ≤ 2 ^ b.prob ∧
    readBackoff b (trainQuantizer b [] records) (writeMiddle b (trainQuantizer b [] records) (fun _ => 0#8) 0 prob (.fin q)) 0 = .negZero ∧
    readProb b (trainQuantizer b [] records) (writeMiddle b (trainQuantizer b [] records) (fun _ => 0#8) 0 prob (.fin q)) 0 ≠ .fin prob := by
  refine ⟨⟨1, 1⟩, [(-2, .fin (-1)), (-1, .fin (-1))], -2, -1, rfl, by simp, by decide, by decide, ?_, ?_⟩
  all_goals
    have e1 : ([-2, -1] : List Rat).mergeSort (fun a b => decide (a ≤ b)) = [-2, -1] := List.mergeSort_of_pairwise (by decide +kernel)
    have et : trainQuantizer ⟨1, 1⟩ [] [(-2, .fin (-1)), (-1, .fin (-1))] = ⟨[.fin (-2), .fin (-1)], [.negZero, .fin 0]⟩ := by
      unfold trainQuantizer train trainProb makeBins
      simp only [List.nil_append, List.map_cons, List.map_nil, e1]
      congr 1
      decide +kernel
    rw [et]
    decide +kernel

/-! ## The tables in memory -/

theorem startsLoop_spec (b : Bits) : ∀ n start, ((startsLoop b n start).length = 2 * n + 1) ∧
    (∀ t ∈ startsLoop b n start, start ≤ t.1 ∧ t.1 + t.2 ≤ start + (n * (2 ^ b.backoff * 4 + 2 ^ b.prob * 4) + 2 ^ b.prob * 4)) ∧
    (startsLoop b n start).Pairwise fun s t => s.1 + s.2 ≤ t.1
  | 0, start => by simp [startsLoop]
  | n + 1, start => by
    obtain ⟨h1, h2, h3⟩ := startsLoop_spec b n (start + 2 ^ b.prob * 4 + 2 ^ b.backoff * 4)
    have e : (n + 1) * (2 ^ b.backoff * 4 + 2 ^ b.prob * 4) = n * (2 ^ b.backoff * 4 + 2 ^ b.prob * 4) + (2 ^ b.backoff * 4 + 2 ^ b.prob * 4) := by
      rw [Nat.add_mul, Nat.one_mul]
    rw [e]
    generalize n * (2 ^ b.backoff * 4 + 2 ^ b.prob * 4) = A at *
    unfold startsLoop
    refine ⟨by simp [h1]; omega, ?_, ?_⟩
    · intro t ht
      rcases List.mem_cons.1 ht with rfl | ht
      · exact ⟨by simp, by simp⟩
      · rcases List.mem_cons.1 ht with rfl | ht
        · exact ⟨by simp, by simp only; omega⟩
        · have := h2 t (by
            simpa using ht)
          omega
    · rw [List.pairwise_cons, List.pairwise_cons]
      refine ⟨?_, ?_, h3⟩
      · intro t ht
        rcases List.mem_cons.1 ht with rfl | ht
        · simp
        · have := (h2 t ht).1; simp only; omega
      · intro t ht
        have := (h2 t ht).1; simp only; omega

/-- The tables of centres, two for every order but the first and the last and one for the last, are disjoint and lie
in the announced number of bytes, behind the header. -/
theorem C108_layout (base order : Nat) (b : Bits) (ho : 2 ≤ order) :
    (tableStarts base order b).length = 2 * (order - 2) + 1 ∧
    (∀ t ∈ tableStarts base order b, base + 3 ≤ t.1 ∧ t.1 + t.2 ≤ base + size order b) ∧
    (tableStarts base order b).Pairwise fun s t => s.1 + s.2 ≤ t.1 ∨ t.1 + t.2 ≤ s.1 := by
  obtain ⟨h1, h2, h3⟩ := startsLoop_spec b (order - 2) (base + 8)
  refine ⟨h1, fun t ht => ?_, h3.imp Or.inl⟩
  have := h2 t ht
  unfold size
  simp only
  omega

/-- The header read back, after other writes elsewhere, gives the configuration of the file, and a file of another
version is rejected. -/
theorem C108_header {b : Bits} (ha : b.accepted = true) (m : Mem) (base : Nat) :
    (∀ m' : Mem, (∀ x, base ≤ x → x < base + 3 → m' x = finishedLoading m base b x) → updateConfig m' base = some b) ∧
    (∀ x, x < base ∨ base + 3 ≤ x → finishedLoading m base b x = m x) ∧
    ∀ m' : Mem, m' base ≠ 2#8 → updateConfig m' base = none := by
  obtain ⟨hp1, hp2, hb1, hb2⟩ := accepted_bounds ha
  refine ⟨fun m' h => ?_, fun x hx => ?_, fun m' h => by simp [updateConfig, h]⟩
  · unfold updateConfig
    rw [h base (by omega) (by omega), h (base + 1) (by omega) (by omega), h (base + 2) (by omega) (by omega)]
    have e0 : finishedLoading m base b base = 2#8 := by simp [finishedLoading, setByte]
    have e1 : finishedLoading m base b (base + 1) = BitVec.ofNat 8 b.prob := by simp [finishedLoading, setByte]
    have e2 : finishedLoading m base b (base + 2) = BitVec.ofNat 8 b.backoff := by simp [finishedLoading, setByte]
    rw [e0, e1, e2, if_pos rfl, BitVec.toNat_ofNat, BitVec.toNat_ofNat, Nat.mod_eq_of_lt (by omega), Nat.mod_eq_of_lt (by omega)]
  · unfold finishedLoading setByte
    rw [if_neg (by omega), if_neg (by omega), if_neg (by omega)]

/-- Three values in two bins: -3 and -2 share one or -2 and -1 do; all the hypotheses hold, also with a bin left empty. -/
example : ∃ bs, Binning [-1, -3, -2] (2 ^ 1) bs ∧ ∀ v, encodeProb (trainProb 1 [-1, -3, -2]) v < 2 ^ 1 ∧
    ∃ x, decode (trainProb 1 [-1, -3, -2]) (encodeProb (trainProb 1 [-1, -3, -2]) v) = .fin x ∧ Nearest bs v x := C108_nearest 1 (by simp)
example : decode (trainProb 2 [-1, -3, -2]) (encodeProb (trainProb 2 [-1, -3, -2]) (-3)) = .fin (-3) := C108_lossless 2 _ (by simp) (-3) (by simp)
example : (Bits.mk 8 8).accepted = true ∧ 2 ≤ (Bits.mk 8 8).backoff := ⟨rfl, by decide⟩
example : (∀ j, 5 ≤ j → j < 5 + (8 + 8) → bit (fun _ => 0#8) j = false) ∧ nonZeroBackoffs [(-1, .negZero), (-2, .fin (-1))] ≠ [] := by
  refine ⟨fun j _ _ => by simp [bit], by simp [nonZeroBackoffs]⟩

end Cdec.Klm.Quantize
