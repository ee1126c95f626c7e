import Verif.Klm.BitPack
import Mathlib.Tactic.IntervalCases
import Mathlib.Data.List.Pairwise
import Mathlib.Tactic.Tauto
/-!
# C48: packed bit fields

Specification: memory is a sequence of bits (`bit`), and a field is the range of bits `[off, off+len)`.  Writing
fields into disjoint ranges of zero bits, in any order and with any mixture of the four kinds of writes, and
then reading one of them returns what was written; no bit outside the written fields changes.
-/
namespace Cdec.Klm

/-- The `j`-th bit of memory. -/
def bit (m : Mem) (j : Nat) : Bool := (m (j / 8)).getLsbD (j % 8)

/-- The four write calls. -/
inductive Write where
  | int57 (off len : Nat) (v : BitVec 64)
  | int25 (off len : Nat) (v : BitVec 32)
  | float32 (off : Nat) (enc : BitVec 32)
  | float31 (off : Nat) (enc : BitVec 32)
deriving DecidableEq

namespace Write
def off : Write → Nat
  | int57 o _ _ => o | int25 o _ _ => o | float32 o _ => o | float31 o _ => o
def len : Write → Nat
  | int57 _ l _ => l | int25 _ l _ => l | float32 _ _ => 32 | float31 _ _ => 31
/-- The documented preconditions of the calls. -/
def ok : Write → Prop
  | int57 _ l v => l ≤ 57 ∧ v.toNat < 2 ^ l
  | int25 _ l v => l ≤ 25 ∧ v.toNat < 2 ^ l
  | float32 _ _ => True
  | float31 _ e => e.getLsbD 31 = true
def run (m : Mem) : Write → Mem
  | int57 o l v => writeInt57 m o l v
  | int25 o l v => writeInt25 m o l v
  | float32 o v => writeFloat32 m o v
  | float31 o v => writeNonPositiveFloat31 m o v
/-- Reading the field back, with the read call that goes with the write, gives the value that was written. -/
def readBack (m : Mem) : Write → Prop
  | int57 o l v => readInt57 m o l (maskOf l) = v
  | int25 o l v => readInt25 m o l ((maskOf l).truncate 32) = v
  | float32 o v => readFloat32 m o = v
  | float31 o v => readNonPositiveFloat31 m o = v
/-- The two fields share no bit. -/
def disj (a b : Write) : Prop := a.off + a.len ≤ b.off ∨ b.off + b.len ≤ a.off
end Write

theorem getLsbD_load64 (m : Mem) (a i : Nat) (h : i < 64) :
    (load64 m a).getLsbD i = bit m (8 * a + i) := by
  have h1 : (8 * a + i) / 8 = a + i / 8 := by omega
  have h2 : (8 * a + i) % 8 = i % 8 := by omega
  unfold bit
  rw [h1, h2]
  interval_cases i <;> simp only [load64, BitVec.getLsbD_append, Nat.reduceLT, Nat.reduceSub, Nat.reduceDiv,
    Nat.reduceMod, if_true, if_false, Nat.add_zero, cond_true, cond_false, decide_true, decide_false]

theorem getLsbD_load32 (m : Mem) (a i : Nat) (h : i < 32) :
    (load32 m a).getLsbD i = bit m (8 * a + i) := by
  have h1 : (8 * a + i) / 8 = a + i / 8 := by omega
  have h2 : (8 * a + i) % 8 = i % 8 := by omega
  unfold bit
  rw [h1, h2]
  interval_cases i <;> simp only [load32, BitVec.getLsbD_append, Nat.reduceLT, Nat.reduceSub, Nat.reduceDiv,
    Nat.reduceMod, if_true, if_false, Nat.add_zero, cond_true, cond_false, decide_true, decide_false]

theorem bit_store64 (m : Mem) (a : Nat) (v : BitVec 64) (j : Nat) :
    bit (store64 m a v) j = if 8 * a ≤ j ∧ j < 8 * a + 64 then v.getLsbD (j - 8 * a) else bit m j := by
  unfold bit store64
  by_cases h : 8 * a ≤ j ∧ j < 8 * a + 64
  · rw [if_pos h, if_pos (by omega)]
    rw [BitVec.getLsbD_extractLsb']
    have : j % 8 < 8 := by omega
    simp only [this, decide_true, Bool.true_and]
    congr 1; omega
  · rw [if_neg h, if_neg (by omega)]

theorem bit_store32 (m : Mem) (a : Nat) (v : BitVec 32) (j : Nat) :
    bit (store32 m a v) j = if 8 * a ≤ j ∧ j < 8 * a + 32 then v.getLsbD (j - 8 * a) else bit m j := by
  unfold bit store32
  by_cases h : 8 * a ≤ j ∧ j < 8 * a + 32
  · rw [if_pos h, if_pos (by omega)]
    rw [BitVec.getLsbD_extractLsb']
    have : j % 8 < 8 := by omega
    simp only [this, decide_true, Bool.true_and]
    congr 1; omega
  · rw [if_neg h, if_neg (by omega)]

theorem getLsbD_of_lt {w : Nat} (v : BitVec w) (l i : Nat) (h : v.toNat < 2 ^ l) (hi : l ≤ i) :
    v.getLsbD i = false := by
  unfold BitVec.getLsbD
  exact Nat.testBit_lt_two_pow (lt_of_lt_of_le h (Nat.pow_le_pow_right (by omega) hi))

theorem bit_writeInt57 (m : Mem) (off len l' : Nat) (v : BitVec 64) (hl : len ≤ 57) (hv : v.toNat < 2 ^ len)
    (j : Nat) : bit (writeInt57 m off l' v) j = (bit m j || (decide (off ≤ j) && v.getLsbD (j - off))) := by
  unfold writeInt57 bitPackShift
  rw [bit_store64]
  split
  · rename_i h
    rw [BitVec.getLsbD_or, getLsbD_load64 _ _ _ (by omega), BitVec.getLsbD_shiftLeft]
    have e : 8 * (off / 8) + (j - 8 * (off / 8)) = j := by omega
    have h64 : j - 8 * (off / 8) < 64 := by omega
    rw [e]
    simp only [h64, decide_true, Bool.true_and]
    congr 1
    by_cases hj : off ≤ j
    · have : ¬ j - 8 * (off / 8) < off % 8 := by omega
      simp only [this, hj, decide_true, decide_false, Bool.not_false, Bool.true_and]
      congr 1; omega
    · have : j - 8 * (off / 8) < off % 8 := by omega
      simp only [this, hj, decide_true, decide_false, Bool.not_true, Bool.false_and]
  · rename_i h
    by_cases hj : off ≤ j
    · rw [getLsbD_of_lt v len (j - off) hv (by omega)]; simp
    · simp [hj]

theorem bit_writeInt25 (m : Mem) (off len l' : Nat) (v : BitVec 32) (hl : len ≤ 25) (hv : v.toNat < 2 ^ len)
    (j : Nat) : bit (writeInt25 m off l' v) j = (bit m j || (decide (off ≤ j) && v.getLsbD (j - off))) := by
  unfold writeInt25 bitPackShift
  rw [bit_store32]
  split
  · rename_i h
    rw [BitVec.getLsbD_or, getLsbD_load32 _ _ _ (by omega), BitVec.getLsbD_shiftLeft]
    have e : 8 * (off / 8) + (j - 8 * (off / 8)) = j := by omega
    have h64 : j - 8 * (off / 8) < 32 := by omega
    rw [e]
    simp only [h64, decide_true, Bool.true_and]
    congr 1
    by_cases hj : off ≤ j
    · have : ¬ j - 8 * (off / 8) < off % 8 := by omega
      simp only [this, hj, decide_true, decide_false, Bool.not_false, Bool.true_and]
      congr 1; omega
    · have : j - 8 * (off / 8) < off % 8 := by omega
      simp only [this, hj, decide_true, decide_false, Bool.not_true, Bool.false_and]
  · rename_i h
    by_cases hj : off ≤ j
    · rw [getLsbD_of_lt v len (j - off) hv (by omega)]; simp
    · simp [hj]

/-- The bits of the field that a write stores. -/
def Write.payload : Write → Nat → Bool
  | .int57 _ _ v, i => v.getLsbD i
  | .int25 _ _ v, i => v.getLsbD i
  | .float32 _ v, i => v.getLsbD i
  | .float31 _ v, i => v.getLsbD i && decide (i < 31)

theorem getLsbD_signBit (i : Nat) : signBit.getLsbD i = decide (i = 31) := by
  by_cases h : i < 32
  · interval_cases i <;> rfl
  · rw [BitVec.getLsbD_of_ge _ _ (by omega)]; simp; omega

theorem Write.payload_ge (w : Write) (h : w.ok) (i : Nat) (hi : w.len ≤ i) : w.payload i = false := by
  cases w with
  | int57 o l v => exact getLsbD_of_lt v l i h.2 hi
  | int25 o l v => exact getLsbD_of_lt v l i h.2 hi
  | float32 o v => exact BitVec.getLsbD_of_ge _ _ hi
  | float31 o v =>
    have : ¬ i < 31 := by simp only [Write.len] at hi; omega
    simp [Write.payload, this]

theorem Write.bit_run (m : Mem) (w : Write) (h : w.ok) (j : Nat) :
    bit (w.run m) j = (bit m j || (decide (w.off ≤ j) && w.payload (j - w.off))) := by
  cases w with
  | int57 o l v => exact bit_writeInt57 m o l l v h.1 h.2 j
  | int25 o l v => exact bit_writeInt25 m o l l v h.1 h.2 j
  | float32 o v =>
    have hv : (v.zeroExtend 64).toNat < 2 ^ 32 := by
      rw [BitVec.zeroExtend, BitVec.toNat_setWidth_of_le (by omega)]; exact v.isLt
    show bit (writeInt57 m o 32 _) j = _
    rw [bit_writeInt57 m o 32 32 _ (by omega) hv]
    simp only [Write.off, Write.payload, BitVec.zeroExtend, BitVec.getLsbD_setWidth]
    by_cases hk : j - o < 64
    · simp [hk]; rfl
    · rw [BitVec.getLsbD_of_ge v _ (by omega)]; simp
  | float31 o v =>
    have hb : ∀ i, (v &&& ~~~ signBit).getLsbD i = (v.getLsbD i && decide (i < 31)) := by
      intro i
      rw [BitVec.getLsbD_and, BitVec.getLsbD_not, getLsbD_signBit]
      by_cases h31 : i < 31
      · have : i < 32 := by omega
        have h' : i ≠ 31 := by omega
        simp [h31, this, h']
      · by_cases h' : i = 31
        · simp [h']
        · rw [BitVec.getLsbD_of_ge v _ (by omega)]; simp
    have hv : ((v &&& ~~~ signBit).zeroExtend 64).toNat < 2 ^ 32 := by
      rw [BitVec.zeroExtend, BitVec.toNat_setWidth_of_le (by omega)]; exact (v &&& ~~~ signBit).isLt
    show bit (writeInt57 m o 31 _) j = _
    rw [bit_writeInt57 m o 32 31 _ (by omega) hv]
    simp only [Write.off, Write.payload, BitVec.zeroExtend, BitVec.getLsbD_setWidth, hb]
    by_cases hk : j - o < 64
    · simp [hk]; rfl
    · rw [BitVec.getLsbD_of_ge v _ (by omega)]; simp

theorem getLsbD_maskOf (l i : Nat) (hl : l < 64) : (maskOf l).getLsbD i = decide (i < l) := by
  have h : (maskOf l).toNat = 2 ^ l - 1 := by
    have h2 : 2 ^ l < 2 ^ 64 := Nat.pow_lt_pow_right (by omega) hl
    have h3 : 0 < 2 ^ l := Nat.two_pow_pos l
    have : (1#64 <<< l).toNat = 2 ^ l := by
      rw [BitVec.toNat_shiftLeft]; simp [Nat.shiftLeft_eq]; omega
    unfold maskOf
    rw [BitVec.toNat_sub, this]
    simp only [BitVec.toNat_ofNat]
    omega
  unfold BitVec.getLsbD
  rw [h, Nat.testBit_two_pow_sub_one]

/-- If the bits of a field are the bits of the value, the read call returns the value. -/
theorem Write.readBack_of_bits (m : Mem) (w : Write) (h : w.ok)
    (hb : ∀ i, i < w.len → bit m (w.off + i) = w.payload i) : w.readBack m := by
  cases w with
  | int57 o l v =>
    apply BitVec.eq_of_getLsbD_eq
    intro i hi
    have hl : l ≤ 57 := h.1
    unfold readInt57 readOff bitPackShift
    rw [BitVec.getLsbD_and, BitVec.getLsbD_ushiftRight, getLsbD_maskOf l i (by omega)]
    by_cases hil : i < l
    · rw [getLsbD_load64 _ _ _ (by omega)]
      have := hb i hil
      have e : 8 * (o / 8) + (o % 8 + i) = o + i := by omega
      rw [e]; simp only [Write.off, Write.payload] at this
      simp [this, hil]
    · rw [getLsbD_of_lt v l i h.2 (by omega)]; simp [hil]
  | int25 o l v =>
    apply BitVec.eq_of_getLsbD_eq
    intro i hi
    have hl : l ≤ 25 := h.1
    unfold readInt25 bitPackShift
    rw [BitVec.getLsbD_and, BitVec.getLsbD_ushiftRight, BitVec.truncate, BitVec.getLsbD_setWidth,
      getLsbD_maskOf l i (by omega)]
    by_cases hil : i < l
    · rw [getLsbD_load32 _ _ _ (by omega)]
      have := hb i hil
      have e : 8 * (o / 8) + (o % 8 + i) = o + i := by omega
      rw [e]; simp only [Write.off, Write.payload] at this
      simp [this, hil, hi]
    · rw [getLsbD_of_lt v l i h.2 (by omega)]; simp [hil]
  | float32 o v =>
    apply BitVec.eq_of_getLsbD_eq
    intro i hi
    unfold readFloat32 readOff bitPackShift
    rw [BitVec.truncate, BitVec.getLsbD_setWidth, BitVec.getLsbD_ushiftRight, getLsbD_load64 _ _ _ (by omega)]
    have := hb i hi
    have e : 8 * (o / 8) + (o % 8 + i) = o + i := by omega
    rw [e]; simp only [Write.off, Write.payload] at this
    simp [this, hi]
  | float31 o v =>
    apply BitVec.eq_of_getLsbD_eq
    intro i hi
    unfold readNonPositiveFloat31 readOff bitPackShift
    rw [BitVec.getLsbD_or, getLsbD_signBit]
    by_cases h31 : i = 31
    · subst h31; have : v.getLsbD 31 = true := h; rw [this]; simp
    · rw [BitVec.truncate, BitVec.getLsbD_setWidth, BitVec.getLsbD_ushiftRight, getLsbD_load64 _ _ _ (by omega)]
      have hlt : i < 31 := by omega
      have := hb i hlt
      have e : 8 * (o / 8) + (o % 8 + i) = o + i := by omega
      rw [e]; simp only [Write.off, Write.payload] at this
      simp [this, hi, h31, hlt]

theorem Write.bit_runAll (ws : List Write) (m : Mem) (hok : ∀ w ∈ ws, w.ok) (j : Nat) :
    bit (ws.foldl Write.run m) j =
      (bit m j || ws.any (fun w => decide (w.off ≤ j) && w.payload (j - w.off))) := by
  induction ws generalizing m with
  | nil => simp
  | cons w ws ih =>
    rw [List.foldl_cons, ih _ (fun x hx => hok x (List.mem_cons_of_mem _ hx)),
      Write.bit_run _ _ (hok w List.mem_cons_self), List.any_cons, Bool.or_assoc]

/-- **C48 (round trip).**  After any sequence of writes into pairwise disjoint bit ranges that were zero in the
beginning (the rest of the memory is arbitrary), reading any of the fields returns the value written to it. -/
theorem C48_read_back (ws : List Write) (m : Mem) (hok : ∀ w ∈ ws, w.ok)
    (hd : ws.Pairwise Write.disj)
    (hz : ∀ w ∈ ws, ∀ j, w.off ≤ j → j < w.off + w.len → bit m j = false) :
    ∀ w ∈ ws, w.readBack (ws.foldl Write.run m) := by
  intro w hw
  apply Write.readBack_of_bits _ _ (hok w hw)
  intro i hi
  rw [Write.bit_runAll _ _ hok, hz w hw _ (by omega) (by omega), Bool.false_or]
  apply Bool.eq_iff_iff.mpr
  rw [List.any_eq_true]
  constructor
  · rintro ⟨x, hx, h⟩
    simp only [Bool.and_eq_true, decide_eq_true_eq] at h
    by_cases hxw : x = w
    · subst hxw
      have : x.off + i - x.off = i := by omega
      rw [this] at h; exact h.2
    · exfalso
      have hdd : x.disj w := by
        haveI : Std.Symm Write.disj := ⟨fun a b h => Or.symm h⟩
        exact List.Pairwise.forall hd hx hw hxw
      by_cases hge : x.len ≤ w.off + i - x.off
      · rw [Write.payload_ge x (hok x hx) _ hge] at h; simp at h
      · unfold Write.disj at hdd; omega
  · intro h
    refine ⟨w, hw, ?_⟩
    have : w.off + i - w.off = i := by omega
    simp [this, h]

/-- **C48 (frame).**  A sequence of writes changes no bit outside the written fields. -/
theorem C48_frame (ws : List Write) (m : Mem) (hok : ∀ w ∈ ws, w.ok) (j : Nat)
    (hj : ∀ w ∈ ws, j < w.off ∨ w.off + w.len ≤ j) : bit (ws.foldl Write.run m) j = bit m j := by
  rw [Write.bit_runAll _ _ hok]
  have : ws.any (fun w => decide (w.off ≤ j) && w.payload (j - w.off)) = false := by
    rw [List.any_eq_false]
    intro w hw
    rcases hj w hw with h | h
    · simp; omega
    · rw [Write.payload_ge w (hok w hw) _ (by omega)]; simp
  rw [this, Bool.or_false]

theorem requiredBits_go (ret rest v : Nat) (hr : 0 < ret) (h1 : v / 2 ^ ret = rest) (h2 : 2 ^ (ret - 1) ≤ v) :
    v < 2 ^ requiredBits.go ret rest ∧ 2 ^ (requiredBits.go ret rest - 1) ≤ v := by
  induction rest using Nat.strongRecOn generalizing ret with
  | _ rest ih =>
    unfold requiredBits.go
    split
    · rename_i h0
      subst h0
      refine ⟨?_, h2⟩
      have := Nat.two_pow_pos ret
      exact (Nat.div_eq_zero_iff.mp h1).resolve_left (by omega)
    · rename_i h0
      apply ih (rest / 2) (by omega) (ret + 1) (by omega)
      · rw [Nat.pow_succ, ← Nat.div_div_eq_div_mul, h1]
      · have : ret + 1 - 1 = ret := by omega
        rw [this]
        by_contra hc
        have := Nat.div_eq_of_lt (show v < 2 ^ ret by omega)
        omega

/-- **C48 (field width).**  `RequiredBits(max)` is the smallest width in which all values up to `max` fit. -/
theorem C48_required_bits (mx : Nat) :
    (∀ v, v ≤ mx → v < 2 ^ requiredBits mx) ∧ ∀ b, (∀ v, v ≤ mx → v < 2 ^ b) → requiredBits mx ≤ b := by
  unfold requiredBits
  split
  · rename_i h; subst h; simp
  · rename_i h
    obtain ⟨h1, h2⟩ := requiredBits_go 1 (mx / 2) mx (by omega) (by simp) (by simp; omega)
    refine ⟨fun v hv => by omega, fun b hb => ?_⟩
    by_contra hc
    have := hb mx (Nat.le_refl _)
    have := Nat.pow_le_pow_right (n := 2) (by omega) (show b ≤ requiredBits.go 1 (mx / 2) - 1 by omega)
    omega

/-- Non-vacuity: a 57-bit, a 31-bit float, a 3-bit and a 32-bit field side by side, starting at odd bit offsets. -/
def wsEx : List Write :=
  [.int57 3 57 0x123456789abcdef#64, .float31 60 0xbf800000#32, .int25 91 3 5#32, .float32 94 0x40490fdb#32]

example : (∀ w ∈ wsEx, w.ok) ∧ wsEx.Pairwise Write.disj ∧
    (∀ w ∈ wsEx, w.readBack (wsEx.foldl Write.run (fun _ => 0))) := by
  have h1 : ∀ w ∈ wsEx, w.ok := by simp [wsEx, Write.ok]
  have h2 : wsEx.Pairwise Write.disj := by simp [wsEx, Write.disj, Write.off, Write.len]
  exact ⟨h1, h2, C48_read_back _ _ h1 h2 (by intros; simp [bit])⟩

example : requiredBits 0 = 0 ∧ requiredBits 255 = 8 ∧ requiredBits 256 = 9 := by
  decide +kernel

end Cdec.Klm
