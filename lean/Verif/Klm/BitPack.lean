import Init.Data.BitVec
/-!
# Bit packing

Models klm/util/bit_packing.hh:38-175 and bit_packing.cc:17-22 for a little-endian machine.  Memory is a function
from byte addresses to bytes (the caller of the C++ functions has to make sure that the 8, resp. 4, bytes that
are accessed are allocated).  Floating-point numbers are their 32-bit encodings.
-/
namespace Cdec.Klm

abbrev Mem := Nat → BitVec 8

/-- `*reinterpret_cast<const uint64_t*>(p)`, little endian. -/
def load64 (m : Mem) (a : Nat) : BitVec 64 :=
  m (a + 7) ++ m (a + 6) ++ m (a + 5) ++ m (a + 4) ++ m (a + 3) ++ m (a + 2) ++ m (a + 1) ++ m a

/-- `*reinterpret_cast<uint64_t*>(p) = v`. -/
def store64 (m : Mem) (a : Nat) (v : BitVec 64) : Mem := fun x =>
  if a ≤ x ∧ x < a + 8 then v.extractLsb' (8 * (x - a)) 8 else m x

/-- `*reinterpret_cast<const uint32_t*>(p)`. -/
def load32 (m : Mem) (a : Nat) : BitVec 32 := m (a + 3) ++ m (a + 2) ++ m (a + 1) ++ m a

/-- `*reinterpret_cast<uint32_t*>(p) = v`. -/
def store32 (m : Mem) (a : Nat) (v : BitVec 32) : Mem := fun x =>
  if a ≤ x ∧ x < a + 4 then v.extractLsb' (8 * (x - a)) 8 else m x

/-- `BitPackShift`, bit_packing.hh:38-40 (little endian). -/
def bitPackShift (bit _length : Nat) : Nat := bit

/-- `ReadOff`, bit_packing.hh:49-58. -/
def readOff (m : Mem) (off : Nat) : BitVec 64 := load64 m (off / 8)

/-- `ReadInt57`, bit_packing.hh:64-66. -/
def readInt57 (m : Mem) (off len : Nat) (mask : BitVec 64) : BitVec 64 :=
  (readOff m off >>> bitPackShift (off % 8) len) &&& mask

/-- `WriteInt57`, bit_packing.hh:70-81. -/
def writeInt57 (m : Mem) (off len : Nat) (v : BitVec 64) : Mem :=
  store64 m (off / 8) (load64 m (off / 8) ||| (v <<< bitPackShift (off % 8) len))

/-- `ReadInt25`, bit_packing.hh:84-93. -/
def readInt25 (m : Mem) (off len : Nat) (mask : BitVec 32) : BitVec 32 :=
  (load32 m (off / 8) >>> bitPackShift (off % 8) len) &&& mask

/-- `WriteInt25`, bit_packing.hh:95-106. -/
def writeInt25 (m : Mem) (off len : Nat) (v : BitVec 32) : Mem :=
  store32 m (off / 8) (load32 m (off / 8) ||| (v <<< bitPackShift (off % 8) len))

/-- `ReadFloat32`, bit_packing.hh:110-114 (the encoding of the result). -/
def readFloat32 (m : Mem) (off : Nat) : BitVec 32 :=
  (readOff m off >>> bitPackShift (off % 8) 32).truncate 32

/-- `WriteFloat32`, bit_packing.hh:115-119. -/
def writeFloat32 (m : Mem) (off : Nat) (v : BitVec 32) : Mem := writeInt57 m off 32 (v.zeroExtend 64)

/-- `kSignBit`, bit_packing.hh:121. -/
def signBit : BitVec 32 := 0x80000000#32

/-- `ReadNonPositiveFloat31`, bit_packing.hh:137-143. -/
def readNonPositiveFloat31 (m : Mem) (off : Nat) : BitVec 32 :=
  (readOff m off >>> bitPackShift (off % 8) 31).truncate 32 ||| signBit

/-- `WriteNonPositiveFloat31`, bit_packing.hh:144-149. -/
def writeNonPositiveFloat31 (m : Mem) (off : Nat) (v : BitVec 32) : Mem :=
  writeInt57 m off 31 ((v &&& ~~~ signBit).zeroExtend 64)

/-- `(1ULL << bits) - 1`, bit_packing.hh:163-172 (`BitsMask`). -/
def maskOf (bits : Nat) : BitVec 64 := (1#64 <<< bits) - 1#64

/-- `RequiredBits`, bit_packing.cc:17-22, on unbounded numbers. -/
def requiredBits (maxValue : Nat) : Nat :=
  if maxValue = 0 then 0 else go 1 (maxValue / 2)
where go (ret rest : Nat) : Nat := if h : rest = 0 then ret else go (ret + 1) (rest / 2)
  termination_by rest

end Cdec.Klm
