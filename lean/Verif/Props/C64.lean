import Verif.Train.SurfaceIO
/-!
# C64: an error surface survives serialisation
-/
namespace Cdec.Mert.IO

theorem readInt_intBytes (n : Nat) (h : n < 2 ^ 32) (r : List UInt8) : readInt (intBytes n ++ r) = some (n, r) := by
  simp only [intBytes, List.cons_append, List.nil_append, readInt, UInt8.toNat_ofNat']
  congr 2
  omega

theorem readN_append (a r : List UInt8) : readN a.length (a ++ r) = some (a, r) := by
  unfold readN
  rw [if_pos (by simp)]
  simp

theorem readSegment_write (s : Segment) (hx : s.x.length = 8) (r : List UInt8) :
    readSegment (writeSegment s ++ r) = some (⟨s.x, s.delta.take (s.delta.length % 256)⟩, r) := by
  have e : writeSegment s ++ r = s.x ++ (UInt8.ofNat s.delta.length :: (s.delta.take (s.delta.length % 256) ++ r)) := by
    simp [writeSegment, UInt8.toNat_ofNat']
  have hl : (s.delta.take (s.delta.length % 256)).length = s.delta.length % 256 := by
    rw [List.length_take]
    have := Nat.mod_le s.delta.length 256
    omega
  unfold readSegment
  rw [e]
  have h8 := readN_append s.x (UInt8.ofNat s.delta.length :: (s.delta.take (s.delta.length % 256) ++ r))
  rw [hx] at h8
  rw [h8]
  simp only [UInt8.toNat_ofNat']
  have hd := readN_append (s.delta.take (s.delta.length % 256)) r
  rw [hl] at hd
  rw [show (2 : Nat) ^ 8 = 256 from rfl]
  rw [hd]

/-- What is read back, in every case: the encoded statistics are cut to their length modulo 256. -/
theorem deserialize_serialize (segs : List Segment) (hn : segs.length < 2 ^ 31) (hx : ∀ s ∈ segs, s.x.length = 8) :
    deserialize (serialize segs) = some (segs.map fun s => ⟨s.x, s.delta.take (s.delta.length % 256)⟩) := by
  unfold deserialize serialize
  rw [readInt_intBytes _ (by omega)]
  simp only []
  have : ∀ (l : List Segment) (r : List UInt8), (∀ s ∈ l, s.x.length = 8) → readSegments l.length (l.flatMap writeSegment ++ r) =
      some (l.map fun s => ⟨s.x, s.delta.take (s.delta.length % 256)⟩) := by
    intro l r h
    induction l with
    | nil => rfl
    | cons a l ih =>
      rw [List.flatMap_cons, List.append_assoc, List.length_cons]
      simp only [readSegments]
      rw [readSegment_write a (h a (by simp))]
      simp only []
      rw [ih (fun s hs => h s (by simp [hs]))]
      rfl
  have := this segs [] hx
  rw [List.append_nil] at this
  exact this

/-- A surface whose statistics are encoded in fewer than 256 bytes each is read back as it was. -/
theorem C64_round_trip_partial (segs : List Segment) (hn : segs.length < 2 ^ 31) (hx : ∀ s ∈ segs, s.x.length = 8)
    (hd : ∀ s ∈ segs, s.delta.length < 256) : deserialize (serialize segs) = some segs := by
  rw [deserialize_serialize segs hn hx]
  congr 1
  conv => rhs; rw [← List.map_id segs]
  apply List.map_congr_left
  intro s hs
  rw [Nat.mod_eq_of_lt (hd s hs), List.take_length]
  rfl

/-- Longer statistics, which the assertion lets pass, come back cut, whatever they are. -/
theorem C64_long_statistics_fails (x delta : List UInt8) (hx : x.length = 8) (h1 : 256 ≤ delta.length) (h2 : delta.length < 1024) :
    ∃ d, deserialize (serialize [⟨x, delta⟩]) = some [⟨x, d⟩] ∧ d.length = delta.length % 256 ∧ d ≠ delta := by
  refine ⟨delta.take (delta.length % 256), ?_, ?_, ?_⟩
  · exact deserialize_serialize [⟨x, delta⟩] (by simp) (by simpa using hx)
  · rw [List.length_take]
    omega
  · intro e
    have := congrArg List.length e
    rw [List.length_take] at this
    omega

example : deserialize (serialize [⟨[0, 0, 0, 0, 0, 0, 240, 255], [66, 32, 49]⟩, ⟨[0, 0, 0, 0, 0, 0, 0, 0], [66, 32, 50]⟩]) =
    some [⟨[0, 0, 0, 0, 0, 0, 240, 255], [66, 32, 49]⟩, ⟨[0, 0, 0, 0, 0, 0, 0, 0], [66, 32, 50]⟩] := by decide +kernel

example : (List.replicate 8 (0 : UInt8)).length = 8 ∧ 256 ≤ (List.replicate 300 (66 : UInt8)).length ∧
    (List.replicate 300 (66 : UInt8)).length < 1024 := by
  rw [List.length_replicate, List.length_replicate]
  omega

end Cdec.Mert.IO
