import Verif.Util.UrlCode
/-! # C28: escaping of feature names -/
namespace Cdec

theorem urlDecode_plus (s : List UInt8) : urlDecode (43 :: s) = 32 :: urlDecode s := by
  conv => lhs; unfold urlDecode
  simp

theorem urlDecode_pct (a b : UInt8) (s : List UInt8) (v : Nat) (h : hexPairValue a b = some v) :
    urlDecode (37 :: a :: b :: s) = UInt8.ofNat v :: urlDecode s := by
  conv => lhs; unfold urlDecode
  simp [h]

theorem urlDecode_other (c : UInt8) (s : List UInt8) (h1 : c ≠ 43) (h2 : c ≠ 37) :
    urlDecode (c :: s) = c :: urlDecode s := by
  conv => lhs; unfold urlDecode
  simp [h1, h2]

theorem urlSpecial_hex : ∀ ch ∈ urlSpecial,
    hexPairValue (hexChar ((ch >>> 4) &&& 15)) (hexChar (ch &&& 15)) = some ch.toNat ∧
    hexChar ((ch >>> 4) &&& 15) ∉ ([61, 58, 59, 44, 95, 124, 32] : List UInt8) ∧
    hexChar (ch &&& 15) ∉ ([61, 58, 59, 44, 95, 124, 32] : List UInt8) := by decide

/-- C28, restricted: names without `+` are recovered; in general each `+` comes back as a space, and
nothing else changes.  What is missing from C28 is exactly the names with a `+`
(`C28_plus_fails`). -/
theorem C28_decode_encode_partial (s : List UInt8) :
    urlDecode (urlEncode s) = s.map (fun c => if c = 43 then 32 else c) ∧
    (43 ∉ s → urlDecode (urlEncode s) = s) := by
  have key : urlDecode (urlEncode s) = s.map (fun c => if c = 43 then 32 else c) := by
    induction s with
    | nil => simp [urlEncode, urlDecode]
    | cons ch s ih =>
      rw [urlEncode]
      by_cases h1 : ch = 32
      · subst h1; simp [urlDecode_plus, ih]
      · rw [if_neg h1]
        by_cases h2 : ch ∈ urlSpecial
        · rw [if_pos h2]
          have h3 : ch ≠ 43 := by rintro rfl; revert h2; decide
          rw [urlDecode_pct _ _ _ _ (urlSpecial_hex ch h2).1, ih]
          simp [h3]
        · rw [if_neg h2]
          have h3 : ch ≠ 37 := by rintro rfl; exact h2 (by decide)
          by_cases h4 : ch = 43
          · subst h4; simp [urlDecode_plus, ih]
          · rw [urlDecode_other _ _ h4 h3, ih]; simp [h4]
  refine ⟨key, fun hp => ?_⟩
  rw [key]
  conv => rhs; rw [← List.map_id s]
  apply List.map_congr_left
  intro c hc
  have : c ≠ 43 := fun h => hp (h ▸ hc)
  simp [this]

/-- C28 is false for names that contain `+`: `a+b` comes back as `a b`. -/
theorem C28_plus_fails : urlDecode (urlEncode [97, 43, 98]) = [97, 32, 98] ∧ [97, 43, 98] ≠ [97, 32, 98] := by
  refine ⟨?_, by decide⟩
  rw [(C28_decode_encode_partial _).1]; decide

/-- No two names without `+` are escaped to the same string, and an escaped name contains none of the
characters `= : ; , _ | space`. -/
theorem C28_escape_injective_and_safe (s t : List UInt8) :
    (43 ∉ s → 43 ∉ t → urlEncode s = urlEncode t → s = t) ∧
    ∀ c ∈ urlEncode s, c ∉ ([61, 58, 59, 44, 95, 124, 32] : List UInt8) := by
  constructor
  · intro hs ht h
    rw [← (C28_decode_encode_partial s).2 hs, ← (C28_decode_encode_partial t).2 ht, h]
  · induction s with
    | nil => simp [urlEncode]
    | cons ch s ih =>
      rw [urlEncode]
      by_cases h1 : ch = 32
      · rw [if_pos h1]; intro c hc
        rcases List.mem_cons.1 hc with rfl | hc
        · decide
        · exact ih c hc
      · rw [if_neg h1]
        by_cases h2 : ch ∈ urlSpecial
        · rw [if_pos h2]; intro c hc
          rcases List.mem_cons.1 hc with rfl | hc
          · decide
          rcases List.mem_cons.1 hc with rfl | hc
          · exact (urlSpecial_hex ch h2).2.1
          rcases List.mem_cons.1 hc with rfl | hc
          · exact (urlSpecial_hex ch h2).2.2
          exact ih c hc
        · rw [if_neg h2]; intro c hc
          rcases List.mem_cons.1 hc with rfl | hc
          · intro hm; apply h2; simp [urlSpecial] at hm ⊢; rcases hm with h | h | h | h | h | h | h <;> simp [h]
          · exact ih c hc

/-- Non-vacuity: `a=b_c d` is escaped to `a%3Db%5Fc+d`. -/
example : urlEncode [97, 61, 98, 95, 99, 32, 100] = [97, 37, 51, 68, 98, 37, 53, 70, 99, 43, 100] := by
  decide

end Cdec
