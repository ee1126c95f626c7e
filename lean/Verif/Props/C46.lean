import Verif.Extract.Backoff
import Mathlib.Tactic.Linarith
import Mathlib.Tactic.NormNum
import Mathlib.Tactic.FieldSimp
import Mathlib.Data.List.Basic
/-! # C46: occurrence sampling -/
namespace Cdec.Extract

theorem cround_nonneg {x : ℚ} (h : 0 ≤ x) : cround x = ⌊x + 1 / 2⌋ := if_pos h

theorem cround_le_floor (x : ℚ) : cround x ≤ ⌊x + 1 / 2⌋ := by
  unfold cround
  split
  · exact le_refl _
  · rw [Int.ceil_le]
    have := Int.lt_floor_add_one (x + 1 / 2)
    linarith

theorem cround_mono {x y : ℚ} (h : x ≤ y) (hy : 0 ≤ y) : cround x ≤ cround y := by
  rw [cround_nonneg hy]
  exact (cround_le_floor x).trans (Int.floor_le_floor (by linarith))

theorem cround_int (z : Int) (hz : 0 ≤ z) : cround (z : ℚ) = z := by
  rw [cround_nonneg (by exact_mod_cast hz), Int.floor_eq_iff]
  constructor <;> linarith

theorem cround_add_nat {x : ℚ} (hx : 0 ≤ x) (n : Nat) : cround (x + n) = cround x + n := by
  rw [cround_nonneg hx, cround_nonneg (by positivity)]
  rw [show x + (n : ℚ) + 1 / 2 = x + 1 / 2 + (n : ℚ) by ring, Int.floor_add_natCast]

theorem mem_backoffSteps {step : ℚ} {bs : Nat} (h : bs ∈ backoffSteps step) : 1 ≤ bs ∧ (bs : ℚ) < step := by
  unfold backoffSteps at h
  rw [List.mem_range'_1] at h
  refine ⟨h.1, ?_⟩
  have h1 : (bs : Int) < ⌈step⌉ := by omega
  have := Int.lt_ceil.1 h1
  exact_mod_cast this

/-- What is known about `i`: it is an integer (step 1), or the remaining steps stay within the range. -/
def OkI (high : Int) (step : ℚ) (fuel : Nat) (i : ℚ) : Prop :=
  (step = 1 ∧ ∃ z : Int, i = z) ∨ (1 < step ∧ i + fuel * step ≤ high)

theorem pick_spec {ok : Int → Bool} {low high last : Int} {step i : ℚ} {fuel : Nat} (hlow : 0 ≤ low)
    (hi : (low : ℚ) ≤ i) (hih : i < high) (hok : OkI high step (fuel + 1) i) (hl : low - 1 ≤ last) (hl2 : last ≤ cround i)
    {s : Int} (h : pickSample ok high last step i = some s) :
    last < s ∧ low ≤ s ∧ s < high ∧ ok s = true ∧ s ≤ cround (i + step) := by
  have hlq : (0 : ℚ) ≤ low := by exact_mod_cast hlow
  have hi0 : (0 : ℚ) ≤ i := by linarith
  have hstep : 1 ≤ step := by rcases hok with h | h; exacts [h.1.ge, h.1.le]
  have hri : cround i < high := by
    rcases hok with ⟨_, z, rfl⟩ | ⟨h1, h2⟩
    · have : z < high := by exact_mod_cast hih
      rwa [cround_int z (by exact_mod_cast hi0)]
    · rw [cround_nonneg hi0, Int.floor_lt]
      have hf : (0 : ℚ) ≤ fuel := by positivity
      push_cast at h2
      nlinarith
  unfold pickSample at h
  simp only at h
  split at h
  · obtain ⟨bs, hm, ht⟩ := List.exists_of_findSome?_eq_some h
    obtain ⟨hb1, hb2⟩ := mem_backoffSteps hm
    unfold tryBackoff at ht
    simp only at ht
    split at ht
    · rename_i hc
      rw [Option.some.injEq] at ht
      subst ht
      have hle : cround (i - bs) ≤ cround i := cround_mono (by linarith [show (0:ℚ) ≤ bs by positivity]) hi0
      exact ⟨hc.2.1, by omega, by omega, hc.2.2, hle.trans (cround_mono (by linarith) (by linarith))⟩
    · split at ht
      · rename_i hc
        rw [Option.some.injEq] at ht
        subst ht
        have := cround_add_nat hi0 bs
        exact ⟨by omega, by omega, hc.1, hc.2, cround_mono (by linarith) (by linarith)⟩
      · cases ht
  · rename_i hc
    rw [Option.some.injEq] at h
    subst h
    simp only [ge_iff_le, not_or, not_le, Bool.not_eq_true, Bool.not_eq_false] at hc
    exact ⟨hc.1, by omega, hri, hc.2, cround_mono (by linarith) (by linarith)⟩

theorem loop_spec {ok : Int → Bool} {low high : Int} {step : ℚ} (hlow : 0 ≤ low) (hstep : 1 ≤ step) :
    ∀ (fuel : Nat) (last : Int) (i : ℚ), (low : ℚ) ≤ i → OkI high step fuel i → low - 1 ≤ last → last ≤ cround i →
    (sampleLoop ok high step fuel last i).length ≤ fuel ∧
    (last :: sampleLoop ok high step fuel last i).Pairwise (· < ·) ∧
    ∀ s ∈ sampleLoop ok high step fuel last i, low ≤ s ∧ s < high ∧ ok s = true := by
  intro fuel
  induction fuel with
  | zero => intro last i _ _ _ _; simp [sampleLoop]
  | succ fuel ih =>
    intro last i hi hok hl hl2
    have hlq : (0 : ℚ) ≤ low := by exact_mod_cast hlow
    have hnext : OkI high step fuel (i + step) := by
      rcases hok with ⟨h1, z, h2⟩ | ⟨h1, h2⟩
      · exact .inl ⟨h1, z + 1, by rw [h1, h2]; push_cast; rfl⟩
      · refine .inr ⟨h1, ?_⟩
        push_cast at h2; linarith
    have hmono : cround i ≤ cround (i + step) := cround_mono (by linarith) (by linarith)
    unfold sampleLoop
    split
    · rename_i hih
      split
      · rename_i s hs
        obtain ⟨p1, p2, p3, p4, p5⟩ := pick_spec hlow hi hih hok hl hl2 hs
        obtain ⟨r1, r2, r3⟩ := ih s (i + step) (by linarith) hnext (by omega) p5
        refine ⟨by simp only [List.length_cons]; omega, ?_, ?_⟩
        · rw [List.pairwise_cons]
          refine ⟨fun x hx => ?_, r2⟩
          rcases List.mem_cons.1 hx with rfl | hx
          · exact p1
          · exact p1.trans (List.rel_of_pairwise_cons r2 hx)
        · intro x hx
          rcases List.mem_cons.1 hx with rfl | hx
          · exact ⟨p2, p3, p4⟩
          · exact r3 x hx
      · obtain ⟨r1, r2, r3⟩ := ih last (i + step) (by linarith) hnext hl (hl2.trans hmono)
        exact ⟨by omega, r2, r3⟩
    · simp

theorem start_ok (low high : Int) (n : Nat) (hn : 0 < n) :
    OkI high (max 1 (((high - low : Int) : ℚ) / n)) n low := by
  have hnq : (0 : ℚ) < n := by exact_mod_cast hn
  rcases le_or_gt (((high - low : Int) : ℚ) / n) 1 with h | h
  · rw [max_eq_left h]; exact .inl ⟨rfl, low, rfl⟩
  · rw [max_eq_right h.le]
    refine .inr ⟨h, ?_⟩
    rw [mul_div_cancel₀ _ hnq.ne']
    push_cast; linarith

/-- C46, soundness.  For every range, sample limit and blacklist: at most `max_samples` indices are returned, they
are strictly increasing (so no occurrence twice), and each is inside the range and not blacklisted. -/
theorem C46_sound (ok : Int → Bool) (low high : Int) (hlow : 0 ≤ low) (maxSamples : Nat) :
    (sample ok low high maxSamples).length ≤ maxSamples ∧ (sample ok low high maxSamples).Pairwise (· < ·) ∧
    ∀ s ∈ sample ok low high maxSamples, low ≤ s ∧ s < high ∧ ok s = true := by
  rcases Nat.eq_zero_or_pos maxSamples with h0 | hn
  · subst h0; simp [sample, sampleLoop]
  · obtain ⟨r1, r2, r3⟩ := loop_spec (ok := ok) (high := high) hlow (le_max_left _ _) maxSamples (low - 1) low (le_refl _)
      (start_ok low high maxSamples hn) (le_refl _) (by rw [cround_int low hlow]; omega)
    exact ⟨r1, (List.pairwise_cons.1 r2).2, r3⟩

/-- C46, completeness.  If the range has at most `max_samples` occurrences, the result is exactly the occurrences
that are not blacklisted, in order. -/
theorem C46_complete (ok : Int → Bool) (low high : Int) (hlow : 0 ≤ low) (maxSamples : Nat)
    (hfit : high - low ≤ maxSamples) :
    sample ok low high maxSamples = ((List.range (high - low).toNat).map fun k : Nat => low + (k : Int)).filter ok := by
  have hstep : max 1 (((high - low : Int) : ℚ) / maxSamples) = 1 := by
    apply max_eq_left
    rcases Nat.eq_zero_or_pos maxSamples with h0 | hn
    · subst h0; simp
    · rw [div_le_one (by exact_mod_cast hn)]
      exact_mod_cast hfit
  unfold sample
  rw [hstep]
  have hb : backoffSteps 1 = [] := by simp [backoffSteps]
  have key : ∀ (fuel : Nat) (z last : Int), 0 ≤ z → last < z → high - z ≤ fuel →
      sampleLoop ok high 1 fuel last (z : ℚ) = ((List.range (high - z).toNat).map fun k : Nat => z + (k : Int)).filter ok := by
    intro fuel
    induction fuel with
    | zero =>
      intro z last _ _ hf
      have : (high - z).toNat = 0 := by omega
      simp [sampleLoop, this]
    | succ fuel ih =>
      intro z last hz hl hf
      unfold sampleLoop
      by_cases hzh : z < high
      · rw [if_pos (by exact_mod_cast hzh)]
        have hr : (high - z).toNat = (high - (z + 1)).toNat + 1 := by omega
        have hlist : ((List.range (high - z).toNat).map fun k : Nat => z + (k : Int)) =
            z :: (List.range (high - (z + 1)).toNat).map fun k : Nat => z + 1 + (k : Int) := by
          rw [hr, List.range_succ_eq_map, List.map_cons, List.map_map]
          congr 1
          · simp
          · apply List.map_congr_left
            intro k _; simp; omega
        have hcast : (z : ℚ) + 1 = ((z + 1 : Int) : ℚ) := by push_cast; rfl
        rw [hlist]
        unfold pickSample
        simp only [cround_int z hz, hb, List.findSome?_nil]
        cases hokz : ok z with
        | true =>
          simp only [ge_iff_le, not_true_eq_false, or_false, if_neg (not_le.2 hl)]
          rw [hcast, ih (z + 1) z (by omega) (by omega) (by omega), List.filter_cons_of_pos hokz]
        | false =>
          simp only [Bool.false_eq_true, not_false_eq_true, or_true, if_true]
          rw [hcast, ih (z + 1) last (by omega) (by omega) (by omega), List.filter_cons_of_neg (by simp [hokz])]
      · rw [if_neg (by exact_mod_cast hzh)]
        have : (high - z).toNat = 0 := by omega
        simp [this]
  exact key maxSamples low (low - 1) hlow (by omega) (by omega)

/-- C46, memory safety: the result depends on the occurrences with index 0 ≤ s < high only (no access
past the end of the range). -/
theorem C46_reads_in_range (ok ok' : Int → Bool) (low high : Int) (hlow : 0 ≤ low) (maxSamples : Nat)
    (h : ∀ s, 0 ≤ s → s < high → ok s = ok' s) :
    sample ok low high maxSamples = sample ok' low high maxSamples := by
  rcases Nat.eq_zero_or_pos maxSamples with h0 | hn
  · subst h0; rfl
  unfold sample
  have hs1 : (1 : ℚ) ≤ max 1 (((high - low : Int) : ℚ) / maxSamples) := le_max_left _ _
  have hok0 := start_ok low high maxSamples hn
  generalize max 1 (((high - low : Int) : ℚ) / maxSamples) = step at *
  have key : ∀ (fuel : Nat) (last : Int) (i : ℚ), 0 ≤ i → OkI high step fuel i →
      sampleLoop ok high step fuel last i = sampleLoop ok' high step fuel last i := by
    intro fuel
    induction fuel with
    | zero => intro last i _ _; rfl
    | succ fuel ih =>
      intro last i hi hok
      have hnext : OkI high step fuel (i + step) := by
        rcases hok with ⟨h1, z, h2⟩ | ⟨h1, h2⟩
        · exact .inl ⟨h1, z + 1, by rw [h1, h2]; push_cast; rfl⟩
        · refine .inr ⟨h1, ?_⟩
          push_cast at h2; linarith
      unfold sampleLoop
      split
      · rename_i hih
        have hri : cround i < high := by
          rcases hok with ⟨_, z, rfl⟩ | ⟨h1, h2⟩
          · have : z < high := by exact_mod_cast hih
            rwa [cround_int z (by exact_mod_cast hi)]
          · rw [cround_nonneg hi, Int.floor_lt]
            have hf : (0 : ℚ) ≤ fuel := by positivity
            push_cast at h2
            nlinarith
        have hri0 : 0 ≤ cround i := by
          rw [cround_nonneg hi]; exact Int.floor_nonneg.2 (by linarith)
        have hp : pickSample ok high last step i = pickSample ok' high last step i := by
          unfold pickSample
          simp only [h _ hri0 hri]
          congr 1
          have : ∀ bs ∈ backoffSteps step, tryBackoff ok high last i bs = tryBackoff ok' high last i bs := by
            intro bs hm
            unfold tryBackoff
            simp only
            have hle : cround (i - bs) ≤ cround i := cround_mono (by linarith [show (0:ℚ) ≤ bs by positivity]) hi
            have hup := cround_add_nat hi bs
            have e1 : (0 ≤ cround (i - bs) ∧ cround (i - bs) > last ∧ ok (cround (i - bs)) = true) ↔
                (0 ≤ cround (i - bs) ∧ cround (i - bs) > last ∧ ok' (cround (i - bs)) = true) := by
              by_cases hc : 0 ≤ cround (i - bs)
              · rw [h _ hc (by omega)]
              · simp [hc]
            have e2 : (cround (i + bs) < high ∧ ok (cround (i + bs)) = true) ↔
                (cround (i + bs) < high ∧ ok' (cround (i + bs)) = true) := by
              by_cases hc : cround (i + bs) < high
              · rw [h _ (by omega) hc]
              · simp [hc]
            simp only [e1, e2]
          generalize backoffSteps step = l at this
          induction l with
          | nil => rfl
          | cons b l ihl =>
            rw [List.findSome?_cons, List.findSome?_cons, this b (by simp), ihl fun bs hm => this bs (by simp [hm])]
        rw [hp]
        split
        · rw [ih _ _ (by linarith) hnext]
        · rw [ih _ _ (by linarith) hnext]
      · rfl
  exact key maxSamples (low - 1) low (by exact_mod_cast hlow) hok0

/-- Non-vacuity: ten occurrences, four samples, sentence parity as the blacklist. -/
example : sample (fun s => s % 2 == 1) 0 10 4 = [1, 3, 5, 7] := by decide +kernel

end Cdec.Extract
