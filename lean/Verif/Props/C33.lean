import Verif.Util.LogVal
/-! # C33: log-space arithmetic denotes real arithmetic -/
namespace Cdec
open Classical
namespace LogVal

theorem vexp_nonneg (v : Option ℝ) : 0 ≤ vexp v := by
  cases v with
  | none => exact le_refl _
  | some x => exact (Real.exp_pos x).le

theorem vexp_vadd (a b : Option ℝ) : vexp (vadd a b) = vexp a * vexp b := by
  cases a <;> cases b <;> simp [vadd, vexp, Real.exp_add]

theorem vexp_vlog1p (x : ℝ) (h : -1 ≤ x) : vexp (vlog1p x) = 1 + x := by
  unfold vlog1p
  split
  · rename_i h; subst h; simp [vexp]
  · rename_i hne
    have : 0 < 1 + x := by
      rcases lt_or_eq_of_le h with h | h
      · linarith
      · exact absurd h.symm hne
    rw [vexp, Real.exp_log this]

theorem vexp_vexpSub (a b : Option ℝ) (hb : b ≠ none) : vexp b * vexpSub a b = vexp a := by
  cases b with
  | none => exact absurd rfl hb
  | some y =>
    cases a with
    | none => simp [vexpSub, vexp]
    | some x => simp only [vexpSub, vexp]; rw [← Real.exp_add]; congr 1; ring

theorem vlt_iff (a b : Option ℝ) : vlt a b ↔ vexp a < vexp b := by
  cases a <;> cases b <;> simp [vlt, vexp, Real.exp_pos, (Real.exp_pos _).le]

theorem vexpSub_nonneg (a b : Option ℝ) : 0 ≤ vexpSub a b := by
  unfold vexpSub; split
  · exact (Real.exp_pos _).le
  · exact le_refl _

theorem vexpSub_le (a b : Option ℝ) (h : ¬ vlt b a) : vexpSub a b ≤ 1 := by
  cases a <;> cases b <;> simp [vexpSub, vlt] at *
  linarith

theorem vexp_inj {a b : Option ℝ} (h : vexp a = vexp b) : a = b := by
  cases a with
  | none => cases b with
    | none => rfl
    | some y => have := Real.exp_pos y; simp [vexp] at h; linarith
  | some x => cases b with
    | none => have := Real.exp_pos x; simp [vexp] at h
    | some y => simp [vexp] at h; rw [h]

theorem asFloat_add (x a : LogVal) : (x.add a).asFloat = x.asFloat + a.asFloat := by
  unfold add
  split
  · rename_i h
    unfold is0 at h
    cases hs : a.s <;> simp [asFloat, h, vexp, hs]
  · rename_i h0
    have hne : a.v ≠ none := h0
    split
    · rename_i hs
      split
      · rename_i hlt
        have hx : x.v ≠ none := by
          intro h; rw [h] at hlt; cases ha : a.v <;> simp [vlt, ha] at hlt
        have h1 : vexp (vadd x.v (vlog1p (vexpSub a.v x.v))) = vexp x.v + vexp a.v := by
          rw [vexp_vadd, vexp_vlog1p _ (by linarith [vexpSub_nonneg a.v x.v]), mul_add, vexp_vexpSub _ _ hx]; ring
        cases hxs : x.s <;> simp only [asFloat, hs, hxs, h1] <;> simp
        ring
      · have h1 : vexp (vadd a.v (vlog1p (vexpSub x.v a.v))) = vexp x.v + vexp a.v := by
          rw [vexp_vadd, vexp_vlog1p _ (by linarith [vexpSub_nonneg x.v a.v]), mul_add, vexp_vexpSub _ _ hne]; ring
        cases hxs : x.s <;> simp only [asFloat, hs, hxs, h1] <;> simp
        ring
    · rename_i hs
      have hs' : a.s = !x.s := by cases h1 : a.s <;> cases h2 : x.s <;> simp_all
      split
      · rename_i hlt
        have hx : x.v ≠ none := by
          intro h; rw [h] at hlt; cases ha : a.v <;> simp [vlt, ha] at hlt
        have hle : vexpSub a.v x.v ≤ 1 := vexpSub_le _ _ fun hc => by
          rw [vlt_iff] at hlt hc; linarith
        have h1 : vexp (vadd x.v (vlog1p (-vexpSub a.v x.v))) = vexp x.v - vexp a.v := by
          rw [vexp_vadd, vexp_vlog1p _ (by linarith), mul_add, mul_neg, vexp_vexpSub _ _ hx]; ring
        cases hxs : x.s <;> simp only [asFloat, hs', hxs, h1] <;> simp <;> ring
      · rename_i hlt
        have hle : vexpSub x.v a.v ≤ 1 := vexpSub_le _ _ hlt
        have h1 : vexp (vadd a.v (vlog1p (-vexpSub x.v a.v))) = vexp a.v - vexp x.v := by
          rw [vexp_vadd, vexp_vlog1p _ (by linarith), mul_add, mul_neg, vexp_vexpSub _ _ hne]; ring
        cases hxs : x.s <;> simp only [asFloat, hs', hxs, h1] <;> simp <;> ring

theorem asFloat_neg (x : LogVal) : x.neg.asFloat = -x.asFloat := by
  cases h : x.s <;> simp [neg, asFloat, h]

theorem asFloat_mul (x y : LogVal) : (x.mul y).asFloat = x.asFloat * y.asFloat := by
  cases h1 : x.s <;> cases h2 : y.s <;> simp [mul, asFloat, h1, h2, vexp_vadd]

theorem asFloat_ne_zero_iff (x : LogVal) : x.asFloat ≠ 0 ↔ x.v ≠ none := by
  cases hv : x.v with
  | none => cases h : x.s <;> simp [asFloat, hv, vexp, h]
  | some y => cases h : x.s <;> simp [asFloat, hv, vexp, h]

/-- C33, arithmetic.  `asFloat` is the signed real number a `LogVal` stands for.  Every finite real number
is represented, and `+`, `-`, `*`, unary minus and `abs` denote the corresponding real operations on all
pairs of values; so do `/` and `inverse` for a non-zero divisor, `pow` for a non-negative base (positive
exponent if the base is zero), and `log` for a positive value. -/
theorem C33_arithmetic_partial :
    (∀ r : ℝ, (ofReal r).asFloat = r) ∧
    (∀ x y : LogVal, (x.add y).asFloat = x.asFloat + y.asFloat) ∧
    (∀ x y : LogVal, (x.sub y).asFloat = x.asFloat - y.asFloat) ∧
    (∀ x y : LogVal, (x.mul y).asFloat = x.asFloat * y.asFloat) ∧
    (∀ x : LogVal, x.neg.asFloat = -x.asFloat) ∧
    (∀ x : LogVal, x.abs.asFloat = |x.asFloat|) ∧
    (∀ x y : LogVal, y.asFloat ≠ 0 → ∃ z, x.div y = some z ∧ z.asFloat = x.asFloat / y.asFloat) ∧
    (∀ x : LogVal, x.asFloat ≠ 0 → ∃ z, x.inverse = some z ∧ z.asFloat = x.asFloat⁻¹) ∧
    (∀ (x : LogVal) (p : ℝ), x.s = false → (x.asFloat ≠ 0 ∨ 0 < p) →
      ∃ z, x.pow p = some z ∧ z.asFloat = x.asFloat ^ p) ∧
    (∀ x : LogVal, 0 < x.asFloat → x.log = some (some (Real.log x.asFloat))) := by
  refine ⟨?_, asFloat_add, ?_, asFloat_mul, asFloat_neg, ?_, ?_, ?_, ?_, ?_⟩
  · intro r
    unfold ofReal
    split
    · rename_i h
      simp only [asFloat, vexp, if_true]
      rw [Real.exp_log (show 0 < -r by linarith)]; ring
    · split
      · rename_i h; simp [asFloat, vexp, h]
      · rename_i h1 h2
        simp [asFloat, vexp, Real.exp_log (lt_of_le_of_ne (not_lt.1 h1) (Ne.symm h2))]
  · intro x y; rw [sub, asFloat_add, asFloat_neg]; ring
  · intro x
    have := vexp_nonneg x.v
    cases h : x.s
    · simp [abs, asFloat, h, abs_of_nonneg this]
    · simp [abs, asFloat, h, abs_of_nonneg this]
  · intro x y hy
    rw [asFloat_ne_zero_iff] at hy
    obtain ⟨b, hb⟩ := Option.ne_none_iff_exists'.1 hy
    refine ⟨_, by rw [div, hb]; rfl, ?_⟩
    cases h1 : x.s <;> cases h2 : y.s <;> cases hx : x.v <;>
      simp [asFloat, h1, h2, hx, hb, vexp, Real.exp_sub, neg_div, div_neg]
  · intro x hx
    rw [asFloat_ne_zero_iff] at hx
    obtain ⟨b, hb⟩ := Option.ne_none_iff_exists'.1 hx
    refine ⟨_, by rw [inverse, hb]; rfl, ?_⟩
    cases h1 : x.s <;> simp [asFloat, h1, hb, vexp, Real.exp_neg, inv_neg]
  · intro x p hs hp
    cases hv : x.v with
    | some y =>
      refine ⟨_, by rw [pow, hv], ?_⟩
      simp [asFloat, hs, hv, vexp, Real.exp_mul]
    | none =>
      have hp' : 0 < p := by
        rcases hp with h | h
        · rw [asFloat_ne_zero_iff] at h; exact absurd hv h
        · exact h
      refine ⟨x, by rw [pow, hv]; simp [hp'], ?_⟩
      simp [asFloat, hs, hv, vexp, Real.zero_rpow hp'.ne']
  · intro x hx
    have hs : x.s = false := by
      cases h : x.s
      · rfl
      · have := vexp_nonneg x.v; simp [asFloat, h] at hx; linarith
    have hv : x.v ≠ none := (asFloat_ne_zero_iff x).1 hx.ne'
    obtain ⟨b, hb⟩ := Option.ne_none_iff_exists'.1 hv
    simp [log, hs, asFloat, hb, vexp]

/-- C33, comparisons, for values whose sign bit says non-negative (which is what decoding uses). -/
theorem C33_comparisons_partial (x y : LogVal) (hx : x.s = false) (hy : y.s = false) :
    (lt x y ↔ x.asFloat < y.asFloat) ∧ (le x y ↔ x.asFloat ≤ y.asFloat) ∧
    (gt x y ↔ x.asFloat > y.asFloat) ∧ (ge x y ↔ x.asFloat ≥ y.asFloat) ∧
    (eq x y ↔ x.asFloat = y.asFloat) := by
  have ex : x.asFloat = vexp x.v := by simp [asFloat, hx]
  have ey : y.asFloat = vexp y.v := by simp [asFloat, hy]
  have h1 : lt x y ↔ x.asFloat < y.asFloat := by
    rw [lt, if_pos (by rw [hx, hy]), vlt_iff, ex, ey]
  have h2 : eq x y ↔ x.asFloat = y.asFloat := by
    rw [eq, ex, ey]
    exact ⟨fun h => by rw [h.1], fun h => ⟨vexp_inj h, by rw [hx, hy]⟩⟩
  have h3 : le x y ↔ x.asFloat ≤ y.asFloat := by rw [le, h1, h2, le_iff_lt_or_eq]
  exact ⟨h1, h3, by rw [gt, h3, not_le], by rw [ge, h1, not_lt], h2⟩

/-- C33, comparisons, different signs and at least one value not zero. -/
theorem C33_comparisons_mixed_partial (x y : LogVal) (hs : x.s ≠ y.s) (h0 : x.asFloat ≠ 0 ∨ y.asFloat ≠ 0) :
    (lt x y ↔ x.asFloat < y.asFloat) ∧ (le x y ↔ x.asFloat ≤ y.asFloat) ∧
    (gt x y ↔ x.asFloat > y.asFloat) ∧ (ge x y ↔ x.asFloat ≥ y.asFloat) ∧
    (eq x y ↔ x.asFloat = y.asFloat) := by
  have nx := vexp_nonneg x.v
  have ny := vexp_nonneg y.v
  have key : (x.s = true ∧ y.s = false ∧ x.asFloat < y.asFloat) ∨ (x.s = false ∧ y.s = true ∧ y.asFloat < x.asFloat) := by
    cases h1 : x.s <;> cases h2 : y.s
    · exact absurd (h1.trans h2.symm) hs
    · right
      simp only [asFloat, h1, h2, if_true, Bool.false_eq_true, if_false] at h0 ⊢
      refine ⟨trivial, trivial, lt_of_le_of_ne (by linarith) fun h => ?_⟩
      rcases h0 with h0 | h0
      · exact h0 (by linarith)
      · exact h0 (by linarith)
    · left
      simp only [asFloat, h1, h2, if_true, Bool.false_eq_true, if_false] at h0 ⊢
      refine ⟨trivial, trivial, lt_of_le_of_ne (by linarith) fun h => ?_⟩
      rcases h0 with h0 | h0
      · exact h0 (by linarith)
      · exact h0 (by linarith)
    · exact absurd (h1.trans h2.symm) hs
  have h2 : eq x y ↔ x.asFloat = y.asFloat := by
    refine ⟨fun h => absurd h.2 hs, fun h => ?_⟩
    rcases key with ⟨_, _, h'⟩ | ⟨_, _, h'⟩ <;> linarith
  have h1 : lt x y ↔ x.asFloat < y.asFloat := by
    rw [lt, if_neg hs]
    rcases key with ⟨a, b, h'⟩ | ⟨a, b, h'⟩
    · simp [a, b, h']
    · simp [a, h'.le]
  have h3 : le x y ↔ x.asFloat ≤ y.asFloat := by rw [le, h1, h2, le_iff_lt_or_eq]
  exact ⟨h1, h3, by rw [gt, h3, not_le], by rw [ge, h1, not_lt], h2⟩

/-- C33 fails for comparisons in general: -2 < -3 holds, because two negative values are compared by
magnitude. -/
theorem C33_negative_comparison_fails :
    lt (ofReal (-2)) (ofReal (-3)) ∧ ¬ (ofReal (-2)).asFloat < (ofReal (-3)).asFloat := by
  constructor
  · have h2 : ofReal (-2) = ⟨true, some (Real.log 2)⟩ := by
      rw [ofReal, if_pos (by norm_num)]; norm_num
    have h3 : ofReal (-3) = ⟨true, some (Real.log 3)⟩ := by
      rw [ofReal, if_pos (by norm_num)]; norm_num
    rw [h2, h3, lt, if_pos rfl]
    exact Real.log_lt_log (by norm_num) (by norm_num)
  · rw [C33_arithmetic_partial.1, C33_arithmetic_partial.1]; norm_num

/-- C33 fails for zero: 1 - 1 denotes zero, but it has the sign bit set, so it is not equal to zero, is
less than zero, and `log` of it is NaN. -/
theorem C33_negative_zero_fails :
    ((ofReal 1).sub (ofReal 1)).asFloat = 0 ∧ ¬ eq ((ofReal 1).sub (ofReal 1)) zero ∧
      lt ((ofReal 1).sub (ofReal 1)) zero ∧ ((ofReal 1).sub (ofReal 1)).log = none := by
  have h1 : ofReal 1 = ⟨false, some 0⟩ := by
    rw [ofReal, if_neg (by norm_num), if_neg (by norm_num), Real.log_one]
  have h : (ofReal 1).sub (ofReal 1) = ⟨true, none⟩ := by
    rw [h1, sub, add, if_neg (by simp [is0, neg]), if_neg (by simp [neg]), if_neg (by simp [vlt, neg])]
    simp [neg, vexpSub, vlog1p, vadd]
  rw [h]
  simp [asFloat, vexp, eq, zero, lt, log]

/-- C33 fails for `star` (the sum of all powers): `star(0)` is 0, not 1. -/
theorem C33_star_of_zero_fails : star zero = some zero ∧ zero.asFloat ≠ 1 := by
  simp [star, zero, asFloat, vexp]

/-- `star x` denotes the sum of all powers `1/(1-x)` only through the value it stores: for `0 < x < 1` it
is `-log(1-x)` as a log, that is `1/(1-x)`. -/
theorem C33_star_partial (x : LogVal) (hs : x.s = false) (h0 : 0 < x.asFloat) (h1 : x.asFloat < 1) :
    ∃ z, x.star = some z ∧ z.asFloat = (1 - x.asFloat)⁻¹ := by
  have hv : x.v ≠ none := (asFloat_ne_zero_iff x).1 h0.ne'
  obtain ⟨b, hb⟩ := Option.ne_none_iff_exists'.1 hv
  have hx : x.asFloat = Real.exp b := by simp [asFloat, hs, hb, vexp]
  have hb0 : ¬ 0 ≤ b := by
    intro h; rw [hx] at h1
    have := Real.one_le_exp h; linarith
  refine ⟨{ x with v := (vlog1p (-x.asFloat)).map fun z => -z }, by rw [star, hb]; simp [hb0], ?_⟩
  rw [vlog1p, if_neg (by intro h; linarith), Option.map_some]
  have : ∀ y : ℝ, asFloat { x with v := some y } = Real.exp y := by
    intro y; simp [asFloat, hs, vexp]
  rw [this, Real.exp_neg, Real.exp_log (by linarith)]; congr 1

/-- Non-vacuity: 3 - 5 = -2 and 3 < 5. -/
example : ((ofReal 3).sub (ofReal 5)).asFloat = -2 ∧ lt (ofReal 3) (ofReal 5) := by
  have h3 : ofReal 3 = ⟨false, some (Real.log 3)⟩ := by
    rw [ofReal, if_neg (by norm_num), if_neg (by norm_num)]
  have h5 : ofReal 5 = ⟨false, some (Real.log 5)⟩ := by
    rw [ofReal, if_neg (by norm_num), if_neg (by norm_num)]
  refine ⟨by rw [C33_arithmetic_partial.2.2.1, C33_arithmetic_partial.1, C33_arithmetic_partial.1]; norm_num, ?_⟩
  rw [(C33_comparisons_partial _ _ (by rw [h3]) (by rw [h5])).1, C33_arithmetic_partial.1, C33_arithmetic_partial.1]
  norm_num

end LogVal
end Cdec
