import Verif.Mteval.BleuValue
import Mathlib.Tactic.Linarith
import Mathlib.Tactic.NormNum
import Mathlib.Tactic.Positivity
import Mathlib.Tactic.FieldSimp
import Mathlib.Tactic.Ring
/-! # Lemmas about the value of BLEU -/
namespace Cdec.BleuValue

theorem precision_pos {p : ℝ × ℝ} (h0 : 0 ≤ p.1) (h : 0 < p.2) : 0 < precision p := by
  unfold precision
  split
  · positivity
  · rename_i h1
    exact div_pos (lt_of_le_of_ne h0 (Ne.symm h1)) h

theorem lprec_log {p : ℝ × ℝ} (h : 0 < p.2) : lprec (1 / 100) p = Real.log (precision p) := by
  unfold lprec precision
  split
  · rw [Real.log_div (by norm_num) h.ne']
  · rename_i h1
    rw [Real.log_div h1 h.ne']

theorem prod_pos : ∀ (l : List (ℝ × ℝ)), (∀ p ∈ l, 0 ≤ p.1 ∧ 0 < p.2) → 0 < (l.map precision).prod
  | [], _ => by simp
  | p :: l, h => by
    rw [List.map_cons, List.prod_cons]
    exact mul_pos (precision_pos (h p (by simp)).1 (h p (by simp)).2) (prod_pos l fun q hq => h q (by simp [hq]))

/-- The loop sums the logarithms of the precisions of the orders that have n-grams. -/
theorem loop_eq : ∀ (l : List (ℝ × ℝ)), (∀ p ∈ l, 0 ≤ p.1) → ∀ s : ℝ × ℕ, loop (1 / 100) l s =
    (s.1 + Real.log ((l.filter fun p => decide (0 < p.2)).map precision).prod,
      s.2 + (l.filter fun p => decide (0 < p.2)).length)
  | [], _, s => by simp [loop]
  | p :: l, h, s => by
    have ih := loop_eq l fun q hq => h q (by simp [hq])
    rw [loop, List.filter_cons]
    by_cases hp : 0 < p.2
    · rw [if_pos hp, ih]
      simp only [hp, decide_true, if_true, List.map_cons, List.prod_cons, List.length_cons]
      have hq : 0 < ((l.filter fun p => decide (0 < p.2)).map precision).prod := by
        apply prod_pos
        intro q hq
        rw [List.mem_filter] at hq
        exact ⟨h q (by simp [hq.1]), by simpa using hq.2⟩
      rw [Real.log_mul (precision_pos (h p (by simp)) hp).ne' hq.ne', lprec_log hp]
      refine Prod.ext ?_ ?_
      · simp only; ring
      · simp only; omega
    · rw [if_neg hp, ih]
      simp [hp]

theorem brevity_exp {hypLen refLen : ℝ} (h : 0 < hypLen) : Real.exp (lbp 0 hypLen refLen) = brevity hypLen refLen := by
  unfold lbp brevity
  split
  · congr 1; field_simp; ring
  · simp

theorem brevity_pos (h r : ℝ) : 0 < brevity h r := by
  unfold brevity; split
  · exact Real.exp_pos _
  · norm_num

theorem brevity_le (h r : ℝ) (hh : 0 < h) : brevity h r ≤ 1 ∧ (brevity h r = 1 ↔ r ≤ h) := by
  unfold brevity
  split
  · rename_i hlt
    have : 1 - r / h < 0 := by
      have : 1 < r / h := (one_lt_div hh).2 hlt
      linarith
    have h1 : Real.exp (1 - r / h) < 1 := by
      have := Real.exp_lt_exp.2 this
      rwa [Real.exp_zero] at this
    exact ⟨h1.le, ⟨fun e => absurd e h1.ne, fun e => absurd hlt (not_lt.2 e)⟩⟩
  · rename_i hlt
    exact ⟨le_refl _, ⟨fun _ => not_lt.1 hlt, fun _ => rfl⟩⟩

/-- `exp (log x / n + b)` as a power. -/
theorem exp_form {x n b : ℝ} (hx : 0 < x) : Real.exp (Real.log x / n + b) = Real.exp b * x ^ (1 / n) := by
  rw [Real.exp_add, mul_comm, Real.rpow_def_of_pos hx]
  congr 2; ring

theorem precision_le {p : ℝ × ℝ} (h : 0 ≤ p.1 ∧ p.1 ≤ p.2 ∧ 1 ≤ p.2) :
    precision p ≤ 1 ∧ (precision p = 1 ↔ p.1 = p.2) := by
  obtain ⟨h0, h1, h2⟩ := h
  have hp : 0 < p.2 := by linarith
  unfold precision
  split
  · rename_i hz
    have : (1 / 100 : ℝ) / p.2 < 1 := by rw [div_lt_one hp]; linarith
    exact ⟨this.le, ⟨fun e => absurd e this.ne, fun e => by rw [hz] at e; linarith⟩⟩
  · refine ⟨by rw [div_le_one hp]; exact h1, ?_⟩
    rw [div_eq_one_iff_eq hp.ne']

theorem prod_le : ∀ (l : List (ℝ × ℝ)), Counts l →
    (l.map precision).prod ≤ 1 ∧ ((l.map precision).prod = 1 ↔ ∀ p ∈ l, p.1 = p.2)
  | [], _ => by simp
  | p :: l, h => by
    obtain ⟨i1, i2⟩ := prod_le l fun q hq => h q (by simp [hq])
    have hp := h p (by simp)
    obtain ⟨j1, j2⟩ := precision_le hp
    have k1 := precision_pos hp.1 (by linarith [hp.2.2])
    have k2 := prod_pos l fun q hq => ⟨(h q (by simp [hq])).1, by linarith [(h q (by simp [hq])).2.2]⟩
    rw [List.map_cons, List.prod_cons]
    refine ⟨mul_le_one₀ j1 k2.le i1, ?_⟩
    constructor
    · intro e
      have e1 : precision p = 1 := by
        by_contra hne
        have : precision p < 1 := lt_of_le_of_ne j1 hne
        have : precision p * (l.map precision).prod < 1 := by
          calc precision p * (l.map precision).prod ≤ precision p * 1 := by
                exact mul_le_mul_of_nonneg_left i1 k1.le
            _ < 1 := by linarith
        linarith
      rw [e1, one_mul] at e
      intro q hq
      rcases List.mem_cons.1 hq with rfl | hq
      · exact j2.1 e1
      · exact i2.1 e q hq
    · intro e
      rw [j2.2 (e p (by simp)), i2.2 fun q hq => e q (by simp [hq]), one_mul]

end Cdec.BleuValue
