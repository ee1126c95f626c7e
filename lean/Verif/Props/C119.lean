import Verif.Train.RPropLemmas
import Mathlib.Algebra.Order.Archimedean.Basic
/-!
# C119: the batch optimiser RProp

`Rule` of `Train/RPropSpec.lean` is the algorithm for one variable; `Runs` says which weights the program has after how
many evaluations.
-/
namespace Cdec.Train.RProp

/-- There are weights after every number of evaluations: nothing fails. -/
theorem C119_runs {n : Nat} (p : Params) (hn : 1 ≤ n) (G : Nat → Fin n → Num) (x0 : Fin n → ℝ) : ∃ x, Runs p G x0 x :=
  ⟨fun i t => (trace p (fun k => G k i) (x0 i) t).2, fun t => by
    obtain ⟨s, h1, h2, _⟩ := run_trace p hn G x0 t
    exact ⟨s, h1, h2⟩⟩

/-- For all gradients at all evaluations, every variable follows the rule by itself.  What is missing: the rule does not
say that a variable stays if its derivative is zero, and it does not. -/
theorem C119_rule_partial {n : Nat} {p : Params} (hn : 1 ≤ n) {G : Nat → Fin n → Num} (hG : ∀ t i, (G t i).Ok) {x0 : Fin n → ℝ}
    {x : Fin n → Nat → ℝ} (h : Runs p G x0 x) (i : Fin n) :
    x i 0 = x0 i ∧ ∃ d, Rule p (fun t => (G t i).val) (x i) d := by
  have e : x i = fun t => (trace p (fun k => G k i) (x0 i) t).2 := funext fun t => runs_trace hn h i t
  refine ⟨by rw [e]; rfl, steps p (fun k => G k i) (x0 i), ?_⟩
  rw [e]
  exact rule p (fun k => G k i) (x0 i) fun t => hG t i

/-- If the first step is within the limits, then a variable stays or moves by something within the limits, and it never
stays twice in a row. -/
theorem C119_bounds {n : Nat} {p : Params} (hp : p.Ok) (h1 : p.deltaMin ≤ p.delta0) (h2 : p.delta0 ≤ p.deltaMax) (hn : 1 ≤ n)
    {G : Nat → Fin n → Num} {x0 : Fin n → ℝ} {x : Fin n → Nat → ℝ} (h : Runs p G x0 x) (i : Fin n) (t : Nat) :
    (x i (t + 1) = x i t ∨ (p.deltaMin ≤ |x i (t + 1) - x i t| ∧ |x i (t + 1) - x i t| ≤ p.deltaMax)) ∧
    (x i (t + 1) = x i t → x i (t + 2) ≠ x i (t + 1)) := by
  have e : ∀ t, x i t = (trace p (fun k => G k i) (x0 i) t).2 := runs_trace hn h i
  have hb := steps_bound hp h1 h2 (fun k => G k i) (x0 i)
  have hpos : 0 < p.deltaMin := hp.2.2.2
  have hmv : ∀ t, ¬ Turned (fun k => (G k i).val) t → |x i (t + 1) - x i t| = steps p (fun k => G k i) (x0 i) (t + 1) := by
    intro t ht
    have h0 := (hb (t + 1)).1
    rw [e, e, move p (fun k => G k i) (x0 i) ht, sub_sub_cancel_left, abs_neg, abs_mul, abs_sign, mul_one, abs_of_pos (by linarith)]
  constructor
  · by_cases ht : Turned (fun k => (G k i).val) t
    · left; rw [e, e, one_turned p (fun k => G k i) (x0 i) ht]
    · right; rw [hmv t ht]; exact hb (t + 1)
  · intro hs
    have ht : Turned (fun k => (G k i).val) t := by
      by_contra ht
      have := hmv t ht
      rw [hs, sub_self, abs_zero] at this
      linarith [(hb (t + 1)).1]
    have := hmv (t + 1) (fun h => h.1 ht)
    intro hs2
    rw [show t + 1 + 1 = t + 2 from rfl, hs2, sub_self, abs_zero] at this
    linarith [(hb (t + 1 + 1)).1]

/-- If the derivative is positive above some value and negative below it, then, whatever the start, the variable gets to
or below the value and to or above it again and again, without end. -/
theorem C119_returns {n : Nat} {p : Params} (hp : p.Ok) (h1 : p.deltaMin ≤ p.delta0) (h2 : p.delta0 ≤ p.deltaMax) (hn : 1 ≤ n)
    {G : Nat → Fin n → Num} (hG : ∀ t i, (G t i).Ok) {x0 : Fin n → ℝ} {x : Fin n → Nat → ℝ} (h : Runs p G x0 x) (i : Fin n) (m : ℝ)
    (hu : ∀ t, m < x i t → 0 < (G t i).val) (hl : ∀ t, x i t < m → (G t i).val < 0) (T : Nat) :
    (∃ t, T ≤ t ∧ x i t ≤ m) ∧ (∃ t, T ≤ t ∧ m ≤ x i t) := by
  have e : ∀ t, x i t = (trace p (fun k => G k i) (x0 i) t).2 := runs_trace hn h i
  have hpos : 0 < p.deltaMin := hp.2.2.2
  constructor
  · by_contra hc
    have hc' : ∀ t, T ≤ t → m < x i t := fun t ht => lt_of_not_ge fun hh => hc ⟨t, ht, hh⟩
    obtain ⟨k, hk⟩ := exists_nat_gt ((x i (T + 1) - m) / p.deltaMin)
    have hf := falls hp h1 h2 (g := fun k => G k i) (fun t => hG t i) (x0 i) (T := T) (fun t ht => hu t (hc' t ht)) k
    rw [← e, ← e] at hf
    have := hc' (T + 1 + k) (by omega)
    rw [div_lt_iff₀ hpos] at hk
    linarith
  · by_contra hc
    have hc' : ∀ t, T ≤ t → x i t < m := fun t ht => lt_of_not_ge fun hh => hc ⟨t, ht, hh⟩
    obtain ⟨k, hk⟩ := exists_nat_gt ((m - x i (T + 1)) / p.deltaMin)
    have hf := rises hp h1 h2 (g := fun k => G k i) (fun t => hG t i) (x0 i) (T := T) (fun t ht => hl t (hc' t ht)) k
    rw [← e, ← e] at hf
    have := hc' (T + 1 + k) (by omega)
    rw [div_lt_iff₀ hpos] at hk
    linarith

/-- The hypotheses about the parameters hold for the default arguments. -/
example : defaults.Ok ∧ defaults.deltaMin ≤ defaults.delta0 ∧ defaults.delta0 ≤ defaults.deltaMax := by
  norm_num [defaults, Params.Ok]

/-- And there is a run in which the derivative is positive above zero and negative below: that of half the square. -/
example : ∃ (G : Nat → Fin 1 → Num) (x : Fin 1 → Nat → ℝ), (∀ t i, (G t i).Ok) ∧ Runs defaults G (fun _ => 3) x ∧
    (∀ t, 0 < x 0 t → 0 < (G t 0).val) ∧ (∀ t, x 0 t < 0 → (G t 0).val < 0) := by
  classical
  let num : ℝ → Num := fun v => { val := v, neg := decide (v < 0) }
  let path : Nat → Cell × ℝ := fun t => Nat.rec (({ prev := 0, delta := defaults.delta0 } : Cell), (3 : ℝ)) (fun _ c => one defaults (num c.2) c.1 c.2) t
  have htr : ∀ t, trace defaults (fun t => num (path t).2) 3 t = path t := by
    intro t
    induction t with
    | zero => rfl
    | succ t ih => rw [trace, ih]
  obtain ⟨x, hx⟩ := C119_runs defaults (le_refl 1) (fun t _ => num (path t).2) (fun _ : Fin 1 => 3)
  have hv : ∀ t, x 0 t = (path t).2 := fun t => by rw [runs_trace (le_refl 1) hx 0 t, htr]
  refine ⟨fun t _ => num (path t).2, x, fun t i => ⟨fun h => by simpa [num] using h, fun h => ?_⟩, hx, fun t h => ?_, fun t h => ?_⟩
  · simp only [num] at h ⊢; simp [le_of_lt h]
  · rw [hv] at h; exact h
  · rw [hv] at h; exact h

/-- A variable whose derivative is zero should stay: at a minimum, or if the feature never occurs.  With the default
arguments it falls by a tenth at every evaluation, for ever. -/
theorem C119_zero_fails : ∀ t : Nat, ∃ s, run defaults (new defaults 1) [0] (List.replicate t [{ val := 0, neg := false }]) = some (s, [-(t : ℝ) / 10]) := by
  intro t
  have hd : ∀ t, trace defaults (fun _ => ({ val := 0, neg := false } : Num)) 0 t = ({ prev := 0, delta := 1 / 10 }, -(t : ℝ) / 10) := by
    intro t
    induction t with
    | zero => simp [trace, defaults]
    | succ t ih =>
      rw [trace, ih]
      simp only [one, sign]
      norm_num
      ring
  obtain ⟨s, h, _⟩ := run_trace defaults (le_refl 1) (fun _ _ => ({ val := 0, neg := false } : Num)) (fun _ : Fin 1 => (0 : ℝ)) t
  refine ⟨s, ?_⟩
  rw [hd] at h
  simpa [List.map_const'] using h

/-- `HasConverged` compares the norm of the gradient with that of the weights; these are the weights that `Optimize` has
put in place of those the gradient belongs to. -/
theorem C119_converged {p : Params} {s s' : State} {g : List Num} {x x' : List ℝ} (h : optimize p s g x = some (s', x')) :
    (s'.converged = true ↔ norm2 (g.map Num.val) ≤ 1 / 100000 * max 1 (norm2 x')) ∧ s'.eval = s.eval + 1 ∧ x'.length = x.length := by
  unfold optimize at h
  split at h
  · cases h
  · rename_i hl
    have hlen : ∀ (g : List Num) (cs : List Cell) (x : List ℝ) r, optimizeImpl p g cs x = some r → r.2.length = x.length := by
      intro g
      induction g with
      | nil => intro cs x r h; rw [optimizeImpl] at h; cases h; rfl
      | cons a g ih =>
        intro cs x r h
        cases cs with
        | nil => simp [optimizeImpl] at h
        | cons c cs =>
          cases x with
          | nil => simp [optimizeImpl] at h
          | cons v x =>
            rw [optimizeImpl] at h
            split at h
            · rename_i cs' xs' hh
              cases h
              simp [ih cs x _ hh]
            · cases h
    split at h
    · cases h
    · rename_i cs x'' hh
      split at h
      · cases h
      · cases h
        refine ⟨?_, rfl, hlen _ _ _ _ hh⟩
        simp only [convergedAt, decide_eq_true_iff, ddot_eq, norm2]

/-- Weights with which the optimiser reports convergence should have a small gradient.  Here the function is half of the
square: the minimum is found, convergence is reported, and the weight is moved away to where the derivative is not
small. -/
theorem C119_converged_fails : ∃ (s' : State) (v : ℝ), optimize defaults (new defaults 1) [{ val := 0, neg := false }] [0] = some (s', [v]) ∧
    s'.converged = true ∧ ¬ norm2 [v] ≤ 1 / 100000 * max 1 (norm2 [v]) := by
  refine ⟨{ eval := 2, converged := convergedAt [-(1 / 10)] [0], cells := [{ prev := 0, delta := 1 / 10 }] }, -(1 / 10), ?_, ?_, ?_⟩
  · simp [optimize, optimizeImpl, new, one, sign, defaults]
  · simp only [convergedAt, decide_eq_true_iff, ddot]
    norm_num
  · have e : norm2 [-(1 / 10)] = 1 / 10 := by
      unfold norm2
      simp only [List.map_cons, List.map_nil, List.sum_cons, List.sum_nil, add_zero]
      rw [Real.sqrt_sq_eq_abs]
      norm_num
    rw [e]
    norm_num

/-- Training may be stopped after any evaluation: an optimiser with as many variables, in another process, that loads
what has been saved goes on as if nothing had happened. -/
theorem C119_resume (d : Doubles) {p : Params} {s s1 s0 : State} {x x1 : List ℝ} {junk : List Nat} (gs hs : List (List Num))
    (h : run p s x gs = some (s1, x1)) (hs0 : s0.cells.length = s1.cells.length) (hj : junk.length = 8)
    (he : s1.eval < 256 ^ 4) (hn : s1.cells.length < 256 ^ 8) (hr : ∀ c ∈ s1.cells, d.Rep c.prev ∧ d.Rep c.delta) :
    ∃ s2, load d junk s0 (save d s1) = some s2 ∧ run p s2 x1 hs = run p s x (gs ++ hs) :=
  ⟨s1, load_save d hs0 hj he hn hr, by rw [run_append, h]⟩

/-- A way to store the tenths of natural numbers, for which the hypotheses hold after an evaluation. -/
example : ∃ (d : Doubles) (s1 : State) (x1 : List ℝ), run defaults (new defaults 1) [0] [[{ val := 1, neg := false }]] = some (s1, x1) ∧
    (new defaults 1).cells.length = s1.cells.length ∧ s1.eval < 256 ^ 4 ∧ s1.cells.length < 256 ^ 8 ∧ ∀ c ∈ s1.cells, d.Rep c.prev ∧ d.Rep c.delta := by
  refine ⟨{ enc := fun v => ⌊v * 10⌋₊, dec := fun n => n / 10 },
    { eval := 2, converged := convergedAt [-(1 / 10)] [1], cells := [{ prev := 1, delta := 1 / 10 }] }, [-(1 / 10)], ?_, ?_, ?_, ?_, ?_⟩
  · simp [run, optimize, optimizeImpl, new, one, sign, defaults]
  · simp [new]
  · norm_num
  · simp
  · intro c hc
    have h1 : ⌊(1 : ℝ) * 10⌋₊ = 10 := by
      rw [one_mul]; exact Nat.floor_ofNat 10
    have h2 : ⌊(1 / 10 : ℝ) * 10⌋₊ = 1 := by
      rw [show (1 / 10 : ℝ) * 10 = 1 by norm_num]; exact Nat.floor_one
    simp only [List.mem_singleton] at hc
    subst hc
    simp only [Doubles.Rep, h1, h2]
    norm_num

/-- A file whose writing has stopped at any point before the end is rejected, by every optimiser. -/
theorem C119_truncated (d : Doubles) {s s0 : State} {junk : List Nat} (hj : junk.length = 8) (hn : s.cells.length < 256 ^ 8) {k : Nat}
    (hk : k < (save d s).length) : load d junk s0 ((save d s).take k) = none := by
  cases h : load d junk s0 ((save d s).take k) with
  | none => rfl
  | some s' =>
    obtain ⟨h1, h2⟩ := load_length d hj (fun b hb => save_byte d s b (List.mem_of_mem_take hb)) h
    rw [List.length_take] at h1
    rw [save_length] at hk h1
    have h3 : (((save d s).take k).drop 5).take 8 = ((save d s).drop 5).take 8 := by
      rw [List.drop_take, List.take_take]
      congr 1
      omega
    rw [h3, save_count d s hn] at h2
    omega

/-- A file for another number of variables is rejected. -/
theorem C119_size (d : Doubles) {s s0 : State} {junk : List Nat} (hj : junk.length = 8) (hn : s.cells.length < 256 ^ 8)
    (h : s0.cells.length ≠ s.cells.length) : load d junk s0 (save d s) = none := by
  cases hl : load d junk s0 (save d s) with
  | none => rfl
  | some s' =>
    have := (load_length d hj (save_byte d s) hl).2
    rw [save_count d s hn] at this
    exact absurd this.symm h

end Cdec.Train.RProp
