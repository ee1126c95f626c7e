import Verif.Train.ObjectiveLemmas
import Mathlib.Tactic.LinearCombination
/-!
# C82: The pairwise-ranking optimiser is given the regularised logistic loss and its gradient
-/
namespace Cdec.Train
open Spec

theorem logProbs_eq (d : ℝ) : logProbs d = (-Real.log (1 + Real.exp (-d)), -Real.log (1 + Real.exp d)) := by
  have flip : ∀ d : ℝ, d + Real.log (1 + Real.exp (-d)) = Real.log (1 + Real.exp d) := by
    intro d
    have h : 1 + Real.exp d = Real.exp d * (1 + Real.exp (-d)) := by
      rw [mul_add, ← Real.exp_add]; simp; ring
    rw [h, Real.log_mul (Real.exp_pos d).ne' (by have := Real.exp_pos (-d); linarith), Real.log_exp]
  unfold logProbs log1p
  split
  · have := flip (-d)
    rw [neg_neg] at this
    rw [this]
  · rw [flip d]

/-- Loss of one instance with score `d`. -/
noncomputable def instLoss (y : Bool) (d : ℝ) : ℝ := if y then Real.log (1 + Real.exp (-d)) else Real.log (1 + Real.exp d)

/-- Its derivative. -/
noncomputable def instSlope (y : Bool) (d : ℝ) : ℝ := if y then -(1 + Real.exp d)⁻¹ else (1 + Real.exp (-d))⁻¹

theorem hasDerivAt_instLoss (y : Bool) {u : ℝ → ℝ} {u' a : ℝ} (h : HasDerivAt u u' a) :
    HasDerivAt (fun t => instLoss y (u t)) (instSlope y (u a) * u') a := by
  have p1 : (0 : ℝ) < 1 + Real.exp (-(u a)) := by have := Real.exp_pos (-(u a)); linarith
  have p2 : (0 : ℝ) < 1 + Real.exp (u a) := by have := Real.exp_pos (u a); linarith
  have e : Real.exp (-(u a)) * Real.exp (u a) = 1 := by rw [← Real.exp_add]; simp
  cases y with
  | true =>
    have := ((h.fun_neg.exp).const_add 1).log p1.ne'
    simp only [instLoss, instSlope, if_true]
    refine HasDerivAt.congr_deriv this ?_
    field_simp
    linear_combination -u' * e
  | false =>
    have := ((h.exp).const_add 1).log p2.ne'
    simp only [instLoss, instSlope, Bool.false_eq_true, if_false]
    refine HasDerivAt.congr_deriv this ?_
    field_simp
    linear_combination u' * e

theorem logLoss_eq (corpus : List Inst) (x : Vec) :
    logLoss corpus x = (corpus.map fun c => instLoss c.1 (inner c.2 x + x 0)).sum := by
  unfold logLoss
  rw [← sum_neg]
  congr 1
  apply List.map_congr_left
  rintro ⟨y, f⟩ _
  simp only []
  generalize inner f x + x 0 = d
  have p1 : (0 : ℝ) < 1 + Real.exp (-d) := by have := Real.exp_pos (-d); linarith
  cases y with
  | true => simp [instLoss]
  | false =>
    simp only [Bool.false_eq_true, if_false, instLoss]
    have : 1 - 1 / (1 + Real.exp (-d)) = (1 + Real.exp d)⁻¹ := by
      have p2 : (0 : ℝ) < 1 + Real.exp d := by have := Real.exp_pos d; linarith
      have e : Real.exp (-d) * Real.exp d = 1 := by rw [← Real.exp_add]; simp
      field_simp
      linarith
    rw [this, Real.log_inv, neg_neg]

/-- All feature ids are within the weight vector. -/
def KnownInst (n : Nat) (corpus : List Inst) : Prop := ∀ c ∈ corpus, ∀ e ∈ c.2, e.1 < n

theorem trainingInference_eq {n : Nat} (hn : 0 < n) (x : Vec) (k : Nat) : ∀ (corpus : List Inst), KnownInst n corpus →
    ∀ s : ℝ × Vec,
    (corpus.foldl (fun (s : ℝ × Vec) c =>
      let lp := logProbs (c.2.dot n x + if 0 < n then x 0 else 0)
      if c.1 then
        (s.1 - lp.1, fun k => Vec.addScaled s.2 c.2 (-Real.exp lp.2) k - if k = 0 then Real.exp lp.2 else 0)
      else
        (s.1 - lp.2, fun k => Vec.addScaled s.2 c.2 (Real.exp lp.1) k + if k = 0 then Real.exp lp.1 else 0)) s).1 =
      s.1 + (corpus.map fun c => instLoss c.1 (inner c.2 x + x 0)).sum ∧
    (corpus.foldl (fun (s : ℝ × Vec) c =>
      let lp := logProbs (c.2.dot n x + if 0 < n then x 0 else 0)
      if c.1 then
        (s.1 - lp.1, fun k => Vec.addScaled s.2 c.2 (-Real.exp lp.2) k - if k = 0 then Real.exp lp.2 else 0)
      else
        (s.1 - lp.2, fun k => Vec.addScaled s.2 c.2 (Real.exp lp.1) k + if k = 0 then Real.exp lp.1 else 0)) s).2 k =
      s.2 k + (corpus.map fun c => instSlope c.1 (inner c.2 x + x 0) * (c.2.at k + if k = 0 then 1 else 0)).sum
  | [], _, s => by simp
  | c :: corpus, h, s => by
    have ih := fun s => trainingInference_eq hn x k corpus (fun c hc => h c (List.mem_cons_of_mem _ hc)) s
    have e1 : ∀ d : ℝ, Real.exp (-Real.log (1 + Real.exp d)) = (1 + Real.exp d)⁻¹ := by
      intro d
      rw [Real.exp_neg, Real.exp_log (by have := Real.exp_pos d; linarith)]
    obtain ⟨y, f⟩ := c
    rw [List.foldl_cons, (ih _).1, (ih _).2]
    simp only [List.map_cons, List.sum_cons, if_pos hn, dot_eq (h _ List.mem_cons_self), logProbs_eq, e1]
    cases y with
    | true =>
      simp only [if_true, addScaled_eq, instLoss, instSlope]
      refine ⟨by ring, ?_⟩
      by_cases hk : k = 0 <;> simp [hk] <;> ring
    | false =>
      simp only [Bool.false_eq_true, if_false, addScaled_eq, instLoss, instSlope]
      refine ⟨by ring, ?_⟩
      by_cases hk : k = 0 <;> simp [hk] <;> ring

theorem sum_head {n : Nat} (hn : 0 < n) (d : Vec) : ((List.range n).map fun k => (if k = 0 then (1 : ℝ) else 0) * d k).sum = d 0 := by
  cases n with
  | zero => omega
  | succ n =>
    rw [List.range_succ_eq_map, List.map_cons, List.sum_cons, List.map_map]
    have : ((List.range n).map ((fun k => (if k = 0 then (1 : ℝ) else 0) * d k) ∘ Nat.succ)).sum = 0 := by
      apply List.sum_eq_zero
      intro z hz
      obtain ⟨k, _, rfl⟩ := List.mem_map.1 hz
      simp
    rw [this]; simp

theorem loss_gradient {n : Nat} (hn : 0 < n) (x : Vec) (corpus : List Inst) (h : KnownInst n corpus) :
    IsGradient n (logLoss corpus) x fun k =>
      (corpus.map fun c => instSlope c.1 (inner c.2 x + x 0) * (c.2.at k + if k = 0 then 1 else 0)).sum := by
  intro d hd
  have hx : ∀ f, (inner f fun k => x k + 0 * d k) + (x 0 + 0 * d 0) = inner f x + x 0 := by
    intro f; congr 1
    · congr 1; funext k; ring
    · ring
  simp only [logLoss_eq]
  have key := hasDerivAt_sum corpus (fun c t => instLoss c.1 ((inner c.2 fun k => x k + t * d k) + (x 0 + t * d 0)))
    (fun c => instSlope c.1 ((inner c.2 fun k => x k + 0 * d k) + (x 0 + 0 * d 0)) * (inner c.2 d + d 0)) 0 (by
      intro c hc
      refine hasDerivAt_instLoss c.1 ((hasDerivAt_inner c.2 x d).fun_add ?_)
      simpa using ((hasDerivAt_id (0 : ℝ)).mul_const (d 0)).const_add (x 0))
  refine HasDerivAt.congr_deriv key ?_
  simp only [hx]
  have e : ∀ c ∈ corpus, instSlope c.1 (inner c.2 x + x 0) * (inner c.2 d + d 0) = ((List.range n).map fun k =>
      instSlope c.1 (inner c.2 x + x 0) * (c.2.at k + if k = 0 then 1 else 0) * d k).sum := by
    intro c hc
    rw [← at_dot (h c hc) d, ← sum_head hn d, ← sum_add, ← sum_mul_left]
    congr 1
    apply List.map_congr_left
    intro k _
    ring
  rw [List.map_congr_left e, sum_comm]
  simp only [sum_mul_right]

theorem regularization_eq (C T : ℝ) (x prev : Vec) (k : Nat) : ∀ (L : List Nat), L.Nodup → ∀ s : ℝ × Vec,
    (L.foldl (fun (s : ℝ × Vec) i =>
      (s.1 + C * x i * x i + T * (x i - prev i) * (x i - prev i),
        fun k => if k = i then s.2 k + 2 * C * x i + 2 * T * (x i - prev i) else s.2 k)) s).1 =
      s.1 + C * (L.map fun k => x k ^ 2).sum + T * (L.map fun k => (x k - prev k) ^ 2).sum ∧
    (L.foldl (fun (s : ℝ × Vec) i =>
      (s.1 + C * x i * x i + T * (x i - prev i) * (x i - prev i),
        fun k => if k = i then s.2 k + 2 * C * x i + 2 * T * (x i - prev i) else s.2 k)) s).2 k =
      s.2 k + if k ∈ L then 2 * C * x k + 2 * T * (x k - prev k) else 0
  | [], _, s => by simp
  | i :: L, h, s => by
    obtain ⟨hi, h⟩ := List.nodup_cons.1 h
    obtain ⟨h1, h2⟩ := regularization_eq C T x prev k L h (s.1 + C * x i * x i + T * (x i - prev i) * (x i - prev i),
        fun k => if k = i then s.2 k + 2 * C * x i + 2 * T * (x i - prev i) else s.2 k)
    rw [List.foldl_cons]
    refine ⟨by rw [h1]; simp only [List.map_cons, List.sum_cons]; ring, ?_⟩
    rw [h2]
    by_cases hk : k = i
    · subst hk
      simp [hi]; ring
    · simp [hk]

theorem penalty_gradient (C T : ℝ) (prev : Vec) (n : Nat) (x : Vec) :
    IsGradient n (penalty C T prev n) x fun k => 2 * C * x k + 2 * T * (x k - prev k) := by
  intro d hd
  have line : ∀ k, HasDerivAt (fun t : ℝ => x k + t * d k) (d k) 0 := by
    intro k
    simpa using ((hasDerivAt_id (0 : ℝ)).mul_const (d k)).const_add (x k)
  have h1 := (hasDerivAt_sum (List.range n) (fun k t => (x k + t * d k) ^ 2) (fun k => 2 * x k * d k) 0 fun k _ => by
    simpa using (line k).fun_pow 2).const_mul C
  have h2 := (hasDerivAt_sum (List.range n) (fun k t => (x k + t * d k - prev k) ^ 2) (fun k => 2 * (x k - prev k) * d k) 0
    fun k _ => by simpa using ((line k).sub_const (prev k)).fun_pow 2).const_mul T
  refine HasDerivAt.congr_deriv (h1.fun_add h2) ?_
  rw [← sum_mul_left, ← sum_mul_left, ← sum_add]
  congr 1
  apply List.map_congr_left
  intro k _
  ring

theorem Spec.IsGradient.add {n : Nat} {F G : Vec → ℝ} {x g g' : Vec} (h : IsGradient n F x g) (h' : IsGradient n G x g') :
    IsGradient n (fun y => F y + G y) x fun k => g k + g' k := by
  intro d hd
  refine HasDerivAt.congr_deriv ((h d hd).fun_add (h' d hd)) ?_
  simp only [add_mul, sum_add]

theorem Spec.IsGradient.congr {n : Nat} {F : Vec → ℝ} {x g g' : Vec} (h : IsGradient n F x g) (e : ∀ k < n, g' k = g k) :
    IsGradient n F x g' := by
  intro d hd
  refine HasDerivAt.congr_deriv (h d hd) ?_
  congr 1
  apply List.map_congr_left
  intro k hk
  rw [e k (List.mem_range.1 hk)]

/-- C82 with a held-out set: the value is the regularised loss of the training set, and the gradient is that of the
regularised loss of both sets together. -/
theorem C82_loss (C T : ℝ) (prev : Vec) (training testing : List Inst) (n : Nat) (hn : 0 < n)
    (h : KnownInst n training) (h' : KnownInst n testing) (x : Vec) :
    (proLoss C T prev training testing n x).1 = logLoss training x + penalty C T prev n x ∧
    IsGradient n (fun y => logLoss training y + logLoss testing y + penalty C T prev n y) x
      (proLoss C T prev training testing n x).2 := by
  have tr := fun k => trainingInference_eq hn x k training h (0, fun _ => 0)
  refine ⟨?_, ?_⟩
  · have r := (regularization_eq C T x prev 0 (List.range n) List.nodup_range (0,
      if testing.length ≠ 0 then (trainingInference n x testing (trainingInference n x training fun _ => 0).2).2
      else (trainingInference n x training fun _ => 0).2)).1
    have t1 : (trainingInference n x training fun _ => 0).1 = _ := (tr 0).1
    change (trainingInference n x training fun _ => 0).1 + _ = _
    rw [t1, logLoss_eq, zero_add]
    congr 1
    refine r.trans ?_
    rw [zero_add]; rfl
  · refine (((loss_gradient hn x training h).add (loss_gradient hn x testing h')).add
      (penalty_gradient C T prev n x)).congr ?_
    intro k hk
    have r := (regularization_eq C T x prev k (List.range n) List.nodup_range (0,
      if testing.length ≠ 0 then (trainingInference n x testing (trainingInference n x training fun _ => 0).2).2
      else (trainingInference n x training fun _ => 0).2)).2
    refine Eq.trans (b := _) r ?_
    rw [if_pos (List.mem_range.2 hk)]
    congr 1
    have t2 : (trainingInference n x training fun _ => 0).2 k = _ := (tr k).2
    by_cases ht : testing.length = 0
    · have : testing = [] := List.length_eq_zero_iff.1 ht
      subst this
      simp only [List.length_nil, ne_eq, not_true, if_false, t2]
      simp
    · have te := (trainingInference_eq hn x k testing h' (0, (trainingInference n x training fun _ => 0).2)).2
      have te' : (trainingInference n x testing (trainingInference n x training fun _ => 0).2).2 k = _ := te
      simp only [if_pos ht, ne_eq, not_false_eq_true]
      rw [te']
      simp only []
      rw [t2, zero_add]

/-- C82.  Without a held-out set, the optimiser is given the regularised logistic loss of the training set and its
gradient.  Missing: with a held-out set the gradient is another one, see `C82_testing_fails`. -/
theorem C82_gradient_partial (C T : ℝ) (prev : Vec) (training : List Inst) (n : Nat) (hn : 0 < n)
    (h : KnownInst n training) (x : Vec) :
    (proLoss C T prev training [] n x).1 = logLoss training x + penalty C T prev n x ∧
    IsGradient n (fun y => logLoss training y + penalty C T prev n y) x (proLoss C T prev training [] n x).2 := by
  obtain ⟨h1, h2⟩ := C82_loss C T prev training [] n hn h (by intro c hc; cases hc) x
  refine ⟨h1, ?_⟩
  have : ∀ y, logLoss training y + logLoss [] y + penalty C T prev n y = logLoss training y + penalty C T prev n y := by
    intro y; simp [logLoss]
  simpa only [this] using h2

/-- With a held-out set the vector given to the optimiser is not the gradient of the value given to it. -/
theorem C82_testing_fails : ∃ (training testing : List Inst) (n : Nat) (x : Vec), 0 < n ∧ KnownInst n training ∧
    KnownInst n testing ∧
    ¬ IsGradient n (fun y => (proLoss 0 0 (fun _ => 0) training testing n y).1) x
      (proLoss 0 0 (fun _ => 0) training testing n x).2 := by
  have k1 : KnownInst 1 [] := by intro c hc; cases hc
  have k2 : KnownInst 1 [(true, [])] := by
    intro c hc e he; rw [List.mem_singleton.1 hc] at he; cases he
  refine ⟨[], [(true, [])], 1, fun _ => 0, by omega, k1, k2, ?_⟩
  intro hg
  have e : ∀ y, (proLoss 0 0 (fun _ => 0) [] [(true, [])] 1 y).1 = 0 := by
    intro y
    rw [(C82_loss 0 0 (fun _ => 0) [] [(true, [])] 1 (by omega) k1 k2 y).1]
    simp [logLoss, penalty]
  simp only [e] at hg
  have h1 := hg (fun k => if k = 0 then 1 else 0) (by intro k hk; rw [if_neg (by omega)])
  have h2 := h1.unique (hasDerivAt_const (0 : ℝ) (0 : ℝ))
  have h3 : (proLoss 0 0 (fun _ => 0) [] [(true, [])] 1 fun _ => 0).2 0 = 0 := by simpa using h2
  simp [proLoss, applyRegularization, trainingInference, logProbs_eq, Feats.dot, Vec.addScaled] at h3

example : KnownInst 3 [(true, [(1, 2), (2, -1)]), (false, [(2, 1)])] := by
  intro c hc e he
  simp only [List.mem_cons, List.not_mem_nil, or_false] at hc
  rcases hc with rfl | rfl <;> simp at he
  · rcases he with rfl | rfl <;> simp
  · subst he; simp

end Cdec.Train
