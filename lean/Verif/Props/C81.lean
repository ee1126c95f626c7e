import Verif.Train.ObjectiveLemmas
/-!
# C81: The minimum-risk optimiser is given the expected loss and its gradient
-/
namespace Cdec.Train
open Spec

/-- All feature ids are within the weight vector. -/
def Known (n : Nat) (cs : List Cand) : Prop := ∀ c ∈ cs, ∀ e ∈ c.fmap, e.1 < n

theorem logZ_eq {n : Nat} {cs : List Cand} (h : Known n cs) (x : Vec) :
    logZ n x cs = Real.log (cs.map fun c => Real.exp (inner c.fmap x)).sum := by
  unfold logZ
  rw [foldl_sum (fun c : Cand => Real.exp (c.fmap.dot n x)), zero_add]
  congr 2
  apply List.map_congr_left
  intro c hc
  rw [dot_eq (h c hc)]

theorem z_pos {cs : List Cand} (hne : cs ≠ []) (x : Vec) : 0 < (cs.map fun c => Real.exp (inner c.fmap x)).sum :=
  Zf_pos (L := cs) (fun (c : Cand) _ => inner c.fmap x) hne 0

theorem prob_eq {n : Nat} {cs : List Cand} (h : Known n cs) (x : Vec) {c : Cand} (hc : c ∈ cs) :
    Real.exp (c.fmap.dot n x - logZ n x cs) = prob cs x c := by
  rw [logZ_eq h, dot_eq (h c hc), Real.exp_sub, Real.exp_log (z_pos (List.ne_nil_of_mem hc) x)]
  rfl

theorem logProb_eq {n : Nat} {cs : List Cand} (h : Known n cs) (x : Vec) {c : Cand} (hc : c ∈ cs) :
    c.fmap.dot n x - logZ n x cs = Real.log (prob cs x c) := by
  rw [← prob_eq h x hc, Real.log_exp]

theorem foldl_addScaled (f : Cand → ℝ) (k : Nat) : ∀ (cs : List Cand) (v : Vec),
    (cs.foldl (fun v c => Vec.addScaled v c.fmap (f c)) v) k = v k + (cs.map fun c => c.fmap.at k * f c).sum
  | [], v => by simp
  | c :: cs, v => by
    rw [List.foldl_cons, foldl_addScaled f k cs, addScaled_eq, List.map_cons, List.sum_cons]; ring

theorem expFeats_eq {n : Nat} {cs : List Cand} (h : Known n cs) (x : Vec) (k : Nat) :
    expFeats n x cs k = (cs.map fun c => prob cs x c * c.fmap.at k).sum := by
  rw [expFeats, foldl_addScaled, zero_add]
  congr 1
  apply List.map_congr_left
  intro c hc
  rw [prob_eq h x hc]; ring

theorem risk_fold (r : Cand → ℝ) (E : Vec) (k : Nat) : ∀ (cs : List Cand) (s : ℝ × Vec),
    (cs.foldl (fun (s : ℝ × Vec) c => (s.1 + r c, fun k => s.2 k + (c.fmap.vec k - E k) * r c)) s).1 = s.1 + (cs.map r).sum ∧
    (cs.foldl (fun (s : ℝ × Vec) c => (s.1 + r c, fun k => s.2 k + (c.fmap.vec k - E k) * r c)) s).2 k =
      s.2 k + (cs.map fun c => (c.fmap.at k - E k) * r c).sum
  | [], s => by simp
  | c :: cs, s => by
    obtain ⟨h1, h2⟩ := risk_fold r E k cs (s.1 + r c, fun k => s.2 k + (c.fmap.vec k - E k) * r c)
    rw [List.foldl_cons]
    refine ⟨by rw [h1, List.map_cons, List.sum_cons]; ring, ?_⟩
    rw [h2, List.map_cons, List.sum_cons]; simp only [vec_eq]; ring

theorem entropy_fold (e p : Cand → ℝ) (k : Nat) : ∀ (cs : List Cand) (s : ℝ × Vec × Vec),
    (cs.foldl (fun s c => (s.1 - e c, Vec.addScaled s.2.1 c.fmap (e c), Vec.addScaled s.2.2 c.fmap (p c))) s).1 =
      s.1 - (cs.map e).sum ∧
    (cs.foldl (fun (s : ℝ × Vec × Vec) c => (s.1 - e c, Vec.addScaled s.2.1 c.fmap (e c), Vec.addScaled s.2.2 c.fmap (p c))) s).2.1 k =
      s.2.1 k + (cs.map fun c => c.fmap.at k * e c).sum ∧
    (cs.foldl (fun (s : ℝ × Vec × Vec) c => (s.1 - e c, Vec.addScaled s.2.1 c.fmap (e c), Vec.addScaled s.2.2 c.fmap (p c))) s).2.2 k =
      s.2.2 k + (cs.map fun c => c.fmap.at k * p c).sum
  | [], s => by simp
  | c :: cs, s => by
    obtain ⟨h1, h2, h3⟩ := entropy_fold e p k cs
      (s.1 - e c, Vec.addScaled s.2.1 c.fmap (e c), Vec.addScaled s.2.2 c.fmap (p c))
    rw [List.foldl_cons]
    refine ⟨by rw [h1, List.map_cons, List.sum_cons]; ring, ?_, ?_⟩
    · rw [h2]; simp only []; rw [addScaled_eq, List.map_cons, List.sum_cons]; ring
    · rw [h3]; simp only []; rw [addScaled_eq, List.map_cons, List.sum_cons]; ring

theorem candRisk_eq {n : Nat} {cs : List Cand} (isError : Bool) (h : Known n cs) (x : Vec) :
    (candRisk isError n x cs).1 = risk isError cs x ∧
    ∀ k, (candRisk isError n x cs).2 k =
      (cs.map fun c => (c.fmap.at k - (cs.map fun c => prob cs x c * c.fmap.at k).sum) * (prob cs x c * c.cost isError)).sum := by
  have := fun k => risk_fold (fun c => Real.exp (c.fmap.dot n x - logZ n x cs) * c.cost isError) (expFeats n x cs) k cs
    (0, fun _ => 0)
  refine ⟨?_, fun k => ?_⟩
  · refine (this 0).1.trans ?_
    rw [zero_add, risk]
    congr 1
    apply List.map_congr_left
    intro c hc
    rw [prob_eq h x hc]; rfl
  · refine (this k).2.trans ?_
    rw [zero_add]
    congr 1
    apply List.map_congr_left
    intro c hc
    rw [prob_eq h x hc, expFeats_eq h]

theorem candEntropy_eq {n : Nat} {cs : List Cand} (h : Known n cs) (x : Vec) :
    (candEntropy n x cs).1 = entropy cs x ∧
    ∀ k, (candEntropy n x cs).2 k = (cs.map fun c => c.fmap.at k * (prob cs x c * Real.log (prob cs x c))).sum +
      (cs.map fun c => prob cs x c * c.fmap.at k).sum * entropy cs x := by
  have := fun k => entropy_fold
    (fun c => Real.exp (c.fmap.dot n x - logZ n x cs) * (c.fmap.dot n x - logZ n x cs))
    (fun c => Real.exp (c.fmap.dot n x - logZ n x cs)) k cs (0, fun _ => 0, fun _ => 0)
  have e : ∀ c ∈ cs, Real.exp (c.fmap.dot n x - logZ n x cs) * (c.fmap.dot n x - logZ n x cs) =
      prob cs x c * Real.log (prob cs x c) := by
    intro c hc
    rw [prob_eq h x hc, logProb_eq h x hc]
  have e1 : (entropyLoop n x cs).1 = entropy cs x := by
    refine (this 0).1.trans ?_
    rw [zero_sub, entropy, List.map_congr_left e]
  refine ⟨e1, fun k => ?_⟩
  change (entropyLoop n x cs).2.1 k + (entropyLoop n x cs).2.2 k * (entropyLoop n x cs).1 = _
  rw [e1]
  congr 1
  · refine (this k).2.1.trans ?_
    rw [zero_add]
    congr 1
    apply List.map_congr_left
    intro c hc
    rw [e c hc]
  · congr 1
    refine (this k).2.2.trans ?_
    rw [zero_add]
    congr 1
    apply List.map_congr_left
    intro c hc
    rw [prob_eq h x hc]; ring

/-- Inner product of a weighted sum of feature vectors with a direction. -/
theorem sum_at_dot {n : Nat} {cs : List Cand} (h : Known n cs) (p : Cand → ℝ) (d : Vec) :
    ((List.range n).map fun k => (cs.map fun c => p c * c.fmap.at k).sum * d k).sum =
      (cs.map fun c => p c * inner c.fmap d).sum := by
  have e : ∀ c ∈ cs, p c * inner c.fmap d = ((List.range n).map fun k => p c * c.fmap.at k * d k).sum := by
    intro c hc
    rw [← at_dot (h c hc) d, ← sum_mul_left]
    simp only [mul_assoc]
  rw [List.map_congr_left e, sum_comm]
  simp only [sum_mul_right]

/-- C81, expected loss.  The value is the expected loss under the log-linear model and the gradient is its gradient. -/
theorem C81_risk (isError : Bool) (n : Nat) (cs : List Cand) (h : Known n cs) (x : Vec) :
    (candRisk isError n x cs).1 = risk isError cs x ∧
    IsGradient n (risk isError cs) x (candRisk isError n x cs).2 := by
  refine ⟨(candRisk_eq isError h x).1, ?_⟩
  intro d hd
  by_cases hne : cs = []
  · subst hne
    simpa [risk, candRisk] using hasDerivAt_const (0 : ℝ) (0 : ℝ)
  have key := hasDerivAt_risk (S := fun (c : Cand) t => inner c.fmap fun k => x k + t * d k)
    (δ := fun c => inner c.fmap d) hne (fun c _ => hasDerivAt_inner c.fmap x d) (fun c => c.cost isError)
  refine HasDerivAt.congr_deriv key ?_
  have hx : (fun k => x k + 0 * d k) = x := by funext k; ring
  have hP : ∀ c, Pf cs (fun (c : Cand) t => inner c.fmap fun k => x k + t * d k) c 0 = prob cs x c := by
    intro c
    simp only [Pf, Zf, hx]; rfl
  unfold Ef
  simp only [hP]
  have e : ∀ k, (candRisk isError n x cs).2 k * d k =
      (cs.map fun c => (prob cs x c * c.cost isError) * c.fmap.at k).sum * d k +
      (cs.map fun c => prob cs x c * c.fmap.at k).sum * d k * -(cs.map fun c => prob cs x c * c.cost isError).sum := by
    intro k
    rw [(candRisk_eq isError h x).2 k]
    have : ∀ c ∈ cs, (c.fmap.at k - (cs.map fun c => prob cs x c * c.fmap.at k).sum) * (prob cs x c * c.cost isError) =
        (prob cs x c * c.cost isError) * c.fmap.at k +
          (prob cs x c * c.cost isError) * -(cs.map fun c => prob cs x c * c.fmap.at k).sum := by
      intro c _; ring
    rw [List.map_congr_left this, sum_add, sum_mul_right]
    ring
  simp only [e]
  rw [sum_add, sum_mul_right, sum_at_dot h, sum_at_dot h]
  have : ∀ c ∈ cs, prob cs x c * (inner c.fmap d - (cs.map fun c => prob cs x c * inner c.fmap d).sum) * c.cost isError =
      prob cs x c * c.cost isError * inner c.fmap d +
        prob cs x c * c.cost isError * -(cs.map fun c => prob cs x c * inner c.fmap d).sum := by
    intro c _; ring
  rw [List.map_congr_left this, sum_add, sum_mul_right]
  ring

/-- C81, entropy.  The value is the entropy of the distribution over the candidates; the vector returned is the gradient
of minus the entropy. -/
theorem C81_entropy (n : Nat) (cs : List Cand) (h : Known n cs) (x : Vec) :
    (candEntropy n x cs).1 = entropy cs x ∧
    IsGradient n (fun y => -entropy cs y) x (candEntropy n x cs).2 := by
  refine ⟨(candEntropy_eq h x).1, ?_⟩
  intro d hd
  by_cases hne : cs = []
  · subst hne
    simpa [entropy, candEntropy, entropyLoop] using hasDerivAt_const (0 : ℝ) (0 : ℝ)
  have key := (hasDerivAt_entropy (S := fun (c : Cand) t => inner c.fmap fun k => x k + t * d k)
    (δ := fun c => inner c.fmap d) hne (fun c _ => hasDerivAt_inner c.fmap x d)).fun_neg
  refine HasDerivAt.congr_deriv key ?_
  have hx : (fun k => x k + 0 * d k) = x := by funext k; ring
  have hP : ∀ c, Pf cs (fun (c : Cand) t => inner c.fmap fun k => x k + t * d k) c 0 = prob cs x c := by
    intro c
    simp only [Pf, Zf, hx]; rfl
  unfold Ef
  simp only [hP]
  rw [neg_neg]
  have e : ∀ k, (candEntropy n x cs).2 k * d k =
      (cs.map fun c => (prob cs x c * Real.log (prob cs x c)) * c.fmap.at k).sum * d k +
      (cs.map fun c => prob cs x c * c.fmap.at k).sum * d k * entropy cs x := by
    intro k
    rw [(candEntropy_eq h x).2 k]
    have : ∀ c ∈ cs, c.fmap.at k * (prob cs x c * Real.log (prob cs x c)) =
        prob cs x c * Real.log (prob cs x c) * c.fmap.at k := by intro c _; ring
    rw [List.map_congr_left this]
    ring
  simp only [e]
  rw [sum_add, sum_mul_right, sum_at_dot h, sum_at_dot h]
  rfl

theorem objective_fold (isError : Bool) (T : ℝ) (n : Nat) (x : Vec) (k : Nat) : ∀ (tr : List (List Cand)) (s : ℝ × ℝ × Vec),
    (tr.foldl (fun (s : ℝ × ℝ × Vec) cs =>
      let r := candRisk isError n x cs
      let h := candEntropy n x cs
      (s.1 + r.1, s.2.1 + h.1, fun k => if T ≠ 0 then s.2.2 k + r.2 k + T * h.2 k else s.2.2 k + r.2 k)) s).1 =
      s.1 + (tr.map fun cs => (candRisk isError n x cs).1).sum ∧
    (tr.foldl (fun (s : ℝ × ℝ × Vec) cs =>
      let r := candRisk isError n x cs
      let h := candEntropy n x cs
      (s.1 + r.1, s.2.1 + h.1, fun k => if T ≠ 0 then s.2.2 k + r.2 k + T * h.2 k else s.2.2 k + r.2 k)) s).2.1 =
      s.2.1 + (tr.map fun cs => (candEntropy n x cs).1).sum ∧
    (tr.foldl (fun (s : ℝ × ℝ × Vec) cs =>
      let r := candRisk isError n x cs
      let h := candEntropy n x cs
      (s.1 + r.1, s.2.1 + h.1, fun k => if T ≠ 0 then s.2.2 k + r.2 k + T * h.2 k else s.2.2 k + r.2 k)) s).2.2 k =
      s.2.2 k + (tr.map fun cs => (candRisk isError n x cs).2 k).sum + T * (tr.map fun cs => (candEntropy n x cs).2 k).sum
  | [], s => by simp
  | cs :: tr, s => by
    rw [List.foldl_cons]
    obtain ⟨h1, h2, h3⟩ := objective_fold isError T n x k tr (s.1 + (candRisk isError n x cs).1,
      s.2.1 + (candEntropy n x cs).1, fun k => if T ≠ 0 then s.2.2 k + (candRisk isError n x cs).2 k +
        T * (candEntropy n x cs).2 k else s.2.2 k + (candRisk isError n x cs).2 k)
    refine ⟨by rw [h1, List.map_cons, List.sum_cons]; ring, by rw [h2, List.map_cons, List.sum_cons]; ring, ?_⟩
    rw [h3]
    simp only [List.map_cons, List.sum_cons]
    by_cases hT : T = 0
    · simp [hT]; ring
    · simp [hT]; ring

/-- C81.  The optimiser is given the total expected loss minus `T` times the total entropy, and the gradient of that. -/
theorem C81_objective (isError : Bool) (T : ℝ) (n : Nat) (training : List (List Cand))
    (h : ∀ cs ∈ training, Known n cs) (x : Vec) :
    (riskObjective isError T training n x).1 = objective isError T training x ∧
    IsGradient n (objective isError T training) x (riskObjective isError T training n x).2 := by
  have fold := fun k => objective_fold isError T n x k training (0, 0, fun _ => 0)
  refine ⟨?_, ?_⟩
  · change _ - T * _ = _
    rw [(fold 0).1, (fold 0).2.1, objective, zero_add, zero_add,
      List.map_congr_left fun cs hcs => (C81_risk isError n cs (h cs hcs) x).1,
      List.map_congr_left fun cs hcs => (C81_entropy n cs (h cs hcs) x).1]
  · intro d hd
    have h1 := hasDerivAt_sum training (fun cs t => risk isError cs fun k => x k + t * d k) _ 0
      fun cs hcs => (C81_risk isError n cs (h cs hcs) x).2 d hd
    have h2 := hasDerivAt_sum training (fun cs t => -entropy cs fun k => x k + t * d k) _ 0
      fun cs hcs => (C81_entropy n cs (h cs hcs) x).2 d hd
    have h3 := h1.fun_add (h2.const_mul T)
    simp only [sum_neg, mul_neg, ← sub_eq_add_neg] at h3
    refine HasDerivAt.congr_deriv h3 ?_
    have e : ∀ k, (riskObjective isError T training n x).2 k * d k =
        (training.map fun cs => (candRisk isError n x cs).2 k * d k).sum +
          T * (training.map fun cs => (candEntropy n x cs).2 k * d k).sum := by
      intro k
      have : (riskObjective isError T training n x).2 k = _ := (fold k).2.2
      rw [this, sum_mul_right, sum_mul_right, zero_add]
      ring
    simp only [e, sum_add, sum_mul_left]
    rw [sum_comm training, sum_comm training]

/-- A set of two candidates that differ in a feature: the risk is not constant. -/
example : Known 2 [⟨[(0, 1), (1, 2)], 1⟩, ⟨[(1, 1)], 0⟩] := by
  intro c hc e he
  simp only [List.mem_cons, List.not_mem_nil, or_false] at hc
  rcases hc with rfl | rfl <;> simp at he <;> aesop

example : (candRisk true 1 (fun _ => 0) [⟨[(0, 1)], 1⟩, ⟨[], 0⟩]).1 = 1 / 2 ∧
    (candRisk true 1 (fun _ => 0) [⟨[(0, 1)], 1⟩, ⟨[], 0⟩]).2 0 = 1 / 4 := by
  have h : Known 1 [⟨[(0, 1)], 1⟩, ⟨[], 0⟩] := by
    intro c hc e he
    simp only [List.mem_cons, List.not_mem_nil, or_false] at hc
    rcases hc with rfl | rfl <;> simp at he <;> simp [he]
  refine ⟨?_, ?_⟩
  · rw [(candRisk_eq true h _).1]; simp [risk, prob, inner]; norm_num
  · rw [(candRisk_eq true h _).2]; simp [prob, inner, Feats.at, Cand.cost]; norm_num

end Cdec.Train
