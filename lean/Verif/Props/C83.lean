import Verif.Train.CrfObjective
import Verif.Props.C03
import Verif.Props.C10
import Verif.Props.C82
/-!
# C83: Conditional-likelihood training is given the negative log-likelihood of the references and its gradient
-/
namespace Cdec.Train
open Spec HG

theorem total_edges (x : Nat → ℝ) (t : Tree) : t.total x = (t.edges.map x).sum := by
  induction t using Tree.rec (motive_2 := fun ch =>
    (ch.map fun t : Tree => t.total x).sum = ((ch.flatMap fun t => t.edges).map x).sum) with
  | node e ch ih => rw [total_node, ih, Tree.edges, List.map_cons, List.sum_cons]
  | nil => simp
  | cons t ts ih1 ih2 => simp [ih1, ih2]

/-- What is assumed of a forest: it is topologically sorted, no edge has the same tail twice (see C03), the ids of the
features are within the weight vector, and `ds` lists its derivations, of which there is at least one. -/
structure Good (n : Nat) (f : Forest) (ds : List Tree) : Prop where
  wf : WF f.g
  tails : DistinctTails f.g
  ne : f.g.nodes ≠ []
  known : ∀ e, ∀ p ∈ f.feats e, p.1 < n
  lists : ListsDerivs f.g f.g.goal ds
  some : ds ≠ []

variable {n : Nat} {f : Forest} {ds : List Tree}

theorem Good.edgeProb (h : Good n f ds) (x : Vec) : f.edgeProb n x = fun e => Real.exp (inner (f.feats e) x) := by
  funext e
  rw [Forest.edgeProb, dot_eq (h.known e)]

theorem Good.z_eq (h : Good n f ds) (x : Vec) : f.z n x = mass f ds x := by
  rw [Forest.z, (C02_inside_return f.g h.wf _).2 ds h.ne h.lists, mass, h.edgeProb x]
  congr 1
  apply List.map_congr_left
  intro t _
  rw [weight_exp]; rfl

theorem Good.mass_pos (h : Good n f ds) (x : Vec) : 0 < mass f ds x :=
  Zf_pos (L := ds) (fun (t : Tree) _ => score f x t) h.some 0

theorem Good.exp_eq (h : Good n f ds) (x : Vec) (k : Nat) :
    f.exp n x k = (ds.map fun t => Real.exp (score f x t) / mass f ds x * (t.edges.map fun e => (f.feats e).at k).sum).sum := by
  have hpos : 0 < f.g.nodes.length := List.length_pos_iff.2 h.ne
  rw [Forest.exp, C03_expectation f.g h.wf h.tails hpos (f.edgeProb n x) (fun e => (f.feats e).vec k) 1 ds h.lists,
    h.z_eq, one_mul, div_eq_mul_inv, ← sum_mul_right]
  congr 1
  apply List.map_congr_left
  intro t _
  rw [h.edgeProb, weight_exp, total_edges]
  simp only [vec_eq]
  change _ * Real.exp (score f x t) * _ = _
  rw [div_eq_mul_inv]; ring

theorem score_at (hk : ∀ e, ∀ p ∈ f.feats e, p.1 < n) (d : Vec) (t : Tree) :
    ((List.range n).map fun k => (t.edges.map fun e => (f.feats e).at k).sum * d k).sum = score f d t := by
  simp only [← sum_mul_right]
  rw [sum_comm, score]
  congr 1
  apply List.map_congr_left
  intro e _
  exact at_dot (hk e) d

theorem Good.gradient (h : Good n f ds) (x : Vec) :
    IsGradient n (fun y => Real.log (mass f ds y)) x (f.exp n x) := by
  intro d hd
  have hS : ∀ t ∈ ds, HasDerivAt (fun τ : ℝ => score f (fun k => x k + τ * d k) t) (score f d t) 0 := by
    intro t _
    exact hasDerivAt_sum t.edges (fun e τ => inner (f.feats e) fun k => x k + τ * d k) _ 0
      fun e _ => hasDerivAt_inner (f.feats e) x d
  refine HasDerivAt.congr_deriv (hasDerivAt_logZ h.some hS) ?_
  have hx : (fun k => x k + 0 * d k) = x := by funext k; ring
  simp only [Ef, Pf, Zf, hx]
  have e : ∀ t ∈ ds, Real.exp (score f x t) / (ds.map fun t => Real.exp (score f x t)).sum * score f d t =
      ((List.range n).map fun k => Real.exp (score f x t) / mass f ds x *
        (t.edges.map fun e => (f.feats e).at k).sum * d k).sum := by
    intro t _
    rw [← score_at h.known d t, ← sum_mul_left]
    congr 1
    apply List.map_congr_left
    intro k _
    rw [mass]; ring
  rw [List.map_congr_left e, sum_comm]
  congr 1
  apply List.map_congr_left
  intro k _
  rw [h.exp_eq, ← sum_mul_right]

theorem _root_.Cdec.Train.Spec.IsGradient.neg {F : Vec → ℝ} {x g : Vec} (h : IsGradient n F x g) :
    IsGradient n (fun y => -F y) x fun k => -g k := by
  intro d hd
  refine HasDerivAt.congr_deriv (h d hd).fun_neg ?_
  rw [← sum_neg]
  congr 1
  apply List.map_congr_left
  intro k _
  ring

/-- Contribution of a sentence. -/
noncomputable def sentLoss (D : Forest → List Tree) (s : Sent) (x : Vec) : ℝ :=
  match s.ref with
  | none => 0
  | some r => Real.log (mass s.model (D s.model) x) - Real.log (mass r (D r) x)

theorem negLogLik_eq (D : Forest → List Tree) {corpus : List Sent}
    (h : ∀ s ∈ corpus, ∀ r, s.ref = some r → Good n s.model (D s.model) ∧ Good n r (D r)) (x : Vec) :
    negLogLik D corpus x = (corpus.map fun s => sentLoss D s x).sum := by
  rw [negLogLik, ← sum_neg]
  congr 1
  apply List.map_congr_left
  intro s hs
  unfold sentLoss
  cases hr : s.ref with
  | none => simp
  | some r =>
    obtain ⟨h1, h2⟩ := h s hs r hr
    simp only []
    rw [Real.log_div (h2.mass_pos x).ne' (h1.mass_pos x).ne']
    ring

/-- Value and gradient after the sentences in `corpus`. -/
theorem observe_all (D : Forest → List Tree) (x : Vec) : ∀ (corpus : List Sent),
    (∀ s ∈ corpus, ∀ r, s.ref = some r → Good n s.model (D s.model) ∧ Good n r (D r)) →
    ∀ (F : Vec → ℝ) (s o : ℝ × Vec), s.1 = F x → IsGradient n F x s.2 → corpus.foldlM (observe n x) s = some o →
      o.1 = F x + (corpus.map fun s => sentLoss D s x).sum ∧
      IsGradient n (fun y => F y + (corpus.map fun s => sentLoss D s y).sum) x o.2
  | [], _, F, s, o, h1, h2, e => by
    cases e
    simpa using ⟨h1, h2⟩
  | c :: corpus, h, F, s, o, h1, h2, e => by
    rw [List.foldlM_cons] at e
    obtain ⟨s', e1, e2⟩ := Option.bind_eq_some_iff.1 e
    have step : s'.1 = F x + sentLoss D c x ∧ IsGradient n (fun y => F y + sentLoss D c y) x s'.2 := by
      unfold observe at e1
      unfold sentLoss
      cases hr : c.ref with
      | none =>
        rw [hr] at e1
        cases e1
        simpa using ⟨h1, h2⟩
      | some r =>
        obtain ⟨g1, g2⟩ := h c List.mem_cons_self r hr
        rw [hr] at e1
        simp only [] at e1
        split at e1
        · cases e1
        · cases e1
          refine ⟨by simp only [h1, g1.z_eq, g2.z_eq], ?_⟩
          refine (h2.add ((g1.gradient x).add (g2.gradient x).neg)).congr ?_
          intro k _
          simp only []
          ring
    obtain ⟨r1, r2⟩ := observe_all D x corpus (fun s hs => h s (List.mem_cons_of_mem _ hs)) (fun y => F y + sentLoss D c y)
      s' o step.1 step.2 e2
    refine ⟨by rw [r1, List.map_cons, List.sum_cons]; ring, ?_⟩
    have : ∀ y, F y + ((c :: corpus).map fun s => sentLoss D s y).sum =
        F y + sentLoss D c y + (corpus.map fun s => sentLoss D s y).sum := by
      intro y; rw [List.map_cons, List.sum_cons]; ring
    simpa only [this] using r2

/-- C83, likelihood.  Unless training stops because a reference forest outweighs its translation forest, the objective is
minus the conditional log-likelihood of the reachable references and the gradient is its gradient. -/
theorem C83_likelihood (D : Forest → List Tree) (corpus : List Sent)
    (h : ∀ s ∈ corpus, ∀ r, s.ref = some r → Good n s.model (D s.model) ∧ Good n r (D r)) (x : Vec) (o : ℝ × Vec)
    (ho : corpusObjective n x corpus = some o) :
    o.1 = negLogLik D corpus x ∧ IsGradient n (negLogLik D corpus) x o.2 := by
  obtain ⟨h1, h2⟩ := observe_all D x corpus h (fun _ => 0) (0, fun _ => 0) o rfl (by
    intro d hd
    simpa using hasDerivAt_const (0 : ℝ) (0 : ℝ)) ho
  rw [zero_add] at h1
  simp only [zero_add] at h2
  refine ⟨by rw [h1, negLogLik_eq D h], ?_⟩
  have : negLogLik D corpus = fun y => (corpus.map fun s => sentLoss D s y).sum := by
    funext y; exact negLogLik_eq D h y
  rw [this]
  exact h2

/-- C83, totality.  Training does not stop if every reference forest weighs at most as much as its translation forest, in
particular if its derivations are among those of the translation forest. -/
theorem C83_total (D : Forest → List Tree) (corpus : List Sent)
    (h : ∀ s ∈ corpus, ∀ r, s.ref = some r → Good n s.model (D s.model) ∧ Good n r (D r)) (x : Vec)
    (hle : ∀ s ∈ corpus, ∀ r, s.ref = some r → mass r (D r) x ≤ mass s.model (D s.model) x) :
    ∃ o, corpusObjective n x corpus = some o := by
  have : ∀ (corpus : List Sent),
      (∀ s ∈ corpus, ∀ r, s.ref = some r → Good n s.model (D s.model) ∧ Good n r (D r)) →
      (∀ s ∈ corpus, ∀ r, s.ref = some r → mass r (D r) x ≤ mass s.model (D s.model) x) →
      ∀ s, ∃ o, corpus.foldlM (observe n x) s = some o := by
    intro corpus
    induction corpus with
    | nil => intro _ _ s; exact ⟨s, rfl⟩
    | cons c corpus ih =>
      intro h hle s
      have ih := ih (fun s hs => h s (List.mem_cons_of_mem _ hs)) fun s hs => hle s (List.mem_cons_of_mem _ hs)
      obtain ⟨s', e⟩ : ∃ s', observe n x s c = some s' := by
        unfold observe
        cases hr : c.ref with
        | none => exact ⟨s, rfl⟩
        | some r =>
          obtain ⟨g1, g2⟩ := h c List.mem_cons_self r hr
          simp only []
          rw [if_neg]
          · exact ⟨_, rfl⟩
          · rw [g1.z_eq, g2.z_eq]
            have := Real.log_le_log (g2.mass_pos x) (hle c List.mem_cons_self r hr)
            norm_num
            linarith
      obtain ⟨o, e'⟩ := ih s'
      exact ⟨o, by rw [List.foldlM_cons, e]; exact e'⟩
  exact this corpus h hle _

theorem prior_fold (sigsq : ℝ) (means x : Vec) (hm : ∀ k, means k = 0) (j : Nat) : ∀ (L : List Nat), L.Nodup → ∀ s : ℝ × Vec,
    (L.foldl (fun (s : ℝ × Vec) k =>
      open Classical in if x k ≠ 0 then
        (s.1 + (x k - means k) * (x k - means k), fun j => if j = k then s.2 j + (x k - means k) / sigsq else s.2 j)
      else s) s).1 = s.1 + (L.map fun k => (x k - means k) ^ 2).sum ∧
    (L.foldl (fun (s : ℝ × Vec) k =>
      open Classical in if x k ≠ 0 then
        (s.1 + (x k - means k) * (x k - means k), fun j => if j = k then s.2 j + (x k - means k) / sigsq else s.2 j)
      else s) s).2 j = s.2 j + if j ∈ L then (x j - means j) / sigsq else 0
  | [], _, s => by simp
  | i :: L, h, s => by
    obtain ⟨hi, h⟩ := List.nodup_cons.1 h
    rw [List.foldl_cons, (prior_fold sigsq means x hm j L h _).1, (prior_fold sigsq means x hm j L h _).2]
    by_cases hx : x i = 0
    · simp only [hx, ne_eq, not_true, if_false, List.map_cons, List.sum_cons, hm]
      refine ⟨by ring, ?_⟩
      by_cases hj : j = i
      · subst hj; simp [hi, hx]
      · simp [hj]
    · simp only [hx, ne_eq, not_false_eq_true, if_true, List.map_cons, List.sum_cons]
      refine ⟨by ring, ?_⟩
      by_cases hj : j = i
      · subst hj; simp [hi]
      · simp [hj]

theorem prior_gradient (sigsq : ℝ) (means : Vec) (n : Nat) (x : Vec) :
    IsGradient n (prior sigsq means n) x fun k => if k ∈ List.range' 1 (n - 1) then (x k - means k) / sigsq else 0 := by
  intro d hd
  have line : ∀ k, HasDerivAt (fun t : ℝ => x k + t * d k - means k) (d k) 0 := by
    intro k
    simpa using (((hasDerivAt_id (0 : ℝ)).mul_const (d k)).const_add (x k)).sub_const (means k)
  have h1 := (hasDerivAt_sum (List.range' 1 (n - 1)) (fun k t => (x k + t * d k - means k) ^ 2)
    (fun k => 2 * (x k - means k) * d k) 0 fun k _ => by simpa using (line k).fun_pow 2).div_const (2 * sigsq)
  refine HasDerivAt.congr_deriv h1 ?_
  cases n with
  | zero => simp
  | succ n =>
    rw [List.range_succ_eq_map, List.map_cons, List.sum_cons, List.map_map]
    have e : List.range' 1 (n + 1 - 1) = (List.range n).map Nat.succ := by
      rw [Nat.add_sub_cancel, List.range_eq_range', show List.range' 1 n = List.range' (1 + 0) n from rfl, ← List.map_add_range' 0 n 1]
      apply List.map_congr_left
      intro a _
      omega
    rw [div_eq_mul_inv, ← sum_mul_right, e, List.map_map]
    have h0 : 0 ∉ (List.range n).map Nat.succ := by simp
    simp only [if_neg h0, zero_mul, zero_add]
    congr 1
    apply List.map_congr_left
    intro k hk
    simp only [Function.comp]
    rw [if_pos (List.mem_map.2 ⟨k, hk, rfl⟩)]
    by_cases hs : sigsq = 0
    · simp [hs]
    · field_simp

/-- C83, the prior.  With means of zero, the prior adds the squared distance over `2 sigma²` and its gradient.  Missing:
other means, see `C83_means_fails`. -/
theorem C83_prior_partial (sigsq : ℝ) (means : Vec) (hm : ∀ k, means k = 0) (n : Nat) (x : Vec) (F : Vec → ℝ) (o : ℝ × Vec)
    (h1 : o.1 = F x) (h2 : IsGradient n F x o.2) :
    (gaussianPrior sigsq means n x o).1 = F x + prior sigsq means n x ∧
    IsGradient n (fun y => F y + prior sigsq means n y) x (gaussianPrior sigsq means n x o).2 := by
  have fold := fun j => prior_fold sigsq means x hm j (List.range' 1 (n - 1)) (List.nodup_range' ..) (0, o.2)
  refine ⟨?_, ?_⟩
  · change o.1 + _ / (2 * sigsq) = _
    rw [(fold 0).1, zero_add, h1]; rfl
  · refine (h2.add (prior_gradient sigsq means n x)).congr ?_
    intro k _
    exact (fold k).2

/-- A weight of exactly zero is not pulled towards its mean, nor is its distance counted. -/
theorem C83_means_fails : ∃ (means x : Vec), (gaussianPrior 1 means 2 x (0, fun _ => 0)).1 ≠ prior 1 means 2 x ∧
    (gaussianPrior 1 means 2 x (0, fun _ => 0)).2 1 = 0 ∧ ¬ IsGradient 2 (prior 1 means 2) x fun _ => 0 := by
  refine ⟨fun _ => 1, fun _ => 0, ?_, ?_, ?_⟩
  · simp [gaussianPrior, prior]
  · simp [gaussianPrior]
  · intro h
    have h1 := h (fun k => if k = 1 then 1 else 0) (by intro k hk; rw [if_neg (by omega)])
    have h2 := prior_gradient 1 (fun _ => 1) 2 (fun _ => 0) (fun k => if k = 1 then 1 else 0)
      (by intro k hk; rw [if_neg (by omega)])
    have := h1.unique h2
    simp [List.range_succ] at this

/-- The forest `exG` of C02 with one feature on an edge. -/
example : Good 2 ⟨exG, fun e => if e = 3 then [(1, 1)] else []⟩ (derivs exG exG.goal) := by
  have wf : WF exG := exG_wf
  refine ⟨wf, by unfold DistinctTails; decide, by decide, ?_, derivs_lists wf _ (by decide), by decide⟩
  intro e p hp
  by_cases he : e = 3
  · simp [he] at hp; simp [hp]
  · simp [he] at hp

end Cdec.Train
