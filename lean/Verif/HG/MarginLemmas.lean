import Verif.HG.MarginModel
import Verif.HG.PruneLemmas
import Verif.Props.C03
/-! Lemmas about the tropical semiring and margin pruning. -/
namespace Cdec.HG
open scoped NNReal
variable {α : Type}

@[simp] theorem Trop.zero_v : (0 : Trop).v = 0 := rfl
@[simp] theorem Trop.one_v : (1 : Trop).v = 1 := rfl
@[simp] theorem Trop.add_v (a b : Trop) : (a + b).v = max a.v b.v := by
  change (if a.v < b.v then b.v else a.v) = _
  split
  · rw [max_eq_right (le_of_lt ‹_›)]
  · rw [max_eq_left (not_lt.1 ‹_›)]
@[simp] theorem Trop.mul_v (a b : Trop) : (a * b).v = a.v * b.v := rfl

noncomputable instance : CommSemiring Trop where
  add_assoc a b c := by ext1; simp [max_assoc]
  zero_add a := by ext1; simp
  add_zero a := by ext1; simp
  add_comm a b := by ext1; simp [max_comm]
  mul_assoc a b c := by ext1; simp [mul_assoc]
  one_mul a := by ext1; simp
  mul_one a := by ext1; simp
  zero_mul a := by ext1; simp
  mul_zero a := by ext1; simp
  left_distrib a b c := by ext1; simp [mul_max]
  right_distrib a b c := by ext1; simp [max_mul]
  mul_comm a b := by ext1; simp [mul_comm]
  nsmul := nsmulRec

theorem Trop.natCast_v (n : Nat) : ((n : Trop)).v = if n = 0 then 0 else 1 := by
  induction n with
  | zero => simp
  | succ n ih => rw [Nat.cast_succ, Trop.add_v, ih]; split <;> simp

theorem Trop.le_sum (l : List Trop) (a : Trop) (h : a ∈ l) : a.v ≤ l.sum.v := by
  induction l with
  | nil => simp at h
  | cons b l ih =>
    rw [List.sum_cons, Trop.add_v]
    rcases List.mem_cons.1 h with rfl | h
    · exact le_max_left _ _
    · exact (ih h).trans (le_max_right _ _)

theorem Trop.sum_le (l : List Trop) (c : ℝ≥0) (h : ∀ a ∈ l, a.v ≤ c) : l.sum.v ≤ c := by
  induction l with
  | nil => simp
  | cons b l ih =>
    rw [List.sum_cons, Trop.add_v]
    exact max_le (h b (by simp)) (ih fun a ha => h a (by simp [ha]))

theorem Trop.prod_v (l : List Trop) : l.prod.v = (l.map Trop.v).prod := by
  induction l with
  | nil => rfl
  | cons b l ih => simp [ih]

theorem trop_weight (w : Nat → ℝ≥0) (t : Tree) :
    (t.weight fun e => (⟨w e⟩ : Trop)).v = t.weight w := by
  induction t using Tree.rec (motive_2 := fun ch =>
    (ch.map fun t : Tree => (t.weight fun e => (⟨w e⟩ : Trop))).prod.v = (ch.map fun t => t.weight w).prod) with
  | node e ch ih => rw [weight_node, weight_node, Trop.mul_v, ih]
  | nil => rfl
  | cons t ts ih1 ih2 => simp [ih1, ih2]

theorem marginMask_getD (cr : ℝ≥0) (preserve : Nat → Bool) (xs : List ℝ≥0) (i : Nat) (c : ℝ≥0) (e : Nat) :
    (marginMask cr preserve i c xs).getD e false = true ↔
      e < xs.length ∧ xs.getD e 0 < c * cr ^ (e + 1) ∧ preserve (i + e) = false := by
  induction xs generalizing i c e with
  | nil => simp [marginMask]
  | cons x xs ih =>
    cases e with
    | zero => rw [marginMask, List.getD_cons_zero, List.getD_cons_zero]; simp
    | succ e =>
      rw [marginMask, List.getD_cons_succ, ih, List.getD_cons_succ, List.length_cons]
      rw [mul_assoc, ← pow_succ', show i + 1 + e = i + (e + 1) by omega]
      simp

theorem edgeMarginals_length {K : Type} [Zero K] [One K] [Add K] [Mul K] (g : Hypergraph α) (w : Nat → K) (ins out : List K) :
    (edgeMarginals g w ins out).length = g.edges.length := by
  unfold edgeMarginals
  have : ∀ (l : List Nat) (vs : List K), (l.foldl (fun vs i => (g.inE i).foldl (fun vs e =>
      vs.set e ((g.tails e).foldl (fun b t => b * ins.getD t 0) (w e * out.getD i 0))) vs) vs).length = vs.length := by
    intro l
    induction l with
    | nil => intro vs; rfl
    | cons i l ih =>
      intro vs
      rw [List.foldl_cons, ih]
      generalize g.inE i = es
      induction es generalizing vs with
      | nil => rfl
      | cons e es ih2 => rw [List.foldl_cons, ih2]; simp
  rw [this]; simp

theorem edgeMarginals_zero {K : Type} [Zero K] [One K] [Add K] [Mul K] (g : Hypergraph α) (w : Nat → K) (ins out : List K) (e : Nat)
    (h : ∀ v < g.nodes.length, e ∉ g.inE v) : (edgeMarginals g w ins out).getD e 0 = 0 := by
  unfold edgeMarginals
  have : ∀ (l : List Nat) (vs : List K), (∀ v ∈ l, e ∉ g.inE v) → (l.foldl (fun vs i => (g.inE i).foldl (fun vs e =>
      vs.set e ((g.tails e).foldl (fun b t => b * ins.getD t 0) (w e * out.getD i 0))) vs) vs).getD e 0 = vs.getD e 0 := by
    intro l
    induction l with
    | nil => intro vs _; rfl
    | cons i l ih =>
      intro vs hl
      rw [List.foldl_cons, ih _ fun v hv => hl v (by simp [hv])]
      have hi := hl i (by simp)
      revert hi
      generalize g.inE i = es
      intro hi
      induction es generalizing vs with
      | nil => rfl
      | cons e' es ih2 =>
        simp only [List.mem_cons, not_or] at hi
        rw [List.foldl_cons, ih2 _ hi.2, getD_set_ne _ _ _ _ _ hi.1]
  rw [this _ _ fun v hv => h v (List.mem_range.1 hv)]
  rw [List.getD_eq_getElem?_getD]
  by_cases he : e < g.edges.length
  · simp [List.getElem?_replicate, he]
  · simp [List.getElem?_replicate, he]

/-- `b` is a best derivation of the goal, of positive weight. -/
structure IsBest (g : Hypergraph α) (w : Nat → ℝ≥0) (b : Tree) : Prop where
  deriv : IsDeriv g g.goal b
  best : ∀ d, IsDeriv g g.goal d → d.weight w ≤ b.weight w
  pos : 0 < b.weight w

variable {g : Hypergraph α}

theorem trop_inside (wf : WF g) (hn : 0 < g.nodes.length) (w : Nat → ℝ≥0) {b : Tree} (hb : IsBest g w b) :
    ((insideScores g fun e => (⟨w e⟩ : Trop)).getLastD 0).v = b.weight w := by
  have hg : g.goal < g.nodes.length := by unfold Hypergraph.goal; omega
  have hl := derivs_lists wf g.goal hg
  have h := insideScores_eq_derivs wf (fun e => (⟨w e⟩ : Trop)) g.goal hg
  have hlen := insideScores_length g fun e => (⟨w e⟩ : Trop)
  rw [List.getLastD_eq_getLast?, List.getLast?_eq_getElem?, hlen, ← List.getD_eq_getElem?_getD]
  change ((insideScores g fun e => (⟨w e⟩ : Trop)).getD g.goal 0).v = _
  rw [h]
  apply le_antisymm
  · apply Trop.sum_le
    intro a ha
    obtain ⟨t, ht, rfl⟩ := List.mem_map.1 ha
    rw [trop_weight]
    exact hb.best t ((hl.2 t).1 ht)
  · rw [← trop_weight]
    exact Trop.le_sum _ _ (List.mem_map.2 ⟨b, (hl.2 b).2 hb.deriv, rfl⟩)

theorem maxMarginals_length (w : Nat → ℝ≥0) : (maxMarginals g w).length = g.edges.length := by
  simp [maxMarginals, edgeMarginals_length]

theorem maxMarginals_getD (w : Nat → ℝ≥0) (e : Nat) : (maxMarginals g w).getD e 0 =
    ((edgeMarginals g (fun e => (⟨w e⟩ : Trop)) (insideScores g fun e => (⟨w e⟩ : Trop))
      (outsideScores g (fun e => (⟨w e⟩ : Trop)) (insideScores g fun e => (⟨w e⟩ : Trop))
        ⟨1 / ((insideScores g fun e => (⟨w e⟩ : Trop)).getLastD 0).v⟩)).getD e 0).v := by
  rw [maxMarginals, List.getD_eq_getElem?_getD, List.getD_eq_getElem?_getD, List.getElem?_map]
  cases (edgeMarginals g (fun e => (⟨w e⟩ : Trop)) (insideScores g fun e => (⟨w e⟩ : Trop))
      (outsideScores g (fun e => (⟨w e⟩ : Trop)) (insideScores g fun e => (⟨w e⟩ : Trop))
        ⟨1 / ((insideScores g fun e => (⟨w e⟩ : Trop)).getLastD 0).v⟩))[e]? <;> rfl

/-- Best-path-through-edge scores: at least the (normalised) score of every derivation through it. -/
theorem maxMarginals_ge (wf : WF g) (hnd : DistinctTails g) (huh : UniqueHead g) (hn : 0 < g.nodes.length)
    (w : Nat → ℝ≥0) {b : Tree} (hb : IsBest g w b) (d : Tree) (hd : IsDeriv g g.goal d) (e : Nat)
    (he : e ∈ d.edges) : d.weight w / b.weight w ≤ (maxMarginals g w).getD e 0 := by
  have hg : g.goal < g.nodes.length := by unfold Hypergraph.goal; omega
  obtain ⟨v, hv, hve⟩ := deriv_edges_reach (prune := fun _ => false) (goal := g.goal) d g.goal .goal hd
    (fun _ _ => rfl) e he
  have hl := derivs_lists wf g.goal hg
  rw [maxMarginals_getD, C03_edge_posterior g wf hnd huh hn _ _ _ hl v e (hv.lt wf.inRange hg) hve,
    Trop.mul_v, trop_inside wf hn w hb]
  have : d.weight w ≤ ((derivs g g.goal).map fun d => ((d.edges.count e : Nat) : Trop) *
      d.weight fun e => (⟨w e⟩ : Trop)).sum.v := by
    refine le_trans ?_ (Trop.le_sum _ _ (List.mem_map.2 ⟨d, (hl.2 d).2 hd, rfl⟩))
    rw [Trop.mul_v, Trop.natCast_v, trop_weight, if_neg (by
      have := List.count_pos_iff.2 he; omega), one_mul]
  rw [div_eq_inv_mul, one_div]
  exact mul_le_mul_right this _

theorem maxMarginals_le (wf : WF g) (hnd : DistinctTails g) (huh : UniqueHead g) (hn : 0 < g.nodes.length)
    (w : Nat → ℝ≥0) {b : Tree} (hb : IsBest g w b) (e : Nat) : (maxMarginals g w).getD e 0 ≤ 1 := by
  have hg : g.goal < g.nodes.length := by unfold Hypergraph.goal; omega
  have hl := derivs_lists wf g.goal hg
  by_cases h : ∃ v < g.nodes.length, e ∈ g.inE v
  · obtain ⟨v, hv, hve⟩ := h
    rw [maxMarginals_getD, C03_edge_posterior g wf hnd huh hn _ _ _ hl v e hv hve,
      Trop.mul_v, trop_inside wf hn w hb]
    have : ((derivs g g.goal).map fun d => ((d.edges.count e : Nat) : Trop) *
        d.weight fun e => (⟨w e⟩ : Trop)).sum.v ≤ b.weight w := by
      apply Trop.sum_le
      intro a ha
      obtain ⟨t, ht, rfl⟩ := List.mem_map.1 ha
      rw [Trop.mul_v, Trop.natCast_v, trop_weight]
      split
      · simp
      · rw [one_mul]; exact hb.best t ((hl.2 t).1 ht)
    change 1 / b.weight w * _ ≤ 1
    rw [one_div, ← inv_mul_cancel₀ hb.pos.ne']
    exact mul_le_mul_right this _
  · rw [maxMarginals_getD, edgeMarginals_zero _ _ _ _ _ fun v hv hc => h ⟨v, hv, hc⟩]
    simp

/-- The crept cutoff in closed form. -/
theorem creep_pow (c : ℝ≥0) (hc : c ≤ 1) (h0 : 0 < c) (k : Nat) :
    c * creep c ^ k = c ^ (1 - k * (1e-6 : ℝ)) := by
  have hcr : creep c = c ^ (-(1e-6 : ℝ)) := by
    unfold creep abslog
    split
    · rw [NNReal.inv_rpow, NNReal.rpow_neg]
    · have : c = 1 := le_antisymm hc (not_lt.1 ‹_›)
      subst this; simp
  rw [hcr, ← NNReal.rpow_natCast, ← NNReal.rpow_mul, sub_eq_add_neg, NNReal.rpow_add h0.ne',
    NNReal.rpow_one]
  congr 2; ring

theorem creep_le_one (c : ℝ≥0) (hc : c ≤ 1) (k : Nat) (hk : k ≤ 1000000) : c * creep c ^ k ≤ 1 := by
  rcases eq_or_lt_of_le (zero_le : 0 ≤ c) with h0 | h0
  · rw [← h0]; simp
  · rw [creep_pow c hc h0]
    apply NNReal.rpow_le_one hc
    have : (k : ℝ) ≤ 1000000 := by exact_mod_cast hk
    norm_num; linarith

theorem creep_gt_one (c : ℝ≥0) (hc : c < 1) (h0 : 0 < c) (k : Nat) (hk : 1000000 < k) : 1 < c * creep c ^ k := by
  rw [creep_pow c hc.le h0]
  apply NNReal.one_lt_rpow_of_pos_of_lt_one_of_neg h0 hc
  have : (1000000 : ℝ) < k := by exact_mod_cast hk
  norm_num; linarith

end Cdec.HG
