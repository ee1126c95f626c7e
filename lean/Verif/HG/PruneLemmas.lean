import Verif.HG.PruneModel
import Verif.HG.InsideLemmas
import Verif.Props.C06
/-! Lemmas about Boolean inside scores and pruning. -/
namespace Cdec.HG
variable {α : Type}

@[ext] theorem Boolean.ext' {a b : Boolean} (h : a.x = b.x) : a = b := by
  cases a; cases b; simp_all

@[simp] theorem Boolean.zero_x : (0 : Boolean).x = false := rfl
@[simp] theorem Boolean.one_x : (1 : Boolean).x = true := rfl
@[simp] theorem Boolean.add_x (a b : Boolean) : (a + b).x = (a.x || b.x) := rfl
@[simp] theorem Boolean.mul_x (a b : Boolean) : (a * b).x = (a.x && b.x) := rfl

instance : CommSemiring Boolean where
  add_assoc a b c := by ext; simp [Bool.or_assoc]
  zero_add a := by ext; simp
  add_zero a := by ext; simp
  add_comm a b := by ext; simp [Bool.or_comm]
  mul_assoc a b c := by ext; simp [Bool.and_assoc]
  one_mul a := by ext; simp
  mul_one a := by ext; simp
  zero_mul a := by ext; simp
  mul_zero a := by ext; simp
  left_distrib a b c := by ext; simp [Bool.and_or_distrib_left]
  right_distrib a b c := by ext; simp [Bool.and_or_distrib_right]
  mul_comm a b := by ext; simp [Bool.and_comm]
  nsmul := nsmulRec

theorem Boolean.sum_x (l : List Boolean) : l.sum.x = l.any Boolean.x := by
  induction l with
  | nil => rfl
  | cons a l ih => simp [ih]

theorem Boolean.prod_x (l : List Boolean) : l.prod.x = l.all Boolean.x := by
  induction l with
  | nil => rfl
  | cons a l ih => simp [ih]

theorem boolean_weight (prune : Nat → Bool) (t : Tree) :
    (t.weight fun e => (⟨!prune e⟩ : Boolean)).x = true ↔ Avoids prune t := by
  induction t using Tree.rec (motive_2 := fun ch =>
    ((ch.map fun t : Tree => t.weight fun e => (⟨!prune e⟩ : Boolean)).prod.x = true ↔
      ∀ t ∈ ch, Avoids prune t)) with
  | node e ch ih =>
    rw [weight_node, Boolean.mul_x, Bool.and_eq_true, ih]
    simp only [Avoids, Tree.edges, List.mem_cons, List.mem_flatMap]
    constructor
    · rintro ⟨h1, h2⟩ x (rfl | ⟨t, ht, hx⟩)
      · simpa using h1
      · exact h2 t ht x hx
    · intro h
      exact ⟨by simpa using h e (.inl rfl), fun t ht x hx => h x (.inr ⟨t, ht, hx⟩)⟩
  | nil => simp
  | cons t ts ih1 ih2 => simp [ih1, ih2]

theorem reachable_iff {g : Hypergraph α} (wf : WF g) (prune : Nat → Bool) (v : Nat)
    (hv : v < g.nodes.length) :
    ((reachable g prune).getD v 0).x = true ↔ ∃ t, IsDeriv g v t ∧ Avoids prune t := by
  rw [reachable, insideScores_eq_derivs wf _ v hv, Boolean.sum_x, List.any_map, List.any_eq_true]
  constructor
  · rintro ⟨t, ht, hx⟩
    exact ⟨t, ((derivs_lists wf v hv).2 t).1 ht, (boolean_weight prune t).1 hx⟩
  · rintro ⟨t, ht, hx⟩
    exact ⟨t, ((derivs_lists wf v hv).2 t).2 ht, (boolean_weight prune t).2 hx⟩

theorem reachable_last {g : Hypergraph α} (wf : WF g) (prune : Nat → Bool) (hn : 0 < g.nodes.length) :
    ((reachable g prune).getLastD 0).x = true ↔ ∃ t, IsDeriv g g.goal t ∧ Avoids prune t := by
  rw [← reachable_iff wf prune g.goal (by unfold Hypergraph.goal; omega)]
  have hlen : (reachable g prune).length = g.nodes.length := insideScores_length _ _
  rw [List.getLastD_eq_getLast?, List.getLast?_eq_getElem?, hlen, Hypergraph.goal,
    List.getD_eq_getElem?_getD]

theorem topoSort_mono (g : Hypergraph α) (goal : Nat) (prune : Nat → Bool) {f f' : Nat} {h : Hypergraph α}
    (hr : topoSort g goal prune f = some h) (hf : f ≤ f') : topoSort g goal prune f' = some h := by
  rw [topoSort] at hr ⊢
  cases hd : dfsRun g prune f (dfsInit goal) with
  | none => rw [hd] at hr; simp at hr
  | some r => rw [hd] at hr; rw [dfsRun_mono f _ r hd f' hf]; exact hr

theorem WF.inRange {g : Hypergraph α} (wf : WF g) : InRange g :=
  ⟨wf.edge_lt, wf.nodup, fun v hv e he t ht => by have := wf.topo v hv e he t ht; omega⟩

theorem inE_of_ge {g : Hypergraph α} {v : Nat} (h : g.nodes.length ≤ v) : g.inE v = [] := by
  rw [Hypergraph.inE, Hypergraph.node, List.getD_eq_getElem?_getD, List.getElem?_eq_none h]; rfl

theorem WF.acyclic {g : Hypergraph α} (wf : WF g) (prune : Nat → Bool) : Acyclic g prune := by
  refine ⟨id, fun v e he _ t ht => ?_⟩
  by_cases hv : v < g.nodes.length
  · exact wf.topo v hv e he t ht
  · rw [inE_of_ge (by omega)] at he; simp at he

theorem isDeriv_lt {g : Hypergraph α} {v : Nat} {t : Tree} (h : IsDeriv g v t) : v < g.nodes.length := by
  cases h with
  | mk he _ _ =>
    by_contra hc
    rw [inE_of_ge (by omega)] at he; simp at he

theorem forall₂_exists_left {β γ : Type} {R : β → γ → Prop} {as : List β} {bs : List γ}
    (h : List.Forall₂ R as bs) : ∀ a ∈ as, ∃ b ∈ bs, R a b := by
  induction h with
  | nil => simp
  | cons hab _ ih =>
    intro a ha
    rcases List.mem_cons.1 ha with rfl | ha
    · exact ⟨_, by simp, hab⟩
    · obtain ⟨b, hb, hr⟩ := ih a ha
      exact ⟨b, by simp [hb], hr⟩

/-- A derivation that avoids the pruned edges also avoids the filtered ones: its subtrees witness that
the tails can be built. -/
theorem avoids_filtered {g : Hypergraph α} (wf : WF g) (prune : Nat → Bool) (t : Tree) :
    ∀ v, IsDeriv g v t → Avoids prune t → Avoids (filtered g prune) t := by
  induction t using Tree.rec (motive_2 := fun ch => ∀ ts : List Nat,
    List.Forall₂ (IsDeriv g) ts ch → (∀ t ∈ ch, Avoids prune t) →
    ∀ t ∈ ch, Avoids (filtered g prune) t) with
  | node e ch ih =>
    intro v hd hp
    obtain ⟨he, hch⟩ := isDeriv_iff.1 hd
    have hpch : ∀ t ∈ ch, Avoids prune t := fun t ht x hx =>
      hp x (by rw [Tree.edges]; exact List.mem_cons_of_mem _ (List.mem_flatMap.2 ⟨t, ht, hx⟩))
    intro x hx
    rw [Tree.edges] at hx
    rcases List.mem_cons.1 hx with rfl | hx
    · have h1 := hp x (by simp [Tree.edges])
      simp only [filtered, h1, Bool.false_or, List.any_eq_false, Bool.not_eq_true', Bool.not_eq_false]
      intro t ht
      obtain ⟨c, hc, hdc⟩ := forall₂_exists_left hch t ht
      exact (reachable_iff wf prune t (isDeriv_lt hdc)).2 ⟨c, hdc, hpch c hc⟩
    · obtain ⟨t, ht, hx⟩ := List.mem_flatMap.1 hx
      exact ih _ hch hpch t ht x hx
  | nil => rename_i h; simp at h
  | cons t ts ih1 ih2 =>
    rename_i ns hf hp u hu
    cases hf with
    | cons h1 h2 =>
      rcases List.mem_cons.1 hu with rfl | hu
      · exact ih1 _ h1 (hp _ (by simp))
      · exact ih2 _ h2 (fun t ht => hp t (by simp [ht])) u hu

theorem avoids_of_filtered {g : Hypergraph α} {prune : Nat → Bool} {t : Tree}
    (h : Avoids (filtered g prune) t) : Avoids prune t := fun e he => by
  have := h e he
  simp only [filtered, Bool.or_eq_false_iff] at this
  exact this.1

theorem DerivBij.congr {β : Type} {g : Hypergraph α} {v : Nat} {P Q : Tree → Prop} {h : Hypergraph β}
    {k : Nat} {f : Nat → Nat} {val : α → β} (H : DerivBij g v P h k f val)
    (hPQ : ∀ t, IsDeriv g v t → (P t ↔ Q t)) : DerivBij g v Q h k f val :=
  ⟨fun t ht hq => H.fwd t ht ((hPQ t ht).2 hq),
    fun t' ht' => by
      obtain ⟨t, h1, h2, h3⟩ := H.bwd t' ht'
      exact ⟨t, h1, (hPQ t h1).1 h2, h3⟩,
    fun t u ht hq hu hq' => H.inj t u ht ((hPQ t ht).2 hq) hu ((hPQ u hu).2 hq'),
    fun t ht hq => H.payload t ht ((hPQ t ht).2 hq)⟩

end Cdec.HG
