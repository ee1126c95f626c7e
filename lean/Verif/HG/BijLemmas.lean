import Verif.HG.SimLemmas
import Verif.HG.PruneLemmas
import Verif.Props.C06
/-! A general way to obtain `DerivBij` from facts about single nodes and edges. -/
namespace Cdec.HG
variable {α β : Type}

/-- `g` with the pruned edges removed from the in-edge lists. -/
def dropEdges (g : Hypergraph α) (prune : Nat → Bool) : Hypergraph α :=
  { g with nodes := g.nodes.map fun n => { n with inEdges := n.inEdges.filter fun e => !prune e } }

theorem dropEdges_inE (g : Hypergraph α) (prune : Nat → Bool) (v : Nat) :
    (dropEdges g prune).inE v = (g.inE v).filter fun e => !prune e := by
  simp only [dropEdges, Hypergraph.inE, Hypergraph.node, List.getD_eq_getElem?_getD, List.getElem?_map]
  cases g.nodes[v]? <;> simp [default, instInhabitedNode]

theorem dropEdges_deriv (g : Hypergraph α) (prune : Nat → Bool) (t : Tree) :
    ∀ v, IsDeriv (dropEdges g prune) v t ↔ IsDeriv g v t ∧ Avoids prune t := by
  induction t using Tree.rec (motive_2 := fun ch => ∀ ts : List Nat,
    List.Forall₂ (IsDeriv (dropEdges g prune)) ts ch ↔
      List.Forall₂ (IsDeriv g) ts ch ∧ ∀ e ∈ ch.flatMap fun t => t.edges, prune e = false) with
  | node e ch ih =>
    intro v
    have hA : Avoids prune (.node e ch) ↔ prune e = false ∧ ∀ e ∈ ch.flatMap fun t => t.edges, prune e = false := by
      simp only [Avoids, Tree.edges, List.mem_cons, forall_eq_or_imp]
    rw [isDeriv_iff, isDeriv_iff, dropEdges_inE, hA, show (dropEdges g prune).tails e = g.tails e from rfl, ih,
      List.mem_filter]
    simp only [Bool.not_eq_true']
    tauto
  | nil => simp
  | cons t ch ih1 ih2 =>
    rename_i ts
    cases ts with
    | nil => simp
    | cons u us =>
      rw [List.forall₂_cons, List.forall₂_cons, ih1, ih2]
      simp only [Avoids, List.flatMap_cons, List.mem_append]
      constructor
      · rintro ⟨⟨h1, h2⟩, h3, h4⟩
        exact ⟨⟨h1, h3⟩, fun e he => he.elim (h2 e) (h4 e)⟩
      · rintro ⟨⟨h1, h3⟩, h⟩
        exact ⟨⟨h1, fun e he => h e (.inl he)⟩, h3, fun e he => h e (.inr he)⟩

/-- Edges of a derivation that stays within `S` satisfy any property common to the edges of `S`. -/
theorem deriv_edges_of (g : Hypergraph α) (S : Nat → Prop) (Q : Nat → Prop)
    (H : ∀ v, S v → ∀ e ∈ g.inE v, Q e ∧ ∀ t ∈ g.tails e, S t) (t : Tree) :
    ∀ v, S v → IsDeriv g v t → ∀ e ∈ t.edges, Q e := by
  induction t using Tree.rec (motive_2 := fun ch => ∀ ts : List Nat, (∀ t ∈ ts, S t) →
    List.Forall₂ (IsDeriv g) ts ch → ∀ e ∈ ch.flatMap fun t => t.edges, Q e) with
  | node e ch ih =>
    intro v hv hd x hx
    obtain ⟨he, hch⟩ := isDeriv_iff.1 hd
    obtain ⟨h1, h2⟩ := H v hv e he
    rw [Tree.edges] at hx
    rcases List.mem_cons.1 hx with rfl | hx
    · exact h1
    · exact ih _ h2 hch x hx
  | nil => rename_i h; simp at h
  | cons t ch ih1 ih2 =>
    rename_i ts hts hf e he
    cases hf with
    | cons h1 h2 =>
      simp only [List.flatMap_cons, List.mem_append] at he
      rcases he with he | he
      · exact ih1 _ (hts _ (by simp)) h1 e he
      · exact ih2 _ (fun t ht => hts t (by simp [ht])) h2 e he

theorem derivBij_of_local {g : Hypergraph α} {h : Hypergraph β} (prune : Nat → Bool) (S : Nat → Prop)
    (ν φ : Nat → Nat) (val : α → β)
    (hin : ∀ v, S v → h.inE (ν v) = ((g.inE v).filter fun e => !prune e).map φ)
    (htl : ∀ v, S v → ∀ e ∈ g.inE v, prune e = false →
      h.tails (φ e) = (g.tails e).map ν ∧ ∀ t ∈ g.tails e, S t)
    (hinj : ∀ u v, S u → S v → ∀ e ∈ g.inE u, ∀ e' ∈ g.inE v, prune e = false → prune e' = false →
      φ e = φ e' → e = e')
    (hpay : ∀ v, S v → ∀ e ∈ g.inE v, prune e = false → e < g.edges.length ∧ φ e < h.edges.length ∧
      (h.edges[φ e]?).map Edge.val = (g.edges[e]?).map fun x => val x.val) (v : Nat) (hv : S v) :
    DerivBij g v (Avoids prune) h (ν v) φ val := by
  have hmem : ∀ v, ∀ e ∈ (dropEdges g prune).inE v, e ∈ g.inE v ∧ prune e = false := by
    intro v e he
    rw [dropEdges_inE, List.mem_filter] at he
    simpa using he
  refine ⟨fun t ht hp => ?_, fun t' ht' => ?_, fun t u ht hp hu hq heq => ?_, fun t ht hp => ?_⟩
  · refine deriv_map S ν φ (fun v hv e he => ?_) t v hv ((dropEdges_deriv g prune t v).2 ⟨ht, hp⟩)
    obtain ⟨h1, h2⟩ := hmem v e he
    refine ⟨?_, htl v hv e h1 h2⟩
    rw [hin v hv, ← dropEdges_inE]
    exact List.mem_map_of_mem he
  · obtain ⟨t, ht, hm⟩ := deriv_unmap (g := dropEdges g prune) S ν φ (fun v hv e' he' => by
      rw [hin v hv, ← dropEdges_inE] at he'
      obtain ⟨e, he, rfl⟩ := List.mem_map.1 he'
      obtain ⟨h1, h2⟩ := hmem v e he
      exact ⟨e, he, rfl, htl v hv e h1 h2⟩) t' v hv ht'
    obtain ⟨h1, h2⟩ := (dropEdges_deriv g prune t v).1 ht
    exact ⟨t, h1, h2, hm⟩
  · have hQ : ∀ t, IsDeriv g v t → Avoids prune t → ∀ e ∈ t.edges, ∃ u, S u ∧ e ∈ g.inE u ∧ prune e = false := by
      intro t ht hp
      refine deriv_edges_of (dropEdges g prune) S _ (fun v hv e he => ?_) t v hv
        ((dropEdges_deriv g prune t v).2 ⟨ht, hp⟩)
      obtain ⟨h1, h2⟩ := hmem v e he
      exact ⟨⟨v, hv, h1, h2⟩, (htl v hv e h1 h2).2⟩
    refine tree_map_inj (fun e => ∃ u, S u ∧ e ∈ g.inE u ∧ prune e = false) φ ?_ t u (hQ t ht hp) (hQ u hu hq) heq
    rintro a b ⟨x, h1, h2, h3⟩ ⟨y, h4, h5, h6⟩ hab
    exact hinj x y h1 h4 a h2 b h5 h3 h6 hab
  · refine deriv_edges_of (dropEdges g prune) S _ (fun v hv e he => ?_) t v hv
      ((dropEdges_deriv g prune t v).2 ⟨ht, hp⟩)
    obtain ⟨h1, h2⟩ := hmem v e he
    exact ⟨hpay v hv e h1 h2, (htl v hv e h1 h2).2⟩

end Cdec.HG
