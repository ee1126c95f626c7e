import Verif.HG.InsideLemmas
import Verif.HG.RelocLemmas
/-! Transport of derivations along maps of nodes and edges. -/
namespace Cdec.HG
variable {α β : Type}

theorem deriv_map {g : Hypergraph α} {h : Hypergraph β} (S : Nat → Prop) (ν φ : Nat → Nat)
    (H : ∀ v, S v → ∀ e ∈ g.inE v, φ e ∈ h.inE (ν v) ∧ h.tails (φ e) = (g.tails e).map ν ∧
      ∀ t ∈ g.tails e, S t) (t : Tree) :
    ∀ v, S v → IsDeriv g v t → IsDeriv h (ν v) (t.map φ) := by
  induction t using Tree.rec (motive_2 := fun ch => ∀ ts : List Nat, (∀ t ∈ ts, S t) →
    List.Forall₂ (IsDeriv g) ts ch →
    List.Forall₂ (IsDeriv h) (ts.map ν) (ch.map fun t => t.map φ)) with
  | node e ch ih =>
    intro v hv hd
    obtain ⟨he, hch⟩ := isDeriv_iff.1 hd
    obtain ⟨h1, h2, h3⟩ := H v hv e he
    rw [tree_map_node, isDeriv_iff, h2]
    exact ⟨h1, ih _ h3 hch⟩
  | nil => rename_i ts _ hf; cases hf; exact .nil
  | cons t ch ih1 ih2 =>
    rename_i ts hts hf
    cases hf with
    | cons h1 h2 =>
      exact .cons (ih1 _ (hts _ (by simp)) h1) (ih2 _ (fun t ht => hts t (by simp [ht])) h2)

theorem deriv_unmap {g : Hypergraph α} {h : Hypergraph β} (S : Nat → Prop) (ν φ : Nat → Nat)
    (H : ∀ v, S v → ∀ e' ∈ h.inE (ν v), ∃ e ∈ g.inE v, φ e = e' ∧ h.tails e' = (g.tails e).map ν ∧
      ∀ t ∈ g.tails e, S t) (t' : Tree) :
    ∀ v, S v → IsDeriv h (ν v) t' → ∃ t, IsDeriv g v t ∧ t.map φ = t' := by
  induction t' using Tree.rec (motive_2 := fun ch' => ∀ ts : List Nat, (∀ t ∈ ts, S t) →
    List.Forall₂ (IsDeriv h) (ts.map ν) ch' →
    ∃ ch, List.Forall₂ (IsDeriv g) ts ch ∧ (ch.map fun t => t.map φ) = ch') with
  | node e' ch' ih =>
    intro v hv hd
    obtain ⟨he, hch⟩ := isDeriv_iff.1 hd
    obtain ⟨e, h1, h2, h3, h4⟩ := H v hv e' he
    rw [h3] at hch
    obtain ⟨ch, h5, h6⟩ := ih _ h4 hch
    exact ⟨.node e ch, isDeriv_iff.2 ⟨h1, h5⟩, by rw [tree_map_node, h2, h6]⟩
  | nil =>
    rename_i ts _ hf
    cases ts with
    | nil => exact ⟨[], .nil, rfl⟩
    | cons => cases hf
  | cons t ch ih1 ih2 =>
    rename_i ts hts hf
    cases ts with
    | nil => cases hf
    | cons u us =>
      cases hf with
      | cons h1 h2 =>
        obtain ⟨c, hc, hc'⟩ := ih1 u (hts u (by simp)) h1
        obtain ⟨cs, hcs, hcs'⟩ := ih2 us (fun t ht => hts t (by simp [ht])) h2
        exact ⟨c :: cs, .cons hc hcs, by rw [List.map_cons, hc', hcs']⟩

theorem tree_map_id (t : Tree) : t.map id = t := by
  induction t using Tree.rec (motive_2 := fun ch => (ch.map fun t => t.map id) = ch) with
  | node e ch ih => rw [tree_map_node, ih]; rfl
  | nil => rfl
  | cons t ch ih1 ih2 => simp [ih1, ih2]

theorem tree_map_comp (f k : Nat → Nat) (t : Tree) : (t.map f).map k = t.map (k ∘ f) := by
  induction t using Tree.rec (motive_2 := fun ch =>
    ((ch.map fun t => t.map f).map fun t => t.map k) = ch.map fun t => t.map (k ∘ f)) with
  | node e ch ih => rw [tree_map_node, tree_map_node, tree_map_node, ih]; rfl
  | nil => rfl
  | cons t ch ih1 ih2 => simp only [List.map_cons, ih1, ih2]

theorem tree_map_edges (f : Nat → Nat) (t : Tree) : (t.map f).edges = t.edges.map f := by
  induction t using Tree.rec (motive_2 := fun ch =>
    ((ch.map fun t => t.map f).flatMap fun t => t.edges) = (ch.flatMap fun t => t.edges).map f) with
  | node e ch ih => rw [tree_map_node, Tree.edges, Tree.edges, ih]; rfl
  | nil => rfl
  | cons t ch ih1 ih2 => simp only [List.map_cons, List.flatMap_cons, List.map_append, ih1, ih2]

end Cdec.HG
