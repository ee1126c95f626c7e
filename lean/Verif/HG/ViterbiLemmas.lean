import Verif.HG.InsideLemmas
import Verif.HG.ViterbiModel
import Mathlib.Algebra.Order.Monoid.Unbundled.Basic
import Mathlib.Algebra.Order.Ring.Defs
/-! Helper lemmas for C04. -/
namespace Cdec.HG
variable {α : Type} {W T : Type}

/-- Bottom-up evaluation of a traversal on a tree. -/
def Tree.traverse (trav : Nat → List T → T) : Tree → T
  | .node e ch => trav e (ch.map fun t => t.traverse trav)

theorem traverse_node (trav : Nat → List T → T) (e : Nat) (ch : List Tree) :
    (Tree.node e ch).traverse trav = trav e (ch.map fun t => t.traverse trav) := by
  rw [Tree.traverse]

section
variable [Monoid W] [LinearOrder W]

theorem vitNode_length (g : Hypergraph α) (w : Nat → W) (trav : Nat → List T → T) (d0 : W × T) (i : Nat)
    (acc : List (W × T)) : (vitNode g w trav d0 i acc).length = acc.length := by
  unfold vitNode; split <;> simp

theorem vitNode_ne (g : Hypergraph α) (w : Nat → W) (trav : Nat → List T → T) (d0 : W × T) (i : Nat)
    (acc : List (W × T)) (j : Nat) (h : j ≠ i) :
    (vitNode g w trav d0 i acc).getD j d0 = acc.getD j d0 := by
  unfold vitNode; split <;> exact getD_set_ne _ _ _ _ _ h

theorem viterbi_length (g : Hypergraph α) (w : Nat → W) (trav : Nat → List T → T) (d0 : W × T) :
    (viterbi g w trav d0).length = g.nodes.length := by
  have := (forward d0 (vitNode g w trav d0) (List.replicate g.nodes.length d0)
    (vitNode_length g w trav d0) (vitNode_ne g w trav d0) g.nodes.length).1
  simpa [viterbi] using this

theorem vitBest_spec (g : Hypergraph α) (w : Nat → W) (d0 : W × T) (acc : List (W × T)) (es : List Nat) :
    (es = [] → vitBest g w d0 acc es = none) ∧
    (es ≠ [] → ∃ e ∈ es, vitBest g w d0 acc es = some (e, vitScore g w d0 acc e) ∧
      ∀ e' ∈ es, vitScore g w d0 acc e' ≤ vitScore g w d0 acc e) := by
  refine ⟨fun h => by subst h; rfl, fun h => ?_⟩
  have key : ∀ (es : List Nat) (e0 : Nat), ∃ e, (e = e0 ∨ e ∈ es) ∧
      es.foldl (fun b e =>
        match b with
        | none => some (e, vitScore g w d0 acc e)
        | some (_, cur) => if cur < vitScore g w d0 acc e then some (e, vitScore g w d0 acc e) else b)
        (some (e0, vitScore g w d0 acc e0)) = some (e, vitScore g w d0 acc e) ∧
      vitScore g w d0 acc e0 ≤ vitScore g w d0 acc e ∧
      ∀ e' ∈ es, vitScore g w d0 acc e' ≤ vitScore g w d0 acc e := by
    intro es
    induction es with
    | nil => intro e0; exact ⟨e0, .inl rfl, rfl, le_refl _, by simp⟩
    | cons a es ih =>
      intro e0
      simp only [List.foldl_cons]
      by_cases hlt : vitScore g w d0 acc e0 < vitScore g w d0 acc a
      · rw [if_pos hlt]
        obtain ⟨e, h1, h2, h3, h4⟩ := ih a
        refine ⟨e, ?_, h2, le_trans hlt.le h3, ?_⟩
        · rcases h1 with rfl | h1
          · right; simp
          · right; simp [h1]
        · intro e' he'
          rcases List.mem_cons.1 he' with rfl | he'
          · exact h3
          · exact h4 e' he'
      · rw [if_neg hlt]
        obtain ⟨e, h1, h2, h3, h4⟩ := ih e0
        refine ⟨e, ?_, h2, h3, ?_⟩
        · rcases h1 with rfl | h1
          · left; rfl
          · right; simp [h1]
        · intro e' he'
          rcases List.mem_cons.1 he' with rfl | he'
          · exact le_trans (not_lt.1 hlt) h3
          · exact h4 e' he'
  cases es with
  | nil => exact absurd rfl h
  | cons a es =>
    obtain ⟨e, h1, h2, h3, h4⟩ := key es a
    refine ⟨e, by simpa using h1, h2, ?_⟩
    intro e' he'
    rcases List.mem_cons.1 he' with rfl | he'
    · exact h3
    · exact h4 e' he'

theorem vitScore_eq (g : Hypergraph α) (w : Nat → W) (d0 : W × T) (acc : List (W × T)) (e : Nat) :
    vitScore g w d0 acc e = w e * ((g.tails e).map fun t => (acc.getD t d0).1).prod :=
  foldl_mul_eq _ _ _

/-- Viterbi recursion. -/
theorem viterbi_rec {g : Hypergraph α} (wf : WF g) (w : Nat → W) (trav : Nat → List T → T) (d0 : W × T)
    (v : Nat) (hv : v < g.nodes.length) :
    let V := viterbi g w trav d0
    (g.inE v = [] → V.getD v d0 = (1, d0.2)) ∧
    (g.inE v ≠ [] → ∃ e ∈ g.inE v,
      V.getD v d0 = (w e * ((g.tails e).map fun t => (V.getD t d0).1).prod,
        trav e ((g.tails e).map fun t => (V.getD t d0).2)) ∧
      ∀ e' ∈ g.inE v, w e' * ((g.tails e').map fun t => (V.getD t d0).1).prod ≤ (V.getD v d0).1) := by
  intro V
  obtain ⟨acc, h1, h2, h3, h4⟩ := (forward d0 (vitNode g w trav d0) (List.replicate g.nodes.length d0)
    (vitNode_length g w trav d0) (vitNode_ne g w trav d0) g.nodes.length).2.2 v hv
  change V.getD v d0 = _ at h4
  change ∀ k < v, acc.getD k d0 = V.getD k d0 at h2
  have hl : v < acc.length := by rw [h1]; simpa using hv
  have hs : ∀ e ∈ g.inE v, vitScore g w d0 acc e = w e * ((g.tails e).map fun t => (V.getD t d0).1).prod := by
    intro e he
    rw [vitScore_eq]
    congr 2
    apply List.map_congr_left
    intro t ht
    rw [h2 t (wf.topo v hv e he t ht)]
  constructor
  · intro hnil
    have := (vitBest_spec g w d0 acc (g.inE v)).1 hnil
    rw [h4, vitNode, this]
    simp only
    rw [getD_set _ _ _ _ _ hl, if_pos rfl]
  · intro hne
    obtain ⟨e, he, hb, hm⟩ := (vitBest_spec g w d0 acc (g.inE v)).2 hne
    have hval : V.getD v d0 = (vitScore g w d0 acc e, trav e ((g.tails e).map fun t => (acc.getD t d0).2)) := by
      rw [h4, vitNode, hb]
      simp only
      rw [getD_set _ _ _ _ _ hl, if_pos rfl]
    refine ⟨e, he, ?_, ?_⟩
    · rw [hval, hs e he]
      congr 2
      apply List.map_congr_left
      intro t ht
      rw [h2 t (wf.topo v hv e he t ht)]
    · intro e' he'
      rw [hval, ← hs e' he']
      exact hm e' he'

theorem forall₂_exists {ts : List Nat} {P : Nat → Tree → Prop} (h : ∀ t ∈ ts, ∃ d, P t d) :
    ∃ ch, List.Forall₂ P ts ch := by
  induction ts with
  | nil => exact ⟨[], .nil⟩
  | cons t ts ih =>
    obtain ⟨d, hd⟩ := h t (by simp)
    obtain ⟨ch, hch⟩ := ih fun t ht => h t (by simp [ht])
    exact ⟨d :: ch, .cons hd hch⟩

theorem map_eq_of_forall₂ {β : Type} {ts : List Nat} {ch : List Tree} {P : Nat → Tree → Prop}
    {f : Nat → β} {h : Tree → β} (H : List.Forall₂ P ts ch)
    (hP : ∀ t ∈ ts, ∀ d, P t d → h d = f t) : ch.map h = ts.map f := by
  induction H with
  | nil => rfl
  | cons hd _ ih =>
    rename_i t d ts ch _
    rw [List.map_cons, List.map_cons, hP t (by simp) d hd, ih fun t ht => hP t (by simp [ht])]

theorem prod_le_of_forall₂ [MulLeftMono W] [MulRightMono W] {ts : List Nat} {ch : List Tree}
    {P : Nat → Tree → Prop} {f : Nat → W} {h : Tree → W} (H : List.Forall₂ P ts ch)
    (hP : ∀ t ∈ ts, ∀ d, P t d → h d ≤ f t) : (ch.map h).prod ≤ (ts.map f).prod := by
  induction H with
  | nil => exact le_refl _
  | cons hd _ ih =>
    rename_i t d ts ch _
    rw [List.map_cons, List.map_cons, List.prod_cons, List.prod_cons]
    exact mul_le_mul' (hP t (by simp) d hd) (ih fun t ht => hP t (by simp [ht]))

theorem viterbi_correct [MulLeftMono W] [MulRightMono W] {g : Hypergraph α} (wf : WF g)
    (hne : ∀ v < g.nodes.length, g.inE v ≠ []) (w : Nat → W) (trav : Nat → List T → T) (d0 : W × T)
    (v : Nat) (hv : v < g.nodes.length) :
    (∃ t, IsDeriv g v t ∧ (viterbi g w trav d0).getD v d0 = (t.weight w, t.traverse trav)) ∧
    (∀ t, IsDeriv g v t → t.weight w ≤ ((viterbi g w trav d0).getD v d0).1) := by
  induction v using Nat.strongRecOn with
  | ind v ih =>
    obtain ⟨e, he, hval, hmax⟩ := (viterbi_rec wf w trav d0 v hv).2 (hne v hv)
    constructor
    · obtain ⟨ch, hch⟩ := forall₂_exists (ts := g.tails e)
        (P := fun t d => IsDeriv g t d ∧ (viterbi g w trav d0).getD t d0 = (d.weight w, d.traverse trav))
        fun t ht => (ih t (wf.topo v hv e he t ht) (by have := wf.topo v hv e he t ht; omega)).1
      refine ⟨.node e ch, isDeriv_iff.2 ⟨he, hch.imp fun _ _ h => h.1⟩, ?_⟩
      rw [hval, traverse_node, Tree.weight]
      rw [map_eq_of_forall₂ (h := fun t => t.weight w)
          (f := fun t => ((viterbi g w trav d0).getD t d0).1) hch (fun t _ d h => by rw [h.2])]
      rw [map_eq_of_forall₂ (h := fun t => t.traverse trav)
          (f := fun t => ((viterbi g w trav d0).getD t d0).2) hch (fun t _ d h => by rw [h.2])]
    · rintro ⟨e', ch⟩ ht
      obtain ⟨he', hch⟩ := isDeriv_iff.1 ht
      refine le_trans ?_ (hmax e' he')
      rw [Tree.weight]
      refine mul_le_mul_right (prod_le_of_forall₂ hch fun t ht d hd => ?_) _
      exact (ih t (wf.topo v hv e' he' t ht) (by have := wf.topo v hv e' he' t ht; omega)).2 d hd
end
end Cdec.HG
