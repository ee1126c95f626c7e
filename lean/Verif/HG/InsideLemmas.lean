import Verif.HG.Spec
import Verif.HG.InsideModel
import Verif.HG.Forward
import Mathlib.Algebra.BigOperators.Ring.List
import Mathlib.Data.List.Nodup
/-! Helper lemmas: enumeration of derivations and the inside recursion. -/
namespace Cdec.HG
variable {α : Type}

theorem isDeriv_iff {g : Hypergraph α} {v e : Nat} {ch : List Tree} :
    IsDeriv g v (.node e ch) ↔ e ∈ g.inE v ∧ List.Forall₂ (IsDeriv g) (g.tails e) ch := by
  constructor
  · intro h
    cases h with
    | mk he hlen hch =>
      refine ⟨he, List.forall₂_iff_get.2 ⟨hlen.symm, fun i h1 h2 => ?_⟩⟩
      simpa using hch i h2
  · rintro ⟨he, hf⟩
    obtain ⟨h1, h2⟩ := List.forall₂_iff_get.1 hf
    exact .mk he h1.symm fun i h => by simpa using h2 i (h1 ▸ h) h

/-- All ways of choosing one element from each list. -/
def choices {β : Type} : List (List β) → List (List β)
  | [] => [[]]
  | l :: ls => l.flatMap fun x => (choices ls).map (x :: ·)

theorem mem_choices {β : Type} {ls : List (List β)} {xs : List β} :
    xs ∈ choices ls ↔ List.Forall₂ (fun l x => x ∈ l) ls xs := by
  induction ls generalizing xs with
  | nil => simp [choices]
  | cons l ls ih =>
    simp only [choices, List.mem_flatMap, List.mem_map, ih]
    constructor
    · rintro ⟨x, hx, ys, hys, rfl⟩
      exact .cons hx hys
    · intro h
      cases h with
      | cons hx hys => exact ⟨_, hx, _, hys, rfl⟩

theorem nodup_choices {β : Type} {ls : List (List β)} (h : ∀ l ∈ ls, l.Nodup) :
    (choices ls).Nodup := by
  induction ls with
  | nil => simp [choices]
  | cons l ls ih =>
    have hl := h l (by simp)
    have ih := ih fun l' hl' => h l' (by simp [hl'])
    simp only [choices]
    rw [List.nodup_flatMap]
    refine ⟨fun x _ => ih.map fun a b hab => by simpa using hab, ?_⟩
    refine hl.imp fun {a b} hab => ?_
    simp only [Function.onFun, List.disjoint_left, List.mem_map]
    rintro _ ⟨ys, _, rfl⟩ ⟨zs, _, h⟩
    simp at h; exact hab h.1.symm

theorem sum_flatMap {β γ : Type} {K : Type*} [AddMonoid K] (l : List β) (f : β → List γ) (h : γ → K) :
    ((l.flatMap f).map h).sum = (l.map fun x => ((f x).map h).sum).sum := by
  induction l with
  | nil => simp
  | cons a l ih => simp [ih]

theorem sum_choices {β : Type} {K : Type*} [Semiring K] (f : β → K) (ls : List (List β)) :
    ((choices ls).map fun xs => (xs.map f).prod).sum = (ls.map fun l => (l.map f).sum).prod := by
  induction ls with
  | nil => simp [choices]
  | cons l ls ih =>
    simp only [choices, sum_flatMap, List.map_map, List.map_cons, List.prod_cons, ← ih]
    have : ∀ x, (List.map ((fun xs => (List.map f xs).prod) ∘ fun y => x :: y) (choices ls)).sum =
        f x * ((choices ls).map fun xs => (xs.map f).prod).sum := by
      intro x
      rw [← List.sum_map_mul_left]
      rfl
    simp only [this]
    rw [List.sum_map_mul_right]

/-- Derivations of `v`, by fuel. -/
def derivsF (g : Hypergraph α) : Nat → Nat → List Tree
  | 0, _ => []
  | f + 1, v => (g.inE v).flatMap fun e =>
      (choices ((g.tails e).map (derivsF g f))).map (Tree.node e)

/-- Derivations of `v`. -/
def derivs (g : Hypergraph α) (v : Nat) : List Tree := derivsF g (v + 1) v

theorem map_congr_mem {β γ : Type} {l : List β} {f h : β → γ} (H : ∀ x ∈ l, f x = h x) :
    l.map f = l.map h := List.map_congr_left H

theorem derivsF_stable {g : Hypergraph α} (wf : WF g) (f v : Nat) (hv : v < f)
    (hn : v < g.nodes.length) : derivsF g f v = derivs g v := by
  induction v using Nat.strongRecOn generalizing f with
  | ind v ih =>
    cases f with
    | zero => omega
    | succ f =>
      simp only [derivs, derivsF]
      have : ∀ e ∈ g.inE v, (g.tails e).map (derivsF g f) = (g.tails e).map (derivsF g v) := by
        intro e he
        apply map_congr_mem
        intro t ht
        have := wf.topo v hn e he t ht
        rw [ih t this f (by omega) (by omega), ih t this v (by omega) (by omega)]
      rw [List.flatMap_congr fun e he => by rw [this e he]]

theorem derivs_eq {g : Hypergraph α} (wf : WF g) (v : Nat) (hn : v < g.nodes.length) :
    derivs g v = (g.inE v).flatMap fun e =>
      (choices ((g.tails e).map (derivs g))).map (Tree.node e) := by
  conv => lhs; rw [derivs, derivsF]
  apply List.flatMap_congr
  intro e he
  congr 2
  apply map_congr_mem
  intro t ht
  have := wf.topo v hn e he t ht
  exact derivsF_stable wf v t this (by omega)

theorem forall₂_map_iff_mem {β : Type} {ts : List Nat} {D : Nat → List β} {P : Nat → β → Prop}
    {xs : List β} (h : ∀ t ∈ ts, ∀ x, x ∈ D t ↔ P t x) :
    List.Forall₂ (fun l x => x ∈ l) (ts.map D) xs ↔ List.Forall₂ P ts xs := by
  induction ts generalizing xs with
  | nil => simp
  | cons t ts ih =>
    cases xs with
    | nil => simp
    | cons x xs =>
      simp only [List.map_cons, List.forall₂_cons]
      rw [ih fun t ht => h t (by simp [ht]), h t (by simp) x]

theorem derivs_lists {g : Hypergraph α} (wf : WF g) (v : Nat) (hn : v < g.nodes.length) :
    ListsDerivs g v (derivs g v) := by
  induction v using Nat.strongRecOn with
  | ind v ih =>
    rw [derivs_eq wf v hn]
    constructor
    · rw [List.nodup_flatMap]
      constructor
      · intro e he
        apply List.Nodup.map
        · intro a b h; simpa using h
        · apply nodup_choices
          intro l hl
          obtain ⟨t, ht, rfl⟩ := List.mem_map.1 hl
          have := wf.topo v hn e he t ht
          exact (ih t this (by omega)).1
      · refine (wf.nodup v hn).imp fun {a b} hab => ?_
        simp only [Function.onFun, List.disjoint_left, List.mem_map]
        rintro _ ⟨ys, _, rfl⟩ ⟨zs, _, h⟩
        simp at h; exact hab h.1.symm
    · rintro ⟨e, ch⟩
      rw [isDeriv_iff]
      simp only [List.mem_flatMap, List.mem_map]
      constructor
      · rintro ⟨e', he', ys, hys, h⟩
        simp at h
        obtain ⟨rfl, rfl⟩ := h
        refine ⟨he', ?_⟩
        rw [mem_choices] at hys
        exact (forall₂_map_iff_mem fun t ht x => (ih t (wf.topo v hn _ he' t ht)
          (by have := wf.topo v hn _ he' t ht; omega)).2 x).1 hys
      · rintro ⟨he, hch⟩
        refine ⟨e, he, ch, ?_, rfl⟩
        rw [mem_choices]
        exact (forall₂_map_iff_mem fun t ht x => (ih t (wf.topo v hn _ he t ht)
          (by have := wf.topo v hn _ he t ht; omega)).2 x).2 hch

theorem listsDerivs_perm {g : Hypergraph α} {v : Nat} {a b : List Tree}
    (ha : ListsDerivs g v a) (hb : ListsDerivs g v b) : a.Perm b :=
  (List.perm_ext_iff_of_nodup ha.1 hb.1).2 fun t => (ha.2 t).trans (hb.2 t).symm

theorem foldl_mul_eq {K : Type} [Monoid K] (l : List Nat) (f : Nat → K) (a : K) :
    l.foldl (fun s t => s * f t) a = a * (l.map f).prod := by
  induction l generalizing a with
  | nil => simp
  | cons t l ih => simp [ih, mul_assoc]

theorem foldl_add_eq {β K : Type} [AddMonoid K] (l : List β) (f : β → K) (a : K) :
    l.foldl (fun s t => s + f t) a = a + (l.map f).sum := by
  induction l generalizing a with
  | nil => simp
  | cons t l ih => simp [ih, add_assoc]

section inside
variable {K : Type} [Semiring K]

theorem insideNode_length (g : Hypergraph α) (w : Nat → K) (i : Nat) (acc : List K) :
    (insideNode g w i acc).length = acc.length := by
  unfold insideNode
  generalize g.inE i = es
  induction es generalizing acc with
  | nil => rfl
  | cons e es ih => rw [List.foldl_cons, ih]; simp

theorem insideNode_ne (g : Hypergraph α) (w : Nat → K) (i : Nat) (acc : List K) (j : Nat) (h : j ≠ i) :
    (insideNode g w i acc).getD j 0 = acc.getD j 0 := by
  unfold insideNode
  generalize g.inE i = es
  induction es generalizing acc with
  | nil => rfl
  | cons e es ih => simp only [List.foldl_cons]; rw [ih, getD_set_ne _ _ _ _ _ h]

theorem insideEdge_eq (g : Hypergraph α) (w : Nat → K) (acc : List K) (e : Nat) :
    insideEdge g w acc e = w e * ((g.tails e).map fun t => acc.getD t 0).prod :=
  foldl_mul_eq _ _ _

theorem insideNode_self (g : Hypergraph α) (w : Nat → K) (i : Nat) (acc : List K)
    (hi : i < acc.length) (hta : ∀ e ∈ g.inE i, ∀ t ∈ g.tails e, t ≠ i) :
    (insideNode g w i acc).getD i 0 = acc.getD i 0 +
      ((g.inE i).map fun e => w e * ((g.tails e).map fun t => acc.getD t 0).prod).sum := by
  unfold insideNode
  revert hta
  generalize g.inE i = es
  intro hta
  induction es generalizing acc with
  | nil => simp
  | cons e es ih =>
    simp only [List.foldl_cons]
    rw [ih _ (by simpa using hi) fun e' he' => hta e' (by simp [he'])]
    rw [getD_set _ _ _ _ _ hi, if_pos rfl, insideEdge_eq]
    have hsum : (es.map fun e' => w e' * ((g.tails e').map fun t =>
        (acc.set i (acc.getD i 0 + w e * ((g.tails e).map fun t => acc.getD t 0).prod)).getD t 0).prod) =
        es.map fun e' => w e' * ((g.tails e').map fun t => acc.getD t 0).prod := by
      apply List.map_congr_left
      intro e' he'
      congr 2
      apply List.map_congr_left
      intro t ht
      exact getD_set_ne _ _ _ _ _ (hta e' (by simp [he']) t ht)
    rw [hsum]
    simp [add_assoc]

theorem insideScores_length (g : Hypergraph α) (w : Nat → K) :
    (insideScores g w).length = g.nodes.length := by
  have := (forward (0 : K) (insideNode g w) (List.replicate g.nodes.length 0)
    (insideNode_length g w) (insideNode_ne g w) g.nodes.length).1
  simpa [insideScores] using this

/-- The inside recursion. -/
theorem insideScores_rec {g : Hypergraph α} (wf : WF g) (w : Nat → K) (v : Nat)
    (hv : v < g.nodes.length) :
    (insideScores g w).getD v 0 = ((g.inE v).map fun e =>
      w e * ((g.tails e).map fun t => (insideScores g w).getD t 0).prod).sum := by
  obtain ⟨acc, h1, h2, h3, h4⟩ := (forward (0 : K) (insideNode g w) (List.replicate g.nodes.length 0)
    (insideNode_length g w) (insideNode_ne g w) g.nodes.length).2.2 v hv
  change (insideScores g w).getD v 0 = _ at h4
  change ∀ k < v, acc.getD k 0 = (insideScores g w).getD k 0 at h2
  rw [h4, insideNode_self g w v acc (by simpa [h1] using hv)
    fun e he t ht => by have := wf.topo v hv e he t ht; omega]
  rw [h3 v (Nat.le_refl _)]
  have h0 : (List.replicate g.nodes.length (0 : K)).getD v 0 = 0 := by
    simp [List.getD_eq_getElem?_getD, List.getElem?_replicate, hv]
  rw [h0, zero_add]
  congr 1
  apply List.map_congr_left
  intro e he
  congr 2
  apply List.map_congr_left
  intro t ht
  exact h2 t (wf.topo v hv e he t ht)

theorem weight_node (w : Nat → K) (e : Nat) (ch : List Tree) :
    (Tree.node e ch).weight w = w e * (ch.map fun t => t.weight w).prod := by
  rw [Tree.weight]

theorem insideScores_eq_derivs {g : Hypergraph α} (wf : WF g) (w : Nat → K) (v : Nat)
    (hv : v < g.nodes.length) :
    (insideScores g w).getD v 0 = ((derivs g v).map fun t => t.weight w).sum := by
  induction v using Nat.strongRecOn with
  | ind v ih =>
    rw [insideScores_rec wf w v hv, derivs_eq wf v hv, sum_flatMap]
    congr 1
    apply List.map_congr_left
    intro e he
    rw [List.map_map]
    have : ((fun t => t.weight w) ∘ Tree.node e) =
        fun ch => w e * (ch.map fun t : Tree => t.weight w).prod := by
      funext ch; exact weight_node w e ch
    rw [this, List.sum_map_mul_left, sum_choices, List.map_map]
    congr 2
    apply List.map_congr_left
    intro t ht
    have := wf.topo v hv e he t ht
    rw [ih t this (by omega)]; rfl

end inside
end Cdec.HG
