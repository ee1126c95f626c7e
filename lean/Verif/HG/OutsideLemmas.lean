import Verif.HG.InsideLemmas
import Mathlib.Algebra.BigOperators.Ring.Finset
import Mathlib.Tactic.Ring
/-! Helper lemmas for C03: the outside loop and expectations over derivations. -/
namespace Cdec.HG
variable {α : Type} {K : Type} [CommSemiring K]

/-- Sum over positions of `d` at the position times the product of `i` at all other positions. -/
def der (d i : Nat → K) : List Nat → K
  | [] => 0
  | t :: ts => d t * (ts.map i).prod + i t * der d i ts

theorem der_congr {d i d' i' : Nat → K} {ts : List Nat} (hd : ∀ t ∈ ts, d t = d' t)
    (hi : ∀ t ∈ ts, i t = i' t) : der d i ts = der d' i' ts := by
  induction ts with
  | nil => rfl
  | cons t ts ih =>
    simp only [der]
    rw [ih (fun t h => hd t (by simp [h])) (fun t h => hi t (by simp [h])), hd t (by simp),
      hi t (by simp), List.map_congr_left fun t h => hi t (List.mem_cons_of_mem _ h)]

theorem total_node (x : Nat → K) (e : Nat) (ch : List Tree) :
    (Tree.node e ch).total x = x e + (ch.map fun t => t.total x).sum := by rw [Tree.total]

theorem sum_map_add' {β : Type} (l : List β) (f h : β → K) :
    (l.map fun a => f a + h a).sum = (l.map f).sum + (l.map h).sum := by
  induction l with
  | nil => simp
  | cons a l ih => simp only [List.map_cons, List.sum_cons, ih]; ring

theorem sum_mul_choices (D : Nat → List Tree) (x : Tree → K) (f : Tree → K) (ts : List Nat) :
    ((choices (ts.map D)).map fun xs => (xs.map x).sum * (xs.map f).prod).sum =
      der (fun t => ((D t).map fun a => x a * f a).sum) (fun t => ((D t).map f).sum) ts := by
  induction ts with
  | nil => simp [choices, der]
  | cons t ts ih =>
    simp only [List.map_cons, choices, sum_flatMap, List.map_map, der, ← ih]
    have hp : ((ts.map fun t => ((D t).map f).sum)).prod =
        ((choices (ts.map D)).map fun xs => (xs.map f).prod).sum := by
      rw [sum_choices, List.map_map]; rfl
    rw [hp]
    have : ∀ a : Tree, (List.map ((fun xs => (List.map x xs).sum * (List.map f xs).prod) ∘ fun y => a :: y)
        (choices (ts.map D))).sum =
        x a * f a * ((choices (ts.map D)).map fun xs => (xs.map f).prod).sum +
        f a * ((choices (ts.map D)).map fun xs => (xs.map x).sum * (xs.map f).prod).sum := by
      intro a
      rw [← List.sum_map_mul_left, ← List.sum_map_mul_left, ← sum_map_add']
      congr 1
      apply List.map_congr_left
      intro xs _
      simp only [Function.comp, List.map_cons, List.sum_cons, List.prod_cons]
      ring
    simp only [this]
    rw [sum_map_add', List.sum_map_mul_right, List.sum_map_mul_right]

/-- Weighted total over all derivations of a node. -/
def dsum (g : Hypergraph α) (w x : Nat → K) (v : Nat) : K :=
  ((derivs g v).map fun t => t.total x * t.weight w).sum

/-- Contribution of the edges entering `v` themselves. -/
def local_ (g : Hypergraph α) (w x : Nat → K) (ins : List K) (v : Nat) : K :=
  ((g.inE v).map fun e => x e * (w e * ((g.tails e).map fun t => ins.getD t 0).prod)).sum

theorem dsum_rec {g : Hypergraph α} (wf : WF g) (w x : Nat → K) (v : Nat) (hv : v < g.nodes.length) :
    dsum g w x v = local_ g w x (insideScores g w) v +
      ((g.inE v).map fun e => w e * der (dsum g w x) (fun t => (insideScores g w).getD t 0) (g.tails e)).sum := by
  rw [dsum, derivs_eq wf v hv, sum_flatMap, local_, ← sum_map_add']
  congr 1
  apply List.map_congr_left
  intro e he
  rw [List.map_map]
  have h1 : ((fun t => t.total x * t.weight w) ∘ Tree.node e) = fun ch : List Tree =>
      x e * (w e * (ch.map fun t => t.weight w).prod) +
      w e * ((ch.map fun t => t.total x).sum * (ch.map fun t => t.weight w).prod) := by
    funext ch
    simp only [Function.comp, total_node, weight_node]; ring
  rw [h1, sum_map_add', List.sum_map_mul_left, List.sum_map_mul_left, List.sum_map_mul_left,
    sum_choices, sum_mul_choices, List.map_map]
  have hI : ∀ t ∈ g.tails e, ((derivs g t).map fun t => t.weight w).sum =
      (insideScores g w).getD t 0 := by
    intro t ht
    have := wf.topo v hv e he t ht
    rw [insideScores_eq_derivs wf w t (by omega)]
  congr 1
  · exact congrArg (fun z => x e * (w e * z)) (congrArg List.prod (List.map_congr_left hI))
  · exact congrArg (fun z => w e * z) (der_congr (fun t _ => rfl) hI)

/-- Σ_v out[v] * F v -/
def pair (n : Nat) (out : List K) (F : Nat → K) : K := ∑ v ∈ Finset.range n, out.getD v 0 * F v

theorem sum_range_bump (n i : Nat) (hi : i < n) (F G : Nat → K) (c : K)
    (h : ∀ v < n, F v = G v + if v = i then c else 0) :
    ∑ v ∈ Finset.range n, F v = ∑ v ∈ Finset.range n, G v + c := by
  rw [Finset.sum_congr rfl fun v hv => h v (Finset.mem_range.1 hv), Finset.sum_add_distrib]
  simp [hi]

theorem pair_bump (n : Nat) (out : List K) (F : Nat → K) (t : Nat) (c : K) (ht : t < n)
    (hl : out.length = n) :
    pair n (out.set t (out.getD t 0 + c)) F = pair n out F + c * F t := by
  apply sum_range_bump n t ht
  intro v _
  rw [getD_set _ _ _ _ _ (by omega)]
  by_cases h : v = t
  · subst h; simp; ring
  · simp [h]

theorem contribution_eq (ins : List K) (ts : List Nat) (upd : Nat) :
    outsideContribution ins ts upd = ((ts.filter (fun t => t ≠ upd)).map fun t => ins.getD t 0).prod := by
  have : ∀ a : K, ts.foldl (fun c t => if upd ≠ t then c * ins.getD t 0 else c) a =
      a * ((ts.filter (fun t => t ≠ upd)).map fun t => ins.getD t 0).prod := by
    induction ts with
    | nil => intro a; simp
    | cons t ts ih =>
      intro a
      simp only [List.foldl_cons]
      rw [ih]
      by_cases h : upd = t
      · subst h; simp
      · have h' : t ≠ upd := fun e => h e.symm
        simp [h, h', mul_assoc]
  rw [outsideContribution, this 1, one_mul]

theorem filter_ne_nodup (ts : List Nat) (t : Nat) (h : t ∉ ts) :
    ts.filter (fun s => s ≠ t) = ts := by
  rw [List.filter_eq_self]
  intro a ha
  have : a ≠ t := fun e => h (e ▸ ha)
  simpa using this

theorem der_eq_contribution (ins : List K) (d : Nat → K) (ts : List Nat) (h : ts.Nodup) :
    (ts.map fun t => d t * outsideContribution ins ts t).sum = der d (fun t => ins.getD t 0) ts := by
  simp only [contribution_eq]
  induction ts with
  | nil => rfl
  | cons t ts ih =>
    obtain ⟨hn, hnd⟩ := List.nodup_cons.1 h
    simp only [List.map_cons, List.sum_cons, der, ← ih hnd]
    congr 1
    · simp only [List.filter_cons, ne_eq, not_true_eq_false, decide_false, Bool.false_eq_true,
        if_false]
      rw [show ts.filter (fun s => decide ¬s = t) = ts from filter_ne_nodup ts t hn]
    · rw [← List.sum_map_mul_left]
      congr 1
      apply List.map_congr_left
      intro s hs
      have : t ≠ s := fun e => hn (e ▸ hs)
      simp only [List.filter_cons, ne_eq, this, not_false_eq_true, decide_true, if_true,
        List.map_cons, List.prod_cons]
      ring

theorem outsideEdge_length (ins : List K) (hw : K) (ts : List Nat) (out : List K) :
    (outsideEdge ins hw ts out).length = out.length := by
  unfold outsideEdge
  have : ∀ us : List Nat, (us.foldl (fun out t => out.set t
      (out.getD t 0 + outsideContribution ins ts t * hw)) out).length = out.length := by
    intro us
    induction us generalizing out with
    | nil => rfl
    | cons u us ih => rw [List.foldl_cons, ih]; simp
  exact this ts

theorem outsideEdge_other (ins : List K) (hw : K) (ts : List Nat) (out : List K) (j : Nat)
    (h : j ∉ ts) : (outsideEdge ins hw ts out).getD j 0 = out.getD j 0 := by
  unfold outsideEdge
  have : ∀ us : List Nat, j ∉ us → (us.foldl (fun out t => out.set t
      (out.getD t 0 + outsideContribution ins ts t * hw)) out).getD j 0 = out.getD j 0 := by
    intro us
    induction us generalizing out with
    | nil => intro _; rfl
    | cons u us ih =>
      intro hj
      rw [List.foldl_cons, ih _ (fun h => hj (by simp [h])), getD_set_ne _ _ _ _ _ (fun h => hj (by simp [h]))]
  exact this ts h

theorem pair_outsideEdge (n : Nat) (ins : List K) (hw : K) (ts : List Nat) (out : List K) (F : Nat → K)
    (hl : out.length = n) (hts : ∀ t ∈ ts, t < n) :
    pair n (outsideEdge ins hw ts out) F =
      pair n out F + hw * (ts.map fun t => F t * outsideContribution ins ts t).sum := by
  unfold outsideEdge
  have : ∀ us : List Nat, (∀ t ∈ us, t < n) → pair n (us.foldl (fun out t => out.set t
      (out.getD t 0 + outsideContribution ins ts t * hw)) out) F =
      pair n out F + hw * (us.map fun t => F t * outsideContribution ins ts t).sum := by
    intro us
    induction us generalizing out with
    | nil => intro _; simp
    | cons u us ih =>
      intro hj
      rw [List.foldl_cons, ih _ (by simpa using hl) (fun t h => hj t (by simp [h])),
        pair_bump n out F u _ (hj u (by simp)) hl]
      simp only [List.map_cons, List.sum_cons]; ring
  exact this ts hts

theorem outsideNode_length (g : Hypergraph α) (w : Nat → K) (ins : List K) (i : Nat) (out : List K) :
    (outsideNode g w ins i out).length = out.length := by
  unfold outsideNode
  generalize g.inE i = es
  induction es generalizing out with
  | nil => rfl
  | cons e es ih => rw [List.foldl_cons, ih, outsideEdge_length]

theorem pair_outsideNode {g : Hypergraph α} (wf : WF g) (w : Nat → K) (ins : List K) (i : Nat)
    (hi : i < g.nodes.length) (out : List K) (F : Nat → K) (hl : out.length = g.nodes.length) :
    pair g.nodes.length (outsideNode g w ins i out) F = pair g.nodes.length out F +
      out.getD i 0 * ((g.inE i).map fun e =>
        w e * ((g.tails e).map fun t => F t * outsideContribution ins (g.tails e) t).sum).sum := by
  unfold outsideNode
  have ht := wf.topo i hi
  revert ht
  generalize g.inE i = es
  intro ht
  induction es generalizing out with
  | nil => simp
  | cons e es ih =>
    have hte := ht e (by simp)
    rw [List.foldl_cons, ih _ (by rw [outsideEdge_length, hl]) (fun e' h => ht e' (by simp [h])),
      pair_outsideEdge _ _ _ _ _ _ hl (fun t h => by have := hte t h; omega),
      outsideEdge_other _ _ _ _ _ (fun h => by have := hte i h; omega)]
    simp only [List.map_cons, List.sum_cons]; ring

/-- The loop invariant of `Outside`. -/
theorem outside_loop {g : Hypergraph α} (wf : WF g)
    (hnd : ∀ v < g.nodes.length, ∀ e ∈ g.inE v, (g.tails e).Nodup) (w x : Nat → K)
    (i : Nat) (hi : i ≤ g.nodes.length) (out : List K) (hl : out.length = g.nodes.length) :
    pair g.nodes.length ((List.range i).reverse.foldl
        (fun out i => outsideNode g w (insideScores g w) i out) out)
        (local_ g w x (insideScores g w)) =
      pair g.nodes.length out fun v =>
        if v < i then dsum g w x v else local_ g w x (insideScores g w) v := by
  induction i generalizing out with
  | zero => simp
  | succ i ih =>
    rw [List.range_succ, List.reverse_append, List.reverse_singleton, List.singleton_append,
      List.foldl_cons, ih (by omega) _ (by rw [outsideNode_length, hl]),
      pair_outsideNode wf w _ i (by omega) out _ hl]
    symm
    apply sum_range_bump _ i (by omega)
    intro v hv
    by_cases hvi : v = i
    · subst hvi
      simp only [Nat.lt_succ_self, if_true, lt_irrefl, if_false]
      rw [dsum_rec wf w x v hv, mul_add]
      congr 3
      apply List.map_congr_left
      intro e he
      rw [← der_eq_contribution _ _ _ (hnd v hv e he)]
      congr 2
      apply List.map_congr_left
      intro t ht
      rw [if_pos (wf.topo v hv e he t ht)]
    · have : (v < i + 1) ↔ v < i := by omega
      simp only [this, hvi, if_false, add_zero]

theorem pair_init (n : Nat) (hn : 0 < n) (scale : K) (F : Nat → K) :
    pair n ((List.replicate n (0 : K)).set (n - 1) scale) F = scale * F (n - 1) := by
  have h0 : ∀ v, (List.replicate n (0 : K)).getD v 0 = 0 := by
    intro v
    simp only [List.getD_eq_getElem?_getD, List.getElem?_replicate]; split <;> rfl
  have := pair_bump n (List.replicate n 0) F (n - 1) scale (by omega) (by simp)
  rw [h0, zero_add] at this
  rw [this]
  simp only [pair, h0, zero_mul, Finset.sum_const_zero, zero_add]

theorem pair_outsideScores {g : Hypergraph α} (wf : WF g)
    (hnd : ∀ v < g.nodes.length, ∀ e ∈ g.inE v, (g.tails e).Nodup) (w x : Nat → K) (scale : K)
    (hn : 0 < g.nodes.length) :
    pair g.nodes.length (outsideScores g w (insideScores g w) scale)
      (local_ g w x (insideScores g w)) = scale * dsum g w x g.goal := by
  rw [outsideScores, outside_loop wf hnd w x _ (Nat.le_refl _) _ (by simp),
    pair_init _ hn]
  rw [if_pos (by omega)]
  rfl

theorem list_range_sum (n : Nat) (f : Nat → K) :
    ((List.range n).map f).sum = ∑ v ∈ Finset.range n, f v := by
  induction n with
  | zero => simp
  | succ n ih => rw [List.range_succ, Finset.sum_range_succ, ← ih]; simp

theorem expect_eq (g : Hypergraph α) (w x : Nat → K) (ins out : List K) :
    expect g (fun e => x e * w e) ins out = pair g.nodes.length out (local_ g w x ins) := by
  have inner : ∀ (i : Nat) (es : List Nat) (s : K), es.foldl (fun s e =>
      s + x e * w e * (g.tails e).foldl (fun b t => b * ins.getD t 0) (out.getD i 0)) s =
      s + out.getD i 0 * (es.map fun e => x e * (w e * ((g.tails e).map fun t => ins.getD t 0).prod)).sum := by
    intro i es s
    rw [foldl_add_eq, ← List.sum_map_mul_left]
    congr 2
    apply List.map_congr_left
    intro e _
    rw [foldl_mul_eq]; ring
  unfold expect pair
  simp only [inner]
  rw [foldl_add_eq, zero_add]
  exact list_range_sum _ _
end Cdec.HG

namespace Cdec.HG
variable {α : Type} {K : Type} [CommSemiring K]

theorem foldl_set_getD (f : Nat → K) (es : List Nat) (vs : List K) (e0 : Nat) (h : e0 < vs.length) :
    (es.foldl (fun vs e => vs.set e (f e)) vs).getD e0 0 =
      if e0 ∈ es then f e0 else vs.getD e0 0 := by
  induction es generalizing vs with
  | nil => simp
  | cons e es ih =>
    rw [List.foldl_cons, ih _ (by simpa using h)]
    by_cases h1 : e0 ∈ es
    · simp [h1]
    · by_cases h2 : e0 = e
      · subst h2; rw [getD_set _ _ _ _ _ h]; simp
      · rw [getD_set_ne _ _ _ _ _ h2]; simp [h1, h2]

theorem foldl_set_length (f : Nat → K) (es : List Nat) (vs : List K) :
    (es.foldl (fun vs e => vs.set e (f e)) vs).length = vs.length := by
  induction es generalizing vs with
  | nil => rfl
  | cons e es ih => rw [List.foldl_cons, ih]; simp

theorem foldl_foldl_set (A : Nat → List Nat) (f : Nat → Nat → K) (L : List Nat) (vs : List K) (e v : Nat)
    (he : e < vs.length) (hv : v ∈ L) (hev : e ∈ A v) (hu : ∀ u ∈ L, e ∈ A u → u = v) :
    (L.foldl (fun vs i => (A i).foldl (fun vs e => vs.set e (f i e)) vs) vs).getD e 0 = f v e := by
  have key : ∀ (L : List Nat) (vs : List K), e < vs.length → (∀ u ∈ L, e ∈ A u → u = v) →
      (v ∈ L ∨ vs.getD e 0 = f v e) →
      (L.foldl (fun vs i => (A i).foldl (fun vs e => vs.set e (f i e)) vs) vs).getD e 0 = f v e := by
    intro L
    induction L with
    | nil => intro vs _ _ h; simpa using h
    | cons u L ih =>
      intro vs h1 h2 h3
      rw [List.foldl_cons]
      apply ih _ (by rw [foldl_set_length]; exact h1) (fun u hu => h2 u (by simp [hu]))
      by_cases huv : u = v
      · right; rw [foldl_set_getD _ _ _ _ h1, huv, if_pos hev]
      · rcases h3 with h3 | h3
        · left
          rcases List.mem_cons.1 h3 with h | h
          · exact absurd h.symm huv
          · exact h
        · right
          rw [foldl_set_getD _ _ _ _ h1, if_neg (fun h => huv (h2 u (by simp) h)), h3]
  exact key L vs he hu (.inl hv)

theorem edgeMarginals_getD (g : Hypergraph α) (w : Nat → K) (ins out : List K) (v e : Nat)
    (hv : v < g.nodes.length) (he : e < g.edges.length) (hev : e ∈ g.inE v)
    (hu : ∀ u < g.nodes.length, e ∈ g.inE u → u = v) :
    (edgeMarginals g w ins out).getD e 0 =
      w e * out.getD v 0 * ((g.tails e).map fun t => ins.getD t 0).prod := by
  unfold edgeMarginals
  rw [foldl_foldl_set g.inE (fun i e => (g.tails e).foldl (fun b t => b * ins.getD t 0)
    (w e * out.getD i 0)) _ _ e v (by simpa using he) (by simpa using hv) hev
    (fun u hu' => hu u (by simpa using hu')), foldl_mul_eq]

theorem total_indicator (P : Nat → Prop) [DecidablePred P] (t : Tree) :
    (t.total fun e => if P e then (1 : K) else 0) = ((t.edges.countP fun e => decide (P e) : Nat) : K) := by
  induction t using Tree.rec (motive_2 := fun ch =>
    (ch.map fun t => t.total fun e => if P e then (1 : K) else 0).sum =
      (((ch.flatMap fun t => t.edges).countP fun e => decide (P e) : Nat) : K)) with
  | node e ch ih =>
    rw [total_node, ih, Tree.edges, List.countP_cons]
    push_cast
    by_cases h : P e <;> simp [h, add_comm]
  | nil => simp
  | cons t ts ih1 ih2 =>
    simp only [List.map_cons, List.sum_cons, List.flatMap_cons, List.countP_append]
    rw [ih1, ih2]; push_cast; rfl

end Cdec.HG
