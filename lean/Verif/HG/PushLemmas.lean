import Verif.HG.PushModel
import Verif.HG.PruneLemmas
import Verif.Props.C03
import Mathlib.Algebra.Order.Ring.Defs
import Mathlib.Algebra.Order.Field.Basic
import Mathlib.Tactic.Linarith
import Mathlib.Algebra.Order.BigOperators.Group.List
import Mathlib.Algebra.Order.BigOperators.Ring.List
import Mathlib.Tactic.FieldSimp
import Mathlib.Tactic.Positivity
namespace Cdec.HG
variable {α : Type} {K : Type}

section semiring
variable [CommSemiring K]

theorem local_indicator {g : Hypergraph α} (wf : WF g) (huh : UniqueHead g) (w : Nat → K) (ins : List K)
    (v e : Nat) (hv : v < g.nodes.length) (he : e ∈ g.inE v) (u : Nat) (hu : u < g.nodes.length) :
    local_ g w (fun e' => if e' = e then (1 : K) else 0) ins u =
      if u = v then w e * ((g.tails e).map fun t => ins.getD t 0).prod else 0 := by
  unfold local_
  by_cases huv : u = v
  · subst huv
    rw [if_pos rfl]
    have hnd' := wf.nodup u hu
    revert hnd' he
    generalize g.inE u = es
    intro he hnd'
    induction es with
    | nil => simp at he
    | cons a es ih =>
      obtain ⟨h1, h2⟩ := List.nodup_cons.1 hnd'
      by_cases hae : a = e
      · subst hae
        have : ∀ b ∈ es, (if b = a then (1 : K) else 0) * (w b * ((g.tails b).map fun t =>
            ins.getD t 0).prod) = 0 := by
          intro b hb
          have : b ≠ a := fun h => h1 (h ▸ hb)
          simp [this]
        rw [List.map_cons, List.sum_cons, List.map_congr_left this]
        simp
      · have he' : e ∈ es := by
          rcases List.mem_cons.1 he with h | h
          · exact absurd h.symm hae
          · exact h
        rw [List.map_cons, List.sum_cons, ih he' h2]
        simp [hae]
  · rw [if_neg huv]
    apply List.sum_eq_zero
    intro z hz
    obtain ⟨b, hb, rfl⟩ := List.mem_map.1 hz
    have : b ≠ e := fun h => huv (huh u hu v hv e (h ▸ hb) he)
    simp [this]

theorem edgePost_eq {g : Hypergraph α} (wf : WF g) (huh : UniqueHead g) (w : Nat → K)
    (v e : Nat) (hv : v < g.nodes.length) (he : e ∈ g.inE v) :
    edgePost g w e = (outsideScores g w (insideScores g w) 1).getD v 0 *
      (w e * ((g.tails e).map fun t => (insideScores g w).getD t 0).prod) := by
  have : (fun e' => if e' = e then w e' else 0) = fun e' => (if e' = e then (1 : K) else 0) * w e' := by
    funext e'; split <;> simp
  rw [edgePost, this, expect_eq, pair,
    Finset.sum_congr rfl fun u hu => by
      rw [local_indicator wf huh w _ v e hv he u (Finset.mem_range.1 hu)]]
  simp only [mul_ite, mul_zero]
  rw [Finset.sum_ite_eq' (Finset.range g.nodes.length) v, if_pos (Finset.mem_range.2 hv)]

theorem post_sum_in {g : Hypergraph α} (wf : WF g) (huh : UniqueHead g) (w : Nat → K)
    (v : Nat) (hv : v < g.nodes.length) :
    (g.inE v).foldl (fun z e => z + edgePost g w e) 0 =
      (outsideScores g w (insideScores g w) 1).getD v 0 * (insideScores g w).getD v 0 := by
  rw [foldl_add_eq, zero_add, insideScores_rec wf w v hv, ← List.sum_map_mul_left]
  congr 1
  exact List.map_congr_left fun e he => edgePost_eq wf huh w v e hv he

end semiring

section ordered
variable [Field K] [LinearOrder K] [IsStrictOrderedRing K]

theorem prod_pos' (l : List K) (h : ∀ x ∈ l, 0 < x) : 0 < l.prod := by
  induction l with
  | nil => simp
  | cons a l ih =>
    rw [List.prod_cons]
    exact mul_pos (h a (by simp)) (ih fun x hx => h x (by simp [hx]))

theorem prod_nonneg' (l : List K) (h : ∀ x ∈ l, 0 ≤ x) : 0 ≤ l.prod := by
  induction l with
  | nil => simp
  | cons a l ih =>
    rw [List.prod_cons]
    exact mul_nonneg (h a (by simp)) (ih fun x hx => h x (by simp [hx]))

theorem weight_pos (w : Nat → K) (hw : ∀ e, 0 < w e) (t : Tree) : 0 < t.weight w := by
  induction t using Tree.rec (motive_2 := fun ch => ∀ t ∈ ch, 0 < Tree.weight w t) with
  | node e ch ih =>
    rw [Tree.weight]
    refine mul_pos (hw e) (prod_pos' _ fun x hx => ?_)
    obtain ⟨t, ht, rfl⟩ := List.mem_map.1 hx
    exact ih t ht
  | nil => simp at *
  | cons t ch ih1 ih2 =>
    rename_i u hu
    rcases List.mem_cons.1 hu with rfl | h
    · exact ih1
    · exact ih2 u h

theorem inside_nonneg {g : Hypergraph α} (wf : WF g) (w : Nat → K) (hw : ∀ e, 0 < w e) (v : Nat) :
    0 ≤ (insideScores g w).getD v 0 := by
  by_cases hv : v < g.nodes.length
  · rw [insideScores_eq_derivs wf w v hv]
    apply List.sum_nonneg
    intro x hx
    obtain ⟨t, _, rfl⟩ := List.mem_map.1 hx
    exact (weight_pos w hw t).le
  · rw [List.getD_eq_getElem?_getD, List.getElem?_eq_none (by rw [insideScores_length]; omega)]; simp

theorem inside_pos {g : Hypergraph α} (wf : WF g) (w : Nat → K) (hw : ∀ e, 0 < w e) (v : Nat) (t : Tree)
    (ht : IsDeriv g v t) : 0 < (insideScores g w).getD v 0 := by
  have hv := isDeriv_lt ht
  rw [insideScores_eq_derivs wf w v hv]
  apply List.sum_pos
  · intro x hx
    obtain ⟨t, _, rfl⟩ := List.mem_map.1 hx
    exact weight_pos w hw t
  · intro h
    have := ((derivs_lists wf v hv).2 t).2 ht
    rw [List.map_eq_nil_iff] at h
    rw [h] at this; simp at this

/-- Every entry is non-negative. -/
def Nonneg (l : List K) : Prop := ∀ i, 0 ≤ l.getD i 0

theorem contribution_nonneg {ins : List K} (hi : Nonneg ins) (ts : List Nat) (u : Nat) :
    0 ≤ outsideContribution ins ts u := by
  rw [contribution_eq]
  apply prod_nonneg'
  intro x hx
  obtain ⟨t, _, rfl⟩ := List.mem_map.1 hx
  exact hi t

theorem outsideEdge_mono {ins : List K} (hi : Nonneg ins) (hw : K) (hhw : 0 ≤ hw) (ts : List Nat)
    (out : List K) (hl : ∀ t ∈ ts, t < out.length) (j : Nat) :
    out.getD j 0 ≤ (outsideEdge ins hw ts out).getD j 0 ∧
    (j ∈ ts → 0 ≤ out.getD j 0 → 0 < hw → (∀ t ∈ ts, 0 < ins.getD t 0) →
      0 < (outsideEdge ins hw ts out).getD j 0) := by
  unfold outsideEdge
  have : ∀ us : List Nat, (∀ t ∈ us, t < out.length) → ∀ o : List K, o.length = out.length →
      let r := us.foldl (fun out t => out.set t (out.getD t 0 + outsideContribution ins ts t * hw)) o
      o.getD j 0 ≤ r.getD j 0 ∧ (j ∈ us → 0 ≤ o.getD j 0 → 0 < hw → (∀ t ∈ ts, 0 < ins.getD t 0) → 0 < r.getD j 0) := by
    intro us
    induction us with
    | nil => intro _ o _; simp
    | cons u us ih =>
      intro hus o ho
      obtain ⟨h1, h2⟩ := ih (fun t ht => hus t (by simp [ht]))
        (o.set u (o.getD u 0 + outsideContribution ins ts u * hw)) (by simpa using ho)
      have hstep : (o.set u (o.getD u 0 + outsideContribution ins ts u * hw)).getD j 0 =
          if j = u then o.getD u 0 + outsideContribution ins ts u * hw else o.getD j 0 :=
        getD_set _ _ _ _ _ (by rw [ho]; exact hus u (by simp))
      have hc : 0 ≤ outsideContribution ins ts u * hw := mul_nonneg (contribution_nonneg hi _ _) hhw
      rw [hstep] at h1 h2
      simp only [List.foldl_cons]
      refine ⟨le_trans ?_ h1, fun hj h0 hp hins => ?_⟩
      · split
        · rename_i h; subst h; linarith
        · exact le_rfl
      · by_cases hju : j = u
        · subst hju
          rw [if_pos rfl] at h1
          have : 0 < outsideContribution ins ts j * hw := by
            refine mul_pos ?_ hp
            rw [contribution_eq]
            apply prod_pos'
            intro x hx
            obtain ⟨t, ht, rfl⟩ := List.mem_map.1 hx
            exact hins t (List.mem_filter.1 ht).1
          linarith
        · rcases List.mem_cons.1 hj with h | h
          · exact absurd h hju
          · rw [if_neg hju] at h2
            exact h2 h h0 hp hins
  exact this ts hl out rfl

theorem outsideNode_mono {g : Hypergraph α} (wf : WF g) (w : Nat → K) (hw : ∀ e, 0 < w e) {ins : List K}
    (hi : Nonneg ins) (i : Nat) (hig : i < g.nodes.length) (out : List K) (ho : out.length = g.nodes.length)
    (hn : Nonneg out) :
    Nonneg (outsideNode g w ins i out) ∧ (∀ j, out.getD j 0 ≤ (outsideNode g w ins i out).getD j 0) ∧
    (∀ j, i ≤ j → (outsideNode g w ins i out).getD j 0 = out.getD j 0) ∧
    (0 < out.getD i 0 → ∀ e ∈ g.inE i, (∀ t ∈ g.tails e, 0 < ins.getD t 0) → ∀ t ∈ g.tails e,
      0 < (outsideNode g w ins i out).getD t 0) := by
  unfold outsideNode
  have htopo := wf.topo i hig
  revert htopo
  generalize g.inE i = es
  intro htopo
  induction es generalizing out with
  | nil => simp [hn]
  | cons e es ih =>
    have hts := htopo e (by simp)
    have hlt : ∀ t ∈ g.tails e, t < out.length := fun t ht => by have := hts t ht; omega
    have hhw : 0 ≤ w e * out.getD i 0 := mul_nonneg (hw e).le (hn i)
    have hm := fun j => outsideEdge_mono hi (w e * out.getD i 0) hhw (g.tails e) out hlt j
    have hn' : Nonneg (outsideEdge ins (w e * out.getD i 0) (g.tails e) out) := fun j => le_trans (hn j) (hm j).1
    have hge : ∀ j, i ≤ j → (outsideEdge ins (w e * out.getD i 0) (g.tails e) out).getD j 0 = out.getD j 0 :=
      fun j hj => outsideEdge_other _ _ _ _ _ fun hc => by have := hts j hc; omega
    obtain ⟨r1, r2, r3, r4⟩ := ih _ (by rw [outsideEdge_length]; exact ho) hn' (fun e he => htopo e (by simp [he]))
    rw [List.foldl_cons]
    refine ⟨r1, fun j => le_trans (hm j).1 (r2 j), fun j hj => by rw [r3 j hj, hge j hj], fun hpos e' he' hins t ht => ?_⟩
    rcases List.mem_cons.1 he' with rfl | he'
    · exact lt_of_lt_of_le ((hm t).2 ht (hn t) (mul_pos (hw e') hpos) hins) (r2 t)
    · exact r4 (by rw [hge i (Nat.le_refl _)]; exact hpos) e' he' hins t ht

theorem outside_loop_pos {g : Hypergraph α} (wf : WF g) (w : Nat → K) (hw : ∀ e, 0 < w e) {ins : List K}
    (hi : Nonneg ins) (i : Nat) (hig : i ≤ g.nodes.length) (out : List K) (ho : out.length = g.nodes.length)
    (hn : Nonneg out) :
    let r := (List.range i).reverse.foldl (fun out i => outsideNode g w ins i out) out
    Nonneg r ∧ (∀ j, out.getD j 0 ≤ r.getD j 0) ∧ (∀ j, i ≤ j + 1 → r.getD j 0 = out.getD j 0) ∧
    (∀ v < i, 0 < r.getD v 0 → ∀ e ∈ g.inE v, (∀ t ∈ g.tails e, 0 < ins.getD t 0) → ∀ t ∈ g.tails e,
      0 < r.getD t 0) := by
  induction i generalizing out with
  | zero => simp [hn]
  | succ i ih =>
    have hig' : i < g.nodes.length := by omega
    obtain ⟨m1, m2, m3, m4⟩ := outsideNode_mono wf w hw hi i hig' out ho hn
    obtain ⟨r1, r2, r3, r4⟩ := ih (by omega) _ (by rw [outsideNode_length]; exact ho) m1
    rw [List.range_succ, List.reverse_append]
    simp only [List.reverse_cons, List.reverse_nil, List.nil_append, List.singleton_append, List.foldl_cons]
    refine ⟨r1, fun j => le_trans (m2 j) (r2 j), fun j hj => by rw [r3 j (by omega), m3 j (by omega)], ?_⟩
    intro v hv hpos e he hins t ht
    by_cases hvi : v = i
    · subst hvi
      rw [r3 v (by omega), m3 v (Nat.le_refl _)] at hpos
      exact lt_of_lt_of_le (m4 hpos e he hins t ht) (r2 t)
    · exact r4 v (by omega) hpos e he hins t ht

theorem outside_pos {g : Hypergraph α} (wf : WF g) (w : Nat → K) (hw : ∀ e, 0 < w e) (hg : 0 < g.nodes.length) :
    let out := outsideScores g w (insideScores g w) 1
    out.getD g.goal 0 = 1 ∧ Nonneg out ∧
    (∀ v < g.nodes.length, 0 < out.getD v 0 → ∀ e ∈ g.inE v,
      (∀ t ∈ g.tails e, 0 < (insideScores g w).getD t 0) → ∀ t ∈ g.tails e, 0 < out.getD t 0) := by
  have hget : ∀ j, ((List.replicate g.nodes.length (0 : K)).set (g.nodes.length - 1) 1).getD j 0 =
      if j = g.nodes.length - 1 then 1 else 0 := by
    intro j
    rw [getD_set _ _ _ _ _ (by simp; omega)]
    congr 1
    simp only [List.getD_eq_getElem?_getD, List.getElem?_replicate]; split <;> rfl
  obtain ⟨r1, r2, r3, r4⟩ := outside_loop_pos wf w hw (inside_nonneg wf w hw) g.nodes.length (Nat.le_refl _)
    ((List.replicate g.nodes.length 0).set (g.nodes.length - 1) 1) (by simp)
    (fun j => by rw [hget]; split <;> simp)
  refine ⟨?_, r1, r4⟩
  have := r3 g.goal (by unfold Hypergraph.goal; omega)
  rw [hget, if_pos (show g.goal = g.nodes.length - 1 from rfl)] at this
  exact this

end ordered
end Cdec.HG
