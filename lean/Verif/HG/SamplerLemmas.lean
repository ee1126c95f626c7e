import Verif.HG.SamplerModel
import Verif.HG.ViterbiLemmas
import Mathlib.Algebra.Order.Field.Basic
import Mathlib.Algebra.Order.BigOperators.Group.List
import Mathlib.Algebra.Order.BigOperators.Ring.List
import Mathlib.Tactic.FieldSimp
import Mathlib.Tactic.Ring
import Mathlib.Tactic.Linarith
/-! Helper lemmas for C70. -/
namespace Cdec.HG
variable {α : Type} {K : Type} [Field K] [LinearOrder K] [IsStrictOrderedRing K]

/-- The trees' edges, level by level: the root of the first tree, then the other trees followed by the first one's subtrees. -/
inductive LevelOrder : List Tree → List Nat → Prop
  | nil : LevelOrder [] []
  | cons {e : Nat} {ch q : List Tree} {l : List Nat} : LevelOrder (q ++ ch) l → LevelOrder (.node e ch :: q) (e :: l)

theorem selectLoop_ge (ps : List K) : ∀ (s r : K) (pos : Nat), pos ≤ selectLoop ps s r pos := by
  induction ps with
  | nil => intro s r pos; exact Nat.le_refl _
  | cons p ps ih =>
    intro s r pos
    unfold selectLoop
    split
    · exact Nat.le_trans (Nat.le_succ _) (ih _ _ _)
    · exact Nat.le_refl _

/-- The loop stops at the first position whose cumulative sum reaches the number. -/
theorem selectLoop_iff (ps : List K) (hp : ∀ p ∈ ps, 0 < p) : ∀ (s r : K) (pos i : Nat), i ≤ ps.length → r ≤ s + ps.sum →
    (selectLoop ps s r pos = pos + i ↔ (i = 0 ∨ s + (ps.take (i - 1)).sum < r) ∧ r ≤ s + (ps.take i).sum) := by
  induction ps with
  | nil =>
    intro s r pos i hi hr
    have : i = 0 := by simpa using hi
    subst this
    simpa [selectLoop] using hr
  | cons p ps ih =>
    intro s r pos i hi hr
    unfold selectLoop
    by_cases h : s < r
    · rw [if_pos h]
      cases i with
      | zero =>
        have := selectLoop_ge ps (s + p) r (pos + 1)
        constructor
        · intro he; omega
        · rintro ⟨_, h2⟩
          simp at h2
          exact absurd h (not_lt.mpr h2)
      | succ i =>
        have := ih (fun x hx => hp x (by simp [hx])) (s + p) r (pos + 1) i (by simpa using hi) (by
          rw [List.sum_cons, ← add_assoc] at hr; exact hr)
        rw [show pos + (i + 1) = pos + 1 + i by omega, this]
        simp only [Nat.add_sub_cancel, List.take_succ_cons, List.sum_cons]
        cases i with
        | zero => simp [h]
        | succ i => simp [List.take_succ_cons, add_assoc]
    · rw [if_neg h]
      cases i with
      | zero => simp only [Nat.add_zero, List.take_zero, List.sum_nil, add_zero, true_iff, true_or, true_and]; exact not_lt.mp h
      | succ i =>
        constructor
        · intro he; omega
        · rintro ⟨h1, _⟩
          exfalso
          rcases h1 with h1 | h1
          · omega
          · apply h
            refine lt_of_le_of_lt ?_ h1
            have : 0 ≤ ((p :: ps).take (i + 1 - 1)).sum :=
              List.sum_nonneg fun x hx => le_of_lt (hp x (List.mem_of_mem_take hx))
            linarith

theorem foldl_sum (ps : List K) : ps.foldl (· + ·) 0 = ps.sum := by
  have := foldl_add_eq ps id (0 : K)
  simpa using this

/-- The chosen index is `i` exactly for the draws in an interval whose length is the share of the `i`-th score. -/
theorem selectSample_iff (ps : List K) (hp : ∀ p ∈ ps, 0 < p) (h2 : 2 ≤ ps.length) (u : K) (h0 : 0 < u) (h1 : u ≤ 1)
    (i : Nat) (hi : i < ps.length) :
    selectSample ps u = i ↔ (ps.take i).sum / ps.sum < u ∧ u ≤ (ps.take (i + 1)).sum / ps.sum := by
  match ps, h2 with
  | p :: q :: ps, _ =>
    have hS : 0 < (p :: q :: ps).sum := List.sum_pos _ hp (by simp)
    have hp0 : 0 < p := hp p (by simp)
    rw [div_lt_iff₀ hS, le_div_iff₀ hS]
    unfold selectSample
    rw [foldl_sum]
    have hge := selectLoop_ge (q :: ps) p (u * (p :: q :: ps).sum) 1
    have hle : u * (p :: q :: ps).sum ≤ p + (q :: ps).sum := by
      rw [show p + (q :: ps).sum = (p :: q :: ps).sum by simp]
      exact mul_le_of_le_one_left (le_of_lt hS) h1
    have := selectLoop_iff (q :: ps) (fun x hx => hp x (by simp at hx ⊢; tauto)) p (u * (p :: q :: ps).sum) 1 i
      (by simp at hi ⊢; omega) hle
    rw [show (selectLoop (q :: ps) p (u * (p :: q :: ps).sum) 1 - 1 = i) ↔
      (selectLoop (q :: ps) p (u * (p :: q :: ps).sum) 1 = 1 + i) by omega, this]
    cases i with
    | zero =>
      simp only [List.take_zero, List.sum_nil, add_zero, true_or, true_and, Nat.zero_add, List.take_succ_cons, List.sum_cons]
      constructor
      · intro h; exact ⟨mul_pos h0 (by simpa using hS), h⟩
      · exact fun h => h.2
    | succ i => simp [List.take_succ_cons]

theorem selectLoop_le (ps : List K) : ∀ (s r : K) (pos : Nat), selectLoop ps s r pos ≤ pos + ps.length := by
  induction ps with
  | nil => intro s r pos; exact Nat.le_refl _
  | cons p ps ih =>
    intro s r pos
    unfold selectLoop
    split
    · have := ih (s + p) r (pos + 1)
      simp only [List.length_cons]; omega
    · omega

theorem selectSample_lt (ps : List K) (h : ps ≠ []) (u : K) : selectSample ps u < ps.length := by
  match ps, h with
  | [p], _ => simp [selectSample]
  | p :: q :: ps, _ =>
    unfold selectSample
    have h1 := selectLoop_le (q :: ps) p (u * (p :: q :: ps).foldl (· + ·) 0) 1
    simp only [List.length_cons] at h1 ⊢
    omega

section
variable {g : Hypergraph α} {w : Nat → K}

theorem list_prod_pos (l : List K) (h : ∀ x ∈ l, 0 < x) : 0 < l.prod := by
  induction l with
  | nil => simp
  | cons a l ih =>
    rw [List.prod_cons]
    exact mul_pos (h a (by simp)) (ih fun x hx => h x (by simp [hx]))

theorem sampleInside_pos (wf : WF g) (hne : ∀ v < g.nodes.length, g.inE v ≠ []) (hw : ∀ e, 0 < w e) (v : Nat)
    (hv : v < g.nodes.length) : 0 < (insideScores g w).getD v 0 := by
  induction v using Nat.strongRecOn with
  | ind v ih =>
    rw [insideScores_rec wf w v hv]
    apply List.sum_pos
    · intro x hx
      obtain ⟨e, he, rfl⟩ := List.mem_map.1 hx
      refine mul_pos (hw e) (list_prod_pos _ ?_)
      intro y hy
      obtain ⟨t, ht, rfl⟩ := List.mem_map.1 hy
      exact ih t (wf.topo v hv e he t ht) (by have := wf.topo v hv e he t ht; omega)
    · simpa using hne v hv

/-- The weight of a queue of nodes. -/
def insProd (g : Hypergraph α) (w : Nat → K) (q : List Nat) : K := (q.map fun v => (insideScores g w).getD v 0).prod

theorem insProd_append (q q' : List Nat) : insProd g w (q ++ q') = insProd g w q * insProd g w q' := by
  simp [insProd]

theorem insideEdge_ins (e : Nat) : insideEdge g w (insideScores g w) e = w e * insProd g w (g.tails e) :=
  insideEdge_eq g w _ e

theorem insProd_pos (wf : WF g) (hne : ∀ v < g.nodes.length, g.inE v ≠ []) (hw : ∀ e, 0 < w e) (q : List Nat)
    (hq : ∀ v ∈ q, v < g.nodes.length) : 0 < insProd g w q := by
  apply list_prod_pos
  intro x hx
  obtain ⟨v, hv, rfl⟩ := List.mem_map.1 hx
  exact sampleInside_pos wf hne hw v (hq v hv)

/-- The draws that lead to given trees for the nodes of the queue form a box, whose volume is the trees' share of the
weight. -/
theorem sampleLoop_box (wf : WF g) (hne : ∀ v < g.nodes.length, g.inE v ≠ []) (hw : ∀ e, 0 < w e) {ts : List Tree}
    {l : List Nat} (hl : LevelOrder ts l) : ∀ (q : List Nat) (k : Nat), (∀ v ∈ q, v < g.nodes.length) →
    List.Forall₂ (IsDeriv g) q ts →
    ∃ I : List (K × K), (∀ us : Nat → K, (∀ j, 0 < us j ∧ us j ≤ 1) → ∀ fuel, l.length ≤ fuel →
        (sampleLoop g w (insideScores g w) us fuel q k = some l ↔
          ∀ j (h : j < I.length), I[j].1 < us (k + j) ∧ us (k + j) ≤ I[j].2)) ∧
      (∀ i ∈ I, 0 ≤ i.1 ∧ i.1 < i.2 ∧ i.2 ≤ 1) ∧
      (I.map fun i => i.2 - i.1).prod = (ts.map fun t => t.weight w).prod / insProd g w q := by
  induction hl with
  | nil =>
    intro q k _ hf
    cases hf
    exact ⟨[], fun us _ fuel _ => by simp [sampleLoop], by simp, by simp [insProd]⟩
  | @cons e ch ts l hl ih =>
    intro q k hq hf
    cases hf with
    | @cons v _ q _ hv hf =>
    obtain ⟨he, hch⟩ := isDeriv_iff.1 hv
    have hvn : v < g.nodes.length := hq v (by simp)
    have hq' : ∀ x ∈ q ++ g.tails e, x < g.nodes.length := by
      intro x hx
      rcases List.mem_append.1 hx with hx | hx
      · exact hq x (by simp [hx])
      · have := wf.topo v hvn e he x hx; omega
    have hpq : insProd g w q ≠ 0 := ne_of_gt (insProd_pos wf hne hw q fun x hx => hq x (by simp [hx]))
    have hpt : insProd g w (g.tails e) ≠ 0 := ne_of_gt (insProd_pos wf hne hw _ fun x hx => hq' x (by simp [hx]))
    have hwe : w e ≠ 0 := ne_of_gt (hw e)
    have hiv := sampleInside_pos wf hne hw v hvn
    have hrec := insideScores_rec wf w v hvn
    rw [show ((g.inE v).map fun e => w e * ((g.tails e).map fun t => (insideScores g w).getD t 0).prod) =
      (g.inE v).map (insideEdge g w (insideScores g w)) from List.map_congr_left fun x _ => (insideEdge_eq g w _ x).symm] at hrec
    have hcons : ∀ x : Nat, insProd g w (x :: q) = (insideScores g w).getD x 0 * insProd g w q := fun x => by simp [insProd]
    match hin : g.inE v with
    | [] => rw [hin] at he; simp at he
    | [e'] =>
      have hee : e = e' := by rw [hin] at he; simpa using he
      subst hee
      obtain ⟨I, h1, h2, h3⟩ := ih (q ++ g.tails e) k hq' (List.rel_append hf hch)
      refine ⟨I, ?_, h2, ?_⟩
      · intro us hus fuel hfu
        obtain ⟨fuel, rfl⟩ : ∃ f, fuel = f + 1 := ⟨fuel - 1, by simp at hfu; omega⟩
        rw [← h1 us hus fuel (by simpa using hfu), sampleLoop, hin]
        simp
      · rw [h3, insProd_append, hcons, hrec, hin]
        simp only [List.map_cons, List.map_append, List.prod_append, List.prod_cons, weight_node, List.map_nil, List.sum_cons,
          List.sum_nil, add_zero, insideEdge_ins]
        field_simp
    | e1 :: e2 :: es =>
      rw [hin] at hrec he
      have hnd : (e1 :: e2 :: es).Nodup := hin ▸ wf.nodup v hvn
      obtain ⟨i, hi, hie⟩ := List.getElem_of_mem he
      obtain ⟨I, h1, h2, h3⟩ := ih (q ++ g.tails e) (k + 1) hq' (List.rel_append hf hch)
      let ps := (e1 :: e2 :: es).map (insideEdge g w (insideScores g w))
      have hps : ∀ p ∈ ps, 0 < p := by
        intro p hp
        obtain ⟨x, hx, rfl⟩ := List.mem_map.1 hp
        rw [insideEdge_ins]
        exact mul_pos (hw x) (insProd_pos wf hne hw _ fun y hy => by
          have := wf.topo v hvn x (by rw [hin]; exact hx) y hy; omega)
      have hS : ps.sum = (insideScores g w).getD v 0 := hrec.symm
      have hil : i < ps.length := by simpa [ps] using hi
      have hget : ps[i] = insideEdge g w (insideScores g w) e := by simp only [ps, List.getElem_map]; rw [hie]
      have htake : (ps.take (i + 1)).sum = (ps.take i).sum + insideEdge g w (insideScores g w) e := by
        rw [List.take_succ_eq_append_getElem hil, List.sum_append, hget]; simp
      refine ⟨((ps.take i).sum / ps.sum, (ps.take (i + 1)).sum / ps.sum) :: I, ?_, ?_, ?_⟩
      · intro us hus fuel hfu
        obtain ⟨fuel, rfl⟩ : ∃ f, fuel = f + 1 := ⟨fuel - 1, by simp at hfu; omega⟩
        rw [sampleLoop, hin]
        simp only
        have hsel := selectSample_iff ps hps (by simp [ps]) (us k) (hus k).1 (hus k).2 i hil
        constructor
        · intro h
          rw [Option.map_eq_some_iff] at h
          obtain ⟨l', hl', hc⟩ := h
          rw [List.cons.injEq] at hc
          have hsl : selectSample ps (us k) < (e1 :: e2 :: es).length := by
            have := selectSample_lt ps (by simp [ps]) (us k)
            simpa [ps] using this
          have hsi : selectSample ps (us k) = i := by
            apply (hnd.getElem_inj_iff).1
            swap
            · exact hsl
            swap
            · exact hi
            rw [hie, ← hc.1, List.getD_eq_getElem?_getD, List.getElem?_eq_getElem hsl]
            rfl
          have hc1 := hc.1
          rw [hc1, hc.2] at hl'
          have hI := (h1 us hus fuel (by simpa using hfu)).1 hl'
          intro j hj
          cases j with
          | zero => exact hsel.1 hsi
          | succ j =>
            have := hI j (by simpa using hj)
            rw [show k + (j + 1) = k + 1 + j by omega]
            exact this
        · intro h
          have hsi : selectSample ps (us k) = i := hsel.2 (h 0 (by simp))
          have hgd : (e1 :: e2 :: es).getD (selectSample ps (us k)) 0 = e := by
            rw [hsi, List.getD_eq_getElem?_getD, List.getElem?_eq_getElem hi, hie]; rfl
          change Option.map _ (sampleLoop g w (insideScores g w) us fuel
            (q ++ g.tails ((e1 :: e2 :: es).getD (selectSample ps (us k)) 0)) (k + 1)) = _
          have hl' := (h1 us hus fuel (by simpa using hfu)).2 fun j hj => by
            have := h (j + 1) (by simpa using hj)
            rw [show k + (j + 1) = k + 1 + j by omega] at this
            exact this
          rw [hgd, hl']
          rfl
      · intro x hx
        rcases List.mem_cons.1 hx with rfl | hx
        · have hSp : 0 < ps.sum := by rw [hS]; exact hiv
          refine ⟨?_, ?_, ?_⟩
          · exact div_nonneg (List.sum_nonneg fun p hp => le_of_lt (hps p (List.mem_of_mem_take hp))) (le_of_lt hSp)
          · show (ps.take i).sum / ps.sum < (ps.take (i + 1)).sum / ps.sum
            rw [htake]
            apply (div_lt_div_iff_of_pos_right hSp).2
            have := hps _ (List.getElem_mem hil)
            rw [hget] at this
            linarith
          · show (ps.take (i + 1)).sum / ps.sum ≤ 1
            rw [div_le_one hSp]
            have hd : 0 ≤ (ps.drop (i + 1)).sum := List.sum_nonneg fun p hp => le_of_lt (hps p (List.mem_of_mem_drop hp))
            have := congrArg List.sum (List.take_append_drop (i + 1) ps)
            rw [List.sum_append] at this
            linarith
        · exact h2 x hx
      · have hSne : (insideScores g w).getD v 0 ≠ 0 := ne_of_gt hiv
        rw [List.map_cons, List.prod_cons, h3, htake, hS, hcons, insProd_append, insideEdge_ins]
        simp only [List.map_cons, List.map_append, List.prod_append, List.prod_cons, weight_node]
        field_simp
        ring

/-- Every run ends with trees for the nodes of the queue. -/
theorem sampleLoop_total (wf : WF g) (hne : ∀ v < g.nodes.length, g.inE v ≠ []) (us : Nat → K) :
    ∀ (N : Nat) (q : List Nat) (k : Nat), (q.map fun v => (g.edges.map fun e : Edge α => e.tails.length + 1).sum.succ ^ (v + 1)).sum ≤ N →
    (∀ v ∈ q, v < g.nodes.length) →
    ∃ ts l, List.Forall₂ (IsDeriv g) q ts ∧ LevelOrder ts l ∧ l.length ≤ N ∧ ∀ fuel, N ≤ fuel →
      sampleLoop g w (insideScores g w) us fuel q k = some l := by
  intro N
  induction N with
  | zero =>
    intro q k hN hq
    match q with
    | [] => exact ⟨[], [], .nil, .nil, by simp, fun fuel _ => by cases fuel <;> simp [sampleLoop]⟩
    | v :: q => simp at hN
  | succ N ih =>
    intro q k hN hq
    match q with
    | [] => exact ⟨[], [], .nil, .nil, by simp, fun fuel _ => by cases fuel <;> simp [sampleLoop]⟩
    | v :: q =>
      have hvn := hq v (by simp)
      generalize hB : (g.edges.map fun e : Edge α => e.tails.length + 1).sum.succ = B at *
      have step : ∀ e ∈ g.inE v, ∀ k, ∃ ts l, List.Forall₂ (IsDeriv g) (q ++ g.tails e) ts ∧ LevelOrder ts l ∧ l.length ≤ N ∧
          ∀ fuel, N ≤ fuel → sampleLoop g w (insideScores g w) us fuel (q ++ g.tails e) k = some l := by
        intro e he k
        apply ih
        · have h1 : ((g.tails e).map fun v => B ^ (v + 1)).sum ≤ (g.tails e).length * B ^ v := by
            have := List.sum_le_card_nsmul ((g.tails e).map fun v => B ^ (v + 1)) (B ^ v) (by
              intro x hx
              obtain ⟨t, ht, rfl⟩ := List.mem_map.1 hx
              exact Nat.pow_le_pow_right (by omega) (wf.topo v hvn e he t ht))
            simpa using this
          have h2 : (g.tails e).length < B := by
            have hel := wf.edge_lt v hvn e he
            have : (g.tails e).length + 1 ≤ (g.edges.map fun e : Edge α => e.tails.length + 1).sum := by
              unfold Hypergraph.tails
              rw [List.getElem?_eq_getElem hel]
              exact List.le_sum_of_mem (List.mem_map.2 ⟨_, List.getElem_mem hel, rfl⟩)
            omega
          have h3 : (g.tails e).length * B ^ v + 1 ≤ B ^ (v + 1) := by
            have hpos : 1 ≤ B ^ v := Nat.one_le_pow _ _ (by omega)
            rw [pow_succ, Nat.mul_comm (B ^ v)]
            calc (g.tails e).length * B ^ v + 1 ≤ (g.tails e).length * B ^ v + B ^ v := by omega
              _ = ((g.tails e).length + 1) * B ^ v := by rw [Nat.add_mul, Nat.one_mul]
              _ ≤ B * B ^ v := Nat.mul_le_mul_right _ h2
          simp only [List.map_cons, List.sum_cons] at hN
          simp only [List.map_append, List.sum_append]
          omega
        · intro x hx
          rcases List.mem_append.1 hx with hx | hx
          · exact hq x (by simp [hx])
          · have := wf.topo v hvn e he x hx; omega
      have fin : ∀ e ∈ g.inE v, ∀ k k', (∀ fuel, sampleLoop g w (insideScores g w) us (fuel + 1) (v :: q) k =
          (sampleLoop g w (insideScores g w) us fuel (q ++ g.tails e) k').map (e :: ·)) →
          ∃ ts l, List.Forall₂ (IsDeriv g) (v :: q) ts ∧ LevelOrder ts l ∧ l.length ≤ N + 1 ∧
          ∀ fuel, N + 1 ≤ fuel → sampleLoop g w (insideScores g w) us fuel (v :: q) k = some l := by
        intro e he k k' hs
        obtain ⟨ts, l, h1, h2, h3, h4⟩ := step e he k'
        obtain ⟨ts1, ts2, h5, h6, h7⟩ : ∃ a b, List.Forall₂ (IsDeriv g) q a ∧ List.Forall₂ (IsDeriv g) (g.tails e) b ∧ ts = a ++ b := by
          have ha := List.forall₂_take q.length h1
          have hb := List.forall₂_drop q.length h1
          rw [List.take_left'] at ha
          rw [List.drop_left'] at hb
          · exact ⟨_, _, ha, hb, (List.take_append_drop _ _).symm⟩
          · rfl
          · rfl
        refine ⟨.node e ts2 :: ts1, e :: l, .cons (isDeriv_iff.2 ⟨he, h6⟩) h5, .cons (by rw [← h7]; exact h2), by simpa using h3, ?_⟩
        intro fuel hf
        obtain ⟨fuel, rfl⟩ : ∃ f, fuel = f + 1 := ⟨fuel - 1, by omega⟩
        rw [hs, h4 fuel (by omega)]
        rfl
      match hin : g.inE v with
      | [] => exact absurd hin (hne v hvn)
      | [e] => exact fin e (by rw [hin]; simp) k k fun fuel => by rw [sampleLoop, hin]
      | e1 :: e2 :: es =>
        refine fin ((e1 :: e2 :: es).getD (selectSample ((e1 :: e2 :: es).map (insideEdge g w (insideScores g w))) (us k)) 0) ?_ k
          (k + 1) fun fuel => by rw [sampleLoop, hin]
        rw [hin]
        have hlt := selectSample_lt ((e1 :: e2 :: es).map (insideEdge g w (insideScores g w))) (by simp) (us k)
        rw [List.length_map] at hlt
        rw [List.getD_eq_getElem?_getD, List.getElem?_eq_getElem hlt]
        exact List.getElem_mem hlt

end

theorem LevelOrder.perm {ts : List Tree} {l : List Nat} (h : LevelOrder ts l) : l.Perm (ts.flatMap Tree.edges) := by
  induction h with
  | nil => simp
  | @cons e ch q l _ ih =>
    simp only [List.flatMap_cons, Tree.edges, List.cons_append]
    refine List.Perm.cons e (ih.trans ?_)
    rw [List.flatMap_append]
    exact List.perm_append_comm

theorem LevelOrder.inj {ts us : List Tree} {l : List Nat} (g : Hypergraph α) (h : LevelOrder ts l) (h' : LevelOrder us l) :
    ∀ q, List.Forall₂ (IsDeriv g) q ts → List.Forall₂ (IsDeriv g) q us → ts = us := by
  induction h generalizing us with
  | nil => intro q hf hf'; cases h'; rfl
  | @cons e ch ts l hl ih =>
    intro q hf hf'
    cases h' with
    | @cons _ ch' us _ hl' =>
    cases hf with
    | @cons v _ q _ hv hf =>
    cases hf' with
    | cons hv' hf' =>
    have h1 := (isDeriv_iff.1 hv).2
    have h2 := (isDeriv_iff.1 hv').2
    have := ih hl' _ (List.rel_append hf h1) (List.rel_append hf' h2)
    have hlen : ts.length = us.length := by rw [← hf.length_eq, ← hf'.length_eq]
    obtain ⟨rfl, rfl⟩ := List.append_inj this hlen
    rfl

/-! ## Reading the words off -/

theorem sampled_viterbi {T : Type} {g : Hypergraph α} (wf : WF g) (trav : Nat → List T → T) (d0 : T) (es : List Nat)
    (huniq : ∀ v < g.nodes.length, ∀ e ∈ es, ∀ e' ∈ es, e ∈ g.inE v → e' ∈ g.inE v → e = e') (v : Nat) (hv : v < g.nodes.length) :
    ∀ t, IsDeriv g v t → (∀ e ∈ t.edges, e ∈ es) →
    (viterbi g (fun e => if e ∈ es then (1 : Nat) else 0) trav (0, d0)).getD v (0, d0) = (1, t.traverse trav) := by
  induction v using Nat.strongRecOn with
  | ind v ih =>
    rintro ⟨e, ch⟩ ht hsub
    obtain ⟨he, hch⟩ := isDeriv_iff.1 ht
    have hne : g.inE v ≠ [] := by intro h; rw [h] at he; simp at he
    obtain ⟨b, hb, hval, hmax⟩ := (viterbi_rec wf (fun e => if e ∈ es then (1 : Nat) else 0) trav (0, d0) v hv).2 hne
    have hees : e ∈ es := hsub e (by simp [Tree.edges])
    have hkids : List.Forall₂ (fun t d =>
        (viterbi g (fun e => if e ∈ es then (1 : Nat) else 0) trav (0, d0)).getD t (0, d0) = (1, d.traverse trav)) (g.tails e) ch := by
      rw [List.forall₂_iff_get] at hch ⊢
      refine ⟨hch.1, fun i h1 h2 => ?_⟩
      have hm := List.getElem_mem (l := g.tails e) h1
      have hlt := wf.topo v hv e he _ hm
      refine ih _ hlt (Nat.lt_trans hlt hv) _ (hch.2 i h1 h2) fun x hx => hsub x ?_
      rw [Tree.edges]
      exact List.mem_cons_of_mem _ (List.mem_flatMap.2 ⟨_, List.getElem_mem h2, hx⟩)
    have hp : ((g.tails e).map fun t => ((viterbi g (fun e => if e ∈ es then (1 : Nat) else 0) trav (0, d0)).getD t (0, d0)).1).prod = 1 := by
      rw [← map_eq_of_forall₂ (h := fun _ => 1) hkids fun t _ d h => by rw [h]]
      simp
    have h1 := hmax e he
    rw [hp, if_pos hees] at h1
    have hbe : b ∈ es := by
      by_contra hc
      rw [hval, if_neg hc] at h1
      simp at h1
    obtain rfl : b = e := huniq v hv b hbe e hees hb he
    rw [hval, if_pos hbe, hp, traverse_node]
    rw [← map_eq_of_forall₂ (h := fun d => d.traverse trav) hkids fun t _ d h => by rw [h]]
    rfl

end Cdec.HG
