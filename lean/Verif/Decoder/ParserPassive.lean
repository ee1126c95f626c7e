import Verif.Decoder.ParserSpec
import Verif.HG.BuildLemmas
import Mathlib.Data.List.Nodup
import Mathlib.Order.Basic
import Mathlib.Order.Defs.PartialOrder
import Mathlib.Order.Nat
/-! `ApplyRule` and the passive chart. -/
namespace Cdec.HG
variable {α : Type}

/-- Tails and payload of an edge. -/
def Hypergraph.app (g : Hypergraph α) (e : Nat) : Option (List Nat × α) := (g.edges[e]?).map fun x => (x.tails, x.val)

theorem app_addEdge (g : Hypergraph α) (v : α) (ts : List Nat) (e : Nat) : (addEdge g v ts).app e = if e = g.edges.length then some (ts, v) else g.app e := by
  unfold Hypergraph.app addEdge
  simp only []
  by_cases h : e = g.edges.length
  · subst h; simp
  · by_cases hlt : e < g.edges.length
    · simp [h, List.getElem?_append_left hlt]
    · rw [if_neg h, List.getElem?_eq_none (by simp; omega), List.getElem?_eq_none (by omega)]

theorem app_connect (g : Hypergraph α) (eid h e : Nat) : (connect g eid h).app e = g.app e := by
  unfold Hypergraph.app connect
  simp only [List.getElem?_modify]
  rcases g.edges[e]? with _ | x
  · simp
  · simp; split <;> exact ⟨rfl, rfl⟩

theorem app_addNode (g : Hypergraph α) (c : Int) (e : Nat) : (addNode g c).app e = g.app e := rfl

theorem node_addEdge (g : Hypergraph α) (v : α) (ts : List Nat) (w : Nat) :
    ((addEdge g v ts).node w).inEdges = (g.node w).inEdges ∧ ((addEdge g v ts).node w).cat = (g.node w).cat := by
  unfold Hypergraph.node addEdge
  simp only [List.getD_eq_getElem?_getD]
  by_cases hw : w < g.nodes.length
  · rw [List.getElem?_eq_getElem (by rw [indexTails_length]; exact hw), indexTails_get _ _ _ _ hw, List.getElem?_eq_getElem hw]
    simp
  · rw [List.getElem?_eq_none (by rw [indexTails_length]; omega), List.getElem?_eq_none (by omega)]
    simp

theorem inE_addEdge (g : Hypergraph α) (v : α) (ts : List Nat) (w : Nat) : (addEdge g v ts).inE w = g.inE w := (node_addEdge g v ts w).1

theorem inE_addNode (g : Hypergraph α) (c : Int) (w : Nat) : (addNode g c).inE w = g.inE w := by
  unfold Hypergraph.inE Hypergraph.node addNode
  simp only [List.getD_eq_getElem?_getD, List.getElem?_append]
  split
  · rfl
  · rename_i h
    rw [List.getElem?_eq_none (l := g.nodes) (by omega)]
    rcases Nat.lt_or_ge (w - g.nodes.length) 1 with h1 | h1
    · have : w - g.nodes.length = 0 := by omega
      rw [this]
      rfl
    · rw [List.getElem?_eq_none (by simpa using h1)]

theorem cat_addNode (g : Hypergraph α) (c : Int) (w : Nat) (hw : w < g.nodes.length) : ((addNode g c).node w).cat = (g.node w).cat := by
  unfold Hypergraph.node addNode
  simp only [List.getD_eq_getElem?_getD, List.getElem?_append_left hw]

theorem cat_addNode_new (g : Hypergraph α) (c : Int) : ((addNode g c).node g.nodes.length).cat = c := by
  unfold Hypergraph.node addNode
  simp

theorem node_connect (g : Hypergraph α) (eid h w : Nat) (hh : h < g.nodes.length) :
    ((connect g eid h).node w).inEdges = (if w = h then (g.node w).inEdges ++ [eid] else (g.node w).inEdges) ∧ ((connect g eid h).node w).cat = (g.node w).cat := by
  unfold Hypergraph.node connect
  simp only [List.getD_eq_getElem?_getD, List.getElem?_modify]
  by_cases hw : w = h
  · subst hw
    simp [hh]
  · have : ¬ h = w := fun e => hw e.symm
    simp [hw, this]

theorem inE_connect (g : Hypergraph α) (eid h w : Nat) (hh : h < g.nodes.length) :
    (connect g eid h).inE w = if w = h then g.inE w ++ [eid] else g.inE w := (node_connect g eid h w hh).1

theorem inE_oob (g : Hypergraph α) (w : Nat) (h : g.nodes.length ≤ w) : g.inE w = [] := by
  unfold Hypergraph.inE Hypergraph.node
  rw [List.getD_eq_getElem?_getD, List.getElem?_eq_none h]
  rfl

theorem inE_in (g : Hypergraph α) (w : Nat) (h : w < g.nodes.length) : g.inE w = g.nodes[w].inEdges := by
  unfold Hypergraph.inE Hypergraph.node
  rw [List.getD_eq_getElem?_getD, List.getElem?_eq_getElem h]
  rfl

theorem Inv.inE_lt {g : Hypergraph α} (hi : Inv g) {w e : Nat} (he : e ∈ g.inE w) : e < g.edges.length := by
  by_cases hw : w < g.nodes.length
  · rw [inE_in g w hw] at he
    have h := List.count_pos_iff.2 he
    rw [hi.inc w hw e] at h
    by_contra hc
    rw [head_oob g e (by omega)] at h
    simp at h
  · rw [inE_oob g w (by omega)] at he
    simp at he

theorem Inv.inRange {g : Hypergraph α} (hi : Inv g) : InRange g where
  edge_lt _ _ e he := hi.inE_lt he
  nodup w hw := by
    rw [inE_in g w hw, List.nodup_iff_count_le_one]
    intro e
    rw [hi.inc w hw e]
    split <;> omega
  tail_lt w _ e he t ht := by
    have hlt := hi.inE_lt he
    rw [tails_lt' g e hlt] at ht
    exact hi.tails_lt e hlt t ht

/-- The edges of a node, as tails and payloads. -/
def Hypergraph.apps (g : Hypergraph α) (w : Nat) : List (Option (List Nat × α)) := (g.inE w).map g.app

theorem grow_old {g : Hypergraph α} (hi : Inv g) (x : α) (ts : List Nat) (hts : ∀ t ∈ ts, t < g.nodes.length) (v : Nat) (hv : v < g.nodes.length) :
    let g' := connect (addEdge g x ts) g.edges.length v
    Inv g' ∧ g'.nodes.length = g.nodes.length ∧ (∀ w, g'.apps w = if w = v then g.apps w ++ [some (ts, x)] else g.apps w) ∧ ∀ w, (g'.node w).cat = (g.node w).cat := by
  have hl : (addEdge g x ts).nodes.length = g.nodes.length := by simp [addEdge, indexTails_length]
  have he : (addEdge g x ts).edges.length = g.edges.length + 1 := by simp [addEdge]
  intro g'
  refine ⟨inv_connect (inv_addEdge hi x ts hts) _ _ (by omega) (by omega) ?_, ?_, ?_, ?_⟩
  · rw [head_addEdge, head_oob _ _ (Nat.le_refl _)]
  · rw [← hl]; simp [g', connect]
  · intro w
    have hold : (g.inE w).map (connect (addEdge g x ts) g.edges.length v).app = g.apps w := by
      unfold Hypergraph.apps
      apply List.map_congr_left
      intro e he
      have := hi.inE_lt he
      rw [app_connect, app_addEdge, if_neg (by omega)]
    have hnew : (connect (addEdge g x ts) g.edges.length v).app g.edges.length = some (ts, x) := by
      rw [app_connect, app_addEdge, if_pos rfl]
    rw [Hypergraph.apps, inE_connect _ _ _ _ (by omega), inE_addEdge]
    split
    · rw [List.map_append, hold, List.map_cons, hnew]; rfl
    · exact hold
  · intro w
    rw [(node_connect _ _ _ _ (by omega)).2, (node_addEdge _ _ _ _).2]

theorem grow_new {g : Hypergraph α} (hi : Inv g) (x : α) (ts : List Nat) (hts : ∀ t ∈ ts, t < g.nodes.length) (c : Int) :
    let g' := connect (addNode (addEdge g x ts) c) g.edges.length g.nodes.length
    Inv g' ∧ g'.nodes.length = g.nodes.length + 1 ∧ (∀ w, g'.apps w = if w = g.nodes.length then [some (ts, x)] else g.apps w) ∧
      (∀ w < g.nodes.length, (g'.node w).cat = (g.node w).cat) ∧ (g'.node g.nodes.length).cat = c := by
  have hl : (addEdge g x ts).nodes.length = g.nodes.length := by simp [addEdge, indexTails_length]
  have hl2 : (addNode (addEdge g x ts) c).nodes.length = g.nodes.length + 1 := by simp [addNode, hl]
  have he : (addNode (addEdge g x ts) c).edges.length = g.edges.length + 1 := by simp [addNode, addEdge]
  intro g'
  refine ⟨inv_connect (inv_addNode (inv_addEdge hi x ts hts) c) _ _ (by omega) (by omega) ?_, ?_, ?_, ?_, ?_⟩
  · rw [head_addNode, head_addEdge, head_oob _ _ (Nat.le_refl _)]
  · rw [← hl2]; simp [g', connect]
  · intro w
    have hold : (g.inE w).map g'.app = g.apps w := by
      unfold Hypergraph.apps
      apply List.map_congr_left
      intro e he
      have := hi.inE_lt he
      rw [app_connect, app_addNode, app_addEdge, if_neg (by omega)]
    have hnew : g'.app g.edges.length = some (ts, x) := by
      rw [app_connect, app_addNode, app_addEdge, if_pos rfl]
    rw [Hypergraph.apps, inE_connect _ _ _ _ (by omega), inE_addNode, inE_addEdge]
    split
    · rename_i h
      rw [h, inE_oob g _ (Nat.le_refl _), List.nil_append, List.map_cons, hnew]; rfl
    · exact hold
  · intro w hw
    rw [(node_connect _ _ _ _ (by omega)).2, cat_addNode _ _ _ (by omega), (node_addEdge _ _ _ _).2]
  · rw [(node_connect _ _ _ _ (by omega)).2, ← hl, cat_addNode_new]

end Cdec.HG

namespace Cdec.Dec.Parser
open Cdec.HG
variable {ι R φ : Type}

/-- An application of a rule: antecedents and payload. -/
abbrev App (R φ : Type) := List Nat × Val R φ

/-- What the charts, the node map and the forest have in common. -/
structure PInv (p : Env ι R φ) (q : Passive R φ) : Prop where
  inv : Inv q.forest
  nodup : ∀ i j, (q.chart i j).Nodup
  lt : ∀ i j, ∀ v ∈ q.chart i j, v < q.forest.nodes.length
  ne : ∀ i j, ∀ v ∈ q.chart i j, q.cat v ≠ p.kGoal
  map_iff : ∀ i j c v, c ≠ p.kGoal → (q.nodemap i j c = some v ↔ v ∈ q.chart i j ∧ q.cat v = c)
  inj : ∀ i j c i' j' c' v, q.nodemap i j c = some v → q.nodemap i' j' c' = some v → i = i' ∧ j = j' ∧ c = c'
  map_lt : ∀ i j c v, q.nodemap i j c = some v → v < q.forest.nodes.length
  goal : q.goalIdx = none → ∀ i j, q.nodemap i j p.kGoal = none
  cat_lhs : ∀ i j, ∀ v ∈ q.chart i j, ∃ r, q.cat v = p.lhs r
  full : ∀ i j c v, q.nodemap i j c = some v → q.forest.apps v ≠ []

/-- The applications with a category in a cell. -/
def Passive.at (q : Passive R φ) (i j : Nat) (c : Int) : List (Option (App R φ)) :=
  match q.nodemap i j c with
  | none => []
  | some v => q.forest.apps v

theorem PInv.disj {p : Env ι R φ} {q : Passive R φ} (h : PInv p q) {i j i' j' v : Nat} (hv : v ∈ q.chart i j) (hw : v ∈ q.chart i' j') : i = i' ∧ j = j' := by
  have h1 := (h.map_iff i j (q.cat v) v (h.ne i j v hv)).2 ⟨hv, rfl⟩
  have h2 := (h.map_iff i' j' (q.cat v) v (h.ne i j v hv)).2 ⟨hw, rfl⟩
  have := h.inj _ _ _ _ _ _ _ h1 h2
  exact ⟨this.1, this.2.1⟩

theorem PInv.cat_inj {p : Env ι R φ} {q : Passive R φ} (h : PInv p q) {i j v w : Nat} (hv : v ∈ q.chart i j) (hw : w ∈ q.chart i j) (hc : q.cat v = q.cat w) : v = w := by
  have h1 := (h.map_iff i j (q.cat v) v (h.ne i j v hv)).2 ⟨hv, rfl⟩
  have h2 := (h.map_iff i j (q.cat v) w (h.ne i j v hv)).2 ⟨hw, hc.symm⟩
  rw [h1] at h2
  exact Option.some.inj h2

/-- `q'` has grown from `q` in the cell from `i` to `j`. -/
structure Grow (i j : Nat) (q q' : Passive R φ) : Prop where
  nodes : q.forest.nodes.length ≤ q'.forest.nodes.length
  cat : ∀ v < q.forest.nodes.length, q'.cat v = q.cat v
  chart : ∀ a b, ¬(a = i ∧ b = j) → q'.chart a b = q.chart a b
  here : q.chart i j <+: q'.chart i j
  other : ∀ a b c, ¬(a = i ∧ b = j) → q'.at a b c = q.at a b c
  map : ∀ a b c, ¬(a = i ∧ b = j) → q'.nodemap a b c = q.nodemap a b c
  goalIdx : q'.goalIdx = q.goalIdx

theorem Grow.refl (i j : Nat) (q : Passive R φ) : Grow i j q q :=
  ⟨Nat.le_refl _, fun _ _ => rfl, fun _ _ _ => rfl, List.prefix_refl _, fun _ _ _ _ => rfl, fun _ _ _ _ => rfl, rfl⟩

theorem Grow.trans {i j : Nat} {q1 q2 q3 : Passive R φ} (h1 : Grow i j q1 q2) (h2 : Grow i j q2 q3) : Grow i j q1 q3 :=
  ⟨Nat.le_trans h1.nodes h2.nodes, fun v hv => (h2.cat v (by have := h1.nodes; omega)).trans (h1.cat v hv), fun a b h => (h2.chart a b h).trans (h1.chart a b h),
    h1.here.trans h2.here, fun a b c h => (h2.other a b c h).trans (h1.other a b c h), fun a b c h => (h2.map a b c h).trans (h1.map a b c h),
    h2.goalIdx.trans h1.goalIdx⟩

variable [Add φ]

/-- The application of a rule. -/
def mkApp (p : Env ι R φ) (i j : Nat) (r : R) (ants : List Nat) (feats : φ) (shape : List (Option (Nat × Nat))) : App R φ :=
  (ants, ⟨r, i, j, p.rfeats r + feats, shape⟩)

theorem apply_spec {p : Env ι R φ} {q : Passive R φ} (h : PInv p q) (i j : Nat) (r : R) (ants : List Nat) (feats : φ) (shape : List (Option (Nat × Nat)))
    (hr : p.lhs r ≠ p.kGoal) (ha : ∀ v ∈ ants, v < q.forest.nodes.length) :
    ∃ q', applyRule p i j r ants feats shape q = some q' ∧ PInv p q' ∧ Grow i j q q' ∧
      (∀ c, q'.at i j c = q.at i j c ++ if p.lhs r = c then [some (mkApp p i j r ants feats shape)] else []) ∧
      (∀ v ∈ q'.chart i j, v ∈ q.chart i j ∨ q'.cat v = p.lhs r) := by
  have hl : ∀ x : Val R φ, (addEdge q.forest x ants).nodes.length = q.forest.nodes.length := by
    intro x; simp [addEdge, indexTails_length]
  unfold applyRule
  simp only []
  cases hn : q.nodemap i j (p.lhs r) with
  | some v =>
    simp only []
    have hv := (h.map_iff i j (p.lhs r) v hr).1 hn
    obtain ⟨g1, g2, g3, g4⟩ := grow_old h.inv (⟨r, i, j, p.rfeats r + feats, shape⟩ : Val R φ) ants ha v (h.lt i j v hv.1)
    refine ⟨_, rfl, ⟨g1, h.nodup, ?_, ?_, ?_, h.inj, ?_, h.goal, ?_, ?_⟩, ⟨?_, ?_, ?_, ?_, ?_, ?_, rfl⟩, ?_, ?_⟩
    · intro a b w hw; exact g2 ▸ h.lt a b w hw
    · intro a b w hw; have := h.ne a b w hw; unfold Passive.cat at this ⊢; simp only [g4]; exact this
    · intro a b c w hc
      have := h.map_iff a b c w hc
      unfold Passive.cat at this ⊢
      simp only [g4]
      exact this
    · intro a b c w hw; exact g2 ▸ h.map_lt a b c w hw
    · intro a b w hw
      obtain ⟨r', e⟩ := h.cat_lhs a b w hw
      exact ⟨r', (g4 w).trans e⟩
    · intro a b c w hw
      simp only [g3]
      split
      · simp
      · exact h.full a b c w hw
    · exact Nat.le_of_eq g2.symm
    · exact fun w _ => g4 w
    · exact fun _ _ _ => rfl
    · exact List.prefix_refl _
    · intro a b c hne
      unfold Passive.at
      simp only []
      cases hm : q.nodemap a b c with
      | none => rfl
      | some w =>
        simp only [g3]
        rw [if_neg]
        rintro rfl
        have := h.inj _ _ _ _ _ _ _ hm hn
        exact hne ⟨this.1, this.2.1⟩
    · exact fun _ _ _ _ => rfl
    · intro c
      unfold Passive.at
      simp only []
      by_cases hc : p.lhs r = c
      · subst hc
        rw [hn]
        simp only [g3, if_true]; rfl
      · rw [if_neg hc, List.append_nil]
        cases hm : q.nodemap i j c with
        | none => rfl
        | some w =>
          simp only [g3]
          rw [if_neg]
          rintro rfl
          exact hc (h.inj _ _ _ _ _ _ _ hn hm).2.2
    · exact fun w hw => .inl hw
  | none =>
    simp only [if_neg hr, hl]
    obtain ⟨g1, g2, g3, g4, g5⟩ := grow_new h.inv (⟨r, i, j, p.rfeats r + feats, shape⟩ : Val R φ) ants ha (p.lhs r)
    have hmlt : ∀ a b c w, q.nodemap a b c = some w → w ≠ q.forest.nodes.length := fun a b c w hw => Nat.ne_of_lt (h.map_lt a b c w hw)
    refine ⟨_, rfl, ⟨g1, ?_, ?_, ?_, ?_, ?_, ?_, ?_, ?_, ?_⟩, ⟨?_, ?_, ?_, ?_, ?_, ?_, rfl⟩, ?_, ?_⟩
    · intro a b
      simp only []
      split
      · refine (h.nodup a b).append (List.nodup_singleton _) ?_
        intro w hw hw'
        have := h.lt a b w hw
        rw [List.mem_singleton.1 hw'] at this
        exact Nat.lt_irrefl _ this
      · exact h.nodup a b
    · intro a b w hw
      simp only [] at hw ⊢
      rw [g2]
      split at hw
      · rcases List.mem_append.1 hw with hw | hw
        · exact Nat.lt_succ_of_lt (h.lt a b w hw)
        · rw [List.mem_singleton.1 hw]; exact Nat.lt_succ_self _
      · exact Nat.lt_succ_of_lt (h.lt a b w hw)
    · intro a b w hw
      have key : w ∈ q.chart a b → (Passive.mk (connect (addNode (addEdge q.forest ⟨r, i, j, p.rfeats r + feats, shape⟩ ants) (p.lhs r)) q.forest.edges.length q.forest.nodes.length) (fun a b => if a = i ∧ b = j then q.chart a b ++ [q.forest.nodes.length] else q.chart a b) (fun a b c => if a = i ∧ b = j ∧ c = p.lhs r then some q.forest.nodes.length else q.nodemap a b c) q.goalIdx).cat w ≠ p.kGoal := by
        intro hw
        have := h.ne a b w hw
        unfold Passive.cat at this ⊢
        rw [g4 w (h.lt a b w hw)]
        exact this
      simp only [] at hw
      split at hw
      · rcases List.mem_append.1 hw with hw | hw
        · exact key hw
        · rw [List.mem_singleton.1 hw]
          unfold Passive.cat
          rw [g5]
          exact hr
      · exact key hw
    · intro a b c w hc
      have ih := h.map_iff a b c w hc
      unfold Passive.cat at ih ⊢
      simp only []
      by_cases hab : a = i ∧ b = j
      · obtain ⟨rfl, rfl⟩ := hab
        simp only [true_and, and_self, if_true, List.mem_append, List.mem_singleton]
        by_cases hcl : c = p.lhs r
        · subst hcl
          simp only [if_true, Option.some.injEq]
          constructor
          · rintro rfl
            exact ⟨.inr rfl, g5⟩
          · rintro ⟨h1 | h1, h2⟩
            · rw [g4 w (h.lt a b w h1)] at h2
              have := ih.2 ⟨h1, h2⟩
              rw [hn] at this
              simp at this
            · exact h1.symm
        · rw [if_neg hcl, ih]
          constructor
          · rintro ⟨h1, h2⟩
            rw [g4 w (h.lt a b w h1)]
            exact ⟨.inl h1, h2⟩
          · rintro ⟨h1 | rfl, h2⟩
            · rw [g4 w (h.lt a b w h1)] at h2
              exact ⟨h1, h2⟩
            · rw [g5] at h2
              exact absurd h2.symm hcl
      · rw [if_neg (fun hx => hab ⟨hx.1, hx.2.1⟩), if_neg hab, ih]
        constructor
        · rintro ⟨h1, h2⟩
          rw [g4 w (h.lt a b w h1)]
          exact ⟨h1, h2⟩
        · rintro ⟨h1, h2⟩
          rw [g4 w (h.lt a b w h1)] at h2
          exact ⟨h1, h2⟩
    · intro a b c a' b' c' w h1 h2
      simp only [] at h1 h2
      split at h1
      · rename_i e1
        split at h2
        · rename_i e2
          exact ⟨e1.1.trans e2.1.symm, e1.2.1.trans e2.2.1.symm, e1.2.2.trans e2.2.2.symm⟩
        · exact absurd (Option.some.inj h1).symm (hmlt _ _ _ _ h2)
      · split at h2
        · exact absurd (Option.some.inj h2).symm (hmlt _ _ _ _ h1)
        · exact h.inj _ _ _ _ _ _ _ h1 h2
    · intro a b c w hw
      simp only [] at hw ⊢
      rw [g2]
      split at hw
      · rw [← Option.some.inj hw]; exact Nat.lt_succ_self _
      · exact Nat.lt_succ_of_lt (h.map_lt a b c w hw)
    · intro hg a b
      simp only []
      rw [if_neg (fun hx => hr hx.2.2.symm)]
      exact h.goal hg a b
    · intro a b w hw
      simp only [] at hw
      split at hw
      · rcases List.mem_append.1 hw with hw | hw
        · obtain ⟨r', e⟩ := h.cat_lhs a b w hw
          exact ⟨r', (g4 w (h.lt a b w hw)).trans e⟩
        · rw [List.mem_singleton.1 hw]
          exact ⟨r, g5⟩
      · obtain ⟨r', e⟩ := h.cat_lhs a b w hw
        exact ⟨r', (g4 w (h.lt a b w hw)).trans e⟩
    · intro a b c w hw
      simp only [] at hw ⊢
      rw [g3]
      split
      · simp
      · split at hw
        · rename_i hx _
          exact absurd (Option.some.inj hw).symm hx
        · exact h.full a b c w hw
    · simp only [g2]; exact Nat.le_succ _
    · intro w hw
      exact g4 w hw
    · intro a b hne
      simp only [if_neg hne]
    · simp only [and_self, if_true]
      exact List.prefix_append _ _
    · intro a b c hne
      unfold Passive.at
      simp only []
      rw [if_neg (fun hx => hne ⟨hx.1, hx.2.1⟩)]
      cases hm : q.nodemap a b c with
      | none => rfl
      | some w => simp only [g3, if_neg (hmlt _ _ _ _ hm)]
    · intro a b c hne
      simp only []
      rw [if_neg (fun hx => hne ⟨hx.1, hx.2.1⟩)]
    · intro c
      unfold Passive.at
      simp only [true_and]
      by_cases hc : p.lhs r = c
      · subst hc
        rw [hn]
        simp only [if_true, g3]
        rfl
      · rw [if_neg hc, List.append_nil, if_neg (fun e => hc e.symm)]
        cases hm : q.nodemap i j c with
        | none => rfl
        | some w => simp only [g3, if_neg (hmlt _ _ _ _ hm)]
    · intro w hw
      simp only [and_self, if_true] at hw
      rcases List.mem_append.1 hw with hw | hw
      · exact .inl hw
      · right
        rw [List.mem_singleton.1 hw]
        exact g5

end Cdec.Dec.Parser
