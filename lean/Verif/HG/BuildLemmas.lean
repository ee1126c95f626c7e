import Verif.HG.Model
import Verif.HG.Spec
/-! Helper lemmas for C01. -/
namespace Cdec.HG
variable {α : Type}

/-- The index invariant. -/
abbrev Inv (g : Hypergraph α) : Prop := Consistent g

theorem indexTails_length (eid : Nat) (ts : List Nat) (ns : List Node) :
    (indexTails eid ts ns).length = ns.length := by
  induction ts generalizing ns with
  | nil => rfl
  | cons t ts ih => simp [indexTails, pushOut] at ih ⊢; rw [ih]; simp

theorem indexTails_get (eid : Nat) (ts : List Nat) (ns : List Node) (v : Nat) (hv : v < ns.length) :
    (indexTails eid ts ns)[v]'(by rw [indexTails_length]; exact hv) =
      { ns[v] with outEdges := ns[v].outEdges ++ List.replicate (ts.count v) eid } := by
  induction ts generalizing ns with
  | nil => simp [indexTails]
  | cons t ts ih =>
    have := ih (pushOut eid ns t) (by simp [pushOut, hv])
    simp only [indexTails, List.foldl_cons] at this ⊢
    rw [this]
    by_cases h : t = v
    · subst h
      simp [pushOut, List.replicate_succ]
    · simp [pushOut, h]

theorem tails_addNode (g : Hypergraph α) (c : Int) (e : Nat) : (addNode g c).tails e = g.tails e := rfl
theorem head_addNode (g : Hypergraph α) (c : Int) (e : Nat) : (addNode g c).head e = g.head e := rfl

theorem tails_oob (g : Hypergraph α) (e : Nat) (h : g.edges.length ≤ e) : g.tails e = [] := by
  simp [Hypergraph.tails, h]
theorem head_oob (g : Hypergraph α) (e : Nat) (h : g.edges.length ≤ e) : g.head e = none := by
  simp [Hypergraph.head, h]
theorem tails_lt' (g : Hypergraph α) (e : Nat) (h : e < g.edges.length) :
    g.tails e = (g.edges[e]).tails := by simp [Hypergraph.tails, h]
theorem head_lt' (g : Hypergraph α) (e : Nat) (h : e < g.edges.length) :
    g.head e = (g.edges[e]).head := by simp [Hypergraph.head, h]

theorem tails_addEdge (g : Hypergraph α) (v : α) (ts : List Nat) (e : Nat) :
    (addEdge g v ts).tails e = if e = g.edges.length then ts else g.tails e := by
  unfold Hypergraph.tails addEdge
  by_cases h : e = g.edges.length
  · subst h; simp
  · by_cases h2 : e < g.edges.length
    · simp [h, h2, List.getElem?_append]
    · have h3 : g.edges.length + 1 ≤ e := by omega
      simp [h, List.getElem?_append, List.getElem?_eq_none (l := g.edges) (i := e) (by omega), h2,
        List.getElem?_eq_none (l := [({ id := g.edges.length, head := none, tails := ts, val := v } : Edge α)])
          (i := e - g.edges.length) (by simp; omega)]

theorem head_addEdge (g : Hypergraph α) (v : α) (ts : List Nat) (e : Nat) :
    (addEdge g v ts).head e = g.head e := by
  unfold Hypergraph.head addEdge
  by_cases h : e = g.edges.length
  · subst h; simp
  · by_cases h2 : e < g.edges.length
    · simp [h2, List.getElem?_append]
    · have h3 : g.edges.length + 1 ≤ e := by omega
      simp [List.getElem?_append, List.getElem?_eq_none (l := g.edges) (i := e) (by omega), h2,
        List.getElem?_eq_none (l := [({ id := g.edges.length, head := none, tails := ts, val := v } : Edge α)])
          (i := e - g.edges.length) (by simp; omega)]

theorem tails_connect (g : Hypergraph α) (eid h e : Nat) : (connect g eid h).tails e = g.tails e := by
  unfold Hypergraph.tails connect
  simp only [List.getElem?_modify]
  cases hg : g.edges[e]? with
  | none => simp
  | some ed => by_cases hh : eid = e <;> simp [hh]

theorem head_connect (g : Hypergraph α) (eid h e : Nat) (hlt : eid < g.edges.length) :
    (connect g eid h).head e = if e = eid then some h else g.head e := by
  unfold Hypergraph.head connect
  simp only [List.getElem?_modify]
  by_cases hh : e = eid
  · subst hh; simp [hlt]
  · have : ¬ eid = e := fun h => hh h.symm
    cases hg : g.edges[e]? <;> simp [hh, this]

theorem inv_empty : Inv (empty : Hypergraph α) := by
  constructor <;> simp [empty]

theorem Inv.out_of_range {g : Hypergraph α} (hi : Inv g) (e : Nat) (v : Nat)
    (hv : g.nodes.length ≤ v) : (g.tails e).count v = 0 ∧ g.head e ≠ some v := by
  by_cases he : e < g.edges.length
  · rw [tails_lt' g e he, head_lt' g e he]
    refine ⟨List.count_eq_zero.2 fun h => ?_, fun h => ?_⟩
    · have := hi.tails_lt e he v h; omega
    · have := hi.head_lt e he v h; omega
  · rw [tails_oob g e (by omega), head_oob g e (by omega)]; simp

theorem inv_addNode {g : Hypergraph α} (hi : Inv g) (c : Int) : Inv (addNode g c) := by
  have hlen : (addNode g c).nodes.length = g.nodes.length + 1 := by simp [addNode]
  constructor
  · intro i h
    by_cases h2 : i < g.nodes.length
    · simp only [addNode, List.getElem_append_left h2]; exact hi.nid i h2
    · have : i = g.nodes.length := by omega
      subst this; simp [addNode]
  · exact hi.eid
  · intro i h t ht; have := hi.tails_lt i h t ht; omega
  · intro i h t ht; have := hi.head_lt i h t ht; omega
  · intro v h e
    rw [tails_addNode]
    by_cases h2 : v < g.nodes.length
    · simp only [addNode, List.getElem_append_left h2]; exact hi.outc v h2 e
    · have : v = g.nodes.length := by omega
      subst this; rw [(hi.out_of_range e g.nodes.length (Nat.le_refl _)).1]; simp [addNode]
  · intro v h e
    rw [head_addNode]
    by_cases h2 : v < g.nodes.length
    · simp only [addNode, List.getElem_append_left h2]; exact hi.inc v h2 e
    · have : v = g.nodes.length := by omega
      subst this
      rw [if_neg (hi.out_of_range e g.nodes.length (Nat.le_refl _)).2]; simp [addNode]

theorem inv_addEdge {g : Hypergraph α} (hi : Inv g) (x : α) (ts : List Nat)
    (hts : ∀ t ∈ ts, t < g.nodes.length) : Inv (addEdge g x ts) := by
  have hlen : (addEdge g x ts).nodes.length = g.nodes.length := by
    simp [addEdge, indexTails_length]
  have hel : (addEdge g x ts).edges.length = g.edges.length + 1 := by simp [addEdge]
  have hedge : ∀ i (h : i < (addEdge g x ts).edges.length),
      (addEdge g x ts).edges[i] = if h2 : i < g.edges.length then g.edges[i]
        else { id := g.edges.length, head := none, tails := ts, val := x } := by
    intro i h
    by_cases h2 : i < g.edges.length
    · simp [addEdge, h2]
    · have : i = g.edges.length := by omega
      subst this; simp [addEdge]
  constructor
  · intro i h
    simp only [addEdge]
    rw [indexTails_get _ _ _ _ (by omega)]
    exact hi.nid i (by omega)
  · intro i h
    rw [hedge i h]
    by_cases h2 : i < g.edges.length
    · simp [h2, hi.eid i h2]
    · simp only [h2, dite_false]; omega
  · intro i h t ht
    rw [hedge i h] at ht
    by_cases h2 : i < g.edges.length
    · simp only [h2, dite_true] at ht; have := hi.tails_lt i h2 t ht; omega
    · simp only [h2, dite_false] at ht; have := hts t ht; omega
  · intro i h t ht
    rw [hedge i h] at ht
    by_cases h2 : i < g.edges.length
    · simp only [h2, dite_true] at ht; have := hi.head_lt i h2 t ht; omega
    · simp [h2] at ht
  · intro v h e
    rw [tails_addEdge]
    simp only [addEdge]
    rw [indexTails_get _ _ _ _ (by omega)]
    simp only [List.count_append, hi.outc v (by omega) e, List.count_replicate]
    by_cases he : e = g.edges.length
    · subst he; rw [tails_oob g _ (Nat.le_refl _)]; simp
    · have : (g.edges.length == e) = false := by simp; omega
      simp [he, this]
  · intro v h e
    rw [head_addEdge]
    simp only [addEdge]
    rw [indexTails_get _ _ _ _ (by omega)]
    exact hi.inc v (by omega) e

theorem inv_connect {g : Hypergraph α} (hi : Inv g) (eid h : Nat) (h1 : eid < g.edges.length)
    (h2 : h < g.nodes.length) (h3 : g.head eid = none) : Inv (connect g eid h) := by
  have hlen : (connect g eid h).nodes.length = g.nodes.length := by simp [connect]
  have hel : (connect g eid h).edges.length = g.edges.length := by simp [connect]
  constructor
  · intro i hh
    have := hi.nid i (by omega)
    simp only [connect, List.getElem_modify]; split <;> exact this
  · intro i hh
    have := hi.eid i (by omega)
    simp only [connect, List.getElem_modify]; split <;> exact this
  · intro i hh t ht
    have := hi.tails_lt i (by omega) t
    rw [hlen]; apply this
    simp only [connect, List.getElem_modify] at ht; split at ht <;> exact ht
  · intro i hh t ht
    have := hi.head_lt i (by omega) t
    rw [hlen]
    simp only [connect, List.getElem_modify] at ht; split at ht
    · simp at ht; omega
    · exact this ht
  · intro v hh e
    rw [tails_connect, ← hi.outc v (by omega) e]
    simp only [connect, List.getElem_modify]; split <;> rfl
  · intro v hh e
    rw [head_connect g eid h e h1]
    have hv := hi.inc v (by omega) e
    simp only [connect, List.getElem_modify]
    by_cases hhv : h = v
    · subst hhv
      simp only [if_true, List.count_append, hv]
      by_cases he : e = eid
      · subst he; simp [h3]
      · have : (eid == e) = false := by simp; omega
        simp [he, List.count_cons, this]
    · rw [if_neg hhv, hv]
      by_cases he : e = eid
      · subst he; simp [h3, hhv]
      · simp [he]

theorem Built.inv {g : Hypergraph α} (h : Built g) : Inv g := by
  induction h with
  | init => exact inv_empty
  | step op _ hok ih =>
    cases op with
    | addNode c => exact inv_addNode ih c
    | addEdge v ts => exact inv_addEdge ih v ts hok
    | connect e h => exact inv_connect ih e h hok.1 hok.2.1 hok.2.2

end Cdec.HG
