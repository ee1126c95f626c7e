import Verif.HG.HashUnionLemmas
import Verif.Props.C06
/-!
# C121: adding a forest to a stored forest
-/
namespace Cdec.HashUnion

/-- A leaf: an edge without tails. -/
noncomputable def leaf (v : Nat) (w : Int) (q : ℚ) : Edge := ⟨v, [], [w], [w], Finsupp.single 0 q⟩
/-- A unary edge. -/
noncomputable def unary (v t : Nat) : Edge := ⟨v, [t], [0], [-1], 0⟩
/-- A stored forest: a goal (name 9) over a node (name 5). -/
noncomputable def stored : Forest := ⟨[5, 9], [leaf 0 3 1, unary 1 0]⟩
/-- A new forest: the same goal over another node (name 6) as well. -/
noncomputable def fresh : Forest := ⟨[6, 5, 9], [leaf 0 4 1, leaf 1 3 1, unary 2 1, unary 2 0]⟩

theorem stored_inRange : InRange stored := by
  intro x hx
  simp only [stored, List.mem_cons, List.not_mem_nil, or_false] at hx
  rcases hx with rfl | rfl <;> simp [leaf, unary, stored]

theorem fresh_inRange : InRange fresh := by
  intro x hx
  simp only [fresh, List.mem_cons, List.not_mem_nil, or_false] at hx
  rcases hx with rfl | rfl | rfl | rfl <;> simp [leaf, unary, fresh]

theorem fresh_stored : union fresh stored = some (merge fresh stored) := by
  unfold union
  rw [if_neg (by simp [stored]), if_neg (by simp [fresh, unique]), if_neg (by simp [stored, unique]), if_neg (by simp [stored, fresh])]

/-- The checks before the union abort exactly if the names in one of the forests are not unique or the goals have different names. -/
theorem C121_checks (i o : Forest) (hne : o.hash ≠ []) :
    union i o = none ↔ ¬ i.hash.Nodup ∨ ¬ o.hash.Nodup ∨ o.hash.getLast? ≠ i.hash.getLast? := by
  unfold union
  rw [if_neg hne]
  by_cases h1 : unique i.hash = true <;> by_cases h2 : unique o.hash = true <;> by_cases h3 : o.hash.getLast? = i.hash.getLast? <;>
    simp [h1, h2, h3, ← unique_iff]

example : union ⟨[5, 8], []⟩ stored = none ∧ union fresh stored ≠ none := by
  refine ⟨(C121_checks _ _ (by simp [stored])).2 (Or.inr (Or.inr (by simp [stored]))), ?_⟩
  rw [fresh_stored]; simp

/-- If nothing is stored the result is the new forest. -/
theorem C121_empty (i o : Forest) (h : o.hash = []) : union i o = some i := by
  unfold union; rw [if_pos h]

example : union fresh ⟨[], []⟩ = some fresh := C121_empty _ _ rfl

/-- Names stay unique; the nodes of the stored forest keep their numbers, the rest are names of the new forest, and every name of it is there. -/
theorem C121_nodes {i o u : Forest} (h : union i o = some u) (hne : o.hash ≠ []) :
    u.hash.Nodup ∧ (∃ more, u.hash = o.hash ++ more ∧ ∀ x ∈ more, x ∈ i.hash) ∧ ∀ x ∈ i.hash, x ∈ u.hash := by
  obtain ⟨_, ho, _, rfl⟩ := union_some h hne
  exact (merge_nodes ho).2

example : (merge fresh stored).hash.Nodup := (C121_nodes fresh_stored (by simp [stored])).1

/-- No derivation of the stored forest is lost or changed. -/
theorem C121_keeps {i o u : Forest} (h : union i o = some u) (hne : o.hash ≠ []) {v : Nat} {t : Tree} (ht : Derives o v t) : Derives u v t := by
  obtain ⟨_, _, _, rfl⟩ := union_some h hne
  exact derives_mono (merge_keeps i o) ht

theorem stored_goal : Derives stored 1 (.node [0] [-1] 0 [.node [3] [3] (Finsupp.single 0 1) []]) :=
  .mk (x := unary 1 0) (by simp [stored]) (.cons (.mk (x := leaf 0 3 1) (by simp [stored]) .nil) .nil)

example : Derives (merge fresh stored) 1 (.node [0] [-1] 0 [.node [3] [3] (Finsupp.single 0 1) []]) :=
  C121_keeps fresh_stored (by simp [stored]) stored_goal

/-- Every derivation of the new forest is there at the node of the same name, up to a millionth in the features of each rule.  Missing
from the full claim: the exact features (C121_exact_fails), and the sorting at the end, which can abort (C121_sorts, C121_cycle_fails). -/
theorem C121_contains_partial {i o u : Forest} (h : union i o = some u) (hne : o.hash ≠ []) (hi : InRange i) (hr : InRange o) {v : Nat} (hv : v < i.hash.length) {t : Tree} (ht : Derives i v t) :
    ∃ w, w < u.hash.length ∧ u.hashOf w = i.hashOf v ∧ ∃ t', Derives u w t' ∧ Close t t' := by
  obtain ⟨_, ho, _, rfl⟩ := union_some h hne
  obtain ⟨h1, _, _, h4⟩ := merge_nodes (i := i) ho
  obtain ⟨t', hd, hc⟩ := derives_covers (merge_covers ho hi hr) ht
  refine ⟨_, ?_, hashOf_of_map h1 (h4 _ (hashOf_mem hv)), t', hd, hc⟩
  obtain ⟨k, hk⟩ := List.getElem?_of_mem (h4 _ (hashOf_mem hv))
  rw [(h1 _ k).2 hk]
  exact (List.getElem?_eq_some_iff.1 hk).1

/-- In particular the derivations of the goal are there at the goal of the stored forest, the node by which the result is sorted. -/
theorem C121_goal_partial {i o u : Forest} (h : union i o = some u) (hne : o.hash ≠ []) (hi : InRange i) (hr : InRange o) {t : Tree} (ht : Derives i (i.hash.length - 1) t) :
    ∃ t', Derives u (o.hash.length - 1) t' ∧ Close t t' := by
  obtain ⟨_, ho, hl, hu⟩ := union_some h hne
  have hpos : 0 < o.hash.length := List.length_pos_iff.2 hne
  have hpi : 0 < i.hash.length := by
    rw [List.length_pos_iff]
    intro e
    rw [e] at hl
    simp at hl
    exact hne hl
  obtain ⟨w, hw, hh, t', hd, hc⟩ := C121_contains_partial h hne hi hr (by omega) ht
  obtain ⟨hn, ⟨more, hmore, _⟩, _⟩ := C121_nodes h hne
  have e1 : u.hash[w]? = some (i.hashOf (i.hash.length - 1)) := by
    rw [← hh]; simp [Forest.hashOf, List.getD_eq_getElem?_getD, hw]
  have e2 : u.hash[o.hash.length - 1]? = some (i.hashOf (i.hash.length - 1)) := by
    rw [hmore, List.getElem?_append_left (by omega), ← List.getLast?_eq_getElem?, hl, List.getLast?_eq_getElem?]
    have : i.hash.length - 1 < i.hash.length := by omega
    simp [Forest.hashOf, List.getD_eq_getElem?_getD, this]
  have : w = o.hash.length - 1 := (List.getElem?_inj hw hn).1 (e1.trans e2.symm)
  exact ⟨t', this ▸ hd, hc⟩

theorem fresh_goal : Derives fresh 2 (.node [0] [-1] 0 [.node [4] [4] (Finsupp.single 0 1) []]) :=
  .mk (x := unary 2 0) (by simp [fresh]) (.cons (.mk (x := leaf 0 4 1) (by simp [fresh]) .nil) .nil)

example : ∃ t', Derives (merge fresh stored) 1 t' ∧ Close (.node [0] [-1] 0 [.node [4] [4] (Finsupp.single 0 1) []]) t' :=
  C121_goal_partial fresh_stored (by simp [stored]) fresh_inRange stored_inRange fresh_goal

example : ∃ w, w < (merge fresh stored).hash.length ∧ (merge fresh stored).hashOf w = 9 ∧ ∃ t', Derives (merge fresh stored) w t' ∧ Close (.node [0] [-1] 0 [.node [4] [4] (Finsupp.single 0 1) []]) t' :=
  C121_contains_partial fresh_stored (by simp [stored]) fresh_inRange stored_inRange (v := 2) (by simp [fresh]) fresh_goal

/-- Nothing is made up: every edge is an edge of the stored forest or has the rule, the features and the names of an edge of the new one. -/
theorem C121_from {i o u : Forest} (h : union i o = some u) (hne : o.hash ≠ []) (hi : InRange i) :
    ∀ y ∈ u.edges, y ∈ o.edges ∨ ∃ x ∈ i.edges, SameEdge i x u y := by
  obtain ⟨_, ho, _, rfl⟩ := union_some h hne
  exact merge_from ho hi

example : ∀ y ∈ (merge fresh stored).edges, y ∈ stored.edges ∨ ∃ x ∈ fresh.edges, SameEdge fresh x (merge fresh stored) y :=
  C121_from fresh_stored (by simp [stored]) fresh_inRange

/-- Adding the same forest again (the result of the loops, before the sorting) changes nothing. -/
theorem C121_again {i o u : Forest} (h : union i o = some u) (hne : o.hash ≠ []) (hi : InRange i) : merge i u = u := by
  obtain ⟨_, ho, _, rfl⟩ := union_some h hne
  exact merge_merge ho hi

example : merge fresh (merge fresh stored) = merge fresh stored := C121_again fresh_stored (by simp [stored]) fresh_inRange

/-- The features of the new forest are not kept exactly: an edge that is close to a stored one is dropped. -/
theorem C121_exact_fails : ∃ (i o : Forest) (t : Tree), InRange i ∧ InRange o ∧ Derives i 0 t ∧ union i o = some o ∧ ¬ Derives o 0 t := by
  refine ⟨⟨[9], [leaf 0 3 (1 / 10000000)]⟩, ⟨[9], [leaf 0 3 0]⟩, .node [3] [3] (Finsupp.single 0 (1 / 10000000)) [], ?_, ?_, ?_, ?_, ?_⟩
  · intro x hx; simp at hx; subst hx; simp [leaf]
  · intro x hx; simp at hx; subst hx; simp [leaf]
  · exact .mk (x := leaf 0 3 (1 / 10000000)) (by simp) .nil
  · unfold union
    rw [if_neg (by simp), if_neg (by simp [unique]), if_neg (by simp [unique]), if_neg (by simp)]
    unfold merge
    simp only [addNodes_all [9] [9] _ (index_ok (by simp)) (by simp)]
    rw [addEdges_none]
    intro x hx
    simp at hx
    subst hx
    refine ⟨leaf 0 3 0, by simp, by simp [leaf, index, Forest.hashOf], ?_⟩
    rw [edgesMatch_iff]
    refine ⟨rfl, rfl, rfl, ?_⟩
    intro k
    by_cases hk : k = 0
    · subst hk; simp [leaf]; rw [abs_of_pos (by norm_num)]; norm_num
    · simp [leaf, Ne.symm hk]
  · intro hd
    obtain ⟨x, hx, ts, _, ht, _⟩ := derives_edge hd
    simp only [List.mem_singleton] at hx
    subst hx
    simp only [Tree.node.injEq] at ht
    have := DFunLike.congr_fun ht.2.2.1 0
    simp [leaf] at this

/-- The sorting at the end succeeds if some order of the names suits both forests. -/
theorem C121_sorts {i o u : Forest} (h : union i o = some u) (hne : o.hash ≠ []) (hi : InRange i) (hr : InRange o) (rank : Nat → Nat)
    (h1 : ∀ x ∈ i.edges, ∀ t ∈ x.tails, rank (i.hashOf t) < rank (i.hashOf x.head)) (h2 : ∀ x ∈ o.edges, ∀ t ∈ x.tails, rank (o.hashOf t) < rank (o.hashOf x.head)) :
    ∃ fuel r, sortUnion o u fuel = some r := by
  obtain ⟨_, ho, _, rfl⟩ := union_some h hne
  refine (HG.C06_cycles_are_rejected _ _ _).2 ⟨fun v => rank ((merge i o).hashOf v), ?_⟩
  intro v _ e he _ t ht
  obtain ⟨_, x, hx, rfl⟩ := (tables_inE _ _ _).1 he
  rw [tables_tails hx] at ht
  exact merge_ranked ho hi hr rank h1 h2 x (List.mem_of_getElem? hx) t ht

example : ∃ fuel r, sortUnion stored (merge fresh stored) fuel = some r := by
  refine C121_sorts fresh_stored (by simp [stored]) fresh_inRange stored_inRange id ?_ ?_
  · intro x hx
    simp only [fresh, List.mem_cons, List.not_mem_nil, or_false] at hx
    rcases hx with rfl | rfl | rfl | rfl <;> simp [leaf, unary, fresh, Forest.hashOf]
  · intro x hx
    simp only [stored, List.mem_cons, List.not_mem_nil, or_false] at hx
    rcases hx with rfl | rfl <;> simp [leaf, unary, stored, Forest.hashOf]

/-- After the sorting, the whole function: the goal of the result has every derivation of the stored goal, rule by rule with the same features, and every
derivation of the new goal up to a millionth in the features of each rule, if some order of the names suits both forests.  Missing from the full claim: the exact
features of the new forest (C121_exact_fails) and forests whose orders do not agree (C121_cycle_fails). -/
theorem C121_result_partial {i o u : Forest} (h : union i o = some u) (hne : o.hash ≠ []) (hi : InRange i) (hr : InRange o) (rank : Nat → Nat)
    (h1 : ∀ x ∈ i.edges, ∀ t ∈ x.tails, rank (i.hashOf t) < rank (i.hashOf x.head)) (h2 : ∀ x ∈ o.edges, ∀ t ∈ x.tails, rank (o.hashOf t) < rank (o.hashOf x.head)) :
    ∃ r, (∃ k, ∀ fuel, k ≤ fuel → sortUnion o u fuel = some r) ∧ HG.WF r ∧
      (∀ t, Derives o (o.hash.length - 1) t → ∃ d, HG.IsDeriv r r.goal d ∧ Reads r d t) ∧
      ∀ t, Derives i (i.hash.length - 1) t → ∃ d t', HG.IsDeriv r r.goal d ∧ Reads r d t' ∧ Close t t' := by
  obtain ⟨fuel, r0, hs⟩ := C121_sorts h hne hi hr rank h1 h2
  have hac := (HG.C06_cycles_are_rejected _ _ _).1 ⟨fuel, r0, hs⟩
  obtain ⟨_, ho, _, hu⟩ := union_some h hne
  have hur : InRange u := hu ▸ merge_inRange ho hi hr
  obtain ⟨more, hmore, _⟩ := (C121_nodes h hne).2.1
  have hpos : 0 < o.hash.length := List.length_pos_iff.2 hne
  obtain ⟨r, f, pos, hrun, hwf, _, _, _, _, _, hbij, hgoal⟩ := HG.C06_topological_sort (tables u) (tables_inRange hur) (fun _ => false) (o.hash.length - 1)
    (by simp [tables, hmore]; omega) hac
  have hb := hbij _ _ hgoal
  have main : ∀ t, Derives u (o.hash.length - 1) t → ∃ d, HG.IsDeriv r r.goal d ∧ Reads r d t := by
    intro t ht
    obtain ⟨d, hd, hread⟩ := tables_derives hur ht
    refine ⟨d.map f, hb.fwd d hd (fun _ _ => rfl), reads_map hread fun n hn => ?_⟩
    exact (hb.payload d hd (fun _ _ => rfl) n hn).2.2
  refine ⟨r, hrun, hwf, fun t ht => main t (C121_keeps h hne ht), fun t ht => ?_⟩
  obtain ⟨t', hd, hc⟩ := C121_goal_partial h hne hi hr ht
  obtain ⟨d, a, b⟩ := main t' hd
  exact ⟨d, t', a, b, hc⟩

example : ∃ r, (∃ k, ∀ fuel, k ≤ fuel → sortUnion stored (merge fresh stored) fuel = some r) ∧
    ∃ d, HG.IsDeriv r r.goal d ∧ Reads r d (.node [0] [-1] 0 [.node [3] [3] (Finsupp.single 0 1) []]) := by
  obtain ⟨r, a, _, b, _⟩ := C121_result_partial fresh_stored (by simp [stored]) fresh_inRange stored_inRange id
    (by
      intro x hx
      simp only [fresh, List.mem_cons, List.not_mem_nil, or_false] at hx
      rcases hx with rfl | rfl | rfl | rfl <;> simp [leaf, unary, fresh, Forest.hashOf])
    (by
      intro x hx
      simp only [stored, List.mem_cons, List.not_mem_nil, or_false] at hx
      rcases hx with rfl | rfl <;> simp [leaf, unary, stored, Forest.hashOf])
  exact ⟨r, a, b _ stored_goal⟩

/-- Two forests without cycles can have a union with a cycle, on which the sorting at the end aborts. -/
theorem C121_cycle_fails : ∃ i o u : Forest, (∀ x ∈ i.edges, ∀ t ∈ x.tails, t < x.head) ∧ (∀ x ∈ o.edges, ∀ t ∈ x.tails, t < x.head) ∧
    union i o = some u ∧ (∃ x ∈ u.edges, ∃ y ∈ u.edges, x.head ∈ y.tails ∧ y.head ∈ x.tails) ∧ ∀ fuel, sortUnion o u fuel = none := by
  let i : Forest := ⟨[1, 2, 3], [leaf 0 5 0, unary 1 0, unary 2 1]⟩
  let o : Forest := ⟨[2, 1, 3], [leaf 0 5 0, unary 1 0, unary 2 1]⟩
  have hi : InRange i := by
    intro x hx
    simp only [i, List.mem_cons, List.not_mem_nil, or_false] at hx
    rcases hx with rfl | rfl | rfl <;> simp [leaf, unary, i]
  have hr : InRange o := by
    intro x hx
    simp only [o, List.mem_cons, List.not_mem_nil, or_false] at hx
    rcases hx with rfl | rfl | rfl <;> simp [leaf, unary, o]
  have ho : o.hash.Nodup := by simp [o]
  have hu : union i o = some (merge i o) := by
    unfold union
    rw [if_neg (by simp [o]), if_neg (by simp [i, unique]), if_neg (by simp [o, unique]), if_neg (by simp [i, o])]
  obtain ⟨y, hy, hh, _, _, ht, _⟩ := merge_covers ho hi hr (unary 1 0) (by simp [i])
  have hh' : y.head = 0 := by rw [hh]; simp [unary, i, o, addNodes, index, Forest.hashOf]
  have ht' : y.tails = [1] := by rw [ht]; simp [unary, i, o, addNodes, index, Forest.hashOf]
  have hx : unary 1 0 ∈ (merge i o).edges := merge_keeps i o _ (by simp [o])
  have hz : unary 2 1 ∈ (merge i o).edges := merge_keeps i o _ (by simp [o])
  have hlen : 2 < (merge i o).hash.length := by
    obtain ⟨more, hmore, _⟩ := (merge_nodes (i := i) ho).2.2.1
    rw [hmore]; simp [o]
  refine ⟨i, o, merge i o, ?_, ?_, hu, ⟨unary 1 0, hx, y, hy, by rw [ht']; simp [unary], by rw [hh']; simp [unary]⟩, ?_⟩
  · intro x hx
    simp only [i, List.mem_cons, List.not_mem_nil, or_false] at hx
    rcases hx with rfl | rfl | rfl <;> simp [leaf, unary]
  · intro x hx
    simp only [o, List.mem_cons, List.not_mem_nil, or_false] at hx
    rcases hx with rfl | rfl | rfl <;> simp [leaf, unary]
  · intro fuel
    cases hs : sortUnion o (merge i o) fuel with
    | none => rfl
    | some r =>
      exfalso
      obtain ⟨rank, hrank⟩ := (HG.C06_cycles_are_rejected _ _ _).1 ⟨fuel, r, hs⟩
      obtain ⟨a, ha⟩ := List.getElem?_of_mem hx
      obtain ⟨b, hb⟩ := List.getElem?_of_mem hy
      obtain ⟨c, hc⟩ := List.getElem?_of_mem hz
      have ina : a ∈ (tables (merge i o)).inE 1 := (tables_inE _ _ _).2 ⟨by omega, _, ha, rfl⟩
      have inb : b ∈ (tables (merge i o)).inE 0 := (tables_inE _ _ _).2 ⟨by omega, _, hb, hh'⟩
      have inc : c ∈ (tables (merge i o)).inE 2 := (tables_inE _ _ _).2 ⟨by omega, _, hc, rfl⟩
      have ta : 0 ∈ (tables (merge i o)).tails a := by rw [tables_tails ha]; simp [unary]
      have tb : 1 ∈ (tables (merge i o)).tails b := by rw [tables_tails hb, ht']; simp
      have tc : 1 ∈ (tables (merge i o)).tails c := by rw [tables_tails hc]; simp [unary]
      have r1 : HG.Reach (tables (merge i o)) (fun _ => false) (o.hash.length - 1) 1 := .tail .goal inc rfl tc
      have r0 : HG.Reach (tables (merge i o)) (fun _ => false) (o.hash.length - 1) 0 := .tail r1 ina rfl ta
      have := hrank 1 r1 a ina rfl 0 ta
      have := hrank 0 r0 b inb rfl 1 tb
      omega

end Cdec.HashUnion
