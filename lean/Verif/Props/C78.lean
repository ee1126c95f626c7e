import Verif.Props.C77
/-!
# C78: The search with swaps holds exactly the reference with disjoint neighbours swapped
-/
namespace Cdec.Dec
open Cdec.HG
open Cdec.Dec.Parser.Spec (LTree Shows)
variable {R : Type}

/-- An order of the positions `0 … n - 1` in which some disjoint pairs of neighbours are swapped. -/
inductive SwapOrder : Nat → List Nat → Prop
  | nil : SwapOrder 0 []
  | keep {n : Nat} {p : List Nat} : SwapOrder n p → SwapOrder (n + 1) (p ++ [n])
  | swap {n : Nat} {p : List Nat} : SwapOrder n p → SwapOrder (n + 2) (p ++ [n + 1, n])

/-- `x` is a rule for a source word that produces reference word `k`. -/
def LexEnv.Makes (E : LexEnv R) (x : LexVal R) (k : Nat) : Prop :=
  ∃ j r w rs, x = .word j r ∧ E.src[j]? = some w ∧ E.rules w = some rs ∧ r ∈ rs ∧ E.ref[k]? = some (E.trg r)

/-- The derivation of a sequence of words. -/
def swapTree : List (LexVal R) → Option (LTree (LexVal R))
  | [] => none
  | x :: xs => some (xs.foldl (fun t y => .node .binary [t, .node y []]) (.node .unary [.node x []]))

theorem swapTree_snoc (xs : List (LexVal R)) (x : LexVal R) (t : LTree (LexVal R)) (h : swapTree xs = some t) : swapTree (xs ++ [x]) = some (.node .binary [t, .node x []]) := by
  cases xs with
  | nil => cases h
  | cons y xs =>
    simp only [swapTree, Option.some.injEq] at h
    rw [List.cons_append, swapTree, List.foldl_append, h]
    rfl

/-! ### The word nodes -/

/-- The edges of the word node of `w`. -/
def LexEnv.wordLeaves (E : LexEnv R) (l : List (Int × Nat)) (w : Int) : List (List Nat × LexVal R) :=
  (l.map fun x => (((E.rules x.1).getD []).filter fun r => E.trg r == w).map fun r => (([] : List Nat), LexVal.word x.2 r)).flatten

theorem dynaWords_spec (cat : Int) (ref : List Int) : (dynaWords (R := R) cat ref).1.Nodup ∧ (∀ w, w ∈ (dynaWords (R := R) cat ref).1 ↔ w ∈ ref) ∧
    Shape (dynaWords (R := R) cat ref).2 ((dynaWords (R := R) cat ref).1.map fun _ => []) := by
  induction ref using List.reverseRecOn with
  | nil => exact ⟨by simp [dynaWords], by simp [dynaWords], shape_empty⟩
  | append_singleton ref w ih =>
    have e : dynaWords (R := R) cat (ref ++ [w]) = if (dynaWords (R := R) cat ref).1.contains w then dynaWords cat ref
        else ((dynaWords (R := R) cat ref).1 ++ [w], addNode (dynaWords cat ref).2 cat) := by
      unfold dynaWords
      rw [List.foldl_append]
      rfl
    rw [e]
    obtain ⟨h1, h2, h3⟩ := ih
    by_cases hc : (dynaWords (R := R) cat ref).1.contains w
    · rw [if_pos hc]
      refine ⟨h1, ?_, h3⟩
      intro x
      rw [h2, List.mem_append, List.mem_singleton]
      constructor
      · exact .inl
      · rintro (h | rfl)
        · exact h
        · exact (h2 x).1 (by simpa using hc)
    · rw [if_neg hc]
      simp only [List.contains_eq_mem, decide_eq_true_eq] at hc
      refine ⟨?_, ?_, ?_⟩
      · rw [List.nodup_append]
        exact ⟨h1, by simp, by intro a ha b hb; rw [List.mem_singleton.1 hb]; rintro rfl; exact hc ha⟩
      · intro x; rw [List.mem_append, List.mem_append, h2]
      · have := h3.addNode cat
        simpa using this

theorem modify_map (words : List Int) (hnd : words.Nodup) (f : Int → List (List Nat × LexVal R)) (w : Int) (hw : w ∈ words) (a : List Nat × LexVal R) :
    (words.map f).modify (words.idxOf w) (· ++ [a]) = words.map fun v => if v = w then f v ++ [a] else f v := by
  apply List.ext_getElem?
  intro i
  rw [List.getElem?_modify, List.getElem?_map, List.getElem?_map]
  by_cases hi : i < words.length
  · rw [List.getElem?_eq_getElem hi]
    simp only [Option.map_some]
    by_cases he : words.idxOf w = i
    · have : words[i] = w := by subst he; exact List.getElem_idxOf hi
      simp [he, this]
    · have : words[i] ≠ w := by rintro rfl; exact he (hnd.idxOf_getElem i hi)
      simp [he, this]
  · rw [List.getElem?_eq_none (by omega)]; rfl

theorem dynaRules_shape (E : LexEnv R) (words : List Int) (hnd : words.Nodup) (j : Nat) : ∀ (rs : List R) (g : Hypergraph (LexVal R)) (f : Int → List (List Nat × LexVal R)),
    Shape g (words.map f) →
    Shape (rs.foldl (fun g r => if words.contains (E.trg r) then put g (.word j r) [] (words.idxOf (E.trg r)) else g) g)
      (words.map fun w => f w ++ (rs.filter fun r => E.trg r == w).map fun r => (([] : List Nat), LexVal.word j r))
  | [], g, f, h => by simpa using h
  | r :: rs, g, f, h => by
    rw [List.foldl_cons]
    by_cases hc : words.contains (E.trg r)
    · rw [if_pos hc]
      have hm : E.trg r ∈ words := by simpa using hc
      have h1 := h.put (.word j r) [] (words.idxOf (E.trg r)) (by simp) (by rw [List.length_map]; exact List.idxOf_lt_length_iff.2 hm)
      rw [modify_map words hnd f _ hm] at h1
      have h2 := dynaRules_shape E words hnd j rs _ _ h1
      have e : (words.map fun w => (if w = E.trg r then f w ++ [(([] : List Nat), LexVal.word j r)] else f w) ++ (rs.filter fun r => E.trg r == w).map fun r => (([] : List Nat), LexVal.word j r)) =
          words.map fun w => f w ++ ((r :: rs).filter fun r => E.trg r == w).map fun r => (([] : List Nat), LexVal.word j r) := by
        apply List.map_congr_left
        intro w _
        by_cases hw : w = E.trg r
        · subst hw
          simp
        · have : (E.trg r == w) = false := by simp; exact fun e => hw e.symm
          simp [hw, List.filter_cons, this]
      rw [e] at h2
      exact h2
    · rw [if_neg hc]
      have h2 := dynaRules_shape E words hnd j rs _ _ h
      have e : (words.map fun w => f w ++ (rs.filter fun r => E.trg r == w).map fun r => (([] : List Nat), LexVal.word j r)) =
          words.map fun w => f w ++ ((r :: rs).filter fun r => E.trg r == w).map fun r => (([] : List Nat), LexVal.word j r) := by
        apply List.map_congr_left
        intro w hw
        have : (E.trg r == w) = false := by
          simp only [beq_eq_false_iff_ne]
          rintro rfl
          exact hc (by simpa using hw)
        simp [List.filter_cons, this]
      rw [e] at h2
      exact h2

theorem dynaLex_fold (E : LexEnv R) (words : List Int) (hnd : words.Nodup) : ∀ (l : List (Int × Nat)) (g : Hypergraph (LexVal R)) (f : Int → List (List Nat × LexVal R)),
    Shape g (words.map f) → (∀ x ∈ l, (E.rules x.1).isSome) →
    ∃ g', l.foldl (fun g x => match g, E.rules x.1 with
      | some g, some rs => some (rs.foldl (fun g r => if words.contains (E.trg r) then put g (.word x.2 r) [] (words.idxOf (E.trg r)) else g) g)
      | _, _ => none) (some g) = some g' ∧ Shape g' (words.map fun w => f w ++ E.wordLeaves l w)
  | [], g, f, h, _ => ⟨g, rfl, by simpa [LexEnv.wordLeaves] using h⟩
  | x :: l, g, f, h, ha => by
    obtain ⟨rs, hrs⟩ := Option.isSome_iff_exists.1 (ha x (by simp))
    rw [List.foldl_cons, hrs]
    simp only []
    have h1 := dynaRules_shape E words hnd x.2 rs g f h
    obtain ⟨g', h2, h3⟩ := dynaLex_fold E words hnd l _ _ h1 fun y hy => ha y (by simp [hy])
    refine ⟨g', h2, ?_⟩
    have e : (words.map fun w => f w ++ (rs.filter fun r => E.trg r == w).map (fun r => (([] : List Nat), LexVal.word x.2 r)) ++ E.wordLeaves l w) =
        words.map fun w => f w ++ E.wordLeaves (x :: l) w := by
      apply List.map_congr_left
      intro w _
      simp [LexEnv.wordLeaves, hrs]
    rw [e] at h3
    exact h3

theorem dynaLex_none (E : LexEnv R) (words : List Int) : ∀ (l : List (Int × Nat)) (g : Option (Hypergraph (LexVal R))), (g = none ∨ ∃ x ∈ l, E.rules x.1 = none) →
    l.foldl (fun g x => match g, E.rules x.1 with
      | some g, some rs => some (rs.foldl (fun g r => if words.contains (E.trg r) then put g (.word x.2 r) [] (words.idxOf (E.trg r)) else g) g)
      | _, _ => none) g = none
  | [], g, h => by
    rcases h with h | ⟨x, hx, _⟩
    · exact h
    · cases hx
  | x :: l, g, h => by
    rw [List.foldl_cons]
    apply dynaLex_none E words l
    rcases h with rfl | ⟨y, hy, hy'⟩
    · exact .inl (by simp)
    · rcases List.mem_cons.1 hy with rfl | hy
      · left
        rw [hy']
        cases g <;> rfl
      · exact .inr ⟨y, hy, hy'⟩

theorem mem_wordLeaves (E : LexEnv R) (w : Int) (k : Nat) (hk : E.ref[k]? = some w) (a : List Nat × LexVal R) :
    a ∈ E.wordLeaves E.src.zipIdx w ↔ a.1 = [] ∧ E.Makes a.2 k := by
  unfold LexEnv.wordLeaves LexEnv.Makes
  obtain ⟨ts, x⟩ := a
  simp only [List.mem_flatten, List.mem_map]
  constructor
  · rintro ⟨_, ⟨⟨v, j⟩, hj, rfl⟩, hx⟩
    obtain ⟨r, hr, e⟩ := List.mem_map.1 hx
    cases e
    rw [List.mem_filter] at hr
    rw [List.mem_zipIdx_iff_getElem?] at hj
    cases h : E.rules v with
    | none => simp [h] at hr
    | some rs =>
      refine ⟨rfl, j, r, v, rs, rfl, hj, h, by simpa [h] using hr.1, ?_⟩
      have := hr.2
      simp only [beq_iff_eq] at this
      rw [hk, this]
  · rintro ⟨rfl, j, r, v, rs, rfl, h1, h2, h3, h4⟩
    rw [hk, Option.some.injEq] at h4
    refine ⟨_, ⟨(v, j), List.mem_zipIdx_iff_getElem?.2 h1, rfl⟩, List.mem_map.2 ⟨r, List.mem_filter.2 ⟨by simp [h2, h3], by simp [h4]⟩, rfl⟩⟩

/-! ### The nodes of the search -/

/-- The edges of node `i` of the search, which is node `m + i` of the forest. -/
def dynaEdges (m : Nat) (lab : Nat → Nat) (i : Nat) : List (List Nat × LexVal R) :=
  if i = 0 then [([lab 0], .unary)] else if i = 1 then [([lab 1], .unary)]
  else if i % 2 = 0 then [([m + i - 2, lab (i / 2)], .binary), ([m + i - 1, lab ((i - 1) / 2)], .binary)]
  else [([m + i - 3, lab ((i + 1) / 2)], .binary)]

def dynaSpec (W : List (List (List Nat × LexVal R))) (lab : Nat → Nat) (i : Nat) : List (List (List Nat × LexVal R)) :=
  W ++ (List.range i).map (dynaEdges W.length lab)

theorem dynaSpec_succ (W : List (List (List Nat × LexVal R))) (lab : Nat → Nat) (i : Nat) : dynaSpec W lab (i + 1) = dynaSpec W lab i ++ [dynaEdges W.length lab i] := by
  simp [dynaSpec, List.range_succ]

theorem dynaSpec_length (W : List (List (List Nat × LexVal R))) (lab : Nat → Nat) (i : Nat) : (dynaSpec W lab i).length = W.length + i := by
  simp [dynaSpec]

/-- The map from numbers of the search to nodes. -/
def nlMap (m i : Nat) : Nat → Nat := fun k => if k < i then m + k else 0

theorem nlMap_succ (m i : Nat) : (fun k => if k = i then m + i else nlMap m i k) = nlMap m (i + 1) := by
  funext k
  unfold nlMap
  by_cases h : k = i
  · subst h; simp
  · rw [if_neg h]
    by_cases h2 : k < i
    · rw [if_pos h2, if_pos (by omega)]
    · rw [if_neg h2, if_neg (by omega)]

theorem dynaEdge_new (cat : Int) (label : Nat) (src : Option Nat) (i m : Nat) (g : Hypergraph (LexVal R)) (spec : List (List (List Nat × LexVal R))) (h : Shape g spec)
    (hl : spec.length = m + i) (hm : 0 < m) (hlab : label < m) (hs : ∀ k, src = some k → k < i) :
    ∃ g', dynaEdge cat label src i (g, nlMap m i) = some (g', nlMap m (i + 1)) ∧
      Shape g' (spec ++ [[match src with | none => ([label], LexVal.unary) | some k => ([m + k, label], LexVal.binary)]]) := by
  have h0 : nlMap m i i = 0 := by simp [nlMap]
  have hn : g.nodes.length = m + i := by rw [h.len, hl]
  unfold dynaEdge
  simp only [h0, if_true]
  cases src with
  | none =>
    refine ⟨_, by rw [hn, nlMap_succ], ?_⟩
    have := h.edgeNode cat LexVal.unary [label] (by simp; omega)
    rw [← hn]
    exact this
  | some k =>
    have hk := hs k rfl
    have e2 : (if k = i then m + i else nlMap m i k) = m + k := by rw [if_neg (by omega)]; unfold nlMap; rw [if_pos (by omega)]
    simp only [hn, e2]
    rw [if_neg (by omega)]
    refine ⟨_, by rw [nlMap_succ], ?_⟩
    have := h.edgeNode cat LexVal.binary [m + k, label] (by simp; omega)
    rw [← hn]
    exact this

theorem dynaEdge_old (cat : Int) (label k : Nat) (i m : Nat) (g : Hypergraph (LexVal R)) (spec : List (List (List Nat × LexVal R))) (l : List (List Nat × LexVal R)) (h : Shape g (spec ++ [l]))
    (hl : spec.length = m + i) (hm : 0 < m) (hlab : label < m) (hk : k < i) :
    ∃ g', dynaEdge cat label (some k) i (g, nlMap m (i + 1)) = some (g', nlMap m (i + 1)) ∧ Shape g' (spec ++ [l ++ [([m + k, label], LexVal.binary)]]) := by
  have h0 : nlMap m (i + 1) i = m + i := by simp [nlMap]
  unfold dynaEdge
  have h1 : ¬ nlMap m (i + 1) i = 0 := by omega
  have e2 : nlMap m (i + 1) k = m + k := by unfold nlMap; rw [if_pos (by omega)]
  simp only [h1, if_false, e2]
  rw [if_neg (by omega)]
  refine ⟨_, rfl, ?_⟩
  have := h.put LexVal.binary [m + k, label] spec.length (by simp; omega) (by simp)
  rw [modify_last] at this
  rw [h0, ← hl]
  exact this

theorem dynaStep_spec (E : LexEnv R) (words : List Int) (W : List (List (List Nat × LexVal R))) (hW : W.length = words.length) (hm : 0 < W.length) (i : Nat) (g : Hypergraph (LexVal R))
    (hr : (i + 1) / 2 < E.ref.length) (hw : ∀ w ∈ E.ref, w ∈ words) (h : Shape g (dynaSpec W (fun k => words.idxOf (E.ref.getD k 0)) i)) :
    ∃ g', dynaStep E words i (g, nlMap W.length i) = some (g', nlMap W.length (i + 1)) ∧ Shape g' (dynaSpec W (fun k => words.idxOf (E.ref.getD k 0)) (i + 1)) := by
  have hlab : ∀ k ≤ (i + 1) / 2, words.idxOf (E.ref.getD k 0) < W.length := by
    intro k hk
    rw [hW, List.idxOf_lt_length_iff]
    apply hw
    rw [List.getD_eq_getElem?_getD, List.getElem?_eq_getElem (by omega)]
    exact List.getElem_mem _
  have hlen := dynaSpec_length W (fun k => words.idxOf (E.ref.getD k 0)) i
  rw [dynaSpec_succ]
  generalize dynaSpec W (fun k => words.idxOf (E.ref.getD k 0)) i = spec at h hlen
  unfold dynaStep
  simp only []
  by_cases hi : i % 2 = 0
  · rw [if_pos hi]
    by_cases h0 : i = 0
    · subst h0
      obtain ⟨g', h1, h2⟩ := dynaEdge_new E.cat (words.idxOf (E.ref.getD 0 0)) none 0 W.length g spec h hlen hm (hlab 0 (by omega)) (by simp)
      refine ⟨g', ?_, by simpa [dynaEdges] using h2⟩
      simp only [Nat.zero_div, Nat.zero_lt_succ, if_true]
      rw [h1]
      rfl
    · obtain ⟨g1, h1, h2⟩ := dynaEdge_new E.cat (words.idxOf (E.ref.getD (i / 2) 0)) (some (i - 2)) i W.length g spec h hlen hm (hlab _ (by omega)) (by simp; omega)
      obtain ⟨g2, h3, h4⟩ := dynaEdge_old E.cat (words.idxOf (E.ref.getD ((i - 1) / 2) 0)) (i - 1) i W.length g1 spec _ h2 hlen hm (hlab _ (by omega)) (by omega)
      rw [if_neg (by omega : ¬ i < 2), h1]
      simp only [Option.bind_some]
      rw [if_neg (by omega : ¬ i ≤ 1), if_neg (by omega : ¬ i < 1), h3]
      refine ⟨g2, rfl, ?_⟩
      have e : dynaEdges (R := R) W.length (fun k => words.idxOf (E.ref.getD k 0)) i =
          [([W.length + (i - 2), words.idxOf (E.ref.getD (i / 2) 0)], LexVal.binary)] ++ [([W.length + (i - 1), words.idxOf (E.ref.getD ((i - 1) / 2) 0)], LexVal.binary)] := by
        unfold dynaEdges
        rw [if_neg h0, if_neg (by omega), if_pos hi, Nat.add_sub_assoc (by omega), Nat.add_sub_assoc (by omega)]
        rfl
      rw [e]
      exact h4
  · rw [if_neg hi]
    by_cases h1 : i = 1
    · subst h1
      obtain ⟨g', h1, h2⟩ := dynaEdge_new E.cat (words.idxOf (E.ref.getD 1 0)) none 1 W.length g spec h hlen hm (hlab 1 (by omega)) (by simp)
      refine ⟨g', ?_, by simpa [dynaEdges] using h2⟩
      simpa using h1
    · obtain ⟨g', h3, h2⟩ := dynaEdge_new E.cat (words.idxOf (E.ref.getD ((i + 1) / 2) 0)) (some (i - 3)) i W.length g spec h hlen hm (hlab _ (by omega)) (by simp; omega)
      rw [if_neg (by omega : ¬ i < 3), h3]
      refine ⟨g', rfl, ?_⟩
      have e : dynaEdges (R := R) W.length (fun k => words.idxOf (E.ref.getD k 0)) i = [([W.length + (i - 3), words.idxOf (E.ref.getD ((i + 1) / 2) 0)], LexVal.binary)] := by
        unfold dynaEdges
        rw [if_neg (by omega), if_neg (by omega), if_neg hi, Nat.add_sub_assoc (by omega)]
      rw [e]
      exact h2

theorem dynaLoop_spec (E : LexEnv R) (words : List Int) (W : List (List (List Nat × LexVal R))) (hW : W.length = words.length) (hm : 0 < W.length) (g : Hypergraph (LexVal R))
    (hw : ∀ w ∈ E.ref, w ∈ words) (h : Shape g W) : ∀ i, i ≤ E.ref.length * 2 - 1 →
    ∃ g', dynaLoop E words g i = some (g', nlMap W.length i) ∧ Shape g' (dynaSpec W (fun k => words.idxOf (E.ref.getD k 0)) i)
  | 0, _ => ⟨g, by rw [dynaLoop]; congr 2, by simpa [dynaSpec] using h⟩
  | i + 1, hi => by
    obtain ⟨g1, h1, h2⟩ := dynaLoop_spec E words W hW hm g hw h i (by omega)
    obtain ⟨g2, h3, h4⟩ := dynaStep_spec E words W hW hm i g1 (by omega) hw h2
    exact ⟨g2, by rw [dynaLoop, h1]; exact h3, h4⟩

/-! ### What the nodes stand for -/

/-- The orders of node `i`. -/
def NodeOrder (i : Nat) (p : List Nat) : Prop :=
  if i % 2 = 0 then SwapOrder (i / 2 + 1) p else ∃ q, SwapOrder (i / 2) q ∧ p = q ++ [i / 2 + 1]

theorem swapOrder_length {n : Nat} {p : List Nat} (h : SwapOrder n p) : p.length = n := by
  induction h with
  | nil => rfl
  | keep _ ih => simp [ih]
  | swap _ ih => simp [ih]

theorem swapOrder_lt {n : Nat} {p : List Nat} (h : SwapOrder n p) : ∀ k ∈ p, k < n := by
  induction h with
  | nil => simp
  | keep _ ih =>
    intro k hk
    rcases List.mem_append.1 hk with hk | hk
    · have := ih k hk; omega
    · simp at hk; omega
  | swap _ ih =>
    intro k hk
    rcases List.mem_append.1 hk with hk | hk
    · have := ih k hk; omega
    · simp at hk; omega

theorem swapOrder_zero {p : List Nat} (h : SwapOrder 0 p) : p = [] := List.length_eq_zero_iff.1 (swapOrder_length h)

theorem swapOrder_succ {n : Nat} {p : List Nat} : SwapOrder (n + 1) p ↔ (∃ q, SwapOrder n q ∧ p = q ++ [n]) ∨ ∃ m q, n = m + 1 ∧ SwapOrder m q ∧ p = q ++ [n, m] := by
  constructor
  · intro h
    cases h with
    | keep h => exact .inl ⟨_, h, rfl⟩
    | swap h => exact .inr ⟨_, _, rfl, h, rfl⟩
  · rintro (⟨q, h, rfl⟩ | ⟨m, q, rfl, h, rfl⟩)
    · exact .keep h
    · exact .swap h

theorem nodeOrder_zero {p : List Nat} : NodeOrder 0 p ↔ p = [0] := by
  unfold NodeOrder
  simp only [Nat.zero_mod, if_true, Nat.zero_div, Nat.zero_add]
  rw [swapOrder_succ]
  constructor
  · rintro (⟨q, h, rfl⟩ | ⟨m, q, h, _⟩)
    · rw [swapOrder_zero h]; rfl
    · omega
  · rintro rfl; exact .inl ⟨[], .nil, rfl⟩

theorem nodeOrder_one {p : List Nat} : NodeOrder 1 p ↔ p = [1] := by
  unfold NodeOrder
  simp only [Nat.one_mod, if_neg (by omega : ¬ 1 % 2 = 0)]
  constructor
  · rintro ⟨q, h, rfl⟩
    rw [swapOrder_zero h]; rfl
  · rintro rfl; exact ⟨[], .nil, rfl⟩

theorem nodeOrder_even {i : Nat} (h2 : 2 ≤ i) (he : i % 2 = 0) {p : List Nat} :
    NodeOrder i p ↔ (∃ q, NodeOrder (i - 2) q ∧ p = q ++ [i / 2]) ∨ ∃ q, NodeOrder (i - 1) q ∧ p = q ++ [(i - 1) / 2] := by
  unfold NodeOrder
  simp only [he, show (i - 2) % 2 = 0 by omega, show ¬ (i - 1) % 2 = 0 by omega, if_true, if_false, show (i - 2) / 2 + 1 = i / 2 by omega]
  rw [swapOrder_succ]
  have e : (i - 1) / 2 + 1 = i / 2 := by omega
  constructor
  · rintro (h | ⟨m, q, hm, h, rfl⟩)
    · exact .inl h
    · have : m = (i - 1) / 2 := by omega
      subst this
      exact .inr ⟨q ++ [(i - 1) / 2 + 1], ⟨q, h, rfl⟩, by simp [e]⟩
  · rintro (h | ⟨_, ⟨q, h, rfl⟩, rfl⟩)
    · exact .inl h
    · exact .inr ⟨(i - 1) / 2, q, e.symm, h, by simp [e]⟩

theorem nodeOrder_odd {i : Nat} (h2 : 3 ≤ i) (he : ¬ i % 2 = 0) {p : List Nat} : NodeOrder i p ↔ ∃ q, NodeOrder (i - 3) q ∧ p = q ++ [(i + 1) / 2] := by
  unfold NodeOrder
  simp only [he, show (i - 3) % 2 = 0 by omega, if_true, if_false, show (i - 3) / 2 + 1 = i / 2 by omega, show (i + 1) / 2 = i / 2 + 1 by omega]

theorem nodeOrder_ne {i : Nat} {p : List Nat} (h : NodeOrder i p) : p ≠ [] := by
  unfold NodeOrder at h
  split at h
  · have := swapOrder_length h
    intro e; subst e; simp at this
  · obtain ⟨q, _, rfl⟩ := h
    simp

section Nodes
variable (E : LexEnv R) (words : List Int)

/-- The word node of reference position `k`. -/
def LexEnv.lab (E : LexEnv R) (words : List Int) (k : Nat) : Nat := words.idxOf (E.ref.getD k 0)

/-- The edges of all the word nodes. -/
def LexEnv.wordSpec (E : LexEnv R) (words : List Int) : List (List (List Nat × LexVal R)) := words.map (E.wordLeaves E.src.zipIdx)

theorem lab_lt (hw : ∀ w ∈ E.ref, w ∈ words) {k : Nat} (hk : k < E.ref.length) : E.lab words k < words.length := by
  unfold LexEnv.lab
  rw [List.idxOf_lt_length_iff]
  apply hw
  rw [List.getD_eq_getElem?_getD, List.getElem?_eq_getElem hk]
  exact List.getElem_mem _

theorem dynaSpec_word (n v : Nat) (hv : v < words.length) : (dynaSpec (E.wordSpec words) (E.lab words) n).getD v [] = E.wordLeaves E.src.zipIdx words[v] := by
  unfold dynaSpec
  rw [getD_append_left' _ _ _ (by simpa [LexEnv.wordSpec] using hv), List.getD_eq_getElem?_getD, LexEnv.wordSpec, List.getElem?_map, List.getElem?_eq_getElem hv]
  rfl

theorem dynaSpec_node (n i : Nat) (hi : i < n) : (dynaSpec (E.wordSpec words) (E.lab words) n).getD (words.length + i) [] = dynaEdges words.length (E.lab words) i := by
  have hl : (E.wordSpec words).length = words.length := by simp [LexEnv.wordSpec]
  unfold dynaSpec
  rw [List.getD_eq_getElem?_getD, List.getElem?_append_right (by omega), hl, Nat.add_sub_cancel_left, List.getElem?_map, List.getElem?_range hi]
  rfl

theorem wordLeaves_tails (w : Int) : ∀ a ∈ E.wordLeaves E.src.zipIdx w, a.1 = [] := by
  intro a ha
  unfold LexEnv.wordLeaves at ha
  simp only [List.mem_flatten, List.mem_map] at ha
  obtain ⟨_, ⟨x, _, rfl⟩, hx⟩ := ha
  obtain ⟨r, _, rfl⟩ := List.mem_map.1 hx
  rfl

theorem dynaEdges_lt (hw : ∀ w ∈ E.ref, w ∈ words) (i : Nat) (hi : (i + 1) / 2 < E.ref.length) : ∀ a ∈ dynaEdges (R := R) words.length (E.lab words) i, ∀ t ∈ a.1, t < words.length + i := by
  have hl := fun k (hk : k ≤ (i + 1) / 2) => lab_lt E words hw (k := k) (by omega)
  intro a ha t ht
  unfold dynaEdges at ha
  split at ha
  · simp only [List.mem_singleton] at ha
    subst ha
    simp only [List.mem_singleton] at ht
    have := hl 0 (by omega)
    omega
  · split at ha
    · simp only [List.mem_singleton] at ha
      subst ha
      simp only [List.mem_singleton] at ht
      have := hl 1 (by omega)
      omega
    · split at ha
      · simp only [List.mem_cons, List.not_mem_nil, or_false] at ha
        have h1 := hl (i / 2) (by omega)
        have h2 := hl ((i - 1) / 2) (by omega)
        rcases ha with rfl | rfl
        · simp only [List.mem_cons, List.not_mem_nil, or_false] at ht
          omega
        · simp only [List.mem_cons, List.not_mem_nil, or_false] at ht
          omega
      · simp only [List.mem_singleton] at ha
        subst ha
        simp only [List.mem_cons, List.not_mem_nil, or_false] at ht
        have h1 := hl ((i + 1) / 2) (by omega)
        omega

theorem dyna_topo (hw : ∀ w ∈ E.ref, w ∈ words) : ∀ n, n ≤ E.ref.length * 2 - 1 → Topo (dynaSpec (E.wordSpec words) (E.lab words) n)
  | 0, _ => by
    intro v a ha t ht
    by_cases hv : v < words.length
    · rw [dynaSpec_word E words 0 v hv] at ha
      rw [wordLeaves_tails E _ a ha] at ht
      cases ht
    · rw [List.getD_eq_getElem?_getD, List.getElem?_eq_none (by rw [dynaSpec_length]; simp [LexEnv.wordSpec]; omega)] at ha
      cases ha
  | n + 1, hn => by
    rw [dynaSpec_succ]
    refine topo_snoc (dyna_topo hw n (by omega)) _ ?_
    rw [dynaSpec_length]
    have hl : (E.wordSpec words).length = words.length := by simp [LexEnv.wordSpec]
    rw [hl]
    exact dynaEdges_lt E words hw n (by omega)

theorem word_lang (hw : ∀ w ∈ E.ref, w ∈ words) (n k : Nat) (hk : k < E.ref.length) (t : LTree (LexVal R)) :
    Lang (dynaSpec (E.wordSpec words) (E.lab words) n) (E.lab words k) t ↔ ∃ x, E.Makes x k ∧ t = .node x [] := by
  obtain ⟨x, ch⟩ := t
  have hl := lab_lt E words hw hk
  rw [lang_iff, dynaSpec_word E words n _ hl]
  have e : E.ref[k]? = some (words[E.lab words k]) := by
    have : words[E.lab words k] = E.ref.getD k 0 := List.getElem_idxOf hl
    rw [this, List.getD_eq_getElem?_getD, List.getElem?_eq_getElem hk]
    rfl
  simp only [mem_wordLeaves E _ k e]
  constructor
  · rintro ⟨ts, ⟨rfl, h⟩, h2⟩
    cases h2
    exact ⟨x, h, rfl⟩
  · rintro ⟨y, h, e⟩
    cases e
    exact ⟨[], ⟨rfl, h⟩, .nil⟩

theorem makes_snoc {xs : List (LexVal R)} {q : List Nat} {k : Nat} : List.Forall₂ E.Makes xs (q ++ [k]) ↔ ∃ ys y, xs = ys ++ [y] ∧ List.Forall₂ E.Makes ys q ∧ E.Makes y k := by
  constructor
  · intro h
    obtain ⟨ys, zs, hy, hz, rfl⟩ : ∃ ys zs, List.Forall₂ E.Makes ys q ∧ List.Forall₂ E.Makes zs [k] ∧ xs = ys ++ zs :=
      ⟨_, _, List.forall₂_take_append _ _ _ h, List.forall₂_drop_append _ _ _ h, (List.take_append_drop _ _).symm⟩
    cases hz with
    | cons h1 h2 => cases h2; exact ⟨ys, _, rfl, hy, h1⟩
  · rintro ⟨ys, y, rfl, h1, h2⟩
    exact List.rel_append h1 (.cons h2 .nil)

/-- The trees of an order. -/
def LexEnv.Trees (E : LexEnv R) (P : List Nat → Prop) (t : LTree (LexVal R)) : Prop := ∃ p xs, P p ∧ List.Forall₂ E.Makes xs p ∧ swapTree xs = some t

theorem trees_one (k : Nat) (t : LTree (LexVal R)) : E.Trees (· = [k]) t ↔ ∃ x, E.Makes x k ∧ t = .node .unary [.node x []] := by
  constructor
  · rintro ⟨p, xs, rfl, h, ht⟩
    cases h with
    | cons h1 h2 =>
      cases h2
      simp only [swapTree, List.foldl_nil, Option.some.injEq] at ht
      exact ⟨_, h1, ht.symm⟩
  · rintro ⟨x, h, rfl⟩
    exact ⟨[k], [x], rfl, .cons h .nil, rfl⟩

theorem trees_snoc (P : List Nat → Prop) (hP : ∀ p, P p → p ≠ []) (k : Nat) (t : LTree (LexVal R)) :
    E.Trees (fun p => ∃ q, P q ∧ p = q ++ [k]) t ↔ ∃ u x, E.Trees P u ∧ E.Makes x k ∧ t = .node .binary [u, .node x []] := by
  constructor
  · rintro ⟨p, xs, ⟨q, hq, rfl⟩, h, ht⟩
    obtain ⟨ys, y, rfl, h1, h2⟩ := (makes_snoc E).1 h
    obtain ⟨u, hu⟩ : ∃ u, swapTree ys = some u := by
      cases ys with
      | nil => cases h1; exact absurd rfl (hP _ hq)
      | cons a b => exact ⟨_, rfl⟩
    rw [swapTree_snoc _ _ _ hu, Option.some.injEq] at ht
    exact ⟨u, y, ⟨q, ys, hq, h1, hu⟩, h2, ht.symm⟩
  · rintro ⟨u, x, ⟨q, ys, hq, h1, hu⟩, h2, rfl⟩
    exact ⟨q ++ [k], ys ++ [x], ⟨q, hq, rfl⟩, (makes_snoc E).2 ⟨ys, x, rfl, h1, h2⟩, swapTree_snoc _ _ _ hu⟩

theorem trees_congr {P Q : List Nat → Prop} (h : ∀ p, P p ↔ Q p) (t : LTree (LexVal R)) : E.Trees P t ↔ E.Trees Q t := by
  unfold LexEnv.Trees
  constructor
  · rintro ⟨p, xs, h1, h2⟩; exact ⟨p, xs, (h p).1 h1, h2⟩
  · rintro ⟨p, xs, h1, h2⟩; exact ⟨p, xs, (h p).2 h1, h2⟩

theorem trees_or (P Q : List Nat → Prop) (t : LTree (LexVal R)) : E.Trees (fun p => P p ∨ Q p) t ↔ E.Trees P t ∨ E.Trees Q t := by
  constructor
  · rintro ⟨p, xs, h1 | h1, h2⟩
    · exact .inl ⟨p, xs, h1, h2⟩
    · exact .inr ⟨p, xs, h1, h2⟩
  · rintro (⟨p, xs, h1, h2⟩ | ⟨p, xs, h1, h2⟩)
    · exact ⟨p, xs, .inl h1, h2⟩
    · exact ⟨p, xs, .inr h1, h2⟩

theorem node_lang (hw : ∀ w ∈ E.ref, w ∈ words) (n : Nat) (hn : n ≤ E.ref.length * 2 - 1) : ∀ i < n, ∀ t,
    Lang (dynaSpec (E.wordSpec words) (E.lab words) n) (words.length + i) t ↔ E.Trees (NodeOrder i) t := by
  intro i
  induction i using Nat.strongRecOn with
  | ind i ih =>
    intro hi t
    have wl := fun k (hk : k ≤ (i + 1) / 2) => word_lang E words hw n k (by omega)
    obtain ⟨y, ch⟩ := t
    rw [lang_iff, dynaSpec_node E words n i hi]
    by_cases h0 : i = 0
    · subst h0
      rw [trees_congr E (fun p => nodeOrder_zero (p := p)), trees_one]
      simp only [dynaEdges, if_true, List.mem_singleton, Prod.mk.injEq]
      constructor
      · rintro ⟨ts, ⟨rfl, rfl⟩, h⟩
        obtain ⟨u, rfl, hu⟩ := forall2_one.1 h
        obtain ⟨x, hx, rfl⟩ := (wl 0 (by omega) u).1 hu
        exact ⟨x, hx, rfl⟩
      · rintro ⟨x, hx, e⟩
        cases e
        exact ⟨_, ⟨rfl, rfl⟩, forall2_one.2 ⟨_, rfl, (wl 0 (by omega) _).2 ⟨x, hx, rfl⟩⟩⟩
    · by_cases h1 : i = 1
      · subst h1
        rw [trees_congr E (fun p => nodeOrder_one (p := p)), trees_one]
        simp only [dynaEdges, if_true, List.mem_singleton, Prod.mk.injEq, Nat.one_ne_zero, if_false]
        constructor
        · rintro ⟨ts, ⟨rfl, rfl⟩, h⟩
          obtain ⟨u, rfl, hu⟩ := forall2_one.1 h
          obtain ⟨x, hx, rfl⟩ := (wl 1 (by omega) u).1 hu
          exact ⟨x, hx, rfl⟩
        · rintro ⟨x, hx, e⟩
          cases e
          exact ⟨_, ⟨rfl, rfl⟩, forall2_one.2 ⟨_, rfl, (wl 1 (by omega) _).2 ⟨x, hx, rfl⟩⟩⟩
      · -- a binary edge over an earlier node and a word
        have bin : ∀ j k, j < i → k ≤ (i + 1) / 2 → ∀ ts, ts = [words.length + j, E.lab words k] →
            ((y = LexVal.binary ∧ List.Forall₂ (Lang (dynaSpec (E.wordSpec words) (E.lab words) n)) ts ch) ↔
              E.Trees (fun p => ∃ q, NodeOrder j q ∧ p = q ++ [k]) (.node y ch)) := by
          intro j k hj hk ts hts
          subst hts
          rw [trees_snoc E _ (fun p hp => nodeOrder_ne hp), forall2_two]
          constructor
          · rintro ⟨rfl, u, u', rfl, h2, h3⟩
            obtain ⟨x, hx, rfl⟩ := (wl k hk u').1 h3
            exact ⟨u, x, (ih j hj (by omega) u).1 h2, hx, rfl⟩
          · rintro ⟨u, x, h2, h3, e⟩
            cases e
            exact ⟨rfl, u, _, rfl, (ih j hj (by omega) u).2 h2, (wl k hk _).2 ⟨x, h3, rfl⟩⟩
        by_cases he : i % 2 = 0
        · rw [trees_congr E (fun p => nodeOrder_even (by omega) he (p := p)), trees_or,
            ← bin (i - 2) (i / 2) (by omega) (by omega) [words.length + i - 2, E.lab words (i / 2)] (by rw [Nat.add_sub_assoc (by omega)]),
            ← bin (i - 1) ((i - 1) / 2) (by omega) (by omega) [words.length + i - 1, E.lab words ((i - 1) / 2)] (by rw [Nat.add_sub_assoc (by omega)])]
          simp only [dynaEdges, h0, h1, he, if_true, if_false, List.mem_cons, List.not_mem_nil, or_false, Prod.mk.injEq]
          constructor
          · rintro ⟨ts, ⟨rfl, rfl⟩ | ⟨rfl, rfl⟩, h⟩
            · exact .inl ⟨rfl, h⟩
            · exact .inr ⟨rfl, h⟩
          · rintro (⟨rfl, h⟩ | ⟨rfl, h⟩)
            · exact ⟨_, .inl ⟨rfl, rfl⟩, h⟩
            · exact ⟨_, .inr ⟨rfl, rfl⟩, h⟩
        · rw [trees_congr E (fun p => nodeOrder_odd (by omega) he (p := p)),
            ← bin (i - 3) ((i + 1) / 2) (by omega) (by omega) [words.length + i - 3, E.lab words ((i + 1) / 2)] (by rw [Nat.add_sub_assoc (by omega)])]
          simp only [dynaEdges, h0, h1, he, if_false, List.mem_cons, List.not_mem_nil, or_false, Prod.mk.injEq]
          constructor
          · rintro ⟨ts, ⟨rfl, rfl⟩, h⟩
            exact ⟨rfl, h⟩
          · rintro ⟨rfl, h⟩
            exact ⟨_, ⟨rfl, rfl⟩, h⟩

end Nodes

/-- When every source word has rules, the derivations are exactly those of the words of the reference in an order with disjoint neighbours swapped, each word produced by a
rule for some source word. -/
theorem C78_swaps (E : LexEnv R) (hne : E.ref ≠ []) (hall : ∀ w ∈ E.src, (E.rules w).isSome) : ∃ g, dynaTrellis E = some (some g) ∧ WF g ∧ 0 < g.nodes.length ∧
    ∀ s, (∃ T, IsDeriv g g.goal T ∧ Shows g T s) ↔ ∃ p xs t, SwapOrder E.ref.length p ∧ List.Forall₂ E.Makes xs p ∧ swapTree xs = some t ∧ s = .node .goal [t] := by
  have hr := List.length_pos_iff.2 hne
  obtain ⟨hnd, hmem, hsh⟩ := dynaWords_spec (R := R) E.cat E.ref
  unfold dynaTrellis
  rw [if_neg hne]
  simp only []
  generalize dynaWords (R := R) E.cat E.ref = w at hnd hmem hsh
  obtain ⟨words, g0⟩ := w
  simp only [] at hnd hmem hsh ⊢
  have hpos : 0 < words.length := by
    obtain ⟨a, ha⟩ := List.exists_mem_of_ne_nil _ hne
    exact List.length_pos_of_mem ((hmem a).2 ha)
  obtain ⟨g1, h1, h2⟩ := dynaLex_fold E words hnd E.src.zipIdx g0 (fun _ => []) hsh (fun x hx => hall x.1 (List.mem_of_getElem? (List.mem_zipIdx_iff_getElem?.1 hx)))
  have e1 : dynaLex E words g0 = some g1 := h1
  rw [e1]
  simp only []
  have h2' : Shape g1 (E.wordSpec words) := by simpa [LexEnv.wordSpec] using h2
  have hl : (E.wordSpec words).length = words.length := by simp [LexEnv.wordSpec]
  obtain ⟨g2, h3, h4⟩ := dynaLoop_spec E words (E.wordSpec words) hl (by omega) g1 (fun w hw => (hmem w).2 hw) h2' (E.ref.length * 2 - 1) (Nat.le_refl _)
  rw [h3]
  simp only []
  have hw := fun w hw => (hmem w).2 hw
  have ht := dyna_topo E words hw (E.ref.length * 2 - 1) (Nat.le_refl _)
  have hlen := dynaSpec_length (E.wordSpec words) (E.lab words) (E.ref.length * 2 - 1)
  obtain ⟨g', f1, _, f3, _, f5, f6⟩ := Shape.final (spec := dynaSpec (E.wordSpec words) (E.lab words) (E.ref.length * 2 - 1)) h4 ht
    (by intro e; rw [e] at hlen; simp at hlen; omega) E.goalCat .goal
  rw [f1]
  refine ⟨g', rfl, f3, f5, ?_⟩
  intro s
  rw [f6]
  have e2 : (dynaSpec (E.wordSpec words) (E.lab words) (E.ref.length * 2 - 1)).length - 1 = words.length + (E.ref.length * 2 - 2) := by omega
  rw [e2]
  have e3 : ∀ p, NodeOrder (E.ref.length * 2 - 2) p ↔ SwapOrder E.ref.length p := by
    intro p
    unfold NodeOrder
    rw [if_pos (by omega), show (E.ref.length * 2 - 2) / 2 + 1 = E.ref.length by omega]
  constructor
  · rintro ⟨t, h, rfl⟩
    rw [node_lang E words hw _ (Nat.le_refl _) _ (by omega), trees_congr E e3] at h
    obtain ⟨p, xs, a, b, c⟩ := h
    exact ⟨p, xs, t, a, b, c, rfl⟩
  · rintro ⟨p, xs, t, a, b, c, rfl⟩
    refine ⟨t, ?_, rfl⟩
    rw [node_lang E words hw _ (Nat.le_refl _) _ (by omega), trees_congr E e3]
    exact ⟨p, xs, a, b, c⟩

/-- It gives up exactly if some source word has no rules. -/
theorem C78_gives_up (E : LexEnv R) (hne : E.ref ≠ []) : dynaTrellis E = some none ↔ ∃ w ∈ E.src, E.rules w = none := by
  constructor
  · intro h
    by_contra hc
    obtain ⟨g, h1, _⟩ := C78_swaps E hne fun w hw => by
      cases hr : E.rules w with
      | none => exact absurd ⟨w, hw, hr⟩ hc
      | some rs => rfl
    rw [h1] at h
    cases h
  · rintro ⟨w, hw, hr⟩
    obtain ⟨j, hj⟩ := List.mem_iff_getElem?.1 hw
    unfold dynaTrellis
    rw [if_neg hne]
    simp only []
    have : dynaLex E (dynaWords (R := R) E.cat E.ref).1 (dynaWords (R := R) E.cat E.ref).2 = none :=
      dynaLex_none E _ _ _ (.inr ⟨(w, j), List.mem_zipIdx_iff_getElem?.2 hj, hr⟩)
    rw [this]

theorem swapOrder_moves {n : Nat} {p : List Nat} (h : SwapOrder n p) : p.Perm (List.range n) ∧ ∀ i k, p[i]? = some k → k ≤ i + 1 ∧ i ≤ k + 1 := by
  induction h with
  | nil => simp
  | @keep n p h ih =>
    refine ⟨by rw [List.range_succ]; exact ih.1.append_right _, ?_⟩
    intro i k hk
    have hl := swapOrder_length h
    rw [List.getElem?_append] at hk
    split at hk
    · exact ih.2 i k hk
    · rename_i hi
      cases hd : i - p.length with
      | zero => rw [hd] at hk; simp at hk; omega
      | succ d => rw [hd] at hk; simp at hk
  | @swap n p h ih =>
    refine ⟨?_, ?_⟩
    · rw [List.range_succ, List.range_succ, List.append_assoc]
      refine ih.1.append ?_
      exact List.Perm.swap _ _ _
    · intro i k hk
      have hl := swapOrder_length h
      rw [List.getElem?_append] at hk
      split at hk
      · exact ih.2 i k hk
      · rename_i hi
        cases hd : i - p.length with
        | zero => rw [hd] at hk; simp at hk; omega
        | succ d =>
          cases d with
          | zero => rw [hd] at hk; simp at hk; omega
          | succ d => rw [hd] at hk; simp at hk

theorem moves_swapOrder (n : Nat) : ∀ p : List Nat, p.Perm (List.range n) → (∀ i k, p[i]? = some k → k ≤ i + 1 ∧ i ≤ k + 1) → SwapOrder n p := by
  induction n using Nat.strongRecOn with
  | ind n ih =>
    intro p hp hm
    cases n with
    | zero =>
      have : p = [] := by simpa using hp
      subst this
      exact .nil
    | succ n =>
      have hl : p.length = n + 1 := by simpa using hp.length_eq
      have hlt : ∀ k ∈ p, k < n + 1 := fun k hk => List.mem_range.1 (hp.mem_iff.1 hk)
      obtain ⟨q, x, rfl⟩ : ∃ q x, p = q ++ [x] :=
        ⟨p.dropLast, p.getLast (by intro h; subst h; simp at hl), (List.dropLast_append_getLast _).symm⟩
      have hq : q.length = n := by simpa using hl
      have hx := hm n x (by rw [← hq]; simp)
      have hx' := hlt x (by simp)
      by_cases hxn : x = n
      · subst hxn
        refine .keep (ih x (by omega) q ?_ ?_)
        · rw [List.range_succ] at hp
          exact (List.perm_append_right_iff _).1 hp
        · intro i k hk
          refine hm i k ?_
          rw [List.getElem?_append_left (by exact (List.getElem?_eq_some_iff.1 hk).1)]
          exact hk
      · have hx2 : x + 1 = n := by omega
        obtain ⟨m, rfl⟩ : ∃ m, n = m + 1 := ⟨n - 1, by omega⟩
        have : x = m := by omega
        subst this
        -- the last position is found just before
        have hmem : x + 1 ∈ q ++ [x] := hp.mem_iff.2 (by simp)
        obtain ⟨i, hi⟩ := List.mem_iff_getElem?.1 hmem
        have hi1 := hm i _ hi
        have hi2 := (List.getElem?_eq_some_iff.1 hi).1
        have hi3 : i ≠ x + 1 := by
          rintro rfl
          rw [← hq] at hi
          simp at hi
          omega
        have hi4 : i = x := by simp at hi2; omega
        subst hi4
        obtain ⟨q', y, rfl⟩ : ∃ q' y, q = q' ++ [y] :=
          ⟨q.dropLast, q.getLast (by intro h; subst h; simp at hq), (List.dropLast_append_getLast _).symm⟩
        have hq' : q'.length = i := by simpa using hq
        have hy : y = i + 1 := by
          rw [List.getElem?_append_left (by simp [hq']), ← hq'] at hi
          simp at hi
          omega
        subst hy
        rw [List.append_assoc]
        refine .swap (ih i (by omega) q' ?_ ?_)
        · rw [List.range_succ, List.range_succ, List.append_assoc, List.append_assoc] at hp
          have : (q' ++ ([i + 1] ++ [i])).Perm (q' ++ ([i] ++ [i + 1])) := List.Perm.append_left _ (List.Perm.swap _ _ _)
          exact (List.perm_append_right_iff _).1 (this.symm.trans hp)
        · intro j k hk
          refine hm j k ?_
          rw [List.append_assoc, List.getElem?_append_left (by exact (List.getElem?_eq_some_iff.1 hk).1)]
          exact hk

/-- The orders are exactly those of all the positions in which none is moved by more than one place. -/
theorem C78_orders (n : Nat) (p : List Nat) : SwapOrder n p ↔ p.Perm (List.range n) ∧ ∀ i k, p[i]? = some k → k ≤ i + 1 ∧ i ≤ k + 1 :=
  ⟨swapOrder_moves, fun h => moves_swapOrder n p h.1 h.2⟩

/-- On an empty reference the assertion fails. -/
theorem C78_empty_fails (E : LexEnv R) (h : E.ref = []) : dynaTrellis E = none := by
  unfold dynaTrellis
  rw [if_pos h]

/-- Non-vacuity. -/
example : SwapOrder 3 [1, 0, 2] := .keep (.swap .nil)
example : exampleLex.Makes (.word 1 12) 1 ∧ exampleLex.ref ≠ [] ∧ ∀ w ∈ exampleLex.src, (exampleLex.rules w).isSome :=
  ⟨⟨1, 12, 2, [12], rfl, rfl, rfl, by decide, rfl⟩, by decide, by decide⟩

end Cdec.Dec
