import Verif.Decoder.ForestShape
/-! The forest of the compound splitter, from the edges of each of its positions. -/
namespace Cdec.Dec
open Cdec.HG
open Cdec.Dec.Parser.Spec (LTree Shows)

/-- The positions that have a node, in the order of the nodes. -/
def positions (n : Nat) : List Nat := 0 :: List.range' minSize (maxSplit n - minSize) ++ [n]

theorem maxSplit_eq (n : Nat) : maxSplit n = max (n - 2) 1 := by
  unfold maxSplit minSize
  omega

theorem mem_positions (n k : Nat) : k ∈ positions n ↔ k = 0 ∨ k = n ∨ 3 ≤ k ∧ k + 3 ≤ n := by
  unfold positions
  rw [List.mem_append, List.mem_cons, List.mem_range', maxSplit_eq]
  simp only [List.mem_singleton, minSize]
  constructor
  · rintro ((rfl | ⟨i, h1, rfl⟩) | rfl)
    · simp
    · right; right; omega
    · simp
  · rintro (rfl | rfl | h)
    · simp
    · simp
    · left; right; exact ⟨k - 3, by omega, by omega⟩

theorem positions_sorted (n : Nat) (hn : n ≠ 0) : (positions n).Pairwise (· < ·) := by
  unfold positions
  rw [List.pairwise_append, List.pairwise_cons]
  refine ⟨⟨?_, List.pairwise_lt_range'⟩, by simp, ?_⟩
  · intro a ha
    rw [List.mem_range'] at ha
    obtain ⟨i, _, rfl⟩ := ha
    simp only [minSize]
    omega
  · intro a ha b hb
    rw [List.mem_singleton] at hb
    subst hb
    rcases List.mem_cons.1 ha with rfl | ha
    · omega
    · rw [List.mem_range', maxSplit_eq] at ha
      obtain ⟨i, h, rfl⟩ := ha
      simp only [minSize] at h ⊢
      omega

theorem sorted_nodup {l : List Nat} (h : l.Pairwise (· < ·)) : l.Nodup := h.imp fun h => by omega

theorem idxOf_lt_iff {l : List Nat} (hs : l.Pairwise (· < ·)) {a b : Nat} (ha : a ∈ l) (hb : b ∈ l) : l.idxOf a < l.idxOf b ↔ a < b := by
  have h1 := List.idxOf_lt_length_iff.2 ha
  have h2 := List.idxOf_lt_length_iff.2 hb
  have e1 : l[l.idxOf a] = a := List.getElem_idxOf h1
  have e2 : l[l.idxOf b] = b := List.getElem_idxOf h2
  rw [List.pairwise_iff_getElem] at hs
  constructor
  · intro h
    have := hs _ _ h1 h2 h
    omega
  · intro h
    by_contra hc
    rcases Nat.lt_or_ge (l.idxOf b) (l.idxOf a) with h3 | h3
    · have := hs _ _ h2 h1 h3
      omega
    · have : l.idxOf a = l.idxOf b := by omega
      have e3 : l[l.idxOf a] = l[l.idxOf b] := by congr 1
      omega

/-- `nodes` and the forest before the parts. -/
theorem splitNodes_spec (cat : Int) (n : Nat) (hn : n ≠ 0) : (∀ k, (splitNodes cat n).1 k = if k ∈ positions n then some ((positions n).idxOf k) else none) ∧
    Shape (splitNodes cat n).2 ((positions n).map fun k => if k = 0 then [([], SplitVal.wordBreak)] else []) := by
  have step : ∀ (l : List Nat) (P : List Nat) (s : (Nat → Option Nat) × Hypergraph SplitVal), (P ++ l).Nodup → (∀ k ∈ l, k ≠ 0) →
      ((∀ k, s.1 k = if k ∈ P then some (P.idxOf k) else none) ∧ Shape s.2 (P.map fun k => if k = 0 then [([], SplitVal.wordBreak)] else [])) →
      (∀ k, (l.foldl (fun (s : (Nat → Option Nat) × Hypergraph SplitVal) i => (fun k => if k = i then some s.2.nodes.length else s.1 k, addNode s.2 cat)) s).1 k =
          if k ∈ P ++ l then some ((P ++ l).idxOf k) else none) ∧
        Shape (l.foldl (fun (s : (Nat → Option Nat) × Hypergraph SplitVal) i => (fun k => if k = i then some s.2.nodes.length else s.1 k, addNode s.2 cat)) s).2
          ((P ++ l).map fun k => if k = 0 then [([], SplitVal.wordBreak)] else []) := by
    intro l
    induction l with
    | nil => intro P s _ _ h; simpa using h
    | cons i l ih =>
      intro P s hnd h0 ⟨h1, h2⟩
      rw [List.foldl_cons]
      have e : P ++ i :: l = (P ++ [i]) ++ l := by simp
      rw [e] at hnd ⊢
      refine ih (P ++ [i]) _ hnd (fun k hk => h0 k (by simp [hk])) ⟨?_, ?_⟩
      · intro k
        have hiP : i ∉ P := by
          have := (List.nodup_append.1 (List.nodup_append.1 hnd).1).2.2
          intro hi
          exact this i hi i (by simp) rfl
        have hlen : s.2.nodes.length = P.length := by rw [h2.len]; simp
        simp only []
        by_cases hk : k = i
        · subst hk
          rw [if_pos rfl, if_pos (by simp), hlen, List.idxOf_append_of_notMem hiP]
          simp
        · rw [if_neg hk, h1]
          by_cases hkP : k ∈ P
          · rw [if_pos hkP, if_pos (by simp [hkP]), List.idxOf_append_of_mem hkP]
          · rw [if_neg hkP, if_neg (by simp [hkP, hk])]
      · have := h2.addNode cat
        rw [List.map_append]
        have h3 : i ≠ 0 := h0 i (by simp)
        simpa [h3] using this
  have base : (∀ k, (fun k => if k = 0 then some 0 else none : Nat → Option Nat) k = if k ∈ [0] then some (([0] : List Nat).idxOf k) else none) ∧
      Shape (put (addNode empty cat) SplitVal.wordBreak [] 0) (([0] : List Nat).map fun k => if k = 0 then [([], SplitVal.wordBreak)] else []) := by
    refine ⟨?_, ?_⟩
    · intro k
      by_cases hk : k = 0
      · subst hk; simp
      · simp [hk]
    · exact (shape_empty (α := SplitVal)).edgeNode cat SplitVal.wordBreak [] (by simp)
  have hs := sorted_nodup (positions_sorted n hn)
  have hs' : ([0] ++ (List.range' minSize (maxSplit n - minSize) ++ [n])).Nodup := hs
  have h1 := step (List.range' minSize (maxSplit n - minSize) ++ [n]) [0] (_, _) hs' (by
    intro k hk
    rcases List.mem_append.1 hk with hk | hk
    · rw [List.mem_range'] at hk
      obtain ⟨i, _, rfl⟩ := hk
      simp [minSize]
    · rw [List.mem_singleton] at hk; omega) base
  rw [List.foldl_append] at h1
  exact h1

theorem modify_map' {β : Type} (P : List Nat) (hnd : P.Nodup) (f : Nat → List β) (w : Nat) (hw : w ∈ P) (a : List β) :
    (P.map f).modify (P.idxOf w) (· ++ a) = P.map fun v => if v = w then f v ++ a else f v := by
  apply List.ext_getElem?
  intro i
  rw [List.getElem?_modify, List.getElem?_map, List.getElem?_map]
  by_cases hi : i < P.length
  · rw [List.getElem?_eq_getElem hi]
    simp only [Option.map_some]
    by_cases he : P.idxOf w = i
    · have : P[i] = w := by subst he; exact List.getElem_idxOf hi
      simp [he, this]
    · have : P[i] ≠ w := by rintro rfl; exact he (hnd.idxOf_getElem i hi)
      simp [he, this]
  · rw [List.getElem?_eq_none (by omega)]; rfl

/-- What the parts from `i` to `j` carry. -/
def partVals (chars : List (List UInt8)) (i j : Nat) : List SplitVal :=
  .part i j none (paste chars i j) ::
    (if j ≠ chars.length then match unlink (paste chars i j) with
      | some (f, alt) => if alt.length ≠ 0 then [.part i j (some f) alt] else []
      | none => []
    else [])

theorem splitPart_shape (chars : List (List UInt8)) (P : List Nat) (hnd : P.Nodup) (i j : Nat) (hi : i ∈ P) (hj : j ∈ P) (g : Hypergraph SplitVal) (f : Nat → List (List Nat × SplitVal))
    (h : Shape g (P.map f)) : Shape (splitPart chars i j (P.idxOf i) (P.idxOf j) g)
      (P.map fun v => f v ++ if v = j then (partVals chars i v).map fun x => ([P.idxOf i], x) else []) := by
  have li := List.idxOf_lt_length_iff.2 hi
  have lj := List.idxOf_lt_length_iff.2 hj
  have put1 : ∀ (g : Hypergraph SplitVal) (f : Nat → List (List Nat × SplitVal)) (x : SplitVal), Shape g (P.map f) →
      Shape (put g x [P.idxOf i] (P.idxOf j)) (P.map fun v => if v = j then f v ++ [([P.idxOf i], x)] else f v) := by
    intro g f x h
    have := h.put x [P.idxOf i] (P.idxOf j) (by simpa using li) (by simpa using lj)
    rw [modify_map' P hnd f j hj] at this
    exact this
  have h1 := put1 g f (.part i j none (paste chars i j)) h
  have done : partVals chars i j = [.part i j none (paste chars i j)] → Shape (put g (.part i j none (paste chars i j)) [P.idxOf i] (P.idxOf j))
      (P.map fun v => f v ++ if v = j then (partVals chars i v).map fun x => ([P.idxOf i], x) else []) := by
    intro e
    have e2 : (P.map fun v => f v ++ if v = j then (partVals chars i v).map (fun x => ([P.idxOf i], x)) else []) =
        P.map fun v => if v = j then f v ++ [([P.idxOf i], .part i j none (paste chars i j))] else f v := by
      apply List.map_congr_left
      intro v _
      by_cases hv : v = j
      · subst hv; simp [e]
      · simp [hv]
    rw [e2]
    exact h1
  unfold splitPart
  simp only []
  by_cases hc : j ≠ chars.length
  · rw [if_pos hc]
    cases hu : unlink (paste chars i j) with
    | none => exact done (by simp [partVals, hu])
    | some fa =>
      obtain ⟨fu, alt⟩ := fa
      simp only []
      by_cases ha : alt.length ≠ 0
      · rw [if_pos ha]
        have h2 := put1 _ _ (.part i j (some fu) alt) h1
        have e : partVals chars i j = [.part i j none (paste chars i j), .part i j (some fu) alt] := by
          unfold partVals
          rw [if_pos hc, hu]
          simp only []
          rw [if_pos ha]
        have e2 : (P.map fun v => f v ++ if v = j then (partVals chars i v).map (fun x => ([P.idxOf i], x)) else []) =
            P.map fun v => if v = j then (if v = j then f v ++ [([P.idxOf i], .part i j none (paste chars i j))] else f v) ++ [([P.idxOf i], SplitVal.part i j (some fu) alt)]
              else (if v = j then f v ++ [([P.idxOf i], .part i j none (paste chars i j))] else f v) := by
          apply List.map_congr_left
          intro v _
          by_cases hv : v = j
          · subst hv; simp [e]
          · simp [hv]
        rw [e2]
        exact h2
      · rw [if_neg ha]
        refine done ?_
        unfold partVals
        rw [if_pos hc, hu]
        simp only []
        rw [if_neg ha]
  · rw [if_neg hc]
    refine done ?_
    unfold partVals
    rw [if_neg hc]

/-- The inner loop. -/
theorem splitInner (chars : List (List UInt8)) (P : List Nat) (hnd : P.Nodup) (nodes : Nat → Option Nat) (hn : ∀ k, nodes k = if k ∈ P then some (P.idxOf k) else none) (i : Nat) (hi : i ∈ P) :
    ∀ (js : List Nat) (g : Hypergraph SplitVal) (f : Nat → List (List Nat × SplitVal)), Shape g (P.map f) →
    Shape (js.foldl (fun g j => match nodes j with | none => g | some b => splitPart chars i j (P.idxOf i) b g) g)
      (P.map fun v => f v ++ js.flatMap fun j => if v = j then (partVals chars i v).map fun x => ([P.idxOf i], x) else [])
  | [], g, f, h => by simpa using h
  | j :: js, g, f, h => by
    rw [List.foldl_cons, hn j]
    by_cases hj : j ∈ P
    · rw [if_pos hj]
      simp only []
      have := splitInner chars P hnd nodes hn i hi js _ _ (splitPart_shape chars P hnd i j hi hj g f h)
      simpa [List.flatMap_cons, List.append_assoc] using this
    · rw [if_neg hj]
      simp only []
      have := splitInner chars P hnd nodes hn i hi js _ _ h
      have e : (P.map fun v => f v ++ (j :: js).flatMap fun j => if v = j then (partVals chars i v).map (fun x => ([P.idxOf i], x)) else []) =
          P.map fun v => f v ++ js.flatMap fun j => if v = j then (partVals chars i v).map (fun x => ([P.idxOf i], x)) else [] := by
        apply List.map_congr_left
        intro v hv
        have : ¬ v = j := by rintro rfl; exact hj hv
        simp [this]
      rw [e]
      exact this

/-- The outer loop. -/
theorem splitOuter (chars : List (List UInt8)) (P : List Nat) (hnd : P.Nodup) (nodes : Nat → Option Nat) (hn : ∀ k, nodes k = if k ∈ P then some (P.idxOf k) else none) (js : Nat → List Nat) :
    ∀ (is : List Nat) (g : Hypergraph SplitVal) (f : Nat → List (List Nat × SplitVal)), Shape g (P.map f) →
    Shape (is.foldl (fun g i => match nodes i with
        | none => g
        | some a => (js i).foldl (fun g j => match nodes j with | none => g | some b => splitPart chars i j a b g) g) g)
      (P.map fun v => f v ++ is.flatMap fun i => if i ∈ P then (js i).flatMap fun j => if v = j then (partVals chars i v).map fun x => ([P.idxOf i], x) else [] else [])
  | [], g, f, h => by simpa using h
  | i :: is, g, f, h => by
    rw [List.foldl_cons, hn i]
    by_cases hi : i ∈ P
    · rw [if_pos hi]
      simp only []
      have := splitOuter chars P hnd nodes hn js is _ _ (splitInner chars P hnd nodes hn i hi (js i) g f h)
      simpa [List.flatMap_cons, List.append_assoc, hi] using this
    · rw [if_neg hi]
      simp only []
      have := splitOuter chars P hnd nodes hn js is _ _ h
      simpa [List.flatMap_cons, hi] using this

/-- The edges of position `v`. -/
def splitEdges (chars : List (List UInt8)) (v : Nat) : List (List Nat × SplitVal) :=
  (if v = 0 then [([], SplitVal.wordBreak)] else []) ++ (List.range (maxSplit chars.length)).flatMap fun i => if i ∈ positions chars.length then
    (List.range' (min (i + minSize) chars.length) (chars.length + 1 - min (i + minSize) chars.length)).flatMap fun j =>
      if v = j then (partVals chars i v).map fun x => ([(positions chars.length).idxOf i], x) else [] else []

theorem split_shape (cat goalCat : Int) (chars : List (List UInt8)) (hn : chars.length ≠ 0) :
    ∃ g, splitTrellis cat goalCat chars = finish goalCat .goal g ∧ Shape g ((positions chars.length).map (splitEdges chars)) := by
  unfold splitTrellis
  simp only []
  rw [if_neg hn]
  obtain ⟨h1, h2⟩ := splitNodes_spec cat chars.length hn
  refine ⟨_, rfl, ?_⟩
  exact splitOuter chars (positions chars.length) (sorted_nodup (positions_sorted _ hn)) _ h1
    (fun i => List.range' (min (i + minSize) chars.length) (chars.length + 1 - min (i + minSize) chars.length)) _ _ _ h2

/-- Which parts there are. -/
def PartSpan (n i j : Nat) : Prop := i ∈ positions n ∧ j ∈ positions n ∧ (i = 0 ∧ j = n ∨ i + 3 ≤ j)

theorem mem_splitEdges (chars : List (List UInt8)) (hn : chars.length ≠ 0) (v : Nat) (hv : v ∈ positions chars.length) (a : List Nat × SplitVal) :
    a ∈ splitEdges chars v ↔ (v = 0 ∧ a = ([], .wordBreak)) ∨ ∃ i, PartSpan chars.length i v ∧ a.1 = [(positions chars.length).idxOf i] ∧ a.2 ∈ partVals chars i v := by
  unfold splitEdges
  rw [List.mem_append]
  refine or_congr ?_ ?_
  · by_cases h : v = 0 <;> simp [h]
  · simp only [List.mem_flatMap, List.mem_range]
    obtain ⟨ts, x⟩ := a
    have hv' := (mem_positions _ _).1 hv
    constructor
    · rintro ⟨i, h1, h2⟩
      split at h2
      · rename_i hi
        simp only [List.mem_flatMap] at h2
        obtain ⟨j, h3, h4⟩ := h2
        split at h4
        · rename_i hj
          subst hj
          obtain ⟨y, hy, e⟩ := List.mem_map.1 h4
          cases e
          rw [List.mem_range'] at h3
          obtain ⟨d, h5, h6⟩ := h3
          have hi' := (mem_positions _ _).1 hi
          rw [maxSplit_eq] at h1
          refine ⟨i, ⟨hi, hv, ?_⟩, rfl, hy⟩
          simp only [minSize] at h5 h6
          omega
        · cases h4
      · cases h2
    · rintro ⟨i, ⟨h1, _, h3⟩, rfl, h5⟩
      have hi' := (mem_positions _ _).1 h1
      refine ⟨i, by rw [maxSplit_eq]; omega, ?_⟩
      rw [if_pos h1]
      simp only [List.mem_flatMap]
      refine ⟨v, ?_, by rw [if_pos rfl]; exact List.mem_map.2 ⟨x, h5, rfl⟩⟩
      rw [List.mem_range']
      exact ⟨v - min (i + minSize) chars.length, by simp only [minSize]; omega, by simp only [minSize]; omega⟩

theorem partVals_span {chars : List (List UInt8)} {i j : Nat} {x : SplitVal} (h : x ∈ partVals chars i j) : ∃ a o, x = .part i j a o := by
  unfold partVals at h
  rcases List.mem_cons.1 h with rfl | h
  · exact ⟨_, _, rfl⟩
  · split at h
    · split at h
      · split at h
        · rw [List.mem_singleton] at h; exact ⟨_, _, h⟩
        · cases h
      · cases h
    · cases h

theorem partVals_nodup (chars : List (List UInt8)) (i j : Nat) : (partVals chars i j).Nodup := by
  unfold partVals
  split
  · split
    · split
      · simp
      · simp
    · simp
  · simp

theorem splitEdges_nodup (chars : List (List UInt8)) (v : Nat) : ((splitEdges chars v).map (·.2)).Nodup := by
  unfold splitEdges
  rw [List.map_append, List.nodup_append]
  have inner : ∀ i, ((if i ∈ positions chars.length then
      (List.range' (min (i + minSize) chars.length) (chars.length + 1 - min (i + minSize) chars.length)).flatMap fun j =>
        if v = j then (partVals chars i v).map (fun x => ([(positions chars.length).idxOf i], x)) else [] else []).map (·.2)).Nodup ∧
      ∀ x ∈ ((if i ∈ positions chars.length then
      (List.range' (min (i + minSize) chars.length) (chars.length + 1 - min (i + minSize) chars.length)).flatMap fun j =>
        if v = j then (partVals chars i v).map (fun x => ([(positions chars.length).idxOf i], x)) else [] else []).map (·.2)), ∃ a o, x = SplitVal.part i v a o := by
    intro i
    by_cases hi : i ∈ positions chars.length
    · rw [if_pos hi]
      have hd : (List.range' (min (i + minSize) chars.length) (chars.length + 1 - min (i + minSize) chars.length)).Nodup := List.nodup_range'
      generalize List.range' (min (i + minSize) chars.length) (chars.length + 1 - min (i + minSize) chars.length) = l at hd
      have key : l.flatMap (fun j => if v = j then (partVals chars i v).map (fun x => ([(positions chars.length).idxOf i], x)) else []) =
          if v ∈ l then (partVals chars i v).map (fun x => ([(positions chars.length).idxOf i], x)) else [] := by
        induction l with
        | nil => simp
        | cons j l ih =>
          rw [List.nodup_cons] at hd
          rw [List.flatMap_cons, ih hd.2]
          by_cases hj : v = j
          · subst hj
            rw [if_pos rfl, if_neg hd.1, if_pos (by simp)]
            simp
          · rw [if_neg hj]
            by_cases hl : v ∈ l
            · rw [if_pos hl, if_pos (by simp [hl])]; rfl
            · rw [if_neg hl, if_neg (by simp [hl, hj])]; rfl
      rw [key]
      by_cases hl : v ∈ l
      · rw [if_pos hl, List.map_map]
        have : (fun x : List Nat × SplitVal => x.2) ∘ (fun x => ([(positions chars.length).idxOf i], x)) = id := rfl
        rw [this, List.map_id]
        exact ⟨partVals_nodup _ _ _, fun x hx => partVals_span hx⟩
      · rw [if_neg hl]; simp
    · rw [if_neg hi]; simp
  refine ⟨by split <;> simp, ?_, ?_⟩
  · have hd : (List.range (maxSplit chars.length)).Nodup := List.nodup_range
    generalize List.range (maxSplit chars.length) = l at hd
    induction l with
    | nil => simp
    | cons i l ih =>
      rw [List.nodup_cons] at hd
      rw [List.flatMap_cons, List.map_append, List.nodup_append]
      refine ⟨(inner i).1, ih hd.2, ?_⟩
      intro a ha b hb hab
      subst hab
      obtain ⟨a1, o1, e1⟩ := (inner i).2 a ha
      obtain ⟨p, hp, rfl⟩ := List.mem_map.1 hb
      obtain ⟨i', hi', hp'⟩ := List.mem_flatMap.1 hp
      obtain ⟨a2, o2, e2⟩ := (inner i').2 p.2 (List.mem_map.2 ⟨p, hp', rfl⟩)
      rw [e1] at e2
      cases e2
      exact hd.1 hi'
  · intro a ha b hb hab
    subst hab
    obtain ⟨p, hp, rfl⟩ := List.mem_map.1 hb
    obtain ⟨i', hi', hp'⟩ := List.mem_flatMap.1 hp
    obtain ⟨a2, o2, e2⟩ := (inner i').2 p.2 (List.mem_map.2 ⟨p, hp', rfl⟩)
    rw [e2] at ha
    split at ha
    · simp at ha
    · simp at ha

theorem split_getD (chars : List (List UInt8)) (v : Nat) (hv : v ∈ positions chars.length) :
    ((positions chars.length).map (splitEdges chars)).getD ((positions chars.length).idxOf v) [] = splitEdges chars v := by
  have h := List.idxOf_lt_length_iff.2 hv
  rw [List.getD_eq_getElem?_getD, List.getElem?_map, List.getElem?_eq_getElem h, List.getElem_idxOf h]
  rfl

theorem split_topo (chars : List (List UInt8)) (hn : chars.length ≠ 0) : Topo ((positions chars.length).map (splitEdges chars)) := by
  intro v a ha t ht
  by_cases hv : v < (positions chars.length).length
  · have hs := positions_sorted _ hn
    have e : v = (positions chars.length).idxOf (positions chars.length)[v] := ((sorted_nodup hs).idxOf_getElem v hv).symm
    have hm : (positions chars.length)[v] ∈ positions chars.length := List.getElem_mem _
    rw [e, split_getD chars _ hm, mem_splitEdges chars hn _ hm] at ha
    rcases ha with ⟨_, rfl⟩ | ⟨i, ⟨h1, h2, h3⟩, h4, _⟩
    · cases ht
    · rw [h4, List.mem_singleton] at ht
      subst ht
      rw [e, idxOf_lt_iff hs h1 h2]
      omega
  · rw [List.getD_eq_getElem?_getD, List.getElem?_eq_none (by simp; omega)] at ha
    cases ha

end Cdec.Dec
