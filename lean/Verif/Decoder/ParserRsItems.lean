import Verif.Decoder.ParserRsRun
import Verif.Decoder.ParserMain
/-! The items that the other parser goes through. -/
namespace Cdec.Dec.Parser.Rs
open Cdec.HG Spec
variable {ι R φ : Type} [Add φ]

/-- The first item. -/
def root [Zero φ] (G : Gram ι R) : Item ι φ := ⟨G.root, [], 0, []⟩

/-- Items longer by an arc. -/
def nextT (p : Env ι R φ) (G : Gram ι R) (j k : Nat) (it : Item ι φ) : List (Item ι φ) :=
  (p.lat.getD j []).zipIdx.filterMap fun a => if a.1.len = k - j then extTerm p G j a.2 a.1 it else none

omit [Add φ] in
/-- Items longer by a node. -/
def nextN (q : Passive R φ) (G : Gram ι R) (j k : Nat) (it : Item ι φ) : List (Item ι φ) := (q.chart j k).filterMap fun v => extNode q G v it

/-- Items longer by one step. -/
def next (p : Env ι R φ) (q : Passive R φ) (G : Gram ι R) (j : Nat) (it : Item ι φ) : List (Nat × Item ι φ) :=
  (List.range' (j + 1) (p.n - j)).flatMap fun k => (nextT p G j k it ++ nextN q G j k it).map fun y => (k, y)

/-- All longer items. -/
def exts (p : Env ι R φ) (q : Passive R φ) (G : Gram ι R) : Nat → Nat → Item ι φ → List (Nat × Item ι φ)
  | 0, _, _ => []
  | f + 1, j, it => (j, it) :: (next p q G j it).flatMap fun y => exts p q G f y.1 y.2

omit [Add φ] in
/-- Jobs of items. -/
def tagJobs (G : Gram ι R) (l : List (Nat × Item ι φ)) : List (Nat × Job R φ) := l.flatMap fun y => (itemJobs G y.2).map fun b => (y.1, b)

omit [Add φ] in
theorem tagJobs_append (G : Gram ι R) (l l' : List (Nat × Item ι φ)) : tagJobs G (l ++ l') = tagJobs G l ++ tagJobs G l' := by simp [tagJobs]

omit [Add φ] in
theorem tagJobs_flatMap {α : Type} (G : Gram ι R) (l : List α) (f : α → List (Nat × Item ι φ)) : tagJobs G (l.flatMap f) = l.flatMap fun x => tagJobs G (f x) := by
  unfold tagJobs
  rw [List.flatMap_assoc]

omit [Add φ] in
theorem mem_tagJobs {G : Gram ι R} {l : List (Nat × Item ι φ)} {x : Nat × Job R φ} (h : x ∈ tagJobs G l) : ∃ y ∈ l, x.1 = y.1 ∧ x.2 ∈ itemJobs G y.2 := by
  obtain ⟨y, hy, h⟩ := List.mem_flatMap.1 h
  obtain ⟨b, hb, rfl⟩ := List.mem_map.1 h
  exact ⟨y, hy, rfl, hb⟩

theorem mem_next {p : Env ι R φ} {q : Passive R φ} {G : Gram ι R} {j : Nat} {it : Item ι φ} {x : Nat × Item ι φ} (h : x ∈ next p q G j it) : j < x.1 ∧ x.1 ≤ p.n ∧
    (x.2 ∈ nextT p G j x.1 it ∨ x.2 ∈ nextN q G j x.1 it) := by
  obtain ⟨k, hk, h⟩ := List.mem_flatMap.1 h
  obtain ⟨y, hy, rfl⟩ := List.mem_map.1 h
  have := List.mem_range'_1.1 hk
  exact ⟨by simp only []; omega, by simp only []; omega, List.mem_append.1 hy⟩

theorem mem_exts {p : Env ι R φ} {q : Passive R φ} {G : Gram ι R} (f : Nat) : ∀ {j : Nat} {it : Item ι φ} {x : Nat × Item ι φ}, x ∈ exts p q G f j it → x = (j, it) ∨ j < x.1 := by
  induction f with
  | zero => intro j it x h; simp [exts] at h
  | succ f ih =>
    intro j it x h
    rw [exts] at h
    rcases List.mem_cons.1 h with h | h
    · exact .inl h
    · obtain ⟨y, hy, h⟩ := List.mem_flatMap.1 h
      have h1 := (mem_next hy).1
      rcases ih h with rfl | h2
      · exact .inr h1
      · exact .inr (by omega)

theorem exts_congr {p : Env ι R φ} {q q' : Passive R φ} {G : Gram ι R} (f : Nat) : ∀ (j : Nat) (it : Item ι φ), (∀ a b, j ≤ a → q'.chart a b = q.chart a b) →
    (∀ a b, j ≤ a → ∀ v ∈ q.chart a b, q'.cat v = q.cat v) → exts p q' G f j it = exts p q G f j it := by
  induction f with
  | zero => intro j it _ _; rfl
  | succ f ih =>
    intro j it h1 h2
    have hn : next p q' G j it = next p q G j it := by
      unfold next
      rw [List.flatMap_def, List.flatMap_def]
      congr 1
      apply List.map_congr_left
      intro k _
      congr 2
      unfold nextN
      rw [h1 j k (Nat.le_refl _)]
      apply List.filterMap_congr
      intro v hv
      unfold extNode
      rw [h2 j k (Nat.le_refl _) v hv]
    rw [exts, exts, hn]
    congr 1
    rw [List.flatMap_def, List.flatMap_def]
    congr 1
    apply List.map_congr_left
    intro y hy
    have := (mem_next hy).1
    exact ih y.1 y.2 (fun a b hab => h1 a b (by omega)) (fun a b hab => h2 a b (by omega))

/-- What an extension by an arc is. -/
theorem extTerm_some {p : Env ι R φ} {G : Gram ι R} {k idx : Nat} {a : Arc φ} {it y : Item ι φ} (h : extTerm p G k idx a it = some y) :
    ∃ g, (if a.label = p.eps then some it.g else G.extend it.g a.label) = some g ∧ y = ⟨g, it.ants, it.feats + a.feats, it.steps ++ [.arc k idx]⟩ := by
  unfold extTerm at h
  split at h
  · rename_i he
    exact ⟨it.g, by rw [if_pos he], (Option.some.inj h).symm⟩
  · rename_i he
    obtain ⟨g, hg, e⟩ := Option.map_eq_some_iff.1 h
    exact ⟨g, by rw [if_neg he]; exact hg, e.symm⟩

theorem mem_nextT {p : Env ι R φ} {G : Gram ι R} {j k : Nat} {it y : Item ι φ} : y ∈ nextT p G j k it ↔ ∃ idx a, (p.lat.getD j [])[idx]? = some a ∧ a.len = k - j ∧
    extTerm p G j idx a it = some y := by
  unfold nextT
  rw [List.mem_filterMap]
  constructor
  · rintro ⟨⟨a, idx⟩, ha, h⟩
    simp only [] at h
    split at h
    · rename_i hl
      exact ⟨idx, a, List.mk_mem_zipIdx_iff_getElem?.1 ha, hl, h⟩
    · simp at h
  · rintro ⟨idx, a, ha, hl, h⟩
    exact ⟨(a, idx), List.mk_mem_zipIdx_iff_getElem?.2 ha, by simp only [if_pos hl]; exact h⟩

omit [Add φ] in
theorem mem_nextN {q : Passive R φ} {G : Gram ι R} {j k : Nat} {it y : Item ι φ} : y ∈ nextN q G j k it ↔ ∃ v ∈ q.chart j k, ∃ g, G.extend it.g (q.cat v) = some g ∧
    y = ⟨g, it.ants ++ [v], it.feats, it.steps ++ [.node v]⟩ := by
  unfold nextN
  rw [List.mem_filterMap]
  constructor
  · rintro ⟨v, hv, h⟩
    unfold extNode at h
    obtain ⟨g, hg, e⟩ := Option.map_eq_some_iff.1 h
    exact ⟨v, hv, g, hg, e.symm⟩
  · rintro ⟨v, hv, g, hg, rfl⟩
    refine ⟨v, hv, ?_⟩
    unfold extNode
    rw [hg]
    rfl

/-- What items must be like. -/
structure Fine (p : Env ι R φ) (q : Passive R φ) (G : Gram ι R) (it : Item ι φ) : Prop where
  placed : Placed G it.g
  ants : ∀ v ∈ it.ants, v < q.forest.nodes.length

theorem Fine.nextT {p : Env ι R φ} {q : Passive R φ} {G : Gram ι R} {j k : Nat} {it y : Item ι φ} (h : Fine p q G it) (hy : y ∈ nextT p G j k it) : Fine p q G y := by
  obtain ⟨idx, a, _, _, e⟩ := mem_nextT.1 hy
  obtain ⟨g, hg, rfl⟩ := extTerm_some e
  refine ⟨?_, h.ants⟩
  split at hg
  · rw [← Option.some.inj hg]
    exact h.placed
  · exact h.placed.extend hg

theorem Fine.nextN {p : Env ι R φ} {q : Passive R φ} (hq : PInv p q) {G : Gram ι R} {j k : Nat} {it y : Item ι φ} (h : Fine p q G it) (hy : y ∈ nextN q G j k it) : Fine p q G y := by
  obtain ⟨v, hv, g, hg, rfl⟩ := mem_nextN.1 hy
  refine ⟨h.placed.extend hg, ?_⟩
  intro w hw
  rcases List.mem_append.1 hw with hw | hw
  · exact h.ants w hw
  · rw [List.mem_singleton.1 hw]
    exact hq.lt _ _ _ hv

variable [Zero φ]

/-- What the rules and the unary rules must be like. -/
structure Set (p : Env ι R φ) (u : List R) (ρ : Int → Nat) : Prop where
  ok : Ok p
  u_ne : ∀ r ∈ u, p.lhs r ≠ p.kGoal
  rank : ∀ r ∈ u, ρ (p.rhs r) < ρ (p.lhs r)

section
variable {p : Env ι R φ} {u : List R} {ρ : Int → Nat}

theorem terminal_spec {q0 : Passive R φ} {G : Gram ι R} {i j k : Nat} {it : Item ι φ} (add : Item ι φ → Passive R φ → Option (Passive R φ)) (J : Item ι φ → List (Nat × Job R φ))
    (hadd : ∀ y ∈ nextT p G j k it, ∀ q, Up p i q0 q → ∃ q', add y q = some q' ∧ RowRan p u i (J y) q q') (q : Passive R φ) (hq : Up p i q0 q) :
    ∃ q', consumeTerminal p G add j k it q = some q' ∧ RowRan p u i ((nextT p G j k it).flatMap J) q q' := by
  unfold consumeTerminal
  have hJ : (nextT p G j k it).flatMap J = (p.lat.getD j []).zipIdx.flatMap fun a => match (if a.1.len = k - j then extTerm p G j a.2 a.1 it else none) with
      | none => []
      | some y => J y := by
    unfold nextT
    generalize (p.lat.getD j []).zipIdx = l
    induction l with
    | nil => rfl
    | cons a l ih =>
      rw [List.flatMap_cons, ← ih, List.filterMap_cons]
      cases (if a.1.len = k - j then extTerm p G j a.2 a.1 it else none) <;> simp
  rw [hJ]
  obtain ⟨q', e, r, _⟩ := fold_spec (p := p) (u := u) (i := i) (fun q (a : Arc φ × Nat) =>
    if a.1.len = k - j then
      match extTerm p G j a.2 a.1 it with
      | none => some q
      | some y => add y q
    else some q) (fun a => match (if a.1.len = k - j then extTerm p G j a.2 a.1 it else none) with
      | none => []
      | some y => J y) (Up p i q0) (p.lat.getD j []).zipIdx (by
    rintro ⟨a, idx⟩ ha q1 u1 i1
    simp only []
    by_cases hl : a.len = k - j
    · simp only [if_pos hl]
      cases he : extTerm p G j idx a it with
      | none => exact ⟨q1, rfl, RowRan.nil i1, u1⟩
      | some y =>
        obtain ⟨q2, e2, r2⟩ := hadd y (mem_nextT.2 ⟨idx, a, List.mk_mem_zipIdx_iff_getElem?.1 ha, hl, he⟩) q1 u1
        exact ⟨q2, e2, r2, u1.trans r2.up⟩
    · simp only [if_neg hl]
      exact ⟨q1, rfl, RowRan.nil i1, u1⟩) q hq hq.inv
  exact ⟨q', e, r⟩

theorem nonterminal_spec {q0 : Passive R φ} {G : Gram ι R} {i j k : Nat} {it : Item ι φ} (add : Item ι φ → Passive R φ → Option (Passive R φ)) (J : Item ι φ → List (Nat × Job R φ))
    (q : Passive R φ) (hadd : ∀ y ∈ nextN q G j k it, ∀ q', Up p i q0 q' → ∃ q'', add y q' = some q'' ∧ RowRan p u i (J y) q' q'' ∧ q''.chart j k = q'.chart j k)
    (hq : Up p i q0 q) :
    ∃ q', consumeNonTerminal G add j k it q = some q' ∧ RowRan p u i ((nextN q G j k it).flatMap J) q q' := by
  unfold consumeNonTerminal
  have hJ : (nextN q G j k it).flatMap J = (q.chart j k).flatMap fun v => match extNode q G v it with
      | none => []
      | some y => J y := by
    unfold nextN
    generalize q.chart j k = l
    induction l with
    | nil => rfl
    | cons a l ih =>
      rw [List.flatMap_cons, ← ih, List.filterMap_cons]
      cases extNode q G a it <;> simp
  rw [hJ]
  obtain ⟨q', e, r, _⟩ := fold_spec (p := p) (u := u) (i := i) (fun q1 v =>
    match extNode q1 G v it with
    | none => some q1
    | some y =>
      match add y q1 with
      | none => none
      | some q2 => if q2.chart j k = q.chart j k then some q2 else none) (fun v => match extNode q G v it with
      | none => []
      | some y => J y) (fun q1 => Up p i q q1 ∧ q1.chart j k = q.chart j k) (q.chart j k) (by
    rintro v hv q1 ⟨u1, c1⟩ i1
    have hx : extNode q1 G v it = extNode q G v it := by
      unfold extNode
      rw [u1.cat v (hq.inv.lt j k v hv)]
    rw [hx]
    cases he : extNode q G v it with
    | none => exact ⟨q1, rfl, RowRan.nil i1, u1, c1⟩
    | some y =>
      obtain ⟨q2, e2, r2, c2⟩ := hadd y (List.mem_filterMap.2 ⟨v, hv, he⟩) q1 (hq.trans u1)
      simp only []
      rw [e2]
      simp only []
      rw [if_pos (c2.trans c1)]
      exact ⟨q2, rfl, r2, u1.trans r2.up, c2.trans c1⟩) q ⟨Up.refl hq.inv, rfl⟩ hq.inv
  exact ⟨q', e, r⟩

theorem add_spec (hs : Set p u ρ) {q0 : Passive R φ} (h0 : PInv p q0) {G : Gram ι R} (hG : G ∈ p.grams) {i : Nat} : ∀ (fuel j : Nat) (it : Item ι φ) (q : Passive R φ),
    i < j → p.n - j < fuel → Fine p q0 G it → Up p i q0 q → ∃ q', addToChart p u G i fuel j it q = some q' ∧ RowRan p u i (tagJobs G (exts p q0 G fuel j it)) q q' := by
  intro fuel
  induction fuel with
  | zero => intro j it q _ h; omega
  | succ fuel ih =>
    intro j it q hij hf hfine hup
    obtain ⟨α, hα⟩ := hfine.placed
    obtain ⟨q1, e1, r1⟩ := applyRules_spec hs.u_ne hs.rank i j G it (hs.ok.rules_ne G hG α it.g hα) q hup.inv (fun v hv => Nat.lt_of_lt_of_le (hfine.ants v hv) hup.nodes)
    have u1 := hup.trans r1.up
    unfold addToChart
    rw [e1]
    simp only []
    obtain ⟨q', e, r, _⟩ := fold_spec (p := p) (u := u) (i := i) (fun q k =>
        match consumeTerminal p G (addToChart p u G i fuel k) j k it q with
        | none => none
        | some q2 => consumeNonTerminal G (addToChart p u G i fuel k) j k it q2)
      (fun k => ((nextT p G j k it).flatMap fun y => tagJobs G (exts p q0 G fuel k y)) ++ (nextN q0 G j k it).flatMap fun y => tagJobs G (exts p q0 G fuel k y))
      (Up p i q0) (List.range' (j + 1) (p.n - j)) (by
      intro k hk q2 u2 i2
      have hk' := List.mem_range'_1.1 hk
      obtain ⟨q3, e3, r3⟩ := terminal_spec (u := u) (addToChart p u G i fuel k) (fun y => tagJobs G (exts p q0 G fuel k y))
        (fun y hy q hq => ih k y q (by omega) (by omega) (hfine.nextT hy) hq) q2 u2
      have u3 := u2.trans r3.up
      have hN : nextN q3 G j k it = nextN q0 G j k it := by
        unfold nextN
        rw [u3.chart j k (by omega)]
        apply List.filterMap_congr
        intro v hv
        unfold extNode
        rw [u3.cat v (h0.lt j k v hv)]
      obtain ⟨q4, e4, r4⟩ := nonterminal_spec (u := u) (addToChart p u G i fuel k) (fun y => tagJobs G (exts p q0 G fuel k y)) q3
        (fun y hy q hq => by
          rw [hN] at hy
          obtain ⟨q5, e5, r5⟩ := ih k y q (by omega) (by omega) (hfine.nextN h0 hy) hq
          exact ⟨q5, e5, r5, r5.chart j k (by omega)⟩) u3
      rw [hN] at r4
      rw [e3]
      exact ⟨q4, e4, r3.trans r4, u3.trans r4.up⟩) q1 u1 u1.inv
    refine ⟨q', e, ?_⟩
    have hJ : tagJobs G (exts p q0 G (fuel + 1) j it) = (itemJobs G it).map (fun b => (j, b)) ++ (List.range' (j + 1) (p.n - j)).flatMap fun k =>
        ((nextT p G j k it).flatMap fun y => tagJobs G (exts p q0 G fuel k y)) ++ (nextN q0 G j k it).flatMap fun y => tagJobs G (exts p q0 G fuel k y) := by
      rw [exts]
      have : tagJobs G ((j, it) :: (next p q0 G j it).flatMap fun y => exts p q0 G fuel y.1 y.2) = (itemJobs G it).map (fun b => (j, b)) ++ tagJobs G ((next p q0 G j it).flatMap fun y => exts p q0 G fuel y.1 y.2) := by
        simp [tagJobs]
      rw [this, tagJobs_flatMap]
      congr 1
      unfold next
      rw [List.flatMap_assoc]
      congr 1
      funext k
      rw [List.flatMap_map, List.flatMap_append]
    rw [hJ]
    exact r1.trans r

/-- The jobs of a cell that is looked at from the start of a row. -/
def cellBs (p : Env ι R φ) (q0 q : Passive R φ) (i j : Nat) : List (Nat × Job R φ) :=
  (p.grams.flatMap fun G => (nextT p G i j (root G)).flatMap fun y => tagJobs G (exts p q0 G p.n j y)) ++
    p.grams.flatMap fun G => (nextN q G i j (root G)).flatMap fun y => tagJobs G (exts p q0 G p.n j y)

theorem cellBs_congr {q0 q q' : Passive R φ} {i j : Nat} (h1 : q'.chart i j = q.chart i j) (h2 : ∀ v ∈ q.chart i j, q'.cat v = q.cat v) : cellBs p q0 q' i j = cellBs p q0 q i j := by
  unfold cellBs
  congr 2
  funext G
  congr 1
  unfold nextN
  rw [h1]
  apply List.filterMap_congr
  intro v hv
  unfold extNode
  rw [h2 v hv]

theorem cell_spec (hs : Set p u ρ) {q0 : Passive R φ} (h0 : PInv p q0) {i j : Nat} (hij : i < j) (hj : j ≤ p.n) (q : Passive R φ) (hq : Up p i q0 q) :
    ∃ q', parseCell p u i j q = some q' ∧ RowRan p u i (cellBs p q0 q' i j) q q' ∧ ∀ x ∈ cellBs p q0 q' i j, j ≤ x.1 := by
  have hroot : ∀ (G : Gram ι R), Fine p q0 G (root G) := fun G => ⟨⟨[], rfl⟩, by simp [root]⟩
  obtain ⟨q1, e1, r1, u1⟩ := fold_spec (p := p) (u := u) (i := i) (fun q (G : Gram ι R) => consumeTerminal p G (addToChart p u G i p.n j) i j ⟨G.root, [], 0, []⟩ q)
    (fun G => (nextT p G i j (root G)).flatMap fun y => tagJobs G (exts p q0 G p.n j y)) (Up p i q0) p.grams (by
    intro G hG q1 u1 i1
    obtain ⟨q2, e2, r2⟩ := terminal_spec (u := u) (it := root G) (addToChart p u G i p.n j) (fun y => tagJobs G (exts p q0 G p.n j y))
      (fun y hy q hq => add_spec hs h0 hG p.n j y q hij (by omega) ((hroot G).nextT hy) hq) q1 u1
    exact ⟨q2, e2, r2, u1.trans r2.up⟩) q hq hq.inv
  have hNT : ∀ (G : Gram ι R) (q2 : Passive R φ), Up p i q1 q2 ∧ q2.chart i j = q1.chart i j → nextN q2 G i j (root G) = nextN q1 G i j (root G) := by
    rintro G q2 ⟨u2, c2⟩
    unfold nextN
    rw [c2]
    apply List.filterMap_congr
    intro v hv
    unfold extNode
    rw [u2.cat v (u1.inv.lt i j v hv)]
  have hlate : ∀ G ∈ p.grams, ∀ y ∈ nextN q1 G i j (root G), ∀ x ∈ tagJobs G (exts p q0 G p.n j y), j < x.1 := by
    intro G hG y hy x hx
    obtain ⟨z, hz, ex, hb⟩ := mem_tagJobs hx
    rcases mem_exts _ hz with rfl | h
    · exfalso
      obtain ⟨v, hv, g, hg, rfl⟩ := mem_nextN.1 hy
      have := hs.ok.single G hG _ g (u1.inv.cat_lhs i j v hv) hg
      unfold itemJobs at hb
      simp only [] at hb
      rw [this] at hb
      simp at hb
    · rw [ex]
      exact h
  -- nodes from the cell itself are used with what the cell had before
  obtain ⟨q2, e2, r2, u2, c2⟩ := fold_spec (p := p) (u := u) (i := i) (fun q (G : Gram ι R) => consumeNonTerminal G (addToChart p u G i p.n j) i j ⟨G.root, [], 0, []⟩ q)
    (fun G => (nextN q1 G i j (root G)).flatMap fun y => tagJobs G (exts p q0 G p.n j y)) (fun q2 => Up p i q1 q2 ∧ q2.chart i j = q1.chart i j) p.grams (by
    intro G hG q2 u2 i2
    have hN := hNT G q2 u2
    have hfine : ∀ y ∈ nextN q1 G i j (root G), Fine p q1 G y := fun y hy => by
      obtain ⟨v, hv, g, hg, rfl⟩ := mem_nextN.1 hy
      refine ⟨Placed.extend ⟨[], rfl⟩ hg, ?_⟩
      intro w hw
      simp [root] at hw
      rw [hw]
      exact u1.inv.lt i j v hv
    have hcongr : ∀ y, exts p q1 G p.n j y = exts p q0 G p.n j y := fun y =>
      exts_congr _ j y (fun a b hab => u1.chart a b (by omega)) (fun a b hab v hv => u1.cat v (h0.lt a b v hv))
    obtain ⟨q3, e3, r3⟩ := nonterminal_spec (u := u) (it := root G) (addToChart p u G i p.n j) (fun y => tagJobs G (exts p q0 G p.n j y)) q2
      (fun y hy q hq => by
        rw [hN] at hy
        obtain ⟨q4, e4, r4⟩ := add_spec hs u1.inv hG p.n j y q hij (by omega) (hfine y hy) hq
        rw [hcongr y] at r4
        exact ⟨q4, e4, r4, (r4.quiet j fun x hx => Nat.ne_of_gt (hlate G hG y hy x hx)).1⟩) u2.1
    rw [hN] at r3
    refine ⟨q3, e3, r3, u2.1.trans r3.up, ?_⟩
    refine Eq.trans (r3.quiet j ?_).1 u2.2
    intro x hx
    obtain ⟨y, hy, hx⟩ := List.mem_flatMap.1 hx
    exact Nat.ne_of_gt (hlate G hG y hy x hx)) q1 ⟨Up.refl u1.inv, rfl⟩ u1.inv
  have hbs : cellBs p q0 q2 i j = cellBs p q0 q1 i j := cellBs_congr c2 fun v hv => u2.cat v (u1.inv.lt i j v hv)
  refine ⟨q2, ?_, ?_, ?_⟩
  · unfold parseCell
    rw [e1]
    exact e2
  · rw [hbs]
    exact r1.trans r2
  · rw [hbs]
    intro x hx
    unfold cellBs at hx
    rcases List.mem_append.1 hx with hx | hx
    · obtain ⟨G, hG, hx⟩ := List.mem_flatMap.1 hx
      obtain ⟨y, hy, hx⟩ := List.mem_flatMap.1 hx
      obtain ⟨z, hz, ex, _⟩ := mem_tagJobs hx
      rcases mem_exts _ hz with rfl | h
      · rw [ex]
      · omega
    · obtain ⟨G, hG, hx⟩ := List.mem_flatMap.1 hx
      obtain ⟨y, hy, hx⟩ := List.mem_flatMap.1 hx
      exact Nat.le_of_lt (hlate G hG y hy x hx)

theorem row_spec (hs : Set p u ρ) {q0 : Passive R φ} (h0 : PInv p q0) {i : Nat} (m : Nat) (hm : i + m ≤ p.n) :
    ∃ q', (List.range' (i + 1) m).foldlM (fun q j => parseCell p u i j q) q0 = some q' ∧ RowRan p u i ((List.range' (i + 1) m).flatMap fun j => cellBs p q0 q' i j) q0 q' := by
  induction m with
  | zero => exact ⟨q0, rfl, RowRan.nil h0⟩
  | succ m ih =>
    obtain ⟨q1, e1, r1⟩ := ih (by omega)
    obtain ⟨q2, e2, r2, hl⟩ := cell_spec hs h0 (i := i) (j := i + 1 + m) (by omega) (by omega) q1 r1.up
    refine ⟨q2, ?_, ?_⟩
    · rw [List.range'_concat, Nat.one_mul, List.foldlM_append, e1]
      simp only [Option.bind_eq_bind, Option.bind_some, List.foldlM_cons, e2]
      rfl
    · rw [List.range'_concat, Nat.one_mul, List.flatMap_append]
      have : ((List.range' (i + 1) m).flatMap fun j => cellBs p q0 q2 i j) = (List.range' (i + 1) m).flatMap fun j => cellBs p q0 q1 i j := by
        rw [List.flatMap_def, List.flatMap_def]
        congr 1
        apply List.map_congr_left
        intro j hj
        have hj' := List.mem_range'_1.1 hj
        refine cellBs_congr (r2.quiet j fun x hx => ?_).1 fun v hv => r2.cat v (r1.inv.lt i j v hv)
        have := hl x hx
        omega
      rw [this]
      refine r1.trans ?_
      simpa using r2

end

end Cdec.Dec.Parser.Rs
