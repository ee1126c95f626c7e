import Verif.Decoder.PhraseBasedQueue
import Verif.Decoder.ParserPassive
/-! The forest of the phrase-based translator. -/
namespace Cdec.Dec.PB
open Cdec.HG Spec
variable {R : Type} {x : Ctx R}

/-- What a node stands for: the ways to cover `b`, or the translations of the span of a state. -/
inductive Tag where
  | cov (b : List Bool)
  | phr (k : Key)
deriving DecidableEq

/-- The edges for the translations of a span. -/
def phraseApps (x : Ctx R) (i j : Nat) : List (Option (List Nat × Val R)) := (x.rules i j).map fun r => some ([], .phrase r i j)

/-- The edges that state `k` adds to the node of its new coverage. -/
def contrib (x : Ctx R) (idx : Tag → Nat) (k : Key) : List (Option (List Nat × Val R)) :=
  if k.1 = x.none then phraseApps x k.2.1 k.2.2 else [some ([idx (.cov k.1), idx (.phr k)], .concat)]

/-- The edges of the node for coverage `C`. -/
def covApps (x : Ctx R) (idx : Tag → Nat) (P : List Key) (C : List Bool) : List (Option (List Nat × Val R)) :=
  P.flatMap fun k => if x.hasData k = true ∧ out k = C then contrib x idx k else []

/-- What is true of the forest and the map `c`; `tags` says what the nodes stand for. -/
structure FInv (x : Ctx R) (P : List Key) (g : Hypergraph (Val R)) (c : List Bool → Option Nat) (tags : List Tag) : Prop where
  inv : Inv g
  len : tags.length = g.nodes.length
  nodup : tags.Nodup
  mem_cov : ∀ C, .cov C ∈ tags ↔ ∃ k ∈ P, x.hasData k = true ∧ out k = C
  mem_phr : ∀ k, .phr k ∈ tags ↔ k ∈ P ∧ x.hasData k = true ∧ k.1 ≠ x.none
  map : ∀ C, c C = if C = x.none then some 0 else if .cov C ∈ tags then some (tags.idxOf (.cov C) + 1) else none
  phr : ∀ k, .phr k ∈ tags → g.apps (tags.idxOf (.phr k)) = phraseApps x k.2.1 k.2.2
  cov : ∀ C, .cov C ∈ tags → g.apps (tags.idxOf (.cov C)) = covApps x tags.idxOf P C

theorem addPhrases_spec (rs : List R) (i j h : Nat) : ∀ g : Hypergraph (Val R), Inv g → h < g.nodes.length →
    Inv (addPhrases rs i j h g) ∧ (addPhrases rs i j h g).nodes.length = g.nodes.length ∧
      ∀ w, (addPhrases rs i j h g).apps w = if w = h then g.apps w ++ rs.map (fun r => some ([], .phrase r i j)) else g.apps w := by
  induction rs with
  | nil => intro g hi hh; simp [addPhrases, hi]
  | cons r rs ih =>
    intro g hi hh
    obtain ⟨a1, a2, a3, _⟩ := grow_old hi (Val.phrase r i j) [] (by simp) h hh
    obtain ⟨b1, b2, b3⟩ := ih _ a1 (by rw [a2]; exact hh)
    unfold addPhrases at b1 b2 b3 ⊢
    rw [List.foldl_cons]
    refine ⟨b1, by rw [b2, a2], ?_⟩
    intro w
    rw [b3 w, a3 w]
    split <;> simp

theorem addNode_apps (g : Hypergraph (Val R)) (c : Int) (w : Nat) : (addNode g c).apps w = g.apps w := by
  unfold Hypergraph.apps
  rw [inE_addNode]
  rfl

theorem apps_oob (g : Hypergraph (Val R)) (w : Nat) (h : g.nodes.length ≤ w) : g.apps w = [] := by
  unfold Hypergraph.apps
  rw [inE_oob g w h]; rfl

/-- A new node with the translations of a span. -/
theorem phraseNode_spec {g : Hypergraph (Val R)} (hi : Inv g) (i j : Nat) (c : Int) :
    let g' := addPhrases (x.rules i j) i j g.nodes.length (addNode g c)
    Inv g' ∧ g'.nodes.length = g.nodes.length + 1 ∧ g'.apps g.nodes.length = phraseApps x i j ∧ ∀ w, w ≠ g.nodes.length → g'.apps w = g.apps w := by
  intro g'
  have hl : (addNode g c).nodes.length = g.nodes.length + 1 := by simp [addNode]
  obtain ⟨b1, b2, b3⟩ := addPhrases_spec (x.rules i j) i j g.nodes.length (addNode g c) (inv_addNode hi c) (by omega)
  refine ⟨b1, by rw [b2, hl], ?_, ?_⟩
  · rw [b3, if_pos rfl, addNode_apps, apps_oob g _ (Nat.le_refl _)]; rfl
  · intro w hw
    rw [b3, if_neg hw, addNode_apps]

theorem covApps_congr {idx idx' : Tag → Nat} {P : List Key} (C : List Bool)
    (h : ∀ k ∈ P, x.hasData k = true → k.1 ≠ x.none → idx (.cov k.1) = idx' (.cov k.1) ∧ idx (.phr k) = idx' (.phr k)) :
    covApps x idx P C = covApps x idx' P C := by
  unfold covApps
  apply List.flatMap_congr
  intro k hk
  split
  · rename_i hc
    unfold contrib
    split
    · rfl
    · rename_i hn
      obtain ⟨e1, e2⟩ := h k hk hc.1 hn
      rw [e1, e2]
  · rfl

theorem covApps_snoc (idx : Tag → Nat) (P : List Key) (k : Key) (C : List Bool) :
    covApps x idx (P ++ [k]) C = covApps x idx P C ++ if x.hasData k = true ∧ out k = C then contrib x idx k else [] := by
  simp [covApps]

theorem covApps_none {idx : Tag → Nat} {P : List Key} {C : List Bool} (h : ∀ k ∈ P, x.hasData k = true → out k ≠ C) : covApps x idx P C = [] := by
  unfold covApps
  rw [List.flatMap_eq_nil_iff]
  intro k hk
  rw [if_neg]
  rintro ⟨h1, h2⟩
  exact h k hk h1 h2

theorem idx_app {tags : List Tag} {t : Tag} (h : t ∈ tags) (l : List Tag) : (tags ++ l).idxOf t = tags.idxOf t := by
  rw [List.idxOf_append_of_mem h]

theorem idx_new {tags : List Tag} {t : Tag} (h : t ∉ tags) (l : List Tag) : (tags ++ t :: l).idxOf t = tags.length := by
  rw [List.idxOf_append_of_notMem h]; simp

theorem idx_lt {tags : List Tag} {t : Tag} (h : t ∈ tags) : tags.idxOf t < tags.length := List.idxOf_lt_length_of_mem h

theorem idx_inj {tags : List Tag} {t t' : Tag} (h : t ∈ tags) (he : tags.idxOf t = tags.idxOf t') : t = t' := (List.idxOf_inj h).1 he

/-- A state without translations changes nothing. -/
theorem FInv.skip {P : List Key} {g : Hypergraph (Val R)} {c : List Bool → Option Nat} {tags : List Tag} (h : FInv x P g c tags) {k : Key} (hd : x.hasData k = false) :
    FInv x (P ++ [k]) g c tags := by
  refine ⟨h.inv, h.len, h.nodup, ?_, ?_, h.map, h.phr, ?_⟩
  · intro C
    rw [h.mem_cov]
    constructor
    · rintro ⟨k', h1, h2⟩; exact ⟨k', by simp [h1], h2⟩
    · rintro ⟨k', h1, h2⟩
      rcases List.mem_append.1 h1 with h1 | h1
      · exact ⟨k', h1, h2⟩
      · rw [List.mem_singleton.1 h1, hd] at h2
        simp at h2
  · intro k'
    rw [h.mem_phr]
    constructor
    · rintro ⟨h1, h2⟩; exact ⟨by simp [h1], h2⟩
    · rintro ⟨h1, h2⟩
      rcases List.mem_append.1 h1 with h1 | h1
      · exact ⟨h1, h2⟩
      · rw [List.mem_singleton.1 h1, hd] at h2
        simp at h2
  · intro C hC
    rw [h.cov C hC, covApps_snoc, if_neg (by simp [hd])]
    simp

theorem mem_cov_snoc {P : List Key} {k : Key} {C : List Bool} (hd : x.hasData k = true) :
    (∃ k' ∈ P ++ [k], x.hasData k' = true ∧ out k' = C) ↔ (∃ k' ∈ P, x.hasData k' = true ∧ out k' = C) ∨ out k = C := by
  constructor
  · rintro ⟨k', h1, h2, h3⟩
    rcases List.mem_append.1 h1 with h1 | h1
    · exact .inl ⟨k', h1, h2, h3⟩
    · rw [List.mem_singleton.1 h1] at h3
      exact .inr h3
  · rintro (⟨k', h1, h2⟩ | h1)
    · exact ⟨k', by simp [h1], h2⟩
    · exact ⟨k, by simp, hd, h1⟩

/-- A state that starts a translation. -/
theorem FInv.first {P : List Key} {g : Hypergraph (Val R)} {c : List Bool → Option Nat} {tags : List Tag} (h : FInv x P g c tags) {k : Key} (hd : x.hasData k = true)
    (hb : k.1 = x.none) (hout : out k ≠ x.none) (hkn : ∀ k' ∈ P, x.hasData k' = true → k'.1 ≠ x.none → .cov k'.1 ∈ tags) (hfresh : ∀ k' ∈ P, x.hasData k' = true → out k' ≠ out k) (cat : Int) :
    FInv x (P ++ [k]) (addPhrases (x.rules k.2.1 k.2.2) k.2.1 k.2.2 g.nodes.length (addNode g cat)) (setC c (out k) (g.nodes.length + 1)) (tags ++ [Tag.cov (out k)]) := by
  obtain ⟨b1, b2, b3, b4⟩ := phraseNode_spec (x := x) h.inv k.2.1 k.2.2 cat
  have hnew : Tag.cov (out k) ∉ tags := by
    rw [h.mem_cov]
    rintro ⟨k', h1, h2, h3⟩
    exact hfresh k' h1 h2 h3
  have hcong : ∀ C, covApps x (tags ++ [Tag.cov (out k)]).idxOf P C = covApps x tags.idxOf P C := by
    intro C
    apply covApps_congr
    intro k' h1 h2 h3
    exact ⟨idx_app (hkn k' h1 h2 h3) _, idx_app ((h.mem_phr k').2 ⟨h1, h2, h3⟩) _⟩
  have hold : ∀ t ∈ tags, (addPhrases (x.rules k.2.1 k.2.2) k.2.1 k.2.2 g.nodes.length (addNode g cat)).apps (tags.idxOf t) = g.apps (tags.idxOf t) := by
    intro t ht
    apply b4
    have := idx_lt ht
    rw [h.len] at this
    omega
  refine ⟨b1, by rw [List.length_append, h.len, b2]; rfl, ?_, ?_, ?_, ?_, ?_, ?_⟩
  · rw [List.nodup_append]
    refine ⟨h.nodup, by simp, ?_⟩
    intro a ha b hb hab
    rw [List.mem_singleton.1 hb] at hab
    exact hnew (hab ▸ ha)
  · intro C
    rw [List.mem_append, List.mem_singleton, h.mem_cov, mem_cov_snoc hd, Tag.cov.injEq]
    constructor
    · rintro (h1 | h1)
      · exact .inl h1
      · exact .inr h1.symm
    · rintro (h1 | h1)
      · exact .inl h1
      · exact .inr h1.symm
  · intro k'
    rw [List.mem_append, List.mem_singleton, h.mem_phr]
    simp only [List.mem_append, List.mem_singleton, reduceCtorEq, or_false]
    constructor
    · rintro ⟨h1, h2⟩; exact ⟨.inl h1, h2⟩
    · rintro ⟨h1 | rfl, h2, h3⟩
      · exact ⟨h1, h2, h3⟩
      · exact absurd hb h3
  · intro C
    unfold setC
    by_cases hC : C = out k
    · subst hC
      rw [if_pos rfl, if_neg hout, if_pos (by simp), idx_new hnew, h.len]
    · rw [if_neg hC, h.map C]
      by_cases h1 : C = x.none
      · rw [if_pos h1, if_pos h1]
      · rw [if_neg h1, if_neg h1]
        by_cases h2 : Tag.cov C ∈ tags
        · rw [if_pos h2, if_pos (List.mem_append_left _ h2), idx_app h2]
        · rw [if_neg h2, if_neg]
          simp [h2, hC]
  · intro k' hk'
    have : Tag.phr k' ∈ tags := by simpa using hk'
    rw [idx_app this, hold _ this]
    exact h.phr k' this
  · intro C hC
    rw [covApps_snoc, hcong]
    by_cases h1 : Tag.cov C ∈ tags
    · rw [idx_app h1, hold _ h1, h.cov C h1, if_neg, List.append_nil]
      rintro ⟨_, rfl⟩
      exact hnew h1
    · have hC' : C = out k := by simpa [h1] using hC
      subst hC'
      rw [idx_new hnew, h.len, b3, covApps_none hfresh, if_pos ⟨hd, rfl⟩, List.nil_append]
      unfold contrib
      rw [if_pos hb]

/-- A state that continues a translation, when the new coverage has a node. -/
theorem FInv.nextOld {P : List Key} {g : Hypergraph (Val R)} {c : List Bool → Option Nat} {tags : List Tag} (h : FInv x P g c tags) {k : Key} (hd : x.hasData k = true)
    (hb : k.1 ≠ x.none) (hkn : ∀ k' ∈ P, x.hasData k' = true → k'.1 ≠ x.none → .cov k'.1 ∈ tags) (hkk : .cov k.1 ∈ tags) (hkP : k ∉ P)
    (hC : .cov (out k) ∈ tags) (cat : Int) :
    let g1 := addPhrases (x.rules k.2.1 k.2.2) k.2.1 k.2.2 g.nodes.length (addNode g cat)
    FInv x (P ++ [k]) (connect (addEdge g1 .concat [tags.idxOf (.cov k.1), g.nodes.length]) g1.edges.length (tags.idxOf (.cov (out k)))) c (tags ++ [Tag.phr k]) := by
  intro g1
  obtain ⟨b1, b2, b3, b4⟩ := phraseNode_spec (x := x) h.inv k.2.1 k.2.2 cat
  change Inv g1 at b1
  change g1.nodes.length = _ at b2
  change g1.apps _ = _ at b3
  change ∀ w, _ → g1.apps w = _ at b4
  have hlt : ∀ t ∈ tags, tags.idxOf t < g.nodes.length := fun t ht => by rw [← h.len]; exact idx_lt ht
  obtain ⟨c1, c2, c3, _⟩ := grow_old b1 (Val.concat (R := R)) [tags.idxOf (.cov k.1), g.nodes.length] (by
    intro t ht
    have := hlt _ hkk
    simp only [List.mem_cons, List.not_mem_nil, or_false] at ht
    rcases ht with rfl | rfl <;> omega) (tags.idxOf (.cov (out k))) (by have := hlt _ hC; omega)
  have hnew : Tag.phr k ∉ tags := by
    rw [h.mem_phr]
    exact fun hh => hkP hh.1
  have hcong : ∀ C, covApps x (tags ++ [Tag.phr k]).idxOf P C = covApps x tags.idxOf P C := by
    intro C
    apply covApps_congr
    intro k' h1 h2 h3
    exact ⟨idx_app (hkn k' h1 h2 h3) _, idx_app ((h.mem_phr k').2 ⟨h1, h2, h3⟩) _⟩
  refine ⟨c1, by rw [List.length_append, h.len, c2, b2]; rfl, ?_, ?_, ?_, ?_, ?_, ?_⟩
  · rw [List.nodup_append]
    refine ⟨h.nodup, by simp, ?_⟩
    intro a ha b hb hab
    rw [List.mem_singleton.1 hb] at hab
    exact hnew (hab ▸ ha)
  · intro C
    rw [List.mem_append, List.mem_singleton, mem_cov_snoc hd, h.mem_cov]
    simp only [reduceCtorEq, or_false]
    constructor
    · exact .inl
    · rintro (h1 | h1)
      · exact h1
      · rw [← h1]
        exact (h.mem_cov _).1 hC
  · intro k'
    rw [List.mem_append, List.mem_singleton, h.mem_phr, Tag.phr.injEq]
    simp only [List.mem_append, List.mem_singleton]
    constructor
    · rintro (⟨h1, h2⟩ | rfl)
      · exact ⟨.inl h1, h2⟩
      · exact ⟨.inr rfl, hd, hb⟩
    · rintro ⟨h1 | rfl, h2⟩
      · exact .inl ⟨h1, h2⟩
      · exact .inr rfl
  · intro C
    rw [h.map C]
    by_cases h1 : C = x.none
    · rw [if_pos h1, if_pos h1]
    · rw [if_neg h1, if_neg h1]
      by_cases h2 : Tag.cov C ∈ tags
      · rw [if_pos h2, if_pos (List.mem_append_left _ h2), idx_app h2]
      · rw [if_neg h2, if_neg]
        simp [h2]
  · intro k' hk'
    by_cases h1 : Tag.phr k' ∈ tags
    · rw [idx_app h1, c3, if_neg, b4 _ (by have := hlt _ h1; omega)]
      · exact h.phr k' h1
      · intro he
        have := idx_inj h1 he
        simp at this
    · have : k' = k := by simpa [h1] using hk'
      subst this
      rw [idx_new hnew, h.len, c3, if_neg (by have := hlt _ hC; omega), b3]
  · intro C hC'
    have h1 : Tag.cov C ∈ tags := by simpa using hC'
    rw [covApps_snoc, hcong, idx_app h1, c3, b4 _ (by have := hlt _ h1; omega), h.cov C h1]
    by_cases h2 : out k = C
    · subst h2
      rw [if_pos rfl, if_pos ⟨hd, rfl⟩]
      unfold contrib
      rw [if_neg hb]
      beta_reduce
      rw [idx_app hkk, idx_new hnew, h.len]
    · rw [if_neg, if_neg (fun hh => h2 hh.2), List.append_nil]
      intro he
      have := idx_inj h1 he
      rw [Tag.cov.injEq] at this
      exact h2 this.symm

/-- A state that continues a translation, when the new coverage has no node. -/
theorem FInv.nextNew {P : List Key} {g : Hypergraph (Val R)} {c : List Bool → Option Nat} {tags : List Tag} (h : FInv x P g c tags) {k : Key} (hd : x.hasData k = true)
    (hb : k.1 ≠ x.none) (hout : out k ≠ x.none) (hkn : ∀ k' ∈ P, x.hasData k' = true → k'.1 ≠ x.none → .cov k'.1 ∈ tags) (hkk : .cov k.1 ∈ tags) (hkP : k ∉ P)
    (hC : .cov (out k) ∉ tags) (cat : Int) :
    let g1 := addPhrases (x.rules k.2.1 k.2.2) k.2.1 k.2.2 g.nodes.length (addNode g cat)
    let g2 := addNode g1 cat
    FInv x (P ++ [k]) (connect (addEdge g2 .concat [tags.idxOf (.cov k.1), g.nodes.length]) g2.edges.length g1.nodes.length) (setC c (out k) (g1.nodes.length + 1))
      (tags ++ [Tag.phr k, .cov (out k)]) := by
  intro g1 g2
  obtain ⟨b1, b2, b3, b4⟩ := phraseNode_spec (x := x) h.inv k.2.1 k.2.2 cat
  change Inv g1 at b1
  change g1.nodes.length = _ at b2
  change g1.apps _ = _ at b3
  change ∀ w, _ → g1.apps w = _ at b4
  have hl2 : g2.nodes.length = g1.nodes.length + 1 := by simp [g2, addNode]
  have ha2 : ∀ w, g2.apps w = g1.apps w := addNode_apps g1 cat
  have hlt : ∀ t ∈ tags, tags.idxOf t < g.nodes.length := fun t ht => by rw [← h.len]; exact idx_lt ht
  obtain ⟨c1, c2, c3, _⟩ := grow_old (inv_addNode b1 cat) (Val.concat (R := R)) [tags.idxOf (.cov k.1), g.nodes.length] (by
    intro t ht
    have := hlt _ hkk
    change t < g2.nodes.length
    simp only [List.mem_cons, List.not_mem_nil, or_false] at ht
    rcases ht with rfl | rfl <;> omega) g1.nodes.length (by change _ < g2.nodes.length; omega)
  change _ = g2.nodes.length at c2
  have hnew : Tag.phr k ∉ tags := by
    rw [h.mem_phr]
    exact fun hh => hkP hh.1
  have hi2 : (tags ++ [Tag.phr k, .cov (out k)]).idxOf (Tag.cov (out k)) = g1.nodes.length := by
    rw [List.idxOf_append_of_notMem hC, b2, h.len]
    simp [List.idxOf_cons]
  have hcong : ∀ C, covApps x (tags ++ [Tag.phr k, .cov (out k)]).idxOf P C = covApps x tags.idxOf P C := by
    intro C
    apply covApps_congr
    intro k' h1 h2 h3
    exact ⟨idx_app (hkn k' h1 h2 h3) _, idx_app ((h.mem_phr k').2 ⟨h1, h2, h3⟩) _⟩
  refine ⟨c1, by rw [List.length_append, h.len]; change _ = (connect _ _ _).nodes.length; rw [c2, hl2, b2]; rfl, ?_, ?_, ?_, ?_, ?_, ?_⟩
  · rw [List.nodup_append]
    refine ⟨h.nodup, by simp, ?_⟩
    intro a ha b hb hab
    subst hab
    simp only [List.mem_cons, List.not_mem_nil, or_false] at hb
    rcases hb with rfl | rfl
    · exact hnew ha
    · exact hC ha
  · intro C
    rw [List.mem_append, mem_cov_snoc hd, h.mem_cov]
    simp only [List.mem_cons, reduceCtorEq, List.not_mem_nil, or_false, false_or, Tag.cov.injEq]
    constructor
    · rintro (h1 | h1)
      · exact .inl h1
      · exact .inr h1.symm
    · rintro (h1 | h1)
      · exact .inl h1
      · exact .inr h1.symm
  · intro k'
    rw [List.mem_append, h.mem_phr]
    simp only [List.mem_append, List.mem_cons, reduceCtorEq, List.not_mem_nil, or_false, Tag.phr.injEq]
    constructor
    · rintro (⟨h1, h2⟩ | rfl)
      · exact ⟨.inl h1, h2⟩
      · exact ⟨.inr rfl, hd, hb⟩
    · rintro ⟨h1 | rfl, h2⟩
      · exact .inl ⟨h1, h2⟩
      · exact .inr rfl
  · intro C
    unfold setC
    by_cases hC' : C = out k
    · subst hC'
      rw [if_pos rfl, if_neg hout, if_pos (by simp), hi2]
    · rw [if_neg hC', h.map C]
      by_cases h1 : C = x.none
      · rw [if_pos h1, if_pos h1]
      · rw [if_neg h1, if_neg h1]
        by_cases h2 : Tag.cov C ∈ tags
        · rw [if_pos h2, if_pos (List.mem_append_left _ h2), idx_app h2]
        · rw [if_neg h2, if_neg]
          simp [h2, hC']
  · intro k' hk'
    by_cases h1 : Tag.phr k' ∈ tags
    · rw [idx_app h1, c3, if_neg (by have := hlt _ h1; omega)]
      rw [ha2, b4 _ (by have := hlt _ h1; omega)]
      exact h.phr k' h1
    · have : k' = k := by simpa [h1] using hk'
      subst this
      rw [idx_new hnew, h.len, c3, if_neg (by omega)]
      rw [ha2, b3]
  · intro C hC'
    rw [covApps_snoc, hcong]
    by_cases h1 : Tag.cov C ∈ tags
    · rw [idx_app h1, c3, if_neg (by have := hlt _ h1; omega)]
      rw [ha2, b4 _ (by have := hlt _ h1; omega), h.cov C h1, if_neg, List.append_nil]
      rintro ⟨_, rfl⟩
      exact hC h1
    · have hC'' : C = out k := by simpa [h1] using hC'
      subst hC''
      rw [hi2, c3, if_pos rfl, if_pos ⟨hd, rfl⟩, covApps_none]
      · rw [ha2, apps_oob g1 _ (Nat.le_refl _)]
        unfold contrib
        rw [if_neg hb]
        beta_reduce
        rw [idx_app hkk, idx_new hnew, h.len]
      · intro k' h2 h3 h4
        exact hC ((h.mem_cov _).2 ⟨k', h2, h3, h4⟩)

end Cdec.Dec.PB
