import Verif.Decoder.ForestShape
/-!
# C76: The tagger's forest holds exactly the taggings of the input, each once
-/
namespace Cdec.Dec
open Cdec.HG
open Cdec.Dec.Parser.Spec (LTree Shows)

/-- The derivation of a tagging: the words with their tags are attached from left to right. -/
def taggingTree (seq tags : List Int) : Option (LTree TagVal) :=
  (chainOf (fun k => .binary (k + 1)) ((seq.zip tags).zipIdx.map fun x => .lex x.2 x.1.1 x.1.2)).map fun t => .node .goal [t]

theorem zipIdx_map_zipIdx {α β : Type} (f : α × Nat → β) (l : List α) : (l.zipIdx.map f).zipIdx = l.zipIdx.map fun x => (f x, x.2) := by
  apply List.ext_getElem?
  intro i
  simp only [List.getElem?_zipIdx, List.getElem?_map]
  cases l[i]? <;> simp

theorem tag_choice (tagset seq : List Int) (xs : List TagVal) :
    List.Forall₂ (fun x l => x ∈ l) xs (seq.zipIdx.map fun x => tagset.map fun t => TagVal.lex x.2 x.1 t) ↔
      ∃ tags, tags.length = seq.length ∧ (∀ t ∈ tags, t ∈ tagset) ∧ xs = (seq.zip tags).zipIdx.map fun x => .lex x.2 x.1.1 x.1.2 := by
  induction seq using List.reverseRecOn generalizing xs with
  | nil =>
    constructor
    · intro h; cases h; exact ⟨[], rfl, by simp, rfl⟩
    · rintro ⟨tags, h, _, rfl⟩
      simp
  | append_singleton seq w ih =>
    rw [List.zipIdx_append, List.map_append]
    constructor
    · intro h
      obtain ⟨ys, zs, hy, hz, rfl⟩ : ∃ ys zs, List.Forall₂ (fun x l => x ∈ l) ys (seq.zipIdx.map fun x => tagset.map fun t => TagVal.lex x.2 x.1 t) ∧
          List.Forall₂ (fun x l => x ∈ l) zs _ ∧ xs = ys ++ zs :=
        ⟨_, _, List.forall₂_take_append _ _ _ h, List.forall₂_drop_append _ _ _ h, (List.take_append_drop _ _).symm⟩
      obtain ⟨tags, h1, h2, rfl⟩ := (ih ys).1 hy
      simp only [List.zipIdx_singleton, List.map_cons, List.map_nil] at hz
      cases hz with
      | cons h3 h4 =>
        cases h4
        obtain ⟨t, ht, rfl⟩ := List.mem_map.1 h3
        refine ⟨tags ++ [t], by simp [h1], ?_, ?_⟩
        · intro t' ht'
          rcases List.mem_append.1 ht' with h | h
          · exact h2 t' h
          · rw [List.mem_singleton.1 h]; exact ht
        · rw [List.zip_append h1.symm, List.zipIdx_append, List.map_append]
          simp [h1]
    · rintro ⟨tags', h1, h2, rfl⟩
      rw [List.length_append, List.length_singleton] at h1
      obtain ⟨tags, t, rfl⟩ : ∃ tags t, tags' = tags ++ [t] := by
        refine ⟨tags'.dropLast, tags'.getLast (by intro h; subst h; simp at h1), (List.dropLast_append_getLast _).symm⟩
      have hlen : tags.length = seq.length := by simpa using h1
      rw [List.zip_append hlen.symm, List.zipIdx_append, List.map_append]
      refine List.rel_append ((ih _).2 ⟨tags, hlen, fun t' ht' => h2 t' (by simp [ht']), rfl⟩) ?_
      simp only [List.zip_cons_cons, List.zip_nil_right, List.zipIdx_singleton, List.map_cons, List.map_nil]
      refine .cons (List.mem_map.2 ⟨t, h2 t (by simp), ?_⟩) .nil
      simp [hlen]

theorem tag_core (cat goalCat : Int) (tagset seq : List Int) (hne : seq ≠ []) : ∃ g spec, tagTrellis cat goalCat tagset seq = some g ∧ Shape g spec ∧ WF g ∧ 0 < g.nodes.length ∧
    (∀ s, (∃ T, IsDeriv g g.goal T ∧ Shows g T s) ↔ ∃ tags, tags.length = seq.length ∧ (∀ t ∈ tags, t ∈ tagset) ∧ taggingTree seq tags = some s) ∧
    (tagset.Nodup → ∀ v, ((spec.getD v []).map (·.2)).Nodup) := by
  obtain ⟨spec, h⟩ := chain_inv cat (fun k => TagVal.binary (k + 1)) (seq.zipIdx.map fun x => tagset.map fun t => TagVal.lex x.2 x.1 t)
    (by simpa using hne)
  have e : (seq.zipIdx.foldl (fun s x => chainStep cat (.binary (x.2 + 1)) (tagset.map fun t => .lex x.2 x.1 t) s) (none, empty)) =
      chainLoop cat (fun k => TagVal.binary (k + 1)) (seq.zipIdx.map fun x => tagset.map fun t => TagVal.lex x.2 x.1 t) := by
    unfold chainLoop
    rw [zipIdx_map_zipIdx, List.foldl_map]
  rw [← e] at h
  obtain ⟨g, h1, h2, h3, _, h5, h6⟩ := h.shape.final h.topo h.ne goalCat .goal
  refine ⟨g, _, h1, h2, h3, h5, ?_, ?_⟩
  · intro s
    rw [h6]
    constructor
    · rintro ⟨t, ht, rfl⟩
      obtain ⟨xs, hx, hc⟩ := (h.lang t).1 ht
      obtain ⟨tags, g1, g2, rfl⟩ := (tag_choice _ _ _).1 hx
      exact ⟨tags, g1, g2, by unfold taggingTree; rw [hc]; rfl⟩
    · rintro ⟨tags, g1, g2, g3⟩
      unfold taggingTree at g3
      obtain ⟨t, g4, rfl⟩ := Option.map_eq_some_iff.1 g3
      exact ⟨t, (h.lang t).2 ⟨_, (tag_choice _ _ _).2 ⟨tags, g1, g2, rfl⟩, g4⟩, rfl⟩
  · intro hnd v
    by_cases hv : v < spec.length
    · rw [getD_append_left' _ _ _ hv]
      obtain ⟨l, ⟨hl | ⟨k, rfl⟩, e2⟩ | e2⟩ := h.edges v
      · rw [e2]
        obtain ⟨l', hl', rfl⟩ := hl
        obtain ⟨x, _, rfl⟩ := List.mem_map.1 hl'
        exact hnd.map fun a b hab => by cases hab; rfl
      · rw [e2]; simp
      · rw [e2]; simp
    · by_cases hv2 : v = spec.length
      · subst hv2; simp
      · rw [List.getD_eq_getElem?_getD, List.getElem?_eq_none (by simp; omega)]; simp

/-- For an input of at least one word the derivations in the forest are exactly those of the sequences of tags, one tag of the tag set for each word. -/
theorem C76_taggings (cat goalCat : Int) (tagset seq : List Int) (hne : seq ≠ []) : ∃ g, tagTrellis cat goalCat tagset seq = some g ∧ WF g ∧ 0 < g.nodes.length ∧
    ∀ s, (∃ T, IsDeriv g g.goal T ∧ Shows g T s) ↔ ∃ tags, tags.length = seq.length ∧ (∀ t ∈ tags, t ∈ tagset) ∧ taggingTree seq tags = some s := by
  obtain ⟨g, _, h1, _, h3, h4, h5, _⟩ := tag_core cat goalCat tagset seq hne
  exact ⟨g, h1, h3, h4, h5⟩

theorem chainTree_leaves_inj {α : Type} (bin : Nat → α) : ∀ (xs ys : List α) (t u : LTree α) (k : Nat), xs.length = ys.length →
    chainTree bin t k xs = chainTree bin u k ys → t = u ∧ xs = ys
  | [], [], t, u, _, _, h => ⟨h, rfl⟩
  | x :: xs, y :: ys, t, u, k, hl, h => by
    obtain ⟨h1, h2⟩ := chainTree_leaves_inj bin xs ys _ _ (k + 1) (by simpa using hl) h
    simp only [LTree.node.injEq, List.cons.injEq, and_true, true_and] at h1
    exact ⟨h1.1, by rw [h1.2, h2]⟩

theorem chainOf_inj {α : Type} (bin : Nat → α) {xs ys : List α} {t : LTree α} (hl : xs.length = ys.length) (h1 : chainOf bin xs = some t) (h2 : chainOf bin ys = some t) : xs = ys := by
  cases xs with
  | nil => cases h1
  | cons x xs => cases ys with
    | nil => cases h2
    | cons y ys =>
      simp only [chainOf, Option.some.injEq] at h1 h2
      rw [← h2] at h1
      obtain ⟨h3, h4⟩ := chainTree_leaves_inj bin xs ys _ _ 1 (by simpa using hl) h1
      simp only [LTree.node.injEq, and_true] at h3
      rw [h3, h4]

/-- If the tag set lists no tag twice, every tagging has exactly one derivation. -/
theorem C76_once (cat goalCat : Int) (tagset seq : List Int) (hne : seq ≠ []) (hnd : tagset.Nodup) : ∃ g, tagTrellis cat goalCat tagset seq = some g ∧
    ∀ tags, tags.length = seq.length → (∀ t ∈ tags, t ∈ tagset) → ∃! T, IsDeriv g g.goal T ∧ ∃ s, Shows g T s ∧ taggingTree seq tags = some s := by
  obtain ⟨g, spec, h1, h2, h3, h4, h5, h6⟩ := tag_core cat goalCat tagset seq hne
  refine ⟨g, h1, ?_⟩
  intro tags hl ht
  obtain ⟨s, hs⟩ : ∃ s, taggingTree seq tags = some s := by
    unfold taggingTree
    cases seq with
    | nil => exact absurd rfl hne
    | cons w seq => cases tags with
      | nil => cases hl
      | cons t tags => exact ⟨_, rfl⟩
  obtain ⟨T, hT, hsT⟩ := (h5 s).2 ⟨tags, hl, ht, hs⟩
  refine ⟨T, ⟨hT, s, hsT, hs⟩, ?_⟩
  rintro T' ⟨hT', s', hs', e⟩
  rw [hs] at e
  cases e
  exact h2.once (h6 hnd) hT' hT hs' hsT

/-- Different taggings have different derivations. -/
theorem C76_distinct (seq tags tags' : List Int) (h : tags.length = seq.length) (h' : tags'.length = seq.length) (s : LTree TagVal) (hs : taggingTree seq tags = some s)
    (hs' : taggingTree seq tags' = some s) : tags = tags' := by
  unfold taggingTree at hs hs'
  obtain ⟨t, g1, e1⟩ := Option.map_eq_some_iff.1 hs
  obtain ⟨t', g2, e2⟩ := Option.map_eq_some_iff.1 hs'
  rw [← e2] at e1
  simp only [LTree.node.injEq, List.cons.injEq, and_true, true_and] at e1
  subst e1
  have := chainOf_inj _ (by simp [h, h']) g1 g2
  refine List.ext_getElem (by omega) fun i i1 i2 => ?_
  have e3 := congrArg (fun l => l[i]?) this
  simp only [List.getElem?_map, List.getElem?_zipIdx] at e3
  rw [List.getElem?_eq_getElem (by simp; omega), List.getElem?_eq_getElem (by simp; omega)] at e3
  simpa using e3

/-- Non-vacuity: two words and two tags. -/
example : taggingTree [10, 11] [5, 6] = some (.node .goal [.node (.binary 2) [.node (.lex 0 10 5) [], .node (.lex 1 11 6) []]]) := rfl
example : (tagTrellis 1 2 [5, 6] [10, 11]).isSome = true ∧ [5, 6].Nodup := by decide

/-- On an empty input the code takes the node before the first one as a tail. -/
theorem C76_empty_fails (cat goalCat : Int) (tagset : List Int) : tagTrellis cat goalCat tagset [] = none := rfl

end Cdec.Dec
