import Verif.Decoder.IntersectFastLemmas
import Verif.Decoder.DecodeLemmas
import Verif.Props.C77
/-! Helper lemmas: the chains of the tagger and the lexical translator. -/
namespace Cdec.Dec.Fast
open Cdec.HG Cdec.Dec.Fast.Spec
open Cdec.Dec.Parser (shows_iff)
open Cdec.Dec.Parser.Spec (LTree Shows)
variable {α β φ : Type}

/-! ### The edges of a chain -/

theorem put_edges (g : Hypergraph α) (x : α) (ts : List Nat) (v : Nat) : (put g x ts v).edges = g.edges ++ [⟨g.edges.length, some v, ts, x⟩] := by
  unfold put connect addEdge
  simp only []
  apply List.ext_getElem?
  intro i
  rw [List.getElem?_modify]
  rcases Nat.lt_trichotomy i g.edges.length with h | h | h
  · rw [List.getElem?_append_left h, List.getElem?_append_left h]
    have : ¬ g.edges.length = i := by omega
    simp [this]
  · subst h; simp
  · rw [List.getElem?_eq_none (by simp; omega), List.getElem?_eq_none (by simp; omega)]; rfl

theorem putLeaves_edges (xs : List α) (v : Nat) : ∀ g : Hypergraph α, ∃ ys : List (Edge α), (putLeaves g xs v).edges = g.edges ++ ys ∧ ys.map (·.val) = xs ∧ ∀ y ∈ ys, y.tails = [] := by
  induction xs with
  | nil => intro g; exact ⟨[], by simp [putLeaves], rfl, by simp⟩
  | cons x xs ih =>
    intro g
    obtain ⟨ys, h1, h2, h3⟩ := ih (put g x [] v)
    refine ⟨⟨g.edges.length, some v, [], x⟩ :: ys, ?_, by simp [h2], ?_⟩
    · rw [putLeaves, List.foldl_cons]
      rw [putLeaves] at h1
      rw [h1, put_edges]
      simp
    · intro y hy
      rcases List.mem_cons.1 hy with rfl | hy
      · rfl
      · exact h3 y hy

/-- Edges without tails are the leaves, the others are the binary ones. -/
structure ChainEdges (bin : Nat → α) (ls : List (List α)) (es : List (Edge α)) : Prop where
  out : ∀ x ∈ es, (x.tails = [] ∧ ∃ l ∈ ls, x.val ∈ l) ∨ (x.tails ≠ [] ∧ ∃ k, x.val = bin k)
  inn : ∀ l ∈ ls, ∀ a ∈ l, ∃ x ∈ es, x.tails = [] ∧ x.val = a

theorem chain_edges (cat : Int) (bin : Nat → α) (ls : List (List α)) : ChainEdges bin ls (chainLoop cat bin ls).2.edges := by
  induction ls using List.reverseRecOn with
  | nil => exact ⟨by intro x hx; simp [chainLoop, empty] at hx, by simp⟩
  | append_singleton ls l ih =>
    rw [chainLoop_snoc]
    generalize chainLoop cat bin ls = s at ih
    have key : ∃ ys zs : List (Edge α), (chainStep cat (bin ls.length) l s).2.edges = s.2.edges ++ ys ++ zs ∧ ys.map (·.val) = l ∧ (∀ y ∈ ys, y.tails = []) ∧
        ∀ z ∈ zs, z.tails ≠ [] ∧ z.val = bin ls.length := by
      obtain ⟨ys, h1, h2, h3⟩ := putLeaves_edges l s.2.nodes.length (addNode s.2 cat)
      have h1' : (putLeaves (addNode s.2 cat) l s.2.nodes.length).edges = s.2.edges ++ ys := h1
      unfold chainStep
      simp only []
      cases s.1 with
      | none => exact ⟨ys, [], by simp [h1'], h2, h3, by simp⟩
      | some p =>
        simp only []
        refine ⟨ys, [⟨(putLeaves (addNode s.2 cat) l s.2.nodes.length).edges.length, some (putLeaves (addNode s.2 cat) l s.2.nodes.length).nodes.length, [p, s.2.nodes.length], bin ls.length⟩], ?_, h2, h3, ?_⟩
        · rw [put_edges]
          have : (addNode (putLeaves (addNode s.2 cat) l s.2.nodes.length) cat).edges = (putLeaves (addNode s.2 cat) l s.2.nodes.length).edges := rfl
          rw [this, h1']
        · intro z hz
          rw [List.mem_singleton.1 hz]
          exact ⟨by simp, rfl⟩
    obtain ⟨ys, zs, h1, h2, h3, h4⟩ := key
    rw [h1]
    constructor
    · intro x hx
      rcases List.mem_append.1 hx with hx | hx
      · rcases List.mem_append.1 hx with hx | hx
        · rcases ih.out x hx with ⟨a, l', b, c⟩ | h
          · exact .inl ⟨a, l', List.mem_append_left _ b, c⟩
          · exact .inr h
        · exact .inl ⟨h3 x hx, l, by simp, by rw [← h2]; exact List.mem_map.2 ⟨x, hx, rfl⟩⟩
      · exact .inr ⟨(h4 x hx).1, _, (h4 x hx).2⟩
    · intro l' hl' a ha
      rcases List.mem_append.1 hl' with h | h
      · obtain ⟨x, b, c⟩ := ih.inn l' h a ha
        exact ⟨x, List.mem_append_left _ (List.mem_append_left _ b), c⟩
      · rw [List.mem_singleton.1 h, ← h2] at ha
        obtain ⟨x, hx, rfl⟩ := List.mem_map.1 ha
        exact ⟨x, List.mem_append_left _ (List.mem_append_right _ hx), h3 x hx, rfl⟩

theorem finish_edges {c : Int} {goal : α} {g g' : Hypergraph α} (h : Dec.finish c goal g = some g') : ∃ v ts, ts ≠ [] ∧ g'.edges = g.edges ++ [⟨g.edges.length, some v, ts, goal⟩] := by
  unfold Dec.finish at h
  split at h
  · cases h
  · cases h
    exact ⟨_, [g.nodes.length - 1], by simp, by rw [put_edges]; rfl⟩

/-! ### Trees -/

mutual
/-- The labels at the leaves of a tree. -/
def leavesOf : LTree α → List α
  | .node b ch => match ch with
    | [] => [b]
    | t :: ts => leavesOfs (t :: ts)
def leavesOfs : List (LTree α) → List α
  | [] => []
  | t :: ts => leavesOf t ++ leavesOfs ts
end

theorem leavesOf_chain (bin : Nat → α) : ∀ (xs : List α) (t : LTree α) (k : Nat), leavesOf (chainTree bin t k xs) = leavesOf t ++ xs
  | [], t, _ => by simp [chainTree]
  | x :: xs, t, k => by
    rw [chainTree, leavesOf_chain bin xs]
    simp [leavesOf, leavesOfs]

theorem leavesOf_chainOf (bin : Nat → α) (xs : List α) (t : LTree α) (h : chainOf bin xs = some t) : leavesOf t = xs := by
  cases xs with
  | nil => cases h
  | cons x xs =>
    simp only [chainOf, Option.some.injEq] at h
    rw [← h, leavesOf_chain]
    simp [leavesOf]

/-- The edges without tails of a derivation are the leaves of what it shows. -/
theorem leaf_labels {g : Hypergraph α} (P : α → Prop) (T : Tree) : ∀ v s, IsDeriv g v T → Shows g T s →
    ((∀ e ∈ T.edges, ∀ x, g.edges[e]? = some x → x.tails = [] → P x.val) ↔ ∀ b ∈ leavesOf s, P b) := by
  induction T using Tree.rec (motive_2 := fun ch => ∀ vs ss, List.Forall₂ (IsDeriv g) vs ch → List.Forall₂ (Shows g) ch ss →
    ((∀ T ∈ ch, ∀ e ∈ T.edges, ∀ x, g.edges[e]? = some x → x.tails = [] → P x.val) ↔ ∀ b ∈ leavesOfs ss, P b)) with
  | node e ch ih =>
    rintro v ⟨b, ss⟩ hd hs
    obtain ⟨hin, hch⟩ := isDeriv_iff.1 hd
    obtain ⟨x, hx, rfl, hsub⟩ := shows_iff.1 hs
    have ht : g.tails e = x.tails := by unfold Hypergraph.tails; rw [hx]
    rw [ht] at hch
    have := ih _ _ hch hsub
    cases ch with
    | nil =>
      cases hsub
      have htl : x.tails = [] := by
        cases hxt : x.tails with
        | nil => rfl
        | cons a b => rw [hxt] at hch; cases hch
      simp only [Tree.edges, List.flatMap_nil, List.mem_singleton, leavesOf, forall_eq]
      constructor
      · intro h; exact h x hx htl
      · intro h y hy _; rw [hx] at hy; cases hy; exact h
    | cons T Ts =>
      cases hsub with
      | @cons _ s _ ss hs1 hs2 =>
        have e1 : leavesOf (.node x.val (s :: ss)) = leavesOfs (s :: ss) := rfl
        rw [e1, ← this]
        have htl : x.tails ≠ [] := by
          intro h; rw [h] at hch; cases hch
        have e2 : (Tree.node e (T :: Ts)).edges = e :: (T :: Ts).flatMap Tree.edges := by rw [Tree.edges]
        constructor
        · intro h T' hT' e' he'
          exact h e' (by rw [e2]; exact List.mem_cons_of_mem _ (List.mem_flatMap.2 ⟨T', hT', he'⟩))
        · intro h e' he' y hy hyt
          rw [e2] at he'
          rcases List.mem_cons.1 he' with rfl | he'
          · rw [hx] at hy; cases hy; exact absurd hyt htl
          · obtain ⟨T', hT', he'⟩ := List.mem_flatMap.1 he'
            exact h T' hT' e' he' y hy hyt
  | nil => rename_i hs; cases hs; simp [leavesOfs]
  | cons T ch ih1 ih2 =>
    rename_i vs ss hd hs
    cases hd with
    | cons d1 d2 =>
      cases hs with
      | cons s1 s2 =>
        have a := ih1 _ _ d1 s1
        have b := ih2 _ _ d2 s2
        simp only [leavesOfs, List.mem_append, List.mem_cons, forall_eq_or_imp]
        rw [a, b]
        constructor
        · rintro ⟨p, q⟩ c (h | h)
          · exact p c h
          · exact q c h
        · intro h
          exact ⟨fun c hc => h c (.inl hc), fun c hc => h c (.inr hc)⟩

/-- Renamed edges with the same payload show the same tree. -/
theorem shows_map {g : Hypergraph α} {h : Hypergraph β} {k : β → α} {f : Nat → Nat} (T : Tree) : ∀ s,
    (∀ e ∈ T.edges, ∃ x y, g.edges[e]? = some x ∧ h.edges[f e]? = some y ∧ k y.val = x.val) → (Shows (Decode.mapVal k h) (T.map f) s ↔ Shows g T s) := by
  induction T using Tree.rec (motive_2 := fun ch => ∀ ss, (∀ T ∈ ch, ∀ e ∈ T.edges, ∃ x y, g.edges[e]? = some x ∧ h.edges[f e]? = some y ∧ k y.val = x.val) →
    (List.Forall₂ (Shows (Decode.mapVal k h)) (ch.map fun t => t.map f) ss ↔ List.Forall₂ (Shows g) ch ss)) with
  | node e ch ih =>
    rintro ⟨b, ss⟩ hp
    have e2 : (Tree.node e ch).edges = e :: ch.flatMap Tree.edges := by rw [Tree.edges]
    rw [e2] at hp
    have hm : (Tree.node e ch).map f = .node (f e) (ch.map fun t => t.map f) := by rw [Tree.map]
    obtain ⟨x, y, hx, hy, hxy⟩ := hp e (by simp)
    have := ih ss fun T hT e' he' => hp e' (List.mem_cons_of_mem _ (List.mem_flatMap.2 ⟨T, hT, he'⟩))
    rw [hm, shows_iff, shows_iff, this]
    rw [Decode.mapVal_edge, hy, hx]
    simp only [Option.map_some, Option.some.injEq, exists_eq_left']
    rw [hxy]
  | nil => simp
  | cons T ch ih1 ih2 =>
    rename_i ss hp
    cases ss with
    | nil => simp
    | cons s ss =>
      rw [List.map_cons, List.forall₂_cons, List.forall₂_cons, ih1 s fun e he => hp T (by simp) e he, ih2 ss fun T' hT' => hp T' (List.mem_cons_of_mem _ hT')]

/-! ### The two forests -/

theorem tag_edges {cat goalCat : Int} {tagset seq : List Int} {g : Hypergraph TagVal} (h : tagTrellis cat goalCat tagset seq = some g) :
    (∀ x ∈ g.edges, (x.tails = [] ∧ ∃ i w t, seq[i]? = some w ∧ t ∈ tagset ∧ x.val = .lex i w t) ∨ (x.tails ≠ [] ∧ ∀ i w t, x.val ≠ .lex i w t)) ∧
      ∀ i w t, seq[i]? = some w → t ∈ tagset → ∃ x ∈ g.edges, x.tails = [] ∧ x.val = .lex i w t := by
  have e : (seq.zipIdx.foldl (fun s x => chainStep cat (.binary (x.2 + 1)) (tagset.map fun t => .lex x.2 x.1 t) s) (none, empty)) =
      chainLoop cat (fun k => TagVal.binary (k + 1)) (seq.zipIdx.map fun x => tagset.map fun t => TagVal.lex x.2 x.1 t) := by
    unfold chainLoop
    rw [zipIdx_map_zipIdx, List.foldl_map]
  unfold tagTrellis at h
  rw [e] at h
  obtain ⟨v, ts, h1, h2⟩ := finish_edges h
  have h3 := chain_edges cat (fun k => TagVal.binary (k + 1)) (seq.zipIdx.map fun x => tagset.map fun t => TagVal.lex x.2 x.1 t)
  rw [h2]
  constructor
  · intro x hx
    rcases List.mem_append.1 hx with hx | hx
    · rcases h3.out x hx with ⟨a, l, b, c⟩ | ⟨a, k, b⟩
      · obtain ⟨⟨w, i⟩, hw, rfl⟩ := List.mem_map.1 b
        obtain ⟨t, ht, c⟩ := List.mem_map.1 c
        exact .inl ⟨a, i, w, t, List.mem_zipIdx_iff_getElem?.1 hw, ht, c.symm⟩
      · exact .inr ⟨a, fun i w t => by rw [b]; simp⟩
    · rw [List.mem_singleton.1 hx]
      exact .inr ⟨h1, by simp⟩
  · intro i w t hw ht
    obtain ⟨x, a, b⟩ := h3.inn (tagset.map fun t => TagVal.lex i w t) (List.mem_map.2 ⟨(w, i), List.mem_zipIdx_iff_getElem?.2 hw, rfl⟩) (.lex i w t) (List.mem_map.2 ⟨t, ht, rfl⟩)
    exact ⟨x, List.mem_append_left _ a, b⟩

theorem lex_edges {E : LexEnv Nat} {g : Hypergraph (LexVal Nat)} (hall : ∀ j w, E.srcWord j = some w → (E.rules w).isSome) (h : lexTrellis E = some (some g)) :
    (∀ x ∈ g.edges, (x.tails = [] ∧ ∃ j i r, i < E.ref.length ∧ E.Allowed j r ∧ x.val = .lex j i r) ∨ (x.tails ≠ [] ∧ (x.val = .binary ∨ x.val = .goal))) ∧
      ∀ j i r, i < E.ref.length → E.Allowed j r → ∃ x ∈ g.edges, x.tails = [] ∧ x.val = .lex j i r := by
  have hall' : ∀ x ∈ E.sources, (E.rules x.2).isSome := fun x hx => hall x.1 x.2 ((mem_sources E x.1 x.2).1 hx)
  have hls : (List.range E.ref.length).mapM E.leaves = some ((List.range E.ref.length).map E.leavesD) :=
    mapM_some _ _ _ fun i _ => leaves_eq E hall' i
  have e : ((List.range E.ref.length).map E.leavesD).foldl (fun s l => chainStep E.cat LexVal.binary l s) (none, empty) =
      chainLoop E.cat (fun _ => LexVal.binary) ((List.range E.ref.length).map E.leavesD) := by
    unfold chainLoop
    generalize (List.range E.ref.length).map E.leavesD = l
    conv_lhs => rw [← List.zipIdx_map_fst 0 l, List.foldl_map]
  unfold lexTrellis at h
  rw [hls] at h
  simp only [] at h
  rw [e] at h
  obtain ⟨g0, h0, h0'⟩ := Option.map_eq_some_iff.1 h
  cases h0'
  obtain ⟨v, ts, h1, h2⟩ := finish_edges h0
  have h3 := chain_edges E.cat (fun _ => LexVal.binary) ((List.range E.ref.length).map E.leavesD)
  rw [h2]
  constructor
  · intro x hx
    rcases List.mem_append.1 hx with hx | hx
    · rcases h3.out x hx with ⟨a, l, b, c⟩ | ⟨a, k, b⟩
      · obtain ⟨i, hi, rfl⟩ := List.mem_map.1 b
        obtain ⟨⟨j, r⟩, hc, hal⟩ := (mem_leavesD _ _ _).1 c
        exact .inl ⟨a, j, i, r, by simpa using hi, hal, hc⟩
      · exact .inr ⟨a, .inl b⟩
    · rw [List.mem_singleton.1 hx]
      exact .inr ⟨h1, .inr rfl⟩
  · intro j i r hi hal
    obtain ⟨x, a, b⟩ := h3.inn (E.leavesD i) (List.mem_map.2 ⟨i, by simpa using hi, rfl⟩) (.lex j i r) ((mem_leavesD _ _ _).2 ⟨(j, r), rfl, hal⟩)
    exact ⟨x, List.mem_append_left _ a, b⟩

end Cdec.Dec.Fast
