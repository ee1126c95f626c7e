import Verif.HG.TopoLemmas
/-! Helper lemmas for C06: applying a relocation. -/
namespace Cdec.HG
variable {α : Type}

theorem tree_map_node (f : Nat → Nat) (e : Nat) (ch : List Tree) :
    (Tree.node e ch).map f = .node (f e) (ch.map fun t => t.map f) := by rw [Tree.map]

theorem map_filterMap_mapIdx {β γ : Type} (l : List β) (f : Nat → β → Option γ) (key : γ → Nat)
    (r : Nat → Option Nat) (h : ∀ i b, (f i b).map key = r i) :
    ((l.mapIdx f).filterMap id).map key = (List.range l.length).filterMap r := by
  rw [List.map_filterMap]
  have : (l.mapIdx f).filterMap (fun x => Option.map key (id x)) =
      ((l.mapIdx f).map (Option.map key)).filterMap id := by
    rw [List.filterMap_map]; rfl
  rw [this]
  have h2 : (l.mapIdx f).map (Option.map key) = (List.range l.length).map r := by
    apply List.ext_getElem
    · simp
    · intro i h1 h2
      simp [h]
  rw [h2, List.filterMap_map]; rfl

theorem mem_filterMap_mapIdx {β γ : Type} (l : List β) (f : Nat → β → Option γ) (y : γ) :
    y ∈ (l.mapIdx f).filterMap id ↔ ∃ i, ∃ h : i < l.length, f i l[i] = some y := by
  simp only [List.mem_filterMap, List.mem_mapIdx, id]
  constructor
  · rintro ⟨o, ⟨i, h, rfl⟩, hy⟩; exact ⟨i, h, hy⟩
  · rintro ⟨i, h, hy⟩; exact ⟨_, ⟨i, h, rfl⟩, hy⟩

/-- A list whose keys are a permutation of `0..n-1`, sorted by key, has each element at its key. -/
theorem sorted_by_key {β : Type} (key : β → Nat) (l : List β) (n : Nat)
    (hp : (l.map key).Perm (List.range n)) :
    (isort (fun a b => decide (key a ≤ key b)) l).length = n ∧
    ∀ i x, (isort (fun a b => decide (key a ≤ key b)) l)[i]? = some x ↔ (x ∈ l ∧ key x = i) := by
  have hperm := isort_perm (fun a b => decide (key a ≤ key b)) l
  have hsorted : (isort (fun a b => decide (key a ≤ key b)) l).Pairwise
      (fun a b => decide (key a ≤ key b) = true) :=
    isort_pairwise (by intro a b c h1 h2; simp at *; omega) (by intro a b; simp; omega) l
  have hk : (isort (fun a b => decide (key a ≤ key b)) l).map key = List.range n := by
    apply List.Perm.eq_of_pairwise (le := (· ≤ ·))
    · intro a b _ _ h1 h2; omega
    · rw [List.pairwise_map]; exact hsorted.imp fun h => by simpa using h
    · exact (List.pairwise_lt_range).imp fun h => Nat.le_of_lt h
    · exact (hperm.map key).trans hp
  have hlen : (isort (fun a b => decide (key a ≤ key b)) l).length = n := by
    have := congrArg List.length hk
    simpa using this
  have hidx : ∀ i x, (isort (fun a b => decide (key a ≤ key b)) l)[i]? = some x → key x = i := by
    intro i x hx
    have h1 : ((isort (fun a b => decide (key a ≤ key b)) l).map key)[i]? = some (key x) := by
      rw [List.getElem?_map, hx]; rfl
    rw [hk] at h1
    rw [List.getElem?_eq_some_iff] at h1
    obtain ⟨_, h⟩ := h1
    simpa using h.symm
  refine ⟨hlen, fun i x => ⟨fun h => ⟨hperm.mem_iff.1 (List.mem_of_getElem? h), hidx i x h⟩, ?_⟩⟩
  rintro ⟨hx, rfl⟩
  obtain ⟨j, hj, hjx⟩ := List.getElem_of_mem (hperm.mem_iff.2 hx)
  have h1 : (isort (fun a b => decide (key a ≤ key b)) l)[j]? = some x := by
    rw [List.getElem?_eq_getElem hj, hjx]
  have := hidx j x h1
  rw [this]; exact h1

theorem filterMap_range_countP (p : Nat → Bool) (m : Nat) :
    (List.range m).filterMap (fun e => if p e then some ((List.range e).countP p) else none) =
      List.range ((List.range m).countP p) := by
  induction m with
  | zero => rfl
  | succ m ih =>
    rw [List.range_succ, List.filterMap_append, ih, List.countP_append]
    by_cases hp : p m
    · simp [hp, List.range_succ]
    · simp [hp]

theorem countP_lt_of_lt (p : Nat → Bool) {a b : Nat} (h : a < b) (ha : p a) :
    (List.range a).countP p < (List.range b).countP p := by
  obtain ⟨c, rfl⟩ : ∃ c, b = a + 1 + c := ⟨b - (a + 1), by omega⟩
  rw [List.range_add, List.range_succ, List.countP_append, List.countP_append]
  simp [ha]; omega

theorem countP_range_le (p : Nat → Bool) {a b : Nat} (h : a ≤ b) :
    (List.range a).countP p ≤ (List.range b).countP p := by
  obtain ⟨c, rfl⟩ : ∃ c, b = a + c := ⟨b - a, by omega⟩
  rw [List.range_add, List.countP_append]; omega

section
variable {g : Hypergraph α} {prune : Nat → Bool} {goal : Nat} {rn : Nat → Option Nat} {count : Nat}

theorem Reach.lt (hir : InRange g) (hg : goal < g.nodes.length) {v : Nat}
    (h : Reach g prune goal v) : v < g.nodes.length := by
  induction h with
  | goal => exact hg
  | tail _ he _ ht ih => exact hir.tail_lt _ ih _ he _ ht

theorem reloc_nodes (hnum : Numbering g prune goal rn count) (hir : InRange g)
    (hg : goal < g.nodes.length) (re : Nat → Option Nat) :
    (relocate g rn re).nodes.length = count ∧
    ∀ v k, rn v = some k → (relocate g rn re).node k =
      { id := k, cat := (g.node v).cat, inEdges := (g.inE v).filterMap re,
        outEdges := (g.node v).outEdges.filterMap re } := by
  have hperm : ((((g.nodes.mapIdx fun i n => relocNode rn re i n).filterMap id).map Node.id)).Perm
      (List.range count) := by
    rw [map_filterMap_mapIdx _ _ _ rn]
    · rw [List.perm_ext_iff_of_nodup]
      · intro i
        simp only [List.mem_filterMap, List.mem_range]
        constructor
        · rintro ⟨v, _, hv⟩; exact hnum.lt v i hv
        · intro hi
          obtain ⟨v, hv⟩ := hnum.surj i hi
          exact ⟨v, (hnum.reach v i hv).lt hir hg, hv⟩
      · apply List.Nodup.filterMap _ (List.nodup_range)
        intro a b i ha hb
        exact hnum.inj a b i (by simpa using ha) (by simpa using hb)
      · exact List.nodup_range
    · intro i n
      unfold relocNode
      cases rn i <;> rfl
  obtain ⟨hlen, hget⟩ := sorted_by_key Node.id _ count hperm
  refine ⟨hlen, fun v k hv => ?_⟩
  have hvlt : v < g.nodes.length := (hnum.reach v k hv).lt hir hg
  have : (relocate g rn re).nodes[k]? = some ⟨k, (g.node v).cat,
      (g.inE v).filterMap re, (g.node v).outEdges.filterMap re⟩ := by
    refine (hget k _).2 ⟨(mem_filterMap_mapIdx _ _ _).2 ⟨v, hvlt, ?_⟩, rfl⟩
    simp [relocNode, hv, Hypergraph.node, Hypergraph.inE, hvlt]
  simp [Hypergraph.node, List.getD_eq_getElem?_getD, this]

theorem edgeReloc_some {e k : Nat} (h : edgeReloc g prune rn e = some k) :
    edgeKept g prune rn e = true ∧ k = (List.range e).countP fun i => edgeKept g prune rn i := by
  unfold edgeReloc at h
  by_cases hk : edgeKept g prune rn e
  · rw [if_pos hk] at h; simp at h; exact ⟨hk, h.symm⟩
  · rw [if_neg hk] at h; simp at h

theorem edgeReloc_inj {e e' k : Nat} (h : edgeReloc g prune rn e = some k)
    (h' : edgeReloc g prune rn e' = some k) : e = e' := by
  obtain ⟨h1, h2⟩ := edgeReloc_some h
  obtain ⟨h3, h4⟩ := edgeReloc_some h'
  rcases Nat.lt_trichotomy e e' with hlt | heq | hgt
  · have := countP_lt_of_lt (fun i => edgeKept g prune rn i) hlt h1; omega
  · exact heq
  · have := countP_lt_of_lt (fun i => edgeKept g prune rn i) hgt h3; omega

theorem reloc_edges :
    (relocate g rn (edgeReloc g prune rn)).edges.length =
      (List.range g.edges.length).countP (fun i => edgeKept g prune rn i) ∧
    ∀ i x, (relocate g rn (edgeReloc g prune rn)).edges[i]? = some x ↔
      ∃ e, ∃ h : e < g.edges.length, edgeReloc g prune rn e = some i ∧
        x = { id := i, head := g.edges[e].head.bind rn
              tails := g.edges[e].tails.map fun t => (rn t).getD 0, val := g.edges[e].val } := by
  have hperm : (((g.edges.mapIdx fun i n => relocEdge rn (edgeReloc g prune rn) i n).filterMap id).map Edge.id).Perm
      (List.range ((List.range g.edges.length).countP fun i => edgeKept g prune rn i)) := by
    rw [map_filterMap_mapIdx _ _ _ (edgeReloc g prune rn)]
    · rw [← filterMap_range_countP]; exact List.Perm.refl _
    · intro i n
      unfold relocEdge
      cases edgeReloc g prune rn i <;> rfl
  obtain ⟨hlen, hget⟩ := sorted_by_key Edge.id _ _ hperm
  refine ⟨hlen, fun i x => ?_⟩
  refine (hget i x).trans ?_
  rw [mem_filterMap_mapIdx]
  constructor
  · rintro ⟨⟨e, he, hx⟩, hid⟩
    unfold relocEdge at hx
    cases hk : edgeReloc g prune rn e with
    | none => rw [hk] at hx; simp at hx
    | some k =>
      rw [hk] at hx
      simp at hx
      subst hx
      simp at hid
      subst hid
      exact ⟨e, he, hk, rfl⟩
  · rintro ⟨e, he, hk, rfl⟩
    exact ⟨⟨e, he, by simp [relocEdge, hk]⟩, rfl⟩

/-- New number of an edge. -/
def newEdge (g : Hypergraph α) (prune : Nat → Bool) (rn : Nat → Option Nat) (e : Nat) : Nat :=
  (List.range e).countP fun i => edgeKept g prune rn i

theorem edgeReloc_kept {v e : Nat} (hv : v < g.nodes.length) (hs : (rn v).isSome) (he : e ∈ g.inE v)
    (hp : prune e = false) : edgeReloc g prune rn e = some (newEdge g prune rn e) := by
  have : edgeKept g prune rn e = true := by
    simp only [edgeKept, hp, Bool.not_false, Bool.and_true, List.any_eq_true]
    exact ⟨v, by simpa using hv, by simp [hs, he]⟩
  simp [edgeReloc, this, newEdge]

theorem edgeReloc_pruned {e : Nat} (hp : prune e = true) : edgeReloc g prune rn e = none := by
  simp [edgeReloc, edgeKept, hp]

theorem newEdge_inj {e e' : Nat} (h : edgeReloc g prune rn e = some (newEdge g prune rn e))
    (h' : edgeReloc g prune rn e' = some (newEdge g prune rn e'))
    (heq : newEdge g prune rn e = newEdge g prune rn e') : e = e' :=
  edgeReloc_inj h (by rw [heq]; exact h')

theorem reloc_inE (hnum : Numbering g prune goal rn count) (hir : InRange g)
    (hg : goal < g.nodes.length) {v k : Nat} (hv : rn v = some k) :
    (relocate g rn (edgeReloc g prune rn)).inE k =
      ((g.inE v).filter fun e => !prune e).map (newEdge g prune rn) := by
  have h := (reloc_nodes hnum hir hg (edgeReloc g prune rn)).2 v k hv
  rw [Hypergraph.inE, h]
  simp only
  have hvlt : v < g.nodes.length := (hnum.reach v k hv).lt hir hg
  have : ∀ es : List Nat, (∀ e ∈ es, e ∈ g.inE v) → es.filterMap (edgeReloc g prune rn) =
      (es.filter fun e => !prune e).map (newEdge g prune rn) := by
    intro es
    induction es with
    | nil => intro _; rfl
    | cons e es ih =>
      intro hes
      have ih := ih fun e he => hes e (by simp [he])
      by_cases hp : prune e
      · rw [List.filterMap_cons, edgeReloc_pruned hp]; simp [hp, ih]
      · have hp' : prune e = false := by simpa using hp
        rw [List.filterMap_cons, edgeReloc_kept hvlt (by rw [hv]; rfl) (hes e (by simp)) hp']
        simp [hp', ih]
  exact this _ fun _ h => h

theorem reloc_tails (hir : InRange g) {v e : Nat} (hv : v < g.nodes.length)
    (hs : (rn v).isSome) (he : e ∈ g.inE v) (hp : prune e = false) :
    (relocate g rn (edgeReloc g prune rn)).tails (newEdge g prune rn e) =
      (g.tails e).map fun t => (rn t).getD 0 := by
  have hlt := hir.edge_lt v hv e he
  have := (reloc_edges (g := g) (prune := prune) (rn := rn)).2 (newEdge g prune rn e)
    { id := newEdge g prune rn e, head := g.edges[e].head.bind rn
      tails := g.edges[e].tails.map fun t => (rn t).getD 0, val := g.edges[e].val }
  have h2 := this.2 ⟨e, hlt, edgeReloc_kept hv hs he hp, rfl⟩
  simp [Hypergraph.tails, h2, hlt]

theorem reloc_val (hir : InRange g) {v e : Nat} (hv : v < g.nodes.length)
    (hs : (rn v).isSome) (he : e ∈ g.inE v) (hp : prune e = false) :
    (relocate g rn (edgeReloc g prune rn)).edges[newEdge g prune rn e]?.map Edge.val =
      g.edges[e]?.map Edge.val := by
  have hlt := hir.edge_lt v hv e he
  have := (reloc_edges (g := g) (prune := prune) (rn := rn)).2 (newEdge g prune rn e)
    { id := newEdge g prune rn e, head := g.edges[e].head.bind rn
      tails := g.edges[e].tails.map fun t => (rn t).getD 0, val := g.edges[e].val }
  have h2 := this.2 ⟨e, hlt, edgeReloc_kept hv hs he hp, rfl⟩
  simp [h2, hlt]

theorem reloc_wf (hnum : Numbering g prune goal rn count) (hir : InRange g)
    (hg : goal < g.nodes.length) : WF (relocate g rn (edgeReloc g prune rn)) := by
  have hlen := (reloc_nodes hnum hir hg (edgeReloc g prune rn)).1
  constructor
  · intro k hk e' he'
    rw [hlen] at hk
    obtain ⟨v, hv⟩ := hnum.surj k hk
    have hvlt := (hnum.reach v k hv).lt hir hg
    rw [reloc_inE hnum hir hg hv] at he'
    simp only [List.mem_map, List.mem_filter] at he'
    obtain ⟨e, ⟨he, hp⟩, rfl⟩ := he'
    have hp' : prune e = false := by simpa using hp
    rw [(reloc_edges (g := g) (prune := prune) (rn := rn)).1]
    have hk := (edgeReloc_some (edgeReloc_kept (rn := rn) hvlt (by rw [hv]; rfl) he hp')).1
    exact countP_lt_of_lt _ (hir.edge_lt v hvlt e he) hk
  · intro k hk
    rw [hlen] at hk
    obtain ⟨v, hv⟩ := hnum.surj k hk
    have hvlt := (hnum.reach v k hv).lt hir hg
    rw [reloc_inE hnum hir hg hv]
    apply List.Nodup.map_on
    · intro a ha b hb hab
      simp only [List.mem_filter] at ha hb
      exact newEdge_inj (edgeReloc_kept hvlt (by rw [hv]; rfl) ha.1 (by simpa using ha.2))
        (edgeReloc_kept hvlt (by rw [hv]; rfl) hb.1 (by simpa using hb.2)) hab
    · exact (hir.nodup v hvlt).filter _
  · intro k hk e' he' t' ht'
    rw [hlen] at hk
    obtain ⟨v, hv⟩ := hnum.surj k hk
    have hvlt := (hnum.reach v k hv).lt hir hg
    rw [reloc_inE hnum hir hg hv] at he'
    simp only [List.mem_map, List.mem_filter] at he'
    obtain ⟨e, ⟨he, hp⟩, rfl⟩ := he'
    have hp' : prune e = false := by simpa using hp
    rw [reloc_tails hir hvlt (by rw [hv]; rfl) he hp'] at ht'
    obtain ⟨t, ht, rfl⟩ := List.mem_map.1 ht'
    obtain ⟨j, hj, hjt⟩ := hnum.closed v k hv e he hp' t ht
    rw [hjt]; exact hj

/-- Derivations of `v` without pruned edges are mapped to derivations of its new position, … -/
theorem deriv_forward (hnum : Numbering g prune goal rn count) (hir : InRange g)
    (hg : goal < g.nodes.length) (t : Tree) : ∀ v k, rn v = some k → IsDeriv g v t →
    (∀ e ∈ t.edges, prune e = false) →
    IsDeriv (relocate g rn (edgeReloc g prune rn)) k (t.map (newEdge g prune rn)) := by
  induction t using Tree.rec (motive_2 := fun ch => ∀ ts : List Nat,
    (∀ t ∈ ts, (rn t).isSome) → List.Forall₂ (IsDeriv g) ts ch →
    (∀ e ∈ ch.flatMap fun t => t.edges, prune e = false) →
    List.Forall₂ (IsDeriv (relocate g rn (edgeReloc g prune rn))) (ts.map fun t => (rn t).getD 0)
      (ch.map fun t => t.map (newEdge g prune rn))) with
  | node e ch ih =>
    intro v k hv hd hp
    obtain ⟨he, hch⟩ := isDeriv_iff.1 hd
    rw [Tree.edges] at hp
    have hpe : prune e = false := hp e (by simp)
    have hvlt := (hnum.reach v k hv).lt hir hg
    rw [tree_map_node, isDeriv_iff]
    constructor
    · rw [reloc_inE hnum hir hg hv]
      exact List.mem_map.2 ⟨e, List.mem_filter.2 ⟨he, by simp [hpe]⟩, rfl⟩
    · rw [reloc_tails hir hvlt (by rw [hv]; rfl) he hpe]
      apply ih _ _ hch fun e' he' => hp e' (by simp only [List.mem_cons]; right; exact he')
      intro t ht
      obtain ⟨j, _, hj⟩ := hnum.closed v k hv e he hpe t ht
      rw [hj]; rfl
  | nil =>
    rename_i ts _ hf _
    cases hf; exact .nil
  | cons t ch ih1 ih2 =>
    rename_i ts hs hf hp
    cases hf with
    | cons h1 h2 =>
      rename_i u us
      obtain ⟨j, hj⟩ := Option.isSome_iff_exists.1 (hs u (by simp))
      refine .cons ?_ ?_
      · simp only [hj, Option.getD_some]
        exact ih1 u j hj h1 fun e he => hp e (by simp only [List.flatMap_cons, List.mem_append]; left; exact he)
      · exact ih2 us (fun t ht => hs t (by simp [ht])) h2
          fun e he => hp e (by simp only [List.flatMap_cons, List.mem_append]; right; exact he)

/-- … and every derivation of the new hypergraph arises in this way. -/
theorem deriv_backward (hnum : Numbering g prune goal rn count) (hir : InRange g)
    (hg : goal < g.nodes.length) (t' : Tree) : ∀ v k, rn v = some k →
    IsDeriv (relocate g rn (edgeReloc g prune rn)) k t' →
    ∃ t, IsDeriv g v t ∧ (∀ e ∈ t.edges, prune e = false) ∧ t.map (newEdge g prune rn) = t' := by
  induction t' using Tree.rec (motive_2 := fun ch' => ∀ ts : List Nat,
    (∀ t ∈ ts, (rn t).isSome) →
    List.Forall₂ (IsDeriv (relocate g rn (edgeReloc g prune rn))) (ts.map fun t => (rn t).getD 0) ch' →
    ∃ ch, List.Forall₂ (IsDeriv g) ts ch ∧ (∀ e ∈ ch.flatMap fun t => t.edges, prune e = false) ∧
      (ch.map fun t => t.map (newEdge g prune rn)) = ch') with
  | node e' ch' ih =>
    intro v k hv hd
    obtain ⟨he', hch'⟩ := isDeriv_iff.1 hd
    have hvlt := (hnum.reach v k hv).lt hir hg
    rw [reloc_inE hnum hir hg hv] at he'
    simp only [List.mem_map, List.mem_filter] at he'
    obtain ⟨e, ⟨he, hp⟩, rfl⟩ := he'
    have hp' : prune e = false := by simpa using hp
    rw [reloc_tails hir hvlt (by rw [hv]; rfl) he hp'] at hch'
    obtain ⟨ch, h1, h2, h3⟩ := ih _ (fun t ht => by
      obtain ⟨j, _, hj⟩ := hnum.closed v k hv e he hp' t ht
      rw [hj]; rfl) hch'
    refine ⟨.node e ch, isDeriv_iff.2 ⟨he, h1⟩, ?_, by rw [tree_map_node, h3]⟩
    intro e2 he2
    rw [Tree.edges] at he2
    rcases List.mem_cons.1 he2 with rfl | h
    · exact hp'
    · exact h2 e2 h
  | nil =>
    rename_i ts _ hf
    cases ts with
    | nil => exact ⟨[], .nil, by simp, rfl⟩
    | cons => cases hf
  | cons t' ch' ih1 ih2 =>
    rename_i ts hs hf
    cases ts with
    | nil => cases hf
    | cons u us =>
      cases hf with
      | cons h1 h2 =>
        obtain ⟨j, hj⟩ := Option.isSome_iff_exists.1 (hs u (by simp))
        simp only [hj, Option.getD_some] at h1
        obtain ⟨t, a1, a2, a3⟩ := ih1 u j hj h1
        obtain ⟨ch, b1, b2, b3⟩ := ih2 us (fun t ht => hs t (by simp [ht])) h2
        refine ⟨t :: ch, .cons a1 b1, ?_, by rw [List.map_cons, a3, b3]⟩
        intro e he
        rw [List.flatMap_cons, List.mem_append] at he
        exact he.elim (a2 e) (b2 e)

end
end Cdec.HG
