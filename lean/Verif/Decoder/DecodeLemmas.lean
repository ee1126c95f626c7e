import Verif.Decoder.DecodeSpec
import Verif.Decoder.ParserMain
import Verif.Props.C13
import Verif.Props.C04
import Verif.Props.C19
/-! Helper lemmas: one pass on a forest is one pass on every derivation. -/
namespace Cdec.Dec.Decode
open Cdec.HG Cdec.Dec Cdec.Dec.Parser Cdec.Dec.Parser.Spec Cdec.Dec.Decode.Spec Cdec.Dec.Spec
variable {S φ W α β : Type}

theorem shows_fun {g : Hypergraph α} (T : Tree) : ∀ t t', Shows g T t → Shows g T t' → t = t' := by
  induction T using Tree.rec (motive_2 := fun ch => ∀ ts ts', List.Forall₂ (Shows g) ch ts → List.Forall₂ (Shows g) ch ts' → ts = ts') with
  | node e ch ih =>
    rintro ⟨b, ts⟩ ⟨b', ts'⟩ h h'
    obtain ⟨x, h1, rfl, h2⟩ := shows_iff.1 h
    obtain ⟨x', h1', rfl, h2'⟩ := shows_iff.1 h'
    rw [h1] at h1'
    rw [Option.some.inj h1', ih _ _ h2 h2']
  | nil => rename_i h h'; cases h; cases h'; rfl
  | cons T ch ih1 ih2 =>
    rename_i h h'
    cases h with
    | cons a b =>
      cases h' with
      | cons a' b' => rw [ih1 _ _ a a', ih2 _ _ b b']

/-! ## Payloads -/

@[simp] theorem mapVal_inE (f : α → β) (g : Hypergraph α) (v : Nat) : (mapVal f g).inE v = g.inE v := rfl
@[simp] theorem mapVal_goal (f : α → β) (g : Hypergraph α) : (mapVal f g).goal = g.goal := rfl

theorem mapVal_edge (f : α → β) (g : Hypergraph α) (e : Nat) : (mapVal f g).edges[e]? = (g.edges[e]?).map fun x => ⟨x.id, x.head, x.tails, f x.val⟩ := by
  simp [mapVal]

@[simp] theorem mapVal_tails (f : α → β) (g : Hypergraph α) (e : Nat) : (mapVal f g).tails e = g.tails e := by
  unfold Hypergraph.tails
  rw [mapVal_edge]
  cases g.edges[e]? <;> rfl

@[simp] theorem mapVal_head (f : α → β) (g : Hypergraph α) (e : Nat) : (mapVal f g).head e = g.head e := by
  unfold Hypergraph.head
  rw [mapVal_edge]
  cases g.edges[e]? <;> rfl

theorem mapVal_deriv (f : α → β) (g : Hypergraph α) (T : Tree) : ∀ v, IsDeriv (mapVal f g) v T ↔ IsDeriv g v T := by
  induction T using Tree.rec (motive_2 := fun ch => ∀ vs, List.Forall₂ (IsDeriv (mapVal f g)) vs ch ↔ List.Forall₂ (IsDeriv g) vs ch) with
  | node e ch ih =>
    intro v
    rw [isDeriv_iff, isDeriv_iff, mapVal_inE, mapVal_tails, ih]
  | nil => simp
  | cons T ch ih1 ih2 =>
    rename_i vs
    cases vs with
    | nil => simp
    | cons v vs => rw [List.forall₂_cons, List.forall₂_cons, ih1, ih2]

theorem mapVal_ready (f : α → β) {g : Hypergraph α} (h : Ready g) : Ready (mapVal f g) where
  wf := by
    refine ⟨fun v hv e he => ?_, h.wf.nodup, fun v hv e he t ht => h.wf.topo v hv e he t (by simpa using ht)⟩
    have := h.wf.edge_lt v hv e he
    simpa [mapVal] using this
  head := fun v hv e he => by rw [mapVal_head]; exact h.head v hv e he
  ne := h.ne
  goal := fun e he => by rw [mapVal_tails]; exact h.goal e he
  pos := h.pos

/-! ## States and features -/

variable {P : Pass S φ W} {g : Hypergraph (Val Nat φ)}

theorem state_node (M : Models S α) (e : Nat) (ch : List Tree) : state M (.node e ch) = (M.edge e (ch.map fun t => state M t)).1 := by rw [state]
theorem feats_node (M : Models S α) (e : Nat) (ch : List Tree) :
    feats M (.node e ch) = (M.edge e (ch.map fun t => state M t)).2 :: ch.flatMap fun t => feats M t := by rw [feats]
theorem relabel_node (P : Pass S φ W) (v : Val Nat φ) (ch : List (LTree (Val Nat φ))) : relabel P (.node v ch) =
    ((P.edge v ((ch.map fun t => relabel P t).map (·.1))).1, .node (withFeats v (P.edge v ((ch.map fun t => relabel P t).map (·.1))).2) ((ch.map fun t => relabel P t).map (·.2))) := by
  rw [relabel]; rfl

theorem state_relabel (T : Tree) : ∀ t, Shows g T t → state (P.on g) T = (relabel P t).1 := by
  induction T using Tree.rec (motive_2 := fun ch => ∀ ts, List.Forall₂ (Shows g) ch ts → (ch.map fun T => state (P.on g) T) = (ts.map fun t => relabel P t).map (·.1)) with
  | node e ch ih =>
    rintro ⟨b, ts⟩ h
    obtain ⟨x, h1, rfl, h2⟩ := shows_iff.1 h
    rw [state_node, relabel_node, ih _ h2]
    simp only [Pass.on, h1]
  | nil => rename_i h; cases h; rfl
  | cons T ch ih1 ih2 =>
    rename_i h
    cases h with
    | cons a b => simp only [List.map_cons]; rw [ih1 _ a, ih2 _ b]

theorem states_relabel {ch : List Tree} {ts : List (LTree (Val Nat φ))} (h : List.Forall₂ (Shows g) ch ts) :
    (ch.map fun T => state (P.on g) T) = (ts.map fun t => relabel P t).map (·.1) := by
  induction h with
  | nil => rfl
  | cons a _ ih => simp only [List.map_cons]; rw [state_relabel _ _ a, ih]

theorem feats_length (M : Models S α) (s : Nat → Nat) (T : Tree) : (feats M (T.map s)).length = T.edges.length := by
  induction T using Tree.rec (motive_2 := fun ch => ((ch.map fun t => t.map s).flatMap fun t => feats M t).length = (ch.flatMap fun t => t.edges).length) with
  | node e ch ih => rw [Tree.map, feats_node, Tree.edges, List.length_cons, List.length_cons, ih]
  | nil => rfl
  | cons T ch ih1 ih2 => simp only [List.map_cons, List.flatMap_cons, List.length_append]; rw [ih1, ih2]

/-- The forest of a pass. -/
abbrev outOf [Zero φ] (r : RS S (Option (Val Nat φ))) : Hypergraph (Val Nat φ) := mapVal (fun x => x.2.getD blank) r.out

theorem out_edge [Zero φ] {r : RS S (Option (Val Nat φ))} {e : Nat} {v : Val Nat φ} (h : feat r.out e = some (some v)) :
    ∃ x, (outOf r).edges[e]? = some x ∧ x.val = v := by
  unfold feat at h
  rw [mapVal_edge]
  cases he : r.out.edges[e]? with
  | none => rw [he] at h; simp at h
  | some y =>
    rw [he] at h
    simp only [Option.map_some, Option.some.injEq] at h
    exact ⟨_, rfl, by simp [h]⟩

theorem shows_out [Zero φ] {r : RS S (Option (Val Nat φ))} (T : Tree) : ∀ t, Shows g (T.map (src r.out)) t →
    T.edges.map (feat r.out) = (feats (P.on g) (T.map (src r.out))).map some → Shows (outOf r) T (relabel P t).2 := by
  induction T using Tree.rec (motive_2 := fun ch => ∀ ts, List.Forall₂ (Shows g) (ch.map fun T => T.map (src r.out)) ts →
      (ch.flatMap fun t => t.edges).map (feat r.out) = ((ch.map fun T => T.map (src r.out)).flatMap fun t => feats (P.on g) t).map some →
      List.Forall₂ (Shows (outOf r)) ch ((ts.map fun t => relabel P t).map (·.2))) with
  | node e ch ih =>
    rintro ⟨b, ts⟩ h hl
    rw [Tree.map] at h
    obtain ⟨x, h1, rfl, h2⟩ := shows_iff.1 h
    rw [Tree.map, feats_node, Tree.edges, states_relabel h2] at hl
    simp only [Pass.on, h1, List.map_cons, List.cons.injEq] at hl
    obtain ⟨y, h3, h4⟩ := out_edge hl.1
    rw [relabel_node]
    exact shows_iff.2 ⟨y, h3, h4, ih _ h2 hl.2⟩
  | nil => rename_i h _; cases h; exact .nil
  | cons T ch ih1 ih2 =>
    rename_i h hl
    simp only [List.map_cons] at h
    cases h with
    | cons a b =>
      simp only [List.map_cons, List.flatMap_cons, List.map_append] at hl
      obtain ⟨l1, l2⟩ := List.append_inj hl (by rw [List.length_map, List.length_map, feats_length])
      exact .cons (ih1 _ a l1) (ih2 _ b l2)

theorem shows_outs [Zero φ] {r : RS S (Option (Val Nat φ))} (ch : List Tree) : ∀ ts, List.Forall₂ (Shows g) (ch.map fun T => T.map (src r.out)) ts →
    (ch.flatMap fun t => t.edges).map (feat r.out) = ((ch.map fun T => T.map (src r.out)).flatMap fun t => feats (P.on g) t).map some →
    List.Forall₂ (Shows (outOf r)) ch ((ts.map fun t => relabel P t).map (·.2)) := by
  induction ch with
  | nil => intro ts h _; cases h; exact .nil
  | cons T ch ih =>
    intro ts h hl
    simp only [List.map_cons] at h
    cases h with
    | cons a b =>
      simp only [List.map_cons, List.flatMap_cons, List.map_append] at hl
      obtain ⟨l1, l2⟩ := List.append_inj hl (by rw [List.length_map, List.length_map, feats_length])
      exact .cons (shows_out _ _ a l1) (ih _ b l2)

theorem shows_goal [Zero φ] {r : RS S (Option (Val Nat φ))} (hm : P.models = true) (T : Tree) (t : LTree (Val Nat φ)) (h : Shows g (T.map (src r.out)) t)
    (hl : T.edges.map (feat r.out) = (goalFeats (P.on g) (T.map (src r.out))).map some) : Shows (outOf r) T (rescored P t) := by
  obtain ⟨e, ch⟩ := T
  obtain ⟨b, ts⟩ := t
  rw [Tree.map] at h
  obtain ⟨x, h1, rfl, h2⟩ := shows_iff.1 h
  rw [Tree.map, goalFeats, Tree.edges, states_relabel h2] at hl
  simp only [Pass.on, h1, List.map_cons, List.cons.injEq, Option.map_some] at hl
  obtain ⟨y, h3, h4⟩ := out_edge hl.1
  rw [rescored, if_pos hm]
  exact shows_iff.2 ⟨y, h3, h4, shows_outs _ _ h2 hl.2⟩

/-- The derivations of a forest. -/
def Lang (g : Hypergraph (Val Nat φ)) (t : LTree (Val Nat φ)) : Prop := ∃ T, IsDeriv g g.goal T ∧ Shows g T t

theorem ready_shows (hg : Ready g) {v : Nat} (T : Tree) (hT : IsDeriv g v T) : ∃ t, Shows g T t :=
  exists_shows ⟨hg.wf.edge_lt, hg.wf.nodup, fun v hv e he t ht => Nat.lt_trans (hg.wf.topo v hv e he t ht) hv⟩ T v hT

/-- A rescored forest can be rescored again. -/
theorem rescore_ready [DecidableEq S] (M : Models S α) (cat : Nat → Int) (g : Hypergraph β) (hg : Ready g) {r : RS S α}
    (hr : rescore M (id : S → S) cat g = some r) : Ready r.out := by
  obtain ⟨r', X, h1, ha, hc⟩ := rescoreNodes_spec (M := M) (key := (id : S → S)) (cat := cat) hg g.nodes.length 0 ⟨empty, [], List.replicate g.nodes.length []⟩ []
    (by omega) AInv.start (by intro u hu; omega)
  rw [rescore, List.range_eq_range', h1] at hr
  have := Option.some.inj hr
  subst this
  have hgoal : g.goal < g.nodes.length := by
    have := hg.pos
    unfold Hypergraph.goal
    omega
  have hnm := ha.inv.goal_node (ha.ne _ hgoal) hg.pos
  have hi := ha.inv.built.inv
  have hinE : ∀ v (hv : v < r'.out.nodes.length), r'.out.inE v = (r'.out.nodes[v]).inEdges := by
    intro v hv
    simp [Hypergraph.inE, Hypergraph.node, hv]
  have hmem : r'.out.goal ∈ r'.nm g.goal := by
    change _ ∈ r'.nm (g.nodes.length - 1)
    rw [hnm]
    simp
  have hlt := (ha.inv.nmlt _ _ hmem).1
  have hhead : ∀ v < r'.out.nodes.length, ∀ e, e ∈ r'.out.inE v ↔ r'.out.head e = some v := by
    intro v hv e
    have h2 := hi.inc v hv e
    rw [hinE v hv, ← List.count_pos_iff, h2]
    by_cases h3 : r'.out.head e = some v <;> simp [h3]
  refine ⟨ha.inv.wf hg.wf, fun v hv e he => (hhead v hv e).1 he, fun v hv h0 => ?_, fun e he => ?_, by omega⟩
  · obtain ⟨u, hu⟩ := ha.inv.cover v hv
    obtain ⟨k, hk⟩ := ha.inv.used u v hu
    have := (hhead v hv k).2 hk
    rw [h0] at this
    simp at this
  · have h2 := (hhead _ hlt e).1 he
    have hel : e < X.length := by
      rw [← ha.inv.elen]
      exact (ha.inv.wf hg.wf).edge_lt _ hlt e he
    obtain ⟨⟨u, e0, ts⟩, hX⟩ : ∃ y, X[e] = y := ⟨_, rfl⟩
    obtain ⟨a1, _, h, a2, a3, _⟩ := ha.inv.edge e u e0 ts (by rw [List.getElem?_eq_getElem hel, hX])
    rw [h2] at a2
    have := Option.some.inj a2
    subst this
    have hu := ha.inv.disjoint a3 hmem
    subst hu
    obtain ⟨_, _, b1, b2⟩ := ha.inv.valid _ _ _ (by rw [← hX]; exact List.getElem_mem hel)
    rw [a1, b2.length_eq]
    exact hg.goal e0 b1

/-- One pass. -/
theorem apply_spec [DecidableEq S] [Zero φ] (P : Pass S φ W) (g : Hypergraph (Val Nat φ)) (hg : Ready g) :
    ∃ h, P.apply g = some h ∧ Ready h ∧ ∀ t', Lang h t' ↔ ∃ t, Lang g t ∧ t' = rescored P t := by
  unfold Pass.apply
  by_cases hm : P.models = true
  · rw [if_pos hm]
    obtain ⟨r, h1, h2, h3, h4, h5, h6⟩ := C13_exact (P.on g) (fun e => (g.node ((g.head e).getD 0)).cat) g hg
    rw [h1]
    refine ⟨_, rfl, mapVal_ready _ (rescore_ready _ _ g hg h1), fun t' => ⟨?_, ?_⟩⟩
    · rintro ⟨T', a1, a2⟩
      rw [mapVal_goal, mapVal_deriv] at a1
      obtain ⟨b1, b2⟩ := h4 T' a1
      obtain ⟨t, ht⟩ := ready_shows hg _ b1
      exact ⟨t, ⟨_, b1, ht⟩, shows_fun T' _ _ a2 (shows_goal hm T' t ht b2)⟩
    · rintro ⟨t, ⟨T, a1, a2⟩, rfl⟩
      obtain ⟨T', b1, rfl⟩ := h5 T a1
      exact ⟨T', by rw [mapVal_goal, mapVal_deriv]; exact b1, shows_goal hm T' t a2 (h4 T' b1).2⟩
  · rw [if_neg hm]
    refine ⟨g, rfl, hg, fun t' => ⟨fun h => ⟨t', h, ?_⟩, ?_⟩⟩
    · cases t'; rw [rescored, if_neg hm]
    · rintro ⟨t, h, rfl⟩
      cases t; rw [rescored, if_neg hm]; exact h

/-- All passes. -/
theorem rescoreAll_spec [DecidableEq S] [Zero φ] (ps : List (Pass S φ W)) : ∀ g : Hypergraph (Val Nat φ), Ready g →
    ∃ h, rescoreAll ps g = some h ∧ Ready h ∧ ∀ t', Lang h t' ↔ ∃ t, Lang g t ∧ t' = afterPasses ps t := by
  induction ps with
  | nil => exact fun g hg => ⟨g, rfl, hg, fun t' => ⟨fun h => ⟨t', h, rfl⟩, by rintro ⟨t, h, rfl⟩; exact h⟩⟩
  | cons P ps ih =>
    intro g hg
    obtain ⟨h1, a1, a2, a3⟩ := apply_spec P g hg
    obtain ⟨h2, b1, b2, b3⟩ := ih h1 a2
    refine ⟨h2, by rw [rescoreAll, a1]; exact b1, b2, fun t' => ?_⟩
    rw [b3]
    constructor
    · rintro ⟨t, ht, rfl⟩
      obtain ⟨t0, h0, rfl⟩ := (a3 t).1 ht
      exact ⟨t0, h0, rfl⟩
    · rintro ⟨t, ht, rfl⟩
      exact ⟨_, (a3 _).2 ⟨t, ht, rfl⟩, rfl⟩

end Cdec.Dec.Decode
