import Verif.Decoder.Trellis
import Verif.Decoder.ParserPassive
import Verif.Decoder.ParserSem
import Mathlib.Data.List.Induction
/-! What a forest built by `AddNode`, `AddEdge` and `ConnectEdgeToHeadNode` holds, from the list of edges of each node. -/
namespace Cdec.Dec
open Cdec.HG
open Cdec.Dec.Parser (shows_iff)
open Cdec.Dec.Parser.Spec (LTree Shows)
variable {α : Type}

/-- The forest has a node for each entry of the list, with the edges listed there as tails and payload. -/
structure Shape (g : Hypergraph α) (spec : List (List (List Nat × α))) : Prop where
  inv : Inv g
  len : g.nodes.length = spec.length
  apps : ∀ v, g.apps v = (spec.getD v []).map some
  heads : ∀ e < g.edges.length, ∃ v, g.head e = some v

theorem shape_empty : Shape (empty : Hypergraph α) [] := by
  refine ⟨inv_empty, rfl, fun v => rfl, fun e he => by cases he⟩

theorem apps_addNode (g : Hypergraph α) (c : Int) (w : Nat) : (addNode g c).apps w = g.apps w := by
  unfold Hypergraph.apps
  rw [inE_addNode]
  rfl

theorem Shape.addNode {g : Hypergraph α} {spec : List (List (List Nat × α))} (h : Shape g spec) (c : Int) : Shape (addNode g c) (spec ++ [[]]) := by
  refine ⟨inv_addNode h.inv c, by simp [HG.addNode, h.len], ?_, h.heads⟩
  intro v
  rw [apps_addNode, h.apps]
  congr 1
  simp only [List.getD_eq_getElem?_getD, List.getElem?_append]
  split
  · rfl
  · rename_i hv
    rw [List.getElem?_eq_none (by omega)]
    cases hk : v - spec.length with
    | zero => rfl
    | succ n => rfl

theorem Shape.put {g : Hypergraph α} {spec : List (List (List Nat × α))} (h : Shape g spec) (x : α) (ts : List Nat) (v : Nat) (hts : ∀ t ∈ ts, t < spec.length)
    (hv : v < spec.length) : Shape (put g x ts v) (spec.modify v (· ++ [(ts, x)])) := by
  obtain ⟨h1, h2, h3, _⟩ := grow_old h.inv x ts (by rw [h.len]; exact hts) v (by rw [h.len]; exact hv)
  refine ⟨h1, ?_, ?_, ?_⟩
  · rw [List.length_modify, ← h.len]; exact h2
  · intro w
    have := h3 w
    unfold Dec.put
    rw [this, h.apps]
    simp only [List.getD_eq_getElem?_getD, List.getElem?_modify]
    by_cases hw : w = v
    · subst hw
      rw [if_pos rfl, List.getElem?_eq_getElem hv]
      simp
    · rw [if_neg hw]
      have : ¬ v = w := fun e => hw e.symm
      simp [this]

  · intro e he
    have hl : (addEdge g x ts).edges.length = g.edges.length + 1 := by simp [addEdge]
    unfold Dec.put at he ⊢
    rw [head_connect _ _ _ _ (by omega)]
    split
    · exact ⟨v, rfl⟩
    · rename_i hne
      rw [head_addEdge]
      have hl2 : (connect (addEdge g x ts) g.edges.length v).edges.length = g.edges.length + 1 := by simp [connect, addEdge]
      exact h.heads e (by omega)

/-- The trees a node stands for. -/
inductive Lang (spec : List (List (List Nat × α))) : Nat → LTree α → Prop
  | mk {v : Nat} {ts : List Nat} {x : α} {ch : List (LTree α)} : (ts, x) ∈ spec.getD v [] → List.Forall₂ (Lang spec) ts ch → Lang spec v (.node x ch)

theorem lang_iff {spec : List (List (List Nat × α))} {v : Nat} {x : α} {ch : List (LTree α)} :
    Lang spec v (.node x ch) ↔ ∃ ts, (ts, x) ∈ spec.getD v [] ∧ List.Forall₂ (Lang spec) ts ch := by
  constructor
  · intro h
    cases h with
    | mk h1 h2 => exact ⟨_, h1, h2⟩
  · rintro ⟨ts, h1, h2⟩
    exact .mk h1 h2

theorem Shape.edge {g : Hypergraph α} {spec : List (List (List Nat × α))} (h : Shape g spec) {v e : Nat} (he : e ∈ g.inE v) :
    ∃ x, g.edges[e]? = some x ∧ g.tails e = x.tails ∧ (x.tails, x.val) ∈ spec.getD v [] := by
  have hlt := h.inv.inE_lt he
  refine ⟨g.edges[e], List.getElem?_eq_getElem hlt, by unfold Hypergraph.tails; rw [List.getElem?_eq_getElem hlt], ?_⟩
  have : g.app e ∈ g.apps v := List.mem_map.2 ⟨e, he, rfl⟩
  rw [h.apps] at this
  unfold Hypergraph.app at this
  rw [List.getElem?_eq_getElem hlt] at this
  obtain ⟨a, ha, e'⟩ := List.mem_map.1 this
  simp only [Option.map_some, Option.some.injEq] at e'
  rw [← e']; exact ha

theorem Shape.edge' {g : Hypergraph α} {spec : List (List (List Nat × α))} (h : Shape g spec) {v : Nat} {a : List Nat × α} (ha : a ∈ spec.getD v []) :
    ∃ e ∈ g.inE v, ∃ x, g.edges[e]? = some x ∧ g.tails e = a.1 ∧ x.val = a.2 := by
  have : some a ∈ g.apps v := by rw [h.apps]; exact List.mem_map.2 ⟨a, ha, rfl⟩
  obtain ⟨e, he, e'⟩ := List.mem_map.1 this
  unfold Hypergraph.app at e'
  cases hx : g.edges[e]? with
  | none => rw [hx] at e'; cases e'
  | some x =>
    rw [hx] at e'
    simp only [Option.map_some, Option.some.injEq] at e'
    refine ⟨e, he, x, hx, ?_, ?_⟩
    · unfold Hypergraph.tails; rw [hx, ← e']
    · rw [← e']

/-- Every edge is listed at its head. -/
theorem Shape.edge_all {g : Hypergraph α} {spec : List (List (List Nat × α))} (h : Shape g spec) {e : Nat} {x : Edge α} (hx : g.edges[e]? = some x) :
    ∃ v, e ∈ g.inE v ∧ (x.tails, x.val) ∈ spec.getD v [] := by
  obtain ⟨hlt, rfl⟩ := List.getElem?_eq_some_iff.1 hx
  obtain ⟨v, hv⟩ := h.heads e hlt
  have hvl : v < g.nodes.length := h.inv.head_lt e hlt v (by rw [← head_lt' g e hlt]; exact hv)
  have hin : e ∈ g.inE v := by
    have := h.inv.inc v hvl e
    rw [if_pos hv] at this
    have e1 : g.node v = g.nodes[v] := by unfold Hypergraph.node; rw [List.getD_eq_getElem?_getD, List.getElem?_eq_getElem hvl]; rfl
    unfold Hypergraph.inE
    rw [e1]
    exact List.count_pos_iff.1 (by omega)
  obtain ⟨y, hy, _, hm⟩ := h.edge hin
  rw [hx] at hy
  cases hy
  exact ⟨v, hin, hm⟩

/-- The derivations of a node show exactly the trees it stands for. -/
theorem Shape.lang {g : Hypergraph α} {spec : List (List (List Nat × α))} (h : Shape g spec) (v : Nat) (s : LTree α) :
    (∃ T, IsDeriv g v T ∧ Shows g T s) ↔ Lang spec v s := by
  constructor
  · rintro ⟨T, hT, hs⟩
    induction hT generalizing s with
    | @mk v e ch he hlen hch ih =>
      obtain ⟨b, ts⟩ := s
      obtain ⟨x, hx, rfl, hf⟩ := shows_iff.1 hs
      obtain ⟨y, hy, ht, hm⟩ := h.edge he
      rw [hx] at hy
      cases hy
      refine .mk hm ?_
      rw [← ht]
      rw [List.forall₂_iff_get] at hf ⊢
      refine ⟨by rw [← hlen, hf.1], ?_⟩
      intro i h1 h2
      exact ih i (by omega) _ (hf.2 i (by omega) h2)
  · intro hl
    -- the trees are finite: strong induction through `Lang`
    refine Lang.rec (motive_1 := fun v s _ => ∃ T, IsDeriv g v T ∧ Shows g T s)
      (motive_2 := fun ts ch _ => ∃ Ts : List Tree, List.Forall₂ (fun t T => IsDeriv g t T) ts Ts ∧ List.Forall₂ (Shows g) Ts ch) ?_ ?_ ?_ hl
    · rintro v ts x ch hm _ ⟨Ts, h1, h2⟩
      obtain ⟨e, he, y, hy, ht, hv⟩ := h.edge' hm
      simp only [] at ht hv
      rw [List.forall₂_iff_get] at h1
      refine ⟨.node e Ts, .mk he (by rw [ht, h1.1]) ?_, shows_iff.2 ⟨y, hy, hv, h2⟩⟩
      intro i hi
      have := h1.2 i (by omega) hi
      simp only [List.get_eq_getElem] at this
      simp only [ht]
      exact this
    · exact ⟨[], .nil, .nil⟩
    · rintro t s ts ch _ _ ⟨T, h1, h2⟩ ⟨Ts, h3, h4⟩
      exact ⟨T :: Ts, .cons h1 h3, .cons h2 h4⟩

/-- If tails come before heads, so do they in the forest. -/
theorem Shape.wf {g : Hypergraph α} {spec : List (List (List Nat × α))} (h : Shape g spec) (ht : ∀ v, ∀ a ∈ spec.getD v [], ∀ t ∈ a.1, t < v) : WF g where
  edge_lt := h.inv.inRange.edge_lt
  nodup := h.inv.inRange.nodup
  topo v _ e he t hte := by
    obtain ⟨x, _, e1, e2⟩ := h.edge he
    rw [e1] at hte
    exact ht v _ e2 t hte

/-- If the edges of each node have different payloads, no tree is shown twice. -/
theorem Shape.once {g : Hypergraph α} {spec : List (List (List Nat × α))} (h : Shape g spec) (hnd : ∀ v, ((spec.getD v []).map (·.2)).Nodup) {v : Nat} {T : Tree}
    (hT : IsDeriv g v T) : ∀ {T' : Tree} {s : LTree α}, IsDeriv g v T' → Shows g T s → Shows g T' s → T = T' := by
  induction hT with
  | @mk v e ch he hlen hch ih =>
    intro T' s hT' hs hs'
    cases hT' with
    | @mk _ e' ch' he' hlen' hch' =>
      obtain ⟨b, ts⟩ := s
      obtain ⟨x, hx, rfl, hf⟩ := shows_iff.1 hs
      obtain ⟨x', hx', hxx, hf'⟩ := shows_iff.1 hs'
      have hnd' : ((g.inE v).map fun e => (g.edges[e]?).map (·.val)).Nodup := by
        have : ((g.inE v).map fun e => (g.edges[e]?).map (·.val)) = (g.apps v).map (Option.map (·.2)) := by
          unfold Hypergraph.apps Hypergraph.app
          rw [List.map_map]
          apply List.map_congr_left
          intro e _
          simp only [Function.comp_apply, Option.map_map]
          rfl
        rw [this, h.apps, List.map_map]
        have e2 : (Option.map (fun x : List Nat × α => x.2)) ∘ some = some ∘ fun x : List Nat × α => x.2 := rfl
        rw [e2, ← List.map_map]
        exact (hnd v).map (Option.some_injective _)
      have hee : e = e' := by
        apply List.inj_on_of_nodup_map hnd' he he'
        rw [hx, hx']
        simp [hxx]
      subst hee
      congr 1
      rw [List.forall₂_iff_get] at hf hf'
      refine List.ext_getElem (by omega) ?_
      intro i h1 h2
      exact ih i h1 (hch' i h2) (hf.2 i h1 (by omega)) (hf'.2 i h2 (by omega))

/-! ### Growing forests -/

/-- Tails come before heads. -/
def Topo (spec : List (List (List Nat × α))) : Prop := ∀ v, ∀ a ∈ spec.getD v [], ∀ t ∈ a.1, t < v

theorem getD_append_left' (spec ext : List (List (List Nat × α))) (v : Nat) (hv : v < spec.length) : (spec ++ ext).getD v [] = spec.getD v [] := by
  simp only [List.getD_eq_getElem?_getD, List.getElem?_append_left hv]

theorem lang_lt {spec : List (List (List Nat × α))} {v : Nat} {s : LTree α} (h : Lang spec v s) : v < spec.length := by
  cases h with
  | mk h1 _ =>
    by_contra hc
    rw [List.getD_eq_getElem?_getD, List.getElem?_eq_none (by omega)] at h1
    simp at h1

/-- Later nodes do not change what earlier ones stand for. -/
theorem lang_congr {spec spec' : List (List (List Nat × α))} (ht : Topo spec) (n : Nat) (he : ∀ v < n, spec'.getD v [] = spec.getD v []) :
    ∀ v < n, ∀ s, Lang spec' v s ↔ Lang spec v s := by
  intro v
  induction v using Nat.strongRecOn with
  | ind v ih =>
    intro hv s
    obtain ⟨x, ch⟩ := s
    rw [lang_iff, lang_iff, he v hv]
    constructor
    · rintro ⟨ts, h1, h2⟩
      refine ⟨ts, h1, ?_⟩
      rw [List.forall₂_iff_get] at h2 ⊢
      refine ⟨h2.1, fun i h3 h4 => ?_⟩
      have hlt := ht v _ h1 (ts.get ⟨i, h3⟩) (List.get_mem _ _)
      exact (ih _ hlt (by omega) _).1 (h2.2 i h3 h4)
    · rintro ⟨ts, h1, h2⟩
      refine ⟨ts, h1, ?_⟩
      rw [List.forall₂_iff_get] at h2 ⊢
      refine ⟨h2.1, fun i h3 h4 => ?_⟩
      have hlt := ht v _ h1 (ts.get ⟨i, h3⟩) (List.get_mem _ _)
      exact (ih _ hlt (by omega) _).2 (h2.2 i h3 h4)

theorem lang_append {spec : List (List (List Nat × α))} (ht : Topo spec) (ext : List (List (List Nat × α))) {v : Nat} (hv : v < spec.length) (s : LTree α) :
    Lang (spec ++ ext) v s ↔ Lang spec v s :=
  lang_congr ht spec.length (fun w hw => getD_append_left' spec ext w hw) v hv s

theorem topo_snoc {spec : List (List (List Nat × α))} (ht : Topo spec) (l : List (List Nat × α)) (hl : ∀ a ∈ l, ∀ t ∈ a.1, t < spec.length) : Topo (spec ++ [l]) := by
  intro v a ha t hta
  rcases Nat.lt_trichotomy v spec.length with hv | hv | hv
  · rw [getD_append_left' _ _ _ hv] at ha
    exact ht v a ha t hta
  · subst hv
    simp at ha
    exact hl a ha t hta
  · rw [List.getD_eq_getElem?_getD, List.getElem?_eq_none (by simp; omega)] at ha
    simp at ha

theorem topo_nil : Topo ([] : List (List (List Nat × α))) := by
  intro v a ha; simp at ha

theorem lang_last {spec : List (List (List Nat × α))} {l : List (List Nat × α)} {x : α} {ch : List (LTree α)} :
    Lang (spec ++ [l]) spec.length (.node x ch) ↔ ∃ ts, (ts, x) ∈ l ∧ List.Forall₂ (Lang (spec ++ [l])) ts ch := by
  rw [lang_iff]; simp

theorem modify_last (spec : List (List (List Nat × α))) (l : List (List Nat × α)) (f : List (List Nat × α) → List (List Nat × α)) :
    (spec ++ [l]).modify spec.length f = spec ++ [f l] := by
  apply List.ext_getElem?
  intro i
  rw [List.getElem?_modify]
  rcases Nat.lt_trichotomy i spec.length with h | h | h
  · rw [List.getElem?_append_left h, List.getElem?_append_left h]
    have : ¬ spec.length = i := by omega
    simp [this]
  · subst h; simp
  · rw [List.getElem?_eq_none (by simp; omega), List.getElem?_eq_none (by simp; omega)]; rfl

theorem Shape.putLeaves {g : Hypergraph α} {spec : List (List (List Nat × α))} {l : List (List Nat × α)} (xs : List α) : ∀ {g : Hypergraph α} {l : List (List Nat × α)}, Shape g (spec ++ [l]) →
    Shape (putLeaves g xs spec.length) (spec ++ [l ++ xs.map fun x => ([], x)]) := by
  induction xs with
  | nil => intro g l h; simpa [Dec.putLeaves] using h
  | cons x xs ih =>
    intro g l h
    have h1 := h.put x [] spec.length (by simp) (by simp)
    rw [modify_last] at h1
    have := ih h1
    rw [Dec.putLeaves, List.foldl_cons]
    rw [Dec.putLeaves] at this
    simpa using this

/-- A new node with leaves. -/
theorem Shape.leafNode {g : Hypergraph α} {spec : List (List (List Nat × α))} (h : Shape g spec) (c : Int) (xs : List α) :
    Shape (Dec.putLeaves (HG.addNode g c) xs g.nodes.length) (spec ++ [xs.map fun x => ([], x)]) := by
  have := Shape.putLeaves (g := g) (l := []) xs (h.addNode c)
  rw [h.len]
  simpa using this

/-- A new node with one edge. -/
theorem Shape.edgeNode {g : Hypergraph α} {spec : List (List (List Nat × α))} (h : Shape g spec) (c : Int) (x : α) (ts : List Nat) (hts : ∀ t ∈ ts, t < spec.length) :
    Shape (Dec.put (HG.addNode g c) x ts g.nodes.length) (spec ++ [[(ts, x)]]) := by
  have := (h.addNode c).put x ts spec.length (fun t ht => by have := hts t ht; simp; omega) (by simp)
  rw [modify_last] at this
  rw [h.len]
  simpa using this

theorem Shape.finish {g : Hypergraph α} {spec : List (List (List Nat × α))} (h : Shape g spec) (hne : spec ≠ []) (c : Int) (goal : α) :
    ∃ g', Dec.finish c goal g = some g' ∧ Shape g' (spec ++ [[([spec.length - 1], goal)]]) := by
  have hl := List.length_pos_iff.2 hne
  unfold Dec.finish
  rw [if_neg (by rw [h.len]; omega)]
  refine ⟨_, rfl, ?_⟩
  have := h.edgeNode c goal [spec.length - 1] (by simp; omega)
  have e : (HG.addNode g c).nodes.length - 1 = g.nodes.length := by simp [HG.addNode]
  rw [e, h.len]
  rw [h.len] at this
  exact this

theorem forall2_one {A B : Type} {r : A → B → Prop} {a : A} {bs : List B} : List.Forall₂ r [a] bs ↔ ∃ b, bs = [b] ∧ r a b := by
  constructor
  · intro h
    cases h with
    | cons h1 h2 => cases h2; exact ⟨_, rfl, h1⟩
  · rintro ⟨b, rfl, h⟩; exact .cons h .nil

theorem forall2_two {A B : Type} {r : A → B → Prop} {a a' : A} {bs : List B} : List.Forall₂ r [a, a'] bs ↔ ∃ b b', bs = [b, b'] ∧ r a b ∧ r a' b' := by
  constructor
  · intro h
    cases h with
    | cons h1 h2 =>
      obtain ⟨b', rfl, h3⟩ := forall2_one.1 h2
      exact ⟨_, _, rfl, h1, h3⟩
  · rintro ⟨b, b', rfl, h, h'⟩; exact .cons h (.cons h' .nil)

/-- The goal node stands for the goal rule above the trees of the last node. -/
theorem lang_goal {spec : List (List (List Nat × α))} (ht : Topo spec) (hne : spec ≠ []) (goal : α) (s : LTree α) :
    Lang (spec ++ [[([spec.length - 1], goal)]]) spec.length s ↔ ∃ t, Lang spec (spec.length - 1) t ∧ s = .node goal [t] := by
  have hl := List.length_pos_iff.2 hne
  obtain ⟨x, ch⟩ := s
  rw [lang_last]
  simp only [List.mem_singleton, Prod.mk.injEq, LTree.node.injEq]
  constructor
  · rintro ⟨ts, ⟨rfl, rfl⟩, h⟩
    obtain ⟨t, rfl, ht'⟩ := forall2_one.1 h
    exact ⟨t, (lang_append ht _ (by omega) _).1 ht', rfl, rfl⟩
  · rintro ⟨t, h, rfl, rfl⟩
    exact ⟨_, ⟨rfl, rfl⟩, forall2_one.2 ⟨t, rfl, (lang_append ht _ (by omega) _).2 h⟩⟩

/-- What one needs to know of a finished forest. -/
theorem Shape.final {g : Hypergraph α} {spec : List (List (List Nat × α))} (h : Shape g spec) (ht : Topo spec) (hne : spec ≠ []) (c : Int) (goal : α) :
    ∃ g', Dec.finish c goal g = some g' ∧ Shape g' (spec ++ [[([spec.length - 1], goal)]]) ∧ WF g' ∧ g'.goal = spec.length ∧ 0 < g'.nodes.length ∧
      ∀ s, (∃ T, IsDeriv g' g'.goal T ∧ Shows g' T s) ↔ ∃ t, Lang spec (spec.length - 1) t ∧ s = .node goal [t] := by
  have hl := List.length_pos_iff.2 hne
  obtain ⟨g', h1, h2⟩ := h.finish hne c goal
  have hlen := h2.len
  rw [List.length_append, List.length_singleton] at hlen
  have hg : g'.goal = spec.length := by unfold Hypergraph.goal; omega
  refine ⟨g', h1, h2, h2.wf (topo_snoc ht _ (by simp; omega)), hg, by omega, ?_⟩
  intro s
  rw [hg, h2.lang, lang_goal ht hne]

/-! ### Linear chains -/

/-- A tree of leaves, attached one after the other; `bin k` is the rule that attaches leaf `k`. -/
def chainTree (bin : Nat → α) : LTree α → Nat → List α → LTree α
  | t, _, [] => t
  | t, k, x :: xs => chainTree bin (.node (bin k) [t, .node x []]) (k + 1) xs

/-- The tree of a list of leaves. -/
def chainOf (bin : Nat → α) : List α → Option (LTree α)
  | [] => none
  | x :: xs => some (chainTree bin (.node x []) 1 xs)

theorem chainTree_snoc (bin : Nat → α) (x : α) : ∀ (xs : List α) (t : LTree α) (k : Nat), chainTree bin t k (xs ++ [x]) = .node (bin (k + xs.length)) [chainTree bin t k xs, .node x []]
  | [], _, _ => rfl
  | y :: xs, t, k => by
    rw [List.cons_append, chainTree, chainTree_snoc bin x xs, chainTree, List.length_cons]
    congr 2
    omega

theorem chainOf_snoc (bin : Nat → α) (xs : List α) (x : α) (t : LTree α) (h : chainOf bin xs = some t) :
    chainOf bin (xs ++ [x]) = some (.node (bin xs.length) [t, .node x []]) := by
  cases xs with
  | nil => cases h
  | cons y xs =>
    simp only [chainOf, Option.some.injEq] at h
    rw [List.cons_append, chainOf, chainTree_snoc, h, List.length_cons, Nat.add_comm]

/-- The chain built from lists of leaves. -/
def chainLoop (cat : Int) (bin : Nat → α) (ls : List (List α)) : Option Nat × Hypergraph α :=
  (ls.zipIdx.foldl (fun s x => chainStep cat (bin x.2) x.1 s) (none, empty))

theorem chainLoop_snoc (cat : Int) (bin : Nat → α) (ls : List (List α)) (l : List α) :
    chainLoop cat bin (ls ++ [l]) = chainStep cat (bin ls.length) l (chainLoop cat bin ls) := by
  unfold chainLoop
  rw [List.zipIdx_append, List.foldl_append]
  simp

structure ChainInv (bin : Nat → α) (ls : List (List α)) (s : Option Nat × Hypergraph α) (spec : List (List (List Nat × α))) : Prop where
  shape : Shape s.2 spec
  topo : Topo spec
  ne : spec ≠ []
  prev : s.1 = some (spec.length - 1)
  lang : ∀ t, Lang spec (spec.length - 1) t ↔ ∃ xs, List.Forall₂ (fun x l => x ∈ l) xs ls ∧ chainOf bin xs = some t
  edges : ∀ v, ∃ l : List α, ((∃ l' ∈ ls, l = l') ∨ ∃ k, l = [bin k]) ∧ (spec.getD v []).map (·.2) = l ∨ spec.getD v [] = []

theorem lang_leaf {spec : List (List (List Nat × α))} {xs : List α} {s : LTree α} :
    Lang (spec ++ [xs.map fun x => ([], x)]) spec.length s ↔ ∃ x ∈ xs, s = .node x [] := by
  obtain ⟨y, ch⟩ := s
  rw [lang_last]
  simp only [List.mem_map, Prod.mk.injEq, LTree.node.injEq]
  constructor
  · rintro ⟨ts, ⟨x, hx, rfl, rfl⟩, h⟩
    cases h
    exact ⟨x, hx, rfl, rfl⟩
  · rintro ⟨x, hx, rfl, rfl⟩
    exact ⟨[], ⟨y, hx, rfl, rfl⟩, .nil⟩

theorem chain_inv (cat : Int) (bin : Nat → α) (ls : List (List α)) (hne : ls ≠ []) : ∃ spec, ChainInv bin ls (chainLoop cat bin ls) spec := by
  induction ls using List.reverseRecOn with
  | nil => exact absurd rfl hne
  | append_singleton ls l ih =>
    rw [chainLoop_snoc]
    by_cases hls : ls = []
    · subst hls
      have h0 : chainLoop cat bin ([] : List (List α)) = (none, empty) := rfl
      rw [h0]
      refine ⟨[l.map fun x => ([], x)], ?_, ?_, by simp, by simp [chainStep, empty], ?_, ?_⟩
      · have := (shape_empty (α := α)).leafNode cat l
        simpa [chainStep] using this
      · exact topo_snoc topo_nil _ (by simp)
      · intro t
        have := lang_leaf (spec := []) (xs := l) (s := t)
        rw [List.nil_append] at this
        simp only [List.length_nil] at this
        simp only [List.length_singleton, Nat.sub_self, this, List.nil_append]
        constructor
        · rintro ⟨x, hx, rfl⟩
          exact ⟨[x], .cons hx .nil, rfl⟩
        · rintro ⟨xs, h, e⟩
          cases h with
          | cons h1 h2 =>
            cases h2
            simp only [chainOf, chainTree, Option.some.injEq] at e
            exact ⟨_, h1, e.symm⟩
      · intro v
        cases v with
        | zero => exact ⟨l, .inl ⟨.inl ⟨l, by simp, rfl⟩, by simp [Function.comp_def]⟩⟩
        | succ v => exact ⟨[], .inr (by simp)⟩
    · obtain ⟨spec, h⟩ := ih hls
      generalize chainLoop cat bin ls = s at h
      obtain ⟨prev, g⟩ := s
      obtain ⟨hsh, htopo, hspec, hprev, hlang, hedges⟩ := h
      simp only [] at hsh hprev
      subst hprev
      have hl := List.length_pos_iff.2 hspec
      have s1 := hsh.leafNode cat l
      have t1 := topo_snoc htopo (l.map fun x => (([] : List Nat), x)) (by simp)
      have s2 := s1.edgeNode cat (bin ls.length) [spec.length - 1, spec.length] (by simp; omega)
      have t2 := topo_snoc t1 [([spec.length - 1, spec.length], bin ls.length)] (by simp; omega)
      have hlen : (spec ++ [l.map fun x => (([] : List Nat), x)] ++ [[([spec.length - 1, spec.length], bin ls.length)]]).length - 1 =
        (spec ++ [l.map fun x => (([] : List Nat), x)]).length := by simp
      refine ⟨spec ++ [l.map fun x => ([], x)] ++ [[([spec.length - 1, spec.length], bin ls.length)]], ?_, t2, by simp, ?_, ?_, ?_⟩
      · unfold chainStep
        simp only []
        rw [hsh.len] at s1 s2 ⊢
        exact s2
      · unfold chainStep
        simp only []
        rw [s1.len, hlen]
      · intro t
        rw [hlen]
        obtain ⟨x, ch⟩ := t
        rw [lang_last]
        simp only [List.mem_singleton, Prod.mk.injEq]
        constructor
        · rintro ⟨ts, ⟨rfl, rfl⟩, hf⟩
          obtain ⟨u, u', rfl, h1, h2⟩ := forall2_two.1 hf
          rw [lang_append t1 _ (by simp; omega), lang_append htopo _ (by omega), hlang] at h1
          rw [lang_append t1 _ (by simp), lang_leaf] at h2
          obtain ⟨xs, hx, hc⟩ := h1
          obtain ⟨y, hy, rfl⟩ := h2
          refine ⟨xs ++ [y], List.rel_append hx (.cons hy .nil), ?_⟩
          rw [chainOf_snoc _ _ _ _ hc, hx.length_eq]
        · rintro ⟨xs', hf, hc⟩
          obtain ⟨xs, zs, hx, hz, rfl⟩ : ∃ xs zs, List.Forall₂ (fun x l => x ∈ l) xs ls ∧ List.Forall₂ (fun x l => x ∈ l) zs [l] ∧ xs' = xs ++ zs :=
            ⟨_, _, List.forall₂_take_append _ _ _ hf, List.forall₂_drop_append _ _ _ hf, (List.take_append_drop _ _).symm⟩
          obtain ⟨y, rfl, hy⟩ : ∃ y, zs = [y] ∧ y ∈ l := by
            cases hz with
            | cons h1 h2 => cases h2; exact ⟨_, rfl, h1⟩
          obtain ⟨u, hu⟩ : ∃ u, chainOf bin xs = some u := by
            cases xs with
            | nil => cases hx; exact absurd rfl hls
            | cons a b => exact ⟨_, rfl⟩
          rw [chainOf_snoc _ _ _ _ hu, Option.some.injEq, LTree.node.injEq, hx.length_eq] at hc
          obtain ⟨rfl, rfl⟩ := hc
          refine ⟨_, ⟨rfl, rfl⟩, forall2_two.2 ⟨_, _, rfl, ?_, ?_⟩⟩
          · rw [lang_append t1 _ (by simp; omega), lang_append htopo _ (by omega), hlang]
            exact ⟨xs, hx, hu⟩
          · rw [lang_append t1 _ (by simp), lang_leaf]
            exact ⟨y, hy, rfl⟩
      · intro v
        rcases Nat.lt_trichotomy v spec.length with hv | hv | hv
        · obtain ⟨l', h⟩ := hedges v
          rw [getD_append_left' _ _ _ (by simp; omega), getD_append_left' _ _ _ hv]
          refine ⟨l', ?_⟩
          rcases h with ⟨h1 | h1, h2⟩ | h
          · obtain ⟨l'', h3, h4⟩ := h1
            exact .inl ⟨.inl ⟨l'', by simp [h3], h4⟩, h2⟩
          · exact .inl ⟨.inr h1, h2⟩
          · exact .inr h
        · subst hv
          rw [getD_append_left' _ _ _ (by simp)]
          exact ⟨l, .inl ⟨.inl ⟨l, by simp, rfl⟩, by simp [Function.comp_def]⟩⟩
        · by_cases hv2 : v = spec.length + 1
          · subst hv2
            exact ⟨[bin ls.length], .inl ⟨.inr ⟨_, rfl⟩, by simp⟩⟩
          · refine ⟨[], .inr ?_⟩
            rw [List.getD_eq_getElem?_getD, List.getElem?_eq_none (by simp; omega)]
            rfl

end Cdec.Dec
