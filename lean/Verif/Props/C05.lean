import Verif.Decoder.KBestSteps
import Mathlib.Data.Int.Order.Basic
import Mathlib.Algebra.Group.Int.Defs
import Mathlib.Algebra.Order.Group.Int
import Mathlib.Algebra.Order.Monoid.TypeTags
/-!
# C05: lazy k-best extraction returns the derivations from best to worst
-/
namespace Cdec.Dec.KBest
open Cdec.HG Spec
variable {W φ T α : Type} [CommMonoid W] [LinearOrder W] [IsOrderedMonoid W] [AddCommMonoid φ] [DecidableEq T]

namespace Spec

/-- The answer to a request for number `k` of a node, when `best u` is the list of the derivations of a node `u`: nothing if the list is not that long, and otherwise
score, features and yield of the derivation at place `k`, with an object from whose edge and indices that derivation can be followed down. -/
def Answer (p : Params W φ T α) (best : Nat → List Tree) (v k : Nat) (r : Option (Entry W φ T)) : Prop :=
  match (best v)[k]? with
  | none => r = none
  | some t => ∃ d, r = some d ∧ d.item.score = t.weight p.w ∧ d.item.feats = t.total p.x ∧ d.yield = yieldOf p.traverse t ∧
      ∃ ch, t = .node d.item.edge ch ∧ d.item.j.length = (p.g.tails d.item.edge).length ∧
        ∀ i < ch.length, (best ((p.g.tails d.item.edge).getD i 0))[d.item.j.getD i 0]? = ch[i]?

end Spec

theorem Ants.getD {s : State W φ T} {ts js : List Nat} {ch : List Tree} (h : Ants s ts js ch) :
    js.length = ts.length ∧ ∀ i < ch.length, ((s (ts.getD i 0)).D.map fun d => d.item.tree)[js.getD i 0]? = ch[i]? := by
  induction h with
  | nil => simp
  | @cons t i c ts js cs a _ ih =>
    refine ⟨by simp [ih.1], fun k hk => ?_⟩
    cases k with
    | zero => simpa using at_iff.1 a
    | succ k => simpa using ih.2 k (by simpa using hk)

/-- The answers of a sequence of calls, from any reachable state. -/
theorem calls_spec {p : Params W φ T α} (hp : Laws p) {fuel : Nat} (hf : rounds p ≤ fuel) {depth : Nat} (hd : p.g.nodes.length ≤ depth) (cs : List (Nat × Nat)) :
    ∀ s : State W φ T, (∀ v < p.g.nodes.length, NInv p s v) → (∀ c ∈ cs, c.1 < p.g.nodes.length ∧ within p c.2) →
    ∃ rs s', calls p fuel depth cs s = some rs ∧ (∀ v < p.g.nodes.length, NInv p s' v) ∧ (∀ u, (s u).D <+: (s' u).D) ∧
      List.Forall₂ (fun c r => Spec.Answer p (fun v => (s' v).D.map fun d => d.item.tree) c.1 c.2 r ∧
        (r = none → num p c.1 ≤ (s' c.1).D.length)) cs rs := by
  induction cs with
  | nil => exact fun s hs _ => ⟨[], s, rfl, hs, fun _ => List.prefix_refl _, .nil⟩
  | cons c cs ih =>
    intro s hs hc
    obtain ⟨v, k⟩ := c
    obtain ⟨hv, hk⟩ := hc (v, k) (by simp)
    simp only [] at hv hk
    obtain ⟨s1, a1, a2, a3, a4⟩ := lazyKthBest_ok hp hf depth p.g.nodes.length hd (Nat.le_refl _) s hs v hv k hk
    obtain ⟨rs, s2, b1, b2, b3, b4⟩ := ih s1 a2 fun c h => hc c (by simp [h])
    refine ⟨(s1 v).D[k]? :: rs, s2, ?_, b2, fun u => (a3.pre u).trans (b3 u), .cons ⟨?_, ?_⟩ b4⟩
    · rw [calls, a1]
      simp only []
      rw [b1]
      rfl
    · have hle := (b2 v hv).best.le_num hp.wf hv
      rw [List.length_map] at hle
      unfold Spec.Answer
      simp only []
      rw [List.getElem?_map]
      rcases hD : (s1 v).D[k]? with _ | d
      · rw [List.getElem?_eq_none_iff] at hD
        have : (s2 v).D.length ≤ k := by
          rcases a4 with h | h <;> omega
        rw [List.getElem?_eq_none this]
        rfl
      · have hD2 := prefix_getElem? (b3 v) hD
        rw [hD2]
        simp only [Option.map_some]
        have hm := List.mem_of_getElem? hD2
        have hok := (b2 v hv).itemOk d hm
        obtain ⟨ch, h1, h2⟩ := hok.tree
        exact ⟨d, rfl, hok.score, hok.feats, (b2 v hv).yld d hm, ch, h1, h2.getD.1, h2.getD.2⟩
    · intro h
      rw [List.getElem?_eq_none_iff] at h
      have h2 := (b3 v).length_le
      simp only []
      rcases a4 with h' | h' <;> omega

theorem NInv.start (p : Params W φ T α) (v : Nat) : NInv p State.init v := .inl rfl

/-- Without a filter: for every sequence of requests for derivations number `k < kPrime` of any nodes, all the requests are answered, and there is for every node one
list of its derivations, from best to worst without repetition, such that each request gets the derivation at place `k` of the list of its node; a request gets
no derivation only if the list has all the derivations of the node. -/
theorem C05_kbest (p : Params W φ T α) (hp : Laws p) (hu : p.uniq = false) : ∃ F, ∀ fuel ≥ F, ∀ depth ≥ p.g.nodes.length,
    ∀ cs : List (Nat × Nat), (∀ c ∈ cs, c.1 < p.g.nodes.length ∧ c.2 < p.kPrime) →
    ∃ (rs : List (Option (Entry W φ T))) (best : Nat → List Tree), calls p fuel depth cs State.init = some rs ∧
      (∀ v < p.g.nodes.length, Spec.Ranking p.g p.w v (best v)) ∧
      List.Forall₂ (fun c r => Spec.Answer p best c.1 c.2 r ∧ (r = none → ∀ t, IsDeriv p.g c.1 t → t ∈ best c.1)) cs rs := by
  refine ⟨rounds p, fun fuel hf depth hd cs hcs => ?_⟩
  obtain ⟨rs, s, h1, h2, _, h3⟩ := calls_spec hp hf hd cs State.init (fun v _ => NInv.start p v) fun c hc => ⟨(hcs c hc).1, .inr (hcs c hc).2⟩
  have hc : cls p = fun t => (.inl t : Tree ⊕ T) := by
    funext t
    simp [cls, hu]
  have hmem : ∀ (t : Tree) (L : List Tree), cls p t ∈ L.map (cls p) ↔ t ∈ L := by
    intro t L
    rw [hc]
    simp
  refine ⟨rs, fun v => (s v).D.map fun d => d.item.tree, h1, ?_, ?_⟩
  · intro v hv
    have hb := (h2 v hv).best
    refine ⟨hb.deriv, ?_, hb.sorted, ?_⟩
    · have := hb.nodup
      rw [hc] at this
      exact this.of_map
    · intro t ht hn t' ht'
      exact hb.dom t ht t' ht' (.inr fun h => hn ((hmem _ _).1 h))
  · have : List.Forall₂ (fun c (_ : Option (Entry W φ T)) => c.1 < p.g.nodes.length) cs rs := by
      have hlen := h3.length_eq
      clear h1 h3
      induction cs generalizing rs with
      | nil => cases rs with
        | nil => exact .nil
        | cons r rs => simp at hlen
      | cons c cs ih => cases rs with
        | nil => simp at hlen
        | cons r rs => exact .cons (hcs c (by simp)).1 (ih (fun c h => hcs c (by simp [h])) rs (by simpa using hlen))
    clear h1 hcs
    induction h3 with
    | nil => exact .nil
    | cons h _ ih =>
      cases this with
      | cons x y =>
        refine .cons ⟨h.1, fun hn t ht => ?_⟩ (ih y)
        exact (hmem _ _).1 (all_of_num_le hp.wf x (h2 _ x).best (by rw [List.length_map]; exact h.2 hn) ht)

/-- With the filter on yields: the same for the different yields of a node, each with a best derivation, and for every `k`. -/
theorem C05_unique (p : Params W φ T α) (hp : Laws p) (hu : p.uniq = true) : ∃ F, ∀ fuel ≥ F, ∀ depth ≥ p.g.nodes.length,
    ∀ cs : List (Nat × Nat), (∀ c ∈ cs, c.1 < p.g.nodes.length) →
    ∃ (rs : List (Option (Entry W φ T))) (best : Nat → List Tree), calls p fuel depth cs State.init = some rs ∧
      (∀ v < p.g.nodes.length, Spec.UniqueRanking p.g p.w p.traverse v (best v)) ∧
      List.Forall₂ (fun c r => Spec.Answer p best c.1 c.2 r ∧
        (r = none → ∀ t, IsDeriv p.g c.1 t → Spec.yieldOf p.traverse t ∈ (best c.1).map (Spec.yieldOf p.traverse))) cs rs := by
  refine ⟨rounds p, fun fuel hf depth hd cs hcs => ?_⟩
  obtain ⟨rs, s, h1, h2, _, h3⟩ := calls_spec hp hf hd cs State.init (fun v _ => NInv.start p v) fun c hc => ⟨hcs c hc, .inl hu⟩
  have hc : ∀ t, cls p t = (.inr (yieldOf p.traverse t) : Tree ⊕ T) := fun t => by simp [cls, hu]
  have hmem : ∀ (t : Tree) (L : List Tree), cls p t ∈ L.map (cls p) ↔ yieldOf p.traverse t ∈ L.map (yieldOf p.traverse) := by
    intro t L
    simp only [List.mem_map, hc, Sum.inr.injEq]
  refine ⟨rs, fun v => (s v).D.map fun d => d.item.tree, h1, ?_, ?_⟩
  · intro v hv
    have hb := (h2 v hv).best
    refine ⟨hb.deriv, ?_, hb.sorted, ?_, ?_⟩
    · have := hb.nodup
      rw [show cls p = Sum.inr ∘ yieldOf p.traverse from funext hc, ← List.map_map] at this
      exact this.of_map
    · intro t ht t' ht' h
      exact hb.dom t ht t' ht' (.inl (by rw [hc, hc, h]))
    · intro t ht hn t' ht'
      exact hb.dom t ht t' ht' (.inr fun h => hn ((hmem _ _).1 h))
  · have : List.Forall₂ (fun c (_ : Option (Entry W φ T)) => c.1 < p.g.nodes.length) cs rs := by
      have hlen := h3.length_eq
      clear h1 h3
      induction cs generalizing rs with
      | nil => cases rs with
        | nil => exact .nil
        | cons r rs => simp at hlen
      | cons c cs ih => cases rs with
        | nil => simp at hlen
        | cons r rs => exact .cons (hcs c (by simp)) (ih (fun c h => hcs c (by simp [h])) rs (by simpa using hlen))
    clear h1 hcs
    induction h3 with
    | nil => exact .nil
    | cons h _ ih =>
      cases this with
      | cons x y =>
        refine .cons ⟨h.1, fun hn t ht => ?_⟩ (ih y)
        exact (hmem _ _).1 (all_of_num_le hp.wf x (h2 _ x).best (by rw [List.length_map]; exact h.2 hn) ht)

/-! ## A case that meets the hypotheses -/

/-- A largest element and the others, by linear search. -/
def popMax : List (Item W φ) → Option (Item W φ × List (Item W φ))
  | [] => none
  | c :: l => match popMax l with
    | none => some (c, [])
    | some (d, r) => if d.score ≤ c.score then some (c, d :: r) else some (d, c :: r)

/-- The `n` largest elements. -/
def keepMax : Nat → List (Item W φ) → List (Item W φ)
  | 0, _ => []
  | n + 1, l => match popMax l with
    | none => []
    | some (d, r) => d :: keepMax n r

theorem popMax_none (l : List (Item W φ)) : popMax l = none ↔ l = [] := by
  cases l with
  | nil => simp [popMax]
  | cons c l =>
    rw [popMax]
    split
    · simp
    · split <;> simp

theorem popMax_some (l : List (Item W φ)) : ∀ d r, popMax l = some (d, r) → l.Perm (d :: r) ∧ ∀ c ∈ l, c.score ≤ d.score := by
  induction l with
  | nil => simp [popMax]
  | cons c l ih =>
    intro d r h
    rw [popMax] at h
    split at h
    · rename_i hn
      have := (popMax_none l).1 hn
      subst this
      simp only [Option.some.injEq, Prod.mk.injEq] at h
      obtain ⟨rfl, rfl⟩ := h
      simp
    · rename_i d' r' hs
      obtain ⟨h1, h2⟩ := ih d' r' hs
      split at h
      · rename_i hle
        simp only [Option.some.injEq, Prod.mk.injEq] at h
        obtain ⟨rfl, rfl⟩ := h
        refine ⟨h1.cons _, fun x hx => ?_⟩
        rcases List.mem_cons.1 hx with rfl | hx
        · exact le_refl _
        · exact le_trans (h2 x hx) hle
      · rename_i hle
        simp only [Option.some.injEq, Prod.mk.injEq] at h
        obtain ⟨rfl, rfl⟩ := h
        refine ⟨(h1.cons _).trans (List.Perm.swap _ _ _), fun x hx => ?_⟩
        rcases List.mem_cons.1 hx with rfl | hx
        · exact le_of_lt (not_le.1 hle)
        · exact h2 x hx

theorem keepMax_spec (n : Nat) : ∀ l : List (Item W φ), ∃ r, l.Perm (keepMax n l ++ r) ∧ (keepMax n l).length = min n l.length ∧
    ∀ a ∈ keepMax n l, ∀ b ∈ r, b.score ≤ a.score := by
  induction n with
  | zero => exact fun l => ⟨l, by simp [keepMax], by simp [keepMax], by simp [keepMax]⟩
  | succ n ih =>
    intro l
    rw [keepMax]
    rcases h : popMax l with _ | ⟨d, r⟩
    · have := (popMax_none l).1 h
      subst this
      exact ⟨[], by simp, by simp, by simp⟩
    · obtain ⟨h1, h2⟩ := popMax_some l d r h
      obtain ⟨r', a1, a2, a3⟩ := ih r
      refine ⟨r', h1.trans (a1.cons d), ?_, ?_⟩
      · simp only [List.length_cons, a2]
        have := h1.length_eq
        simp at this
        omega
      · intro a ha b hb
        rcases List.mem_cons.1 ha with rfl | ha
        · exact h2 b (h1.mem_iff.2 (List.mem_cons.2 (.inr (a1.mem_iff.2 (List.mem_append.2 (.inr hb))))))
        · exact a3 a ha b hb

/-- Two nodes; the first has three edges without tails, the second a binary edge over two copies of the first and a unary one. -/
def exGraph : Hypergraph Unit where
  edges := [⟨0, some 0, [], ()⟩, ⟨1, some 0, [], ()⟩, ⟨2, some 0, [], ()⟩, ⟨3, some 1, [0, 0], ()⟩, ⟨4, some 1, [0], ()⟩]
  nodes := [⟨0, 0, [0, 1, 2], [3, 3, 4]⟩, ⟨1, 0, [3, 4], []⟩]

def exParams (uniq : Bool) (k : Nat) : Params (Multiplicative ℤ) ℤ (List Nat) Unit where
  g := exGraph
  w e := Multiplicative.ofAdd ([-1, -5, -2, -1, -4].getD e 0)
  x e := [1, 10, 100, 1000, 10000].getD e 0
  traverse e ys := if e = 1 then [0] else if e < 3 then [e] else ys.flatten
  uniq := uniq
  kPrime := k
  pop := popMax
  keep := keepMax

theorem exLaws (uniq : Bool) (k : Nat) (hk : 0 < k) : Laws (exParams uniq k) where
  wf := by
    change WF exGraph
    exact ⟨by decide, by decide, by decide⟩
  ne := by
    change ∀ v < exGraph.nodes.length, exGraph.inE v ≠ []
    decide
  kpos := hk
  pop_none := popMax_none
  pop_some := popMax_some
  keep := keepMax_spec

/-- All twelve derivations of the second node, the sixth one before the others. -/
example : ((calls (exParams false 13) 30 2 ((1, 5) :: (List.range 13).map fun k => (1, k)) State.init).map fun rs =>
    rs.map fun r => r.map fun d => (d.item.score.toAdd, d.item.feats, d.yield)) =
    some [some (-6, 10100, [2]), some (-3, 1002, [0, 0]), some (-4, 1101, [2, 0]), some (-4, 1101, [0, 2]), some (-5, 10001, [0]), some (-5, 1200, [2, 2]),
      some (-6, 10100, [2]), some (-7, 1011, [0, 0]), some (-7, 1011, [0, 0]), some (-8, 1110, [0, 2]), some (-8, 1110, [2, 0]), some (-9, 10010, [0]),
      some (-11, 1020, [0, 0]), none] := by decide +kernel

/-- With a small `k` the third edge of the first node is dropped. -/
example : ((calls (exParams false 2) 30 2 [(1, 0), (1, 1), (0, 1), (0, 0)] State.init).map fun rs =>
    rs.map fun r => r.map fun d => (d.item.score.toAdd, d.yield)) =
    some [some (-3, [0, 0]), some (-4, [2, 0]), some (-2, [2]), some (-1, [0])] := by decide +kernel

/-- The six different yields. -/
example : ((calls (exParams true 1) 30 2 ((List.range 7).map fun k => (1, k)) State.init).map fun rs =>
    rs.map fun r => r.map fun d => (d.item.score.toAdd, d.yield)) =
    some [some (-3, [0, 0]), some (-4, [2, 0]), some (-4, [0, 2]), some (-5, [0]), some (-5, [2, 2]), some (-6, [2]), none] := by decide +kernel

end Cdec.Dec.KBest
