import Verif.Decoder.KBest
import Verif.Decoder.KBestSpec
import Verif.HG.InsideLemmas
import Verif.Props.C14
import Mathlib.Data.List.Dedup
import Mathlib.Algebra.Order.BigOperators.Group.List
/-! Helper lemmas for C05. -/
namespace Cdec.Dec.KBest
open Cdec.HG Spec
variable {W φ T α : Type} [CommMonoid W] [LinearOrder W] [IsOrderedMonoid W] [AddCommMonoid φ] [DecidableEq T]

/-- What the filter compares: yields, or (without a filter) nothing but derivations themselves. -/
def cls (p : Params W φ T α) (t : Tree) : Tree ⊕ T := if p.uniq then .inr (yieldOf p.traverse t) else .inl t

theorem yieldOf_node (traverse : Nat → List T → T) (e : Nat) (ch : List Tree) :
    yieldOf traverse (.node e ch) = traverse e (ch.map fun t => yieldOf traverse t) := by rw [yieldOf]

theorem cls_node {p : Params W φ T α} {e : Nat} {ch ch' : List Tree} (h : ch.map (cls p) = ch'.map (cls p)) : cls p (.node e ch) = cls p (.node e ch') := by
  unfold cls at h ⊢
  split at h
  · rename_i hu
    simp only [hu, if_true, yieldOf_node, Sum.inr.injEq]
    have : (ch.map fun t => yieldOf p.traverse t) = ch'.map fun t => yieldOf p.traverse t := by
      have h2 := congrArg (List.map fun c : Tree ⊕ T => c.elim (fun t => yieldOf p.traverse t) id) h
      simpa [List.map_map, Function.comp_def] using h2
    rw [this]
  · rename_i hu
    have : ch = ch' := by
      have h2 := congrArg (List.map fun c : Tree ⊕ T => c.elim id (fun _ => Tree.node 0 [])) h
      simpa [List.map_map, Function.comp_def] using h2
    rw [this]

/-- The list of derivations found at a node. -/
structure Best (p : Params W φ T α) (u : Nat) (L : List Tree) : Prop where
  deriv : ∀ t ∈ L, IsDeriv p.g u t
  nodup : (L.map (cls p)).Nodup
  sorted : L.Pairwise fun a b => b.weight p.w ≤ a.weight p.w
  dom : ∀ t, IsDeriv p.g u t → ∀ t' ∈ L, (cls p t = cls p t' ∨ cls p t ∉ L.map (cls p)) → t.weight p.w ≤ t'.weight p.w

open Classical in
/-- The different classes of derivations. -/
noncomputable def classes (p : Params W φ T α) (u : Nat) : List (Tree ⊕ T) := ((derivs p.g u).map (cls p)).dedup

theorem classes_nodup (p : Params W φ T α) (u : Nat) : (classes p u).Nodup := by
  classical
  unfold classes
  convert List.nodup_dedup ((derivs p.g u).map (cls p))

theorem mem_classes {p : Params W φ T α} (wf : WF p.g) {u : Nat} (hu : u < p.g.nodes.length) {c : Tree ⊕ T} : c ∈ classes p u ↔ ∃ t, IsDeriv p.g u t ∧ cls p t = c := by
  classical
  have : c ∈ classes p u ↔ c ∈ (derivs p.g u).map (cls p) := by
    unfold classes
    exact List.mem_dedup
  rw [this, List.mem_map]
  exact ⟨fun ⟨t, h1, h2⟩ => ⟨t, ((derivs_lists wf u hu).2 t).1 h1, h2⟩, fun ⟨t, h1, h2⟩ => ⟨t, ((derivs_lists wf u hu).2 t).2 h1, h2⟩⟩

/-- The number of different classes of derivations. -/
noncomputable def num (p : Params W φ T α) (u : Nat) : Nat := (classes p u).length

section
variable {p : Params W φ T α} (wf : WF p.g) {u : Nat} (hu : u < p.g.nodes.length)
include wf hu

theorem Best.le_num {L : List Tree} (h : Best p u L) : L.length ≤ num p u := by
  have hsub : L.map (cls p) ⊆ classes p u := by
    intro c hc
    obtain ⟨t, ht, rfl⟩ := List.mem_map.1 hc
    exact (mem_classes wf hu).2 ⟨t, h.deriv t ht, rfl⟩
  have := (List.subperm_of_subset h.nodup hsub).length_le
  simpa [num] using this

theorem Best.lt_num {L : List Tree} (h : Best p u L) {t : Tree} (ht : IsDeriv p.g u t) (hn : cls p t ∉ L.map (cls p)) : L.length < num p u := by
  have hsub : cls p t :: L.map (cls p) ⊆ classes p u := by
    intro c hc
    rcases List.mem_cons.1 hc with rfl | hc
    · exact (mem_classes wf hu).2 ⟨t, ht, rfl⟩
    · obtain ⟨t, ht, rfl⟩ := List.mem_map.1 hc
      exact (mem_classes wf hu).2 ⟨t, h.deriv t ht, rfl⟩
  have := (List.subperm_of_subset (List.nodup_cons.2 ⟨hn, h.nodup⟩) hsub).length_le
  simp only [List.length_cons, List.length_map] at this
  exact this

theorem num_le_of_all {L : List Tree} (h : ∀ t, IsDeriv p.g u t → cls p t ∈ L.map (cls p)) : num p u ≤ L.length := by
  have hsub : classes p u ⊆ L.map (cls p) := by
    intro c hc
    obtain ⟨t, ht, rfl⟩ := (mem_classes wf hu).1 hc
    exact h t ht
  have := (List.subperm_of_subset (classes_nodup p u) hsub).length_le
  rw [List.length_map] at this
  exact this

theorem all_of_num_le {L : List Tree} (hb : Best p u L) (h : num p u ≤ L.length) {t : Tree} (ht : IsDeriv p.g u t) : cls p t ∈ L.map (cls p) := by
  by_contra hn
  have := hb.lt_num wf hu ht hn
  omega

/-- The place of a derivation in the list, or the end. -/
theorem Best.index {L : List Tree} (h : Best p u L) {t : Tree} (ht : IsDeriv p.g u t) :
    ∃ j, j < num p u ∧ (∀ t', L[j]? = some t' → cls p t' = cls p t) ∧ ∀ (i : Nat) (t' : Tree), i ≤ j → L[i]? = some t' → t.weight p.w ≤ t'.weight p.w := by
  by_cases hm : cls p t ∈ L.map (cls p)
  · obtain ⟨t0, h0, hc⟩ := List.mem_map.1 hm
    obtain ⟨j, hj, rfl⟩ := List.getElem_of_mem h0
    refine ⟨j, Nat.lt_of_lt_of_le hj (h.le_num wf hu), ?_, ?_⟩
    · intro t' ht'
      rw [List.getElem?_eq_getElem hj] at ht'
      cases ht'
      exact hc
    · intro i t' hij ht'
      obtain ⟨hi, rfl⟩ := List.getElem?_eq_some_iff.1 ht'
      refine Std.le_trans (h.dom t ht _ h0 (.inl hc.symm)) ?_
      rcases Nat.lt_or_eq_of_le hij with hlt | rfl
      · exact List.pairwise_iff_getElem.1 h.sorted i j hi hj hlt
      · exact Std.le_refl _
  · refine ⟨L.length, h.lt_num wf hu ht hm, ?_, ?_⟩
    · intro t' ht'
      rw [List.getElem?_eq_none (Nat.le_refl _)] at ht'
      cases ht'
    · intro i t' _ ht'
      exact h.dom t ht t' (List.mem_of_getElem? ht') (.inr hm)

end

/-- The derivation at place `i` of a node. -/
def At (s : State W φ T) (t i : Nat) (c : Tree) : Prop := ∃ d, (s t).D[i]? = some d ∧ d.item.tree = c

/-- The antecedents of a combination. -/
inductive Ants (s : State W φ T) : List Nat → List Nat → List Tree → Prop
  | nil : Ants s [] [] []
  | cons {t i c ts js cs} : At s t i c → Ants s ts js cs → Ants s (t :: ts) (i :: js) (c :: cs)

/-- `s'` has all that `s` has; nothing changed from `v` on. -/
structure Ext (v : Nat) (s s' : State W φ T) : Prop where
  same : ∀ u, v ≤ u → s' u = s u
  pre : ∀ u, (s u).D <+: (s' u).D

theorem Ext.refl (v : Nat) (s : State W φ T) : Ext v s s := ⟨fun _ _ => rfl, fun _ => List.prefix_refl _⟩

theorem Ext.trans {v : Nat} {s s' s'' : State W φ T} (h : Ext v s s') (h' : Ext v s' s'') : Ext v s s'' :=
  ⟨fun u hu => (h'.same u hu).trans (h.same u hu), fun u => (h.pre u).trans (h'.pre u)⟩

theorem Ext.mono {v v' : Nat} {s s' : State W φ T} (h : Ext v s s') (hv : v ≤ v') : Ext v' s s' := ⟨fun u hu => h.same u (by omega), h.pre⟩

theorem prefix_getElem? {β : Type} {l l' : List β} (h : l <+: l') {i : Nat} {x : β} (hx : l[i]? = some x) : l'[i]? = some x := by
  obtain ⟨r, rfl⟩ := h
  obtain ⟨hi, _⟩ := List.getElem?_eq_some_iff.1 hx
  rw [List.getElem?_append_left hi, hx]

theorem At.mono {s s' : State W φ T} (h : ∀ u, (s u).D <+: (s' u).D) {t i : Nat} {c : Tree} (ha : At s t i c) : At s' t i c := by
  obtain ⟨d, h1, h2⟩ := ha
  exact ⟨d, prefix_getElem? (h t) h1, h2⟩

theorem Ants.mono {s s' : State W φ T} (h : ∀ u, (s u).D <+: (s' u).D) {ts js : List Nat} {cs : List Tree} (ha : Ants s ts js cs) : Ants s' ts js cs := by
  induction ha with
  | nil => exact .nil
  | cons a _ ih => exact .cons (a.mono h) ih

/-- A derivation object is what it should be. -/
structure ItemOk (p : Params W φ T α) (s : State W φ T) (u : Nat) (c : Item W φ) : Prop where
  mem : c.edge ∈ p.g.inE u
  score : c.score = c.tree.weight p.w
  feats : c.feats = c.tree.total p.x
  tree : ∃ ch, c.tree = .node c.edge ch ∧ Ants s (p.g.tails c.edge) c.j ch

theorem ItemOk.mono {p : Params W φ T α} {s s' : State W φ T} (h : ∀ u, (s u).D <+: (s' u).D) {u : Nat} {c : Item W φ} (ho : ItemOk p s u c) : ItemOk p s' u c :=
  ⟨ho.mem, ho.score, ho.feats, by obtain ⟨ch, h1, h2⟩ := ho.tree; exact ⟨ch, h1, h2.mono h⟩⟩

def keysOf (l : List (Item W φ)) : List (Nat × List Nat) := l.map Item.key

/-- What holds at a node with candidates: `P` are the popped ones; `pend` is one whose successors may be missing. -/
structure Live (p : Params W φ T α) (s : State W φ T) (u : Nat) (P : List (Item W φ)) (pend : Option (Nat × List Nat)) : Prop where
  keys : (keysOf (P ++ (s u).cand)).Nodup
  ok : ∀ c ∈ P ++ (s u).cand, ItemOk p s u c
  ds : ∀ k, k ∈ (s u).ds ↔ k ∈ keysOf (P ++ (s u).cand) ∧ ∃ x ∈ k.2, x ≠ 0
  sub : ∀ d ∈ (s u).D, d.item ∈ P
  cov : ∀ c ∈ P, cls p c.tree ∈ ((s u).D.map fun d => d.item.tree).map (cls p)
  best : Best p u ((s u).D.map fun d => d.item.tree)
  yld : ∀ d ∈ (s u).D, d.yield = yieldOf p.traverse d.item.tree
  init : ∀ e ∈ p.g.inE u, (e, List.replicate (p.g.tails e).length 0) ∈ keysOf (P ++ (s u).cand) ∨
    (p.uniq = false ∧ ∃ I : List (Nat × List Nat), I.Nodup ∧ I.length = p.kPrime ∧ ∀ k ∈ I, ∃ c ∈ P ++ (s u).cand, c.key = k ∧
      ∀ ch, List.Forall₂ (IsDeriv p.g) (p.g.tails e) ch → (Tree.node e ch).weight p.w ≤ c.score)
  closed : ∀ c ∈ P, pend ≠ some c.key → ∀ i < c.j.length, c.j.getD i 0 + 1 < num p ((p.g.tails c.edge).getD i 0) →
    (c.edge, Cube.bump c.j i) ∈ keysOf (P ++ (s u).cand)
  pos : p.uniq = false → P = (s u).D.map Entry.item ∧ (∀ c ∈ (s u).cand, c.j.sum ≤ (s u).D.length) ∧
    (∀ (i : Nat) (d : Entry W φ T), (s u).D[i]? = some d → d.item.j.sum ≤ i) ∧ (s u).D.length ≤ p.kPrime

/-- What holds at a node between calls. -/
def NInv (p : Params W φ T α) (s : State W φ T) (u : Nat) : Prop :=
  s u = ⟨[], [], []⟩ ∨ ∃ P pend, Live p s u P pend ∧ ∀ k, pend = some k → (s u).D.getLast?.map (fun d => d.item.key) = some k

theorem Live.mono {p : Params W φ T α} {s s' : State W φ T} {u : Nat} {P : List (Item W φ)} {pend : Option (Nat × List Nat)} (hl : Live p s u P pend) (hu : s' u = s u)
    (h : ∀ u, (s u).D <+: (s' u).D) : Live p s' u P pend := by
  refine ⟨?_, ?_, ?_, ?_, ?_, ?_, ?_, ?_, ?_, ?_⟩ <;> rw [hu]
  · exact hl.keys
  · exact fun c hc => (hl.ok c hc).mono h
  · exact hl.ds
  · exact hl.sub
  · exact hl.cov
  · exact hl.best
  · exact hl.yld
  · exact hl.init
  · exact hl.closed
  · exact hl.pos

theorem NInv.mono {p : Params W φ T α} {s s' : State W φ T} {u : Nat} (hn : NInv p s u) (hu : s' u = s u) (h : ∀ u, (s u).D <+: (s' u).D) : NInv p s' u := by
  rcases hn with h0 | ⟨P, pend, h1, h2⟩
  · exact .inl (hu.trans h0)
  · exact .inr ⟨P, pend, h1.mono hu h, by rw [hu]; exact h2⟩

theorem NInv.best {p : Params W φ T α} {s : State W φ T} {u : Nat} (hn : NInv p s u) : Best p u ((s u).D.map fun d => d.item.tree) := by
  rcases hn with h0 | ⟨P, pend, h1, h2⟩
  · rw [h0]
    exact ⟨by simp, by simp, by simp, by simp⟩
  · exact h1.best

theorem NInv.yld {p : Params W φ T α} {s : State W φ T} {u : Nat} (hn : NInv p s u) : ∀ d ∈ (s u).D, d.yield = yieldOf p.traverse d.item.tree := by
  rcases hn with h0 | ⟨P, pend, h1, h2⟩
  · rw [h0]
    simp
  · exact h1.yld

theorem NInv.itemOk {p : Params W φ T α} {s : State W φ T} {u : Nat} (hn : NInv p s u) : ∀ d ∈ (s u).D, ItemOk p s u d.item := by
  rcases hn with h0 | ⟨P, pend, h1, h2⟩
  · rw [h0]
    simp
  · exact fun d hd => h1.ok _ (List.mem_append.2 (.inl (h1.sub d hd)))

/-- Places for the subtrees of a derivation. -/
inductive Idxs (p : Params W φ T α) (s : State W φ T) : List Nat → List Nat → List Tree → Prop
  | nil : Idxs p s [] [] []
  | cons {t i c ts js cs} : i < num p t → (∀ c', At s t i c' → cls p c' = cls p c) → (∀ i' c', i' ≤ i → At s t i' c' → c.weight p.w ≤ c'.weight p.w) →
      Idxs p s ts js cs → Idxs p s (t :: ts) (i :: js) (c :: cs)

theorem at_iff {s : State W φ T} {t i : Nat} {c : Tree} : At s t i c ↔ ((s t).D.map fun d => d.item.tree)[i]? = some c := by
  rw [List.getElem?_map, Option.map_eq_some_iff]
  rfl

theorem exists_idxs {p : Params W φ T α} (wf : WF p.g) {s : State W φ T} {ts : List Nat} {ch : List Tree} (h : List.Forall₂ (IsDeriv p.g) ts ch)
    (hn : ∀ t ∈ ts, t < p.g.nodes.length ∧ NInv p s t) : ∃ js, Idxs p s ts js ch := by
  induction h with
  | nil => exact ⟨[], .nil⟩
  | @cons t c ts cs h1 _ ih =>
    obtain ⟨js, hj⟩ := ih fun t ht => hn t (by simp [ht])
    obtain ⟨h2, h3⟩ := hn t (by simp)
    obtain ⟨j, a1, a2, a3⟩ := h3.best.index wf h2 h1
    exact ⟨j :: js, .cons a1 (fun c' hc => a2 c' (at_iff.1 hc)) (fun i c' hi hc => a3 i c' hi (at_iff.1 hc)) hj⟩

theorem Idxs.lt_num {p : Params W φ T α} {s : State W φ T} {ts js : List Nat} {ch : List Tree} (h : Idxs p s ts js ch) :
    List.Forall₂ (fun j t => j < num p t) js ts := by
  induction h with
  | nil => exact .nil
  | cons a _ _ _ ih => exact .cons a ih

theorem Idxs.cls_eq {p : Params W φ T α} {s : State W φ T} {ts js : List Nat} {ch : List Tree} (h : Idxs p s ts js ch) {ch0 : List Tree} (ha : Ants s ts js ch0) :
    ch0.map (cls p) = ch.map (cls p) := by
  induction h generalizing ch0 with
  | nil => cases ha; rfl
  | cons _ b _ _ ih =>
    cases ha with
    | cons x y => rw [List.map_cons, List.map_cons, b _ x, ih y]

theorem Idxs.weight_le {p : Params W φ T α} {s : State W φ T} {ts js : List Nat} {ch : List Tree} (h : Idxs p s ts js ch) {js' : List Nat}
    {ch0 : List Tree} (ha : Ants s ts js' ch0) (hle : List.Forall₂ (· ≤ ·) js' js) : (ch.map fun t => t.weight p.w).prod ≤ (ch0.map fun t => t.weight p.w).prod := by
  induction h generalizing ch0 js' with
  | nil => cases ha; exact le_refl _
  | cons _ _ c _ ih =>
    cases ha with
    | cons x y =>
      cases hle with
      | cons z1 z2 =>
        rw [List.map_cons, List.map_cons, List.prod_cons, List.prod_cons]
        exact mul_le_mul' (c _ _ z1 x) (ih y z2)

theorem weight_node (w : Nat → W) (e : Nat) (ch : List Tree) : (Tree.node e ch).weight w = w e * (ch.map fun t => t.weight w).prod := by rw [Tree.weight]

theorem total_node (x : Nat → φ) (e : Nat) (ch : List Tree) : (Tree.node e ch).total x = x e + (ch.map fun t => t.total x).sum := by rw [Tree.total]

theorem forall₂_zero (js : List Nat) : List.Forall₂ (· ≤ ·) (List.replicate js.length 0) js := by
  induction js with
  | nil => exact .nil
  | cons j js ih => exact .cons (Nat.zero_le _) ih

theorem forall₂_le_refl (js : List Nat) : List.Forall₂ (· ≤ ·) js js := by
  induction js with
  | nil => exact .nil
  | cons j js ih => exact .cons (Nat.le_refl _) ih

theorem forall₂_le_trans {a b c : List Nat} (h : List.Forall₂ (· ≤ ·) a b) (h' : List.Forall₂ (· ≤ ·) b c) : List.Forall₂ (· ≤ ·) a c := by
  induction h generalizing c with
  | nil => cases h'; exact .nil
  | cons x _ ih =>
    cases h' with
    | cons y ys => exact .cons (Nat.le_trans x y) (ih ys)

/-- A vector that is not zero is one step above another. -/
theorem exists_pred {js : List Nat} (h : ∃ x ∈ js, x ≠ 0) : ∃ q i, i < q.length ∧ js = Cube.bump q i ∧ List.Forall₂ (· ≤ ·) q js ∧ q.sum + 1 = js.sum := by
  induction js with
  | nil => simp at h
  | cons j js ih =>
    by_cases hj : j = 0
    · obtain ⟨x, hx, hx0⟩ := h
      rcases List.mem_cons.1 hx with rfl | hx
      · exact absurd hj hx0
      · obtain ⟨q, i, h1, h2, h3, h4⟩ := ih ⟨x, hx, hx0⟩
        refine ⟨j :: q, i + 1, by simpa using h1, ?_, .cons (Nat.le_refl _) h3, by simp; omega⟩
        rw [h2]
        simp [Cube.bump]
    · refine ⟨(j - 1) :: js, 0, by simp, ?_, .cons (by omega) (forall₂_le_refl _), by simp; omega⟩
      simp [Cube.bump]
      omega

theorem bump_sum {js : List Nat} {i : Nat} (h : i < js.length) : (Cube.bump js i).sum = js.sum + 1 := by
  induction js generalizing i with
  | nil => simp at h
  | cons j js ih =>
    cases i with
    | zero => simp [Cube.bump]; omega
    | succ i =>
      have := ih (i := i) (by simpa using h)
      simp [Cube.bump] at this ⊢
      omega

theorem getD_le_sum (js : List Nat) (i : Nat) : js.getD i 0 ≤ js.sum := by
  induction js generalizing i with
  | nil => simp
  | cons j js ih =>
    cases i with
    | zero => simp
    | succ i =>
      have := ih i
      simp only [List.getD_cons_succ, List.sum_cons]
      omega

theorem all_zero {js : List Nat} (h : ¬ ∃ x ∈ js, x ≠ 0) : js = List.replicate js.length 0 := by
  rw [List.eq_replicate_iff]
  refine ⟨rfl, fun x hx => ?_⟩
  by_contra hc
  exact h ⟨x, hx, hc⟩

theorem bump_ne_zero {js : List Nat} {i : Nat} (h : i < js.length) : ∃ x ∈ Cube.bump js i, x ≠ 0 := by
  have h1 := bump_sum h
  by_contra hc
  rw [all_zero hc, List.sum_replicate] at h1
  simp at h1

theorem forall₂_lt_of_le {p : Params W φ T α} {q js ts : List Nat} (h : List.Forall₂ (· ≤ ·) q js) (h' : List.Forall₂ (fun j t => j < num p t) js ts) :
    List.Forall₂ (fun j t => j < num p t) q ts := by
  induction h generalizing ts with
  | nil => cases h'; exact .nil
  | cons x _ ih =>
    cases h' with
    | cons y ys => exact .cons (Nat.lt_of_le_of_lt x y) (ih ys)

theorem forall₂_getD {p : Params W φ T α} {js ts : List Nat} (h : List.Forall₂ (fun j t => j < num p t) js ts) (i : Nat) (hi : i < js.length) :
    js.getD i 0 < num p (ts.getD i 0) := by
  induction h generalizing i with
  | nil => simp at hi
  | cons x _ ih =>
    cases i with
    | zero => simpa using x
    | succ i => simpa using ih i (by simpa using hi)

/-- Every combination is popped, or there is a candidate below it, or its edge was dropped. -/
theorem Live.cover {p : Params W φ T α} {s : State W φ T} {u : Nat} {P : List (Item W φ)} (hl : Live p s u P none) {e : Nat}
    (h0 : (e, List.replicate (p.g.tails e).length 0) ∈ keysOf (P ++ (s u).cand)) :
    ∀ (n : Nat) (js : List Nat), js.sum = n → List.Forall₂ (fun j t => j < num p t) js (p.g.tails e) →
      (∃ c ∈ P, c.key = (e, js)) ∨ ∃ c ∈ (s u).cand, c.edge = e ∧ List.Forall₂ (· ≤ ·) c.j js := by
  intro n
  induction n with
  | zero =>
    intro js hs hlt
    have hz : js = List.replicate js.length 0 := by
      apply all_zero
      rintro ⟨x, hx, hx0⟩
      obtain ⟨i, hi, rfl⟩ := List.mem_iff_getElem.1 hx
      have := getD_le_sum js i
      rw [List.getD_eq_getElem?_getD, List.getElem?_eq_getElem hi, Option.getD_some] at this
      omega
    have hlen := hlt.length_eq
    obtain ⟨c, hc, hk⟩ := List.mem_map.1 h0
    rw [hz, hlen]
    rcases List.mem_append.1 hc with hc | hc
    · exact .inl ⟨c, hc, hk⟩
    · refine .inr ⟨c, hc, congrArg Prod.fst hk, ?_⟩
      have : c.j = _ := congrArg Prod.snd hk
      rw [this]
      exact forall₂_le_refl _
  | succ n ih =>
    intro js hs hlt
    have hnz : ∃ x ∈ js, x ≠ 0 := by
      by_contra hc
      rw [all_zero hc, List.sum_replicate] at hs
      simp at hs
    obtain ⟨q, i, h1, h2, h3, h4⟩ := exists_pred hnz
    rcases ih q (by omega) (forall₂_lt_of_le h3 hlt) with ⟨c, hc, hk⟩ | ⟨c, hc, hk, hle⟩
    · have he : c.edge = e := congrArg Prod.fst hk
      have hj : c.j = q := congrArg Prod.snd hk
      have hcl := hl.closed c hc (by simp) i (by rw [hj]; exact h1) (by
        rw [hj, he]
        have := forall₂_getD hlt i (by rw [h2, Cube.bump_length]; exact h1)
        rw [h2, Cube.bump_getD _ _ _ h1, if_pos rfl] at this
        exact this)
      rw [he, hj, ← h2] at hcl
      obtain ⟨c', hc', hk'⟩ := List.mem_map.1 hcl
      rcases List.mem_append.1 hc' with hc' | hc'
      · exact .inl ⟨c', hc', hk'⟩
      · refine .inr ⟨c', hc', congrArg Prod.fst hk', ?_⟩
        have : c'.j = js := congrArg Prod.snd hk'
        rw [this]
        exact forall₂_le_refl _
    · exact .inr ⟨c, hc, hk, forall₂_le_trans hle h3⟩

/-- A class that is not found yet is no better than some candidate. -/
theorem Live.exists_cand {p : Params W φ T α} (wf : WF p.g) {s : State W φ T} {u : Nat} (hu : u < p.g.nodes.length) (hn : ∀ t < u, NInv p s t) {P : List (Item W φ)}
    (hl : Live p s u P none) (hk : p.uniq = false → (s u).D.length < p.kPrime) {t : Tree} (ht : IsDeriv p.g u t)
    (hc : cls p t ∉ ((s u).D.map fun d => d.item.tree).map (cls p)) : ∃ c ∈ (s u).cand, t.weight p.w ≤ c.score := by
  cases t with
  | node e ch =>
    obtain ⟨he, hch⟩ := isDeriv_iff.1 ht
    rcases hl.init e he with h0 | ⟨hq, I, i1, i2, i3⟩
    · have htl : ∀ t ∈ p.g.tails e, t < u := wf.topo u hu e he
      obtain ⟨js, hj⟩ := exists_idxs wf hch (fun t ht => ⟨Nat.lt_trans (htl t ht) hu, hn t (htl t ht)⟩)
      rcases hl.cover h0 _ js rfl hj.lt_num with ⟨c, h1, h2⟩ | ⟨c, h1, h2, h3⟩
      · exfalso
        have hok := hl.ok c (List.mem_append.2 (.inl h1))
        obtain ⟨ch0, h4, h5⟩ := hok.tree
        have e1 : c.edge = e := congrArg Prod.fst h2
        have e2 : c.j = js := congrArg Prod.snd h2
        rw [e1, e2] at h5
        have := hl.cov c h1
        rw [h4, e1, cls_node (hj.cls_eq h5)] at this
        exact hc this
      · refine ⟨c, h1, ?_⟩
        have hok := hl.ok c (List.mem_append.2 (.inr h1))
        obtain ⟨ch0, h4, h5⟩ := hok.tree
        rw [h2] at h5
        rw [hok.score, h4, h2, weight_node, weight_node]
        exact mul_le_mul' (le_refl _) (hj.weight_le h5 h3)
    · have hP := (hl.pos hq).1
      have hlt := hk hq
      have : ∃ k ∈ I, k ∉ keysOf P := by
        by_contra hcon
        have hsub : I ⊆ keysOf P := by
          intro k hk
          by_contra h
          exact hcon ⟨k, hk, h⟩
        have := (List.subperm_of_subset i1 hsub).length_le
        rw [i2, keysOf, List.length_map, hP, List.length_map] at this
        omega
      obtain ⟨k, hk1, hk2⟩ := this
      obtain ⟨c, h1, h2, h3⟩ := i3 k hk1
      rcases List.mem_append.1 h1 with h1 | h1
      · exact absurd (List.mem_map.2 ⟨c, h1, h2⟩) hk2
      · exact ⟨c, h1, h3 ch hch⟩

end Cdec.Dec.KBest
