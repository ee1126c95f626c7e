import Verif.Decoder.IntersectMain
import Verif.Props.C07
import Mathlib.Data.List.Infix
/-! The filter, the pruned forest and copies. -/
namespace Cdec.Dec.Intersect
open Cdec.HG Cdec.Dec.Parser Cdec.Dec.Parser.Spec Cdec.Dec.Spec Cdec.Dec.Intersect.Spec
variable {φ : Type}

/-! ## The filter -/

theorem replaced_drop {vals : List (List Int)} {e out : List Int} (h : Replaced vals e out) : ∀ i, ∃ out', Replaced vals (e.drop i) out' ∧ out' <:+ out := by
  induction h with
  | nil => intro i; exact ⟨[], by simpa using Replaced.nil, List.suffix_refl _⟩
  | @word w e out hw h ih =>
    intro i
    cases i with
    | zero => exact ⟨_, .word hw h, List.suffix_refl _⟩
    | succ i =>
      obtain ⟨o, h1, h2⟩ := ih i
      exact ⟨o, h1, h2.trans (List.suffix_cons _ _)⟩
  | @var k v e out hv h ih =>
    intro i
    cases i with
    | zero => exact ⟨_, .var hv h, List.suffix_refl _⟩
    | succ i =>
      obtain ⟨o, h1, h2⟩ := ih i
      exact ⟨o, h1, h2.trans (List.suffix_append _ _)⟩

theorem replaced_infix {vals : List (List Int)} {e out : List Int} (h : Replaced vals e out) : ∀ k ∈ order e, ∀ o, vals[k]? = some o → o <:+: out := by
  induction h with
  | nil => intro k hk; simp [order] at hk
  | @word w e out hw h ih =>
    intro k hk o ho
    rw [order_cons, if_neg (by omega)] at hk
    exact (ih k hk o ho).trans (List.suffix_cons _ _).isInfix
  | @var k0 v e out hv h ih =>
    intro k hk o ho
    rw [order_cons, if_pos (by omega)] at hk
    rcases List.mem_cons.1 hk with hk | hk
    · have : k = k0 := by omega
      subst this
      rw [hv] at ho
      rw [← Option.some.inj ho]
      exact (List.prefix_append _ _).isInfix
    · exact (ih k hk o ho).trans (List.suffix_append _ _).isInfix

theorem runMissing_false {exist : List (List Int)} {ws : List Int} {m : Nat} (he : ∀ p, p ≠ [] → p <:+: ws → p.length ≤ m → p ∈ exist) {vals : List (List Int)} {e out : List Int}
    (h : Replaced vals e out) : ∀ phrase, (phrase ++ out) <:+: ws → phrase.length + e.length ≤ m → runMissing exist e phrase = false := by
  induction h with
  | nil => intro p _ _; rfl
  | @word w e out hw h ih =>
    intro p hp hm
    rw [runMissing, if_neg (by omega)]
    simp only [List.length_cons] at hm
    have hpw : (p ++ [w]) <:+: ws := by
      refine List.IsInfix.trans ?_ hp
      exact ⟨[], out, by simp⟩
    rw [if_pos (by simpa using he (p ++ [w]) (by simp) hpw (by simp; omega))]
    exact ih (p ++ [w]) (by simpa using hp) (by simp; omega)
  | @var k v e out hv h ih =>
    intro p _ _
    rw [runMissing, if_pos (by omega)]

theorem removes_false {s : Filter} (hs : s.lattice = false) {ws : List Int} {m : Nat} (he : ∀ p, p ≠ [] → p <:+: ws → p.length ≤ m → p ∈ s.exist) {vals : List (List Int)} {e out : List Int}
    (h : Replaced vals e out) (ho : out <:+: ws) (hm : e.length ≤ m) : s.removes e = false := by
  unfold Filter.removes
  rw [hs, if_neg (by simp), List.any_eq_false]
  intro i hi
  split
  · simp
  · obtain ⟨o, h1, h2⟩ := replaced_drop h i
    rw [runMissing_false he h1 [] (by simpa using h2.isInfix.trans ho) (by simp; omega)]
    simp

theorem phraseLoop_spec [Zero φ] (ws : List Int) : ∀ (m j : Nat) (phrase : List Int) (s : Filter), j + m ≤ ws.length → s.lattice = false →
    ∃ s', phraseLoop (sentence (φ := φ) ws) (List.range' j m) phrase s = some s' ∧ s'.lattice = false ∧ (∀ p ∈ s.exist, p ∈ s'.exist) ∧
      ∀ k, 1 ≤ k → k ≤ m → phrase ++ slice ws j (j + k) ∈ s'.exist := by
  intro m
  induction m with
  | zero =>
    intro j phrase s _ hs
    exact ⟨s, rfl, hs, fun _ h => h, fun k h1 h2 => by omega⟩
  | succ m ih =>
    intro j phrase s hj hs
    have hlt : j < ws.length := by omega
    have harc : (sentence (φ := φ) ws).getD j [] = [⟨ws[j], 0, 1⟩] := by
      simp only [sentence]
      rw [List.getD_eq_getElem?_getD, List.getElem?_map, List.getElem?_eq_getElem hlt]
      rfl
    rw [List.range'_succ, phraseLoop, harc]
    simp only []
    obtain ⟨s', h1, h2, h3, h4⟩ := ih (j + 1) (phrase ++ [ws[j]]) ⟨s.lattice, s.exist ++ [phrase ++ [ws[j]]]⟩ (by omega) hs
    refine ⟨s', h1, h2, fun p hp => h3 p (List.mem_append_left _ hp), fun k hk1 hk2 => ?_⟩
    have hone := slice_one (List.getElem?_eq_getElem hlt)
    rcases Nat.lt_or_ge 1 k with hk | hk
    · have := h4 (k - 1) (by omega) (by omega)
      rw [show j + 1 + (k - 1) = j + k by omega, ← hone, List.append_assoc, slice_append ws (by omega) (by omega)] at this
      exact this
    · have : k = 1 := by omega
      subst this
      rw [hone]
      exact h3 _ (by simp)

theorem mkFilter_spec [Zero φ] (ws : List Int) (max : Nat) (sos : Int) :
    ∃ s, mkFilter (sentence (φ := φ) ws) max sos = some s ∧ s.lattice = false ∧ ∀ p, p ≠ [] → p <:+: ws → p.length ≤ max → p ∈ s.exist := by
  have hlen : (sentence (φ := φ) ws).length = ws.length := by simp [sentence]
  have main : ∀ l : List Nat, (∀ i ∈ l, i < ws.length) → ∀ s : Filter, s.lattice = false →
      ∃ s', l.foldlM (fun s i => phraseLoop (sentence (φ := φ) ws) (List.range' i (min ws.length (i + max) - i)) [] s) s = some s' ∧ s'.lattice = false ∧ (∀ p ∈ s.exist, p ∈ s'.exist) ∧
        ∀ i ∈ l, ∀ k, 1 ≤ k → k ≤ max → i + k ≤ ws.length → slice ws i (i + k) ∈ s'.exist := by
    intro l
    induction l with
    | nil => intro _ s hs; exact ⟨s, rfl, hs, fun _ h => h, by simp⟩
    | cons i l ih =>
      intro hl s hs
      have hi := hl i List.mem_cons_self
      obtain ⟨s1, a1, a2, a3, a4⟩ := phraseLoop_spec (φ := φ) ws (min ws.length (i + max) - i) i [] s (by omega) hs
      obtain ⟨s2, b1, b2, b3, b4⟩ := ih (fun j hj => hl j (List.mem_cons_of_mem _ hj)) s1 a2
      refine ⟨s2, ?_, b2, fun p hp => b3 p (a3 p hp), ?_⟩
      · rw [List.foldlM_cons, a1]
        exact b1
      · intro j hj k h1 h2 h3
        rcases List.mem_cons.1 hj with rfl | hj
        · exact b3 _ (by simpa using a4 k h1 (by omega))
        · exact b4 j hj k h1 h2 h3
  obtain ⟨s, h1, h2, _, h4⟩ := main (List.range ws.length) (by simp) ⟨false, []⟩ rfl
  refine ⟨⟨s.lattice, s.exist ++ [[sos]]⟩, ?_, h2, ?_⟩
  · unfold mkFilter
    rw [hlen, h1]
    rfl
  · rintro p hp ⟨a, b, rfl⟩ hm
    have hpl := List.length_pos_iff.2 hp
    have := h4 a.length (by simp; omega) p.length hpl hm (by simp)
    refine List.mem_append_left _ ?_
    have e : slice (a ++ p ++ b) a.length (a.length + p.length) = p := by
      unfold slice
      simp
    rw [e] at this
    exact this

/-- A derivation of the reference uses no rule that is removed. -/
theorem yields_avoids {g : Hypergraph (EVal φ)} (hfit : Fit g) {s : Filter} (hs : s.lattice = false) {ws : List Int} (he : ∀ p, p ≠ [] → p <:+: ws → p.length ≤ 9999 → p ∈ s.exist) (T : Tree) :
    ∀ v out, IsDeriv g v T → Yields g T out → out <:+: ws →
      ∀ e ∈ T.edges, s.edge g e = false := by
  induction T using Tree.rec (motive_2 := fun ch => ∀ T ∈ ch, ∀ v out, IsDeriv g v T → Yields g T out → out <:+: ws →
      ∀ e ∈ T.edges, s.edge g e = false) with
  | node e ch ih =>
    intro v out hd hy ho e' he'
    obtain ⟨_, hch⟩ := isDeriv_iff.1 hd
    obtain ⟨x, vals, hx, hyc, hrep⟩ := yields_iff.1 hy
    obtain ⟨hl, _, _, hm⟩ := hfit.rules e x hx
    rw [tails_some hx] at hch
    obtain ⟨l1, a1⟩ := forall₂_get.1 hch
    obtain ⟨l2, a2⟩ := forall₂_get.1 hyc
    rw [Tree.edges] at he'
    rcases List.mem_cons.1 he' with rfl | he'
    · unfold Filter.edge
      rw [hx]
      exact removes_false hs he hrep ho hm
    · obtain ⟨T, hT, he'⟩ := List.mem_flatMap.1 he'
      obtain ⟨k, hk⟩ := List.mem_iff_getElem?.1 hT
      have hkl := (List.getElem?_eq_some_iff.1 hk).1
      have ht := List.getElem?_eq_getElem (l := x.tails) (i := k) (by omega)
      have hv := List.getElem?_eq_getElem (l := vals) (i := k) (by omega)
      exact ih T hT _ _ (a1 k _ _ ht hk) (a2 k _ _ hk hv)
        ((replaced_infix hrep k ((linear_order hl).mem_iff.2 (List.mem_range.2 (by omega))) _ hv).trans ho) e' he'
  | nil => rename_i T hT _ _ _ _ _ _ _; simp at hT
  | cons t ts ih1 ih2 =>
    rename_i T hT v out a b c e d
    rcases List.mem_cons.1 hT with rfl | hT
    · exact ih1 v out a b c e d
    · exact ih2 T hT v out a b c e d

/-! ## The pruned forest -/

theorem topoSort_edges {α : Type} {g h : Hypergraph α} (hc : Consistent g) {goal fuel : Nat} {prune : Nat → Bool} (hrun : topoSort g goal prune fuel = some h) (e : Nat) (y : Edge α)
    (hy : h.edges[e]? = some y) : ∃ (e0 : Nat) (x : Edge α), g.edges[e0]? = some x ∧ y.val = x.val ∧ y.tails.length = x.tails.length ∧ ∃ v, y.head = some v := by
  unfold topoSort at hrun
  cases hd : dfsRun g prune fuel (dfsInit goal) with
  | none => rw [hd] at hrun; simp at hrun
  | some r =>
    rw [hd] at hrun
    simp only [Option.some.injEq] at hrun
    subst hrun
    obtain ⟨e0, he0, hre, rfl⟩ := (reloc_edges.2 e y).1 hy
    refine ⟨e0, _, List.getElem?_eq_getElem he0, rfl, by simp, ?_⟩
    have hk := (edgeReloc_some hre).1
    unfold edgeKept at hk
    rw [Bool.and_eq_true, List.any_eq_true] at hk
    obtain ⟨⟨v, hv, hv'⟩, _⟩ := hk
    rw [Bool.and_eq_true] at hv'
    obtain ⟨h1, h2⟩ := hv'
    have hvl := List.mem_range.1 hv
    have hin := hc.inc v hvl e0
    have hmem : e0 ∈ (g.nodes[v]).inEdges := by
      have : e0 ∈ g.inE v := by simpa using h2
      unfold Hypergraph.inE Hypergraph.node at this
      rw [List.getD_eq_getElem?_getD, List.getElem?_eq_getElem hvl] at this
      exact this
    have hcnt := List.count_pos_iff.2 hmem
    have hhd : g.head e0 = some v := by
      by_contra hne
      rw [if_neg hne] at hin
      omega
    unfold Hypergraph.head at hhd
    rw [List.getElem?_eq_getElem he0] at hhd
    simp only [] at hhd
    rw [hhd]
    obtain ⟨k, hk⟩ := Option.isSome_iff_exists.1 h1
    exact ⟨k, by simpa using hk⟩

theorem consistent_inE {α : Type} {h : Hypergraph α} (hc : Consistent h) (v e : Nat) : e ∈ h.inE v ↔ ∃ x : Edge α, h.edges[e]? = some x ∧ x.head = some v := by
  have hhead : h.head e = some v ↔ ∃ x : Edge α, h.edges[e]? = some x ∧ x.head = some v := by
    unfold Hypergraph.head
    cases h.edges[e]? with
    | none => simp
    | some x => simp
  rw [← hhead]
  by_cases hv : v < h.nodes.length
  · have hin := hc.inc v hv e
    have e1 : h.inE v = (h.nodes[v]).inEdges := by
      unfold Hypergraph.inE Hypergraph.node
      rw [List.getD_eq_getElem?_getD, List.getElem?_eq_getElem hv]
      rfl
    rw [e1, ← List.count_pos_iff, hin]
    split <;> simp_all
  · constructor
    · intro hm
      unfold Hypergraph.inE Hypergraph.node at hm
      rw [List.getD_eq_getElem?_getD, List.getElem?_eq_none (by omega)] at hm
      simp [default] at hm
    · intro hh
      obtain ⟨x, hx, hxv⟩ := hhead.1 hh
      obtain ⟨he, rfl⟩ := List.getElem?_eq_some_iff.1 hx
      exact absurd (hc.head_lt e he v hxv) hv

theorem pruned_gr {g h : Hypergraph (EVal φ)} (hfit : Fit g) (hwf : WF h) {prune : Nat → Bool} {fuel : Nat} (hrun : pruneEdges g prune true fuel = some h) : Gr h := by
  classical
  by_cases hd : ∃ t, IsDeriv g g.goal t ∧ Avoids prune t
  · have hc := C07_tables_stay_consistent g hfit.wf hfit.pos hfit.cons prune true fuel h hrun fun _ => hd
    have hr := (reachable_last hfit.wf prune hfit.pos).2 hd
    have hrun' : topoSort g (g.nodes.length - 1) (filtered g prune) fuel = some h := by simpa only [pruneEdges, hr, if_true] using hrun
    have hlt : ∀ (e : Nat) (x : Edge (EVal φ)) v, h.edges[e]? = some x → x.head = some v → v < h.nodes.length := fun e x v hx hv => by
      obtain ⟨he, rfl⟩ := List.getElem?_eq_some_iff.1 hx
      exact hc.head_lt e he v hv
    refine ⟨consistent_inE hc, ?_, hlt, ?_, ?_⟩
    · intro e x hx
      obtain ⟨_, _, _, _, _, hv⟩ := topoSort_edges hfit.cons hrun' e x hx
      exact hv
    · intro e x v hx hv t ht
      refine hwf.topo v (hlt e x v hx hv) e ((consistent_inE hc v e).2 ⟨x, hx, hv⟩) t ?_
      rw [tails_some hx]
      exact ht
    · intro e x hx
      obtain ⟨e0, x0, h0, h1, h2, _⟩ := topoSort_edges hfit.cons hrun' e x hx
      obtain ⟨r1, r2, r3, _⟩ := hfit.rules e0 x0 h0
      rw [h1, h2]
      exact ⟨r1, r2, r3⟩
  · obtain ⟨h1, h2⟩ := (C07_inside_check_leaves_no_dead_nodes g hfit.wf hfit.pos prune fuel h hrun).2 hd
    refine ⟨?_, ?_, ?_, ?_, ?_⟩
    · intro v e
      rw [h2]
      simp only [List.getElem?_nil, reduceCtorEq, false_and, exists_false, iff_false]
      intro he
      by_cases hv : v < h.nodes.length
      · have := hwf.edge_lt v hv e he
        rw [h2] at this
        simp at this
      · unfold Hypergraph.inE Hypergraph.node at he
        rw [List.getD_eq_getElem?_getD, List.getElem?_eq_none (by omega)] at he
        simp [default] at he
    all_goals intro e x; rw [h2]; simp

/-! ## Copies -/

section
variable [AddMonoid φ] {conv : List Char → Nat} {name : Nat → List Char} {h : Hypergraph (EVal φ)} {ws : List Int}

theorem replaced_len {lens : List Nat} {vals : List (List Int)} (hv : ∀ (k : Nat) o, vals[k]? = some o → lens.getD k 0 = o.length) {e out : List Int} (hr : Replaced vals e out) :
    ∀ k, (lay lens e k).2.2 = k + out.length := by
  induction hr with
  | nil => intro k; rfl
  | @word w e out hw h ih =>
    intro k
    rw [lay, if_pos hw]
    simp only []
    rw [ih]
    simp only [List.length_cons]
    omega
  | @var k0 v e out ho h ih =>
    intro k
    rw [lay, if_neg (by omega)]
    have e0 : (- -(k0 : Int)).toNat = k0 := by omega
    simp only []
    rw [ih, e0, hv k0 v ho]
    simp only [List.length_append]
    omega

theorem replaced_spans {lens : List Nat} {vals : List (List Int)} (hv : ∀ (k : Nat) o, vals[k]? = some o → lens.getD k 0 = o.length) {e out : List Int} (hr : Replaced vals e out) :
    ∀ k, k + out.length ≤ ws.length → slice ws k (k + out.length) = out →
      ∀ s ∈ (lay lens e k).2.1, s.2.1 ≤ s.2.2 ∧ s.2.2 ≤ ws.length ∧ vals[s.1]? = some (slice ws s.2.1 s.2.2) := by
  induction hr with
  | nil => intro k _ _ s hs; simp [lay] at hs
  | @word w e out hw h ih =>
    intro k hk hs s hm
    rw [lay, if_pos hw] at hm
    simp only [List.length_cons] at hk hs
    obtain ⟨s1, s2, s3⟩ := slice_split (a := [w]) (by omega) (by omega) hs
    simp only [List.length_singleton] at s2
    exact ih (k + 1) (by omega) (by rw [show k + 1 + out.length = k + (out.length + 1) by omega]; exact s2) s hm
  | @var k0 v e out ho h ih =>
    intro k hk hs s hm
    have e0 : (- -(k0 : Int)).toNat = k0 := by omega
    rw [lay, if_neg (by omega), e0, hv k0 v ho] at hm
    simp only [List.length_append] at hk hs
    obtain ⟨s1, s2, s3⟩ := slice_split (a := v) (by omega) (by omega) hs
    rcases List.mem_cons.1 hm with rfl | hm
    · exact ⟨Nat.le_add_right _ _, by simp only []; omega, by simp only []; rw [ho, s1]⟩
    · exact ih (k + v.length) (by omega) (by rw [Nat.add_assoc]; exact s2) s hm

theorem yields_len (T : Tree) : ∀ out, Yields h T out → (img h T).1 = out.length := by
  induction T using Tree.rec (motive_2 := fun ch => ∀ T ∈ ch, ∀ out, Yields h T out → (img h T).1 = out.length) with
  | node e ch ih =>
    intro out hy
    obtain ⟨x, vals, hx, hyc, hrep⟩ := yields_iff.1 hy
    obtain ⟨l2, a2⟩ := forall₂_get.1 hyc
    rw [img_len hx, replaced_len (vals := vals) ?_ hrep 0, Nat.zero_add]
    intro k o ho
    have hkl := (List.getElem?_eq_some_iff.1 ho).1
    have hT := List.getElem?_eq_getElem (l := ch) (i := k) (by omega)
    rw [lens_some hT]
    exact ih _ (List.mem_of_getElem? hT) o (a2 k _ _ hT ho)
  | nil => rename_i T hT _ _; simp at hT
  | cons t ts ih1 ih2 =>
    rename_i T hT out a
    rcases List.mem_cons.1 hT with rfl | hT
    · exact ih1 out a
    · exact ih2 T hT out a

/-- What shows the image of a derivation is its copy. -/
theorem img_copy (hp : ∀ s, 0 < conv s) (hg : Gr h) {gp : Hypergraph (Val Nat φ)} (T : Tree) : ∀ v i out T', IsDeriv h v T → Yields h T out → i + out.length ≤ ws.length →
    slice ws i (i + out.length) = out → Shows gp T' ((img h T).2 i) → Copy ws h (Decode.mapVal (outVal conv name h) gp) T T' := by
  induction T using Tree.rec (motive_2 := fun ch => ∀ T ∈ ch, ∀ v i out T', IsDeriv h v T → Yields h T out → i + out.length ≤ ws.length →
    slice ws i (i + out.length) = out → Shows gp T' ((img h T).2 i) → Copy ws h (Decode.mapVal (outVal conv name h) gp) T T') with
  | node e ch ih =>
    rintro v i out ⟨e', ch'⟩ hd hy hle hsl hsh
    obtain ⟨he, hch⟩ := isDeriv_iff.1 hd
    obtain ⟨x, vals, hx, hyc, hrep⟩ := yields_iff.1 hy
    rw [tails_some hx] at hch
    obtain ⟨l1, a1⟩ := forall₂_get.1 hch
    obtain ⟨l2, a2⟩ := forall₂_get.1 hyc
    obtain ⟨hl, hf, _⟩ := hg.rules e x hx
    have hv : ∀ (k : Nat) o, vals[k]? = some o → (lens h ch).getD k 0 = o.length := fun k o ho => by
      have hkl := (List.getElem?_eq_some_iff.1 ho).1
      have hT := List.getElem?_eq_getElem (l := ch) (i := k) (by omega)
      rw [lens_some hT]
      exact yields_len _ o (a2 k _ _ hT ho)
    rw [img_at hx, replaced_len hv hrep i] at hsh
    obtain ⟨x', hx', hval, hsub⟩ := shows_iff.1 hsh
    have hedge : (Decode.mapVal (outVal conv name h) gp).edges[e']? = some ⟨x'.id, x'.head, x'.tails, outVal conv name h x'.val⟩ := by
      rw [Decode.mapVal_edge, hx']
      rfl
    have hov : outVal conv name h x'.val = ⟨ruleOf conv name h e, some x.val.rule, x.val.feats, i, (i + out.length : Nat), x.val.i, x.val.j⟩ := by
      rw [hval]
      unfold outVal
      simp only [hx]
    have hex : Exchanged x.tails.length x.val.rule (ruleOf conv name h e) := by
      rw [ruleOf_some hx]
      exact (C22_intersect (cats conv name h) (cats_neg hp h) (x.head.getD 0) x.tails x.val.rule x.tails.length rfl hl hf).1
    have hspans := replaced_spans (ws := ws) hv hrep i hle hsl
    have hord := lay_order (lens h ch) x.val.rule.e i
    refine Copy.node (a := i) (out := out) (sub := (order x.val.rule.e).map fun k => ch.getD k (.node 0 [])) hx hedge (by simp only [hov]) (by simp only [hov]; exact hex) (by simp only [hov])
      (by simp only [hov]) (by simp only [hov]) hy ?_ (by simp only [hov]) (by simp only [hov]; omega) ?_ ?_
    · unfold slice at hsl
      rw [Nat.add_sub_cancel_left] at hsl
      exact hsl
    · rw [List.forall₂_map_right_iff, List.forall₂_same]
      intro k hk
      have : k < ch.length := by rw [← l1]; exact List.mem_range.1 ((linear_order hl).mem_iff.1 hk)
      rw [List.getD_eq_getElem?_getD, List.getElem?_eq_getElem this]
      rfl
    · rw [← hord, List.map_map, List.forall₂_map_left_iff]
      rw [List.forall₂_map_right_iff] at hsub
      refine forall₂_get.2 ⟨(forall₂_get.1 hsub).1.symm, fun q s t' hs ht' => ?_⟩
      have hsh' := (forall₂_get.1 hsub).2 q t' s ht' hs
      obtain ⟨b1, b2, b3⟩ := hspans s (List.mem_of_getElem? hs)
      have hkl := (List.getElem?_eq_some_iff.1 b3).1
      have hT := List.getElem?_eq_getElem (l := ch) (i := s.1) (by omega)
      have ht := List.getElem?_eq_getElem (l := x.tails) (i := s.1) (by omega)
      rw [show s = (s.1, s.2.1, s.2.2) from rfl, partAt_some hT] at hsh'
      have hlen := slice_length ws b1 b2
      simp only [Function.comp]
      rw [List.getD_eq_getElem?_getD, hT]
      exact ih _ (List.mem_of_getElem? hT) _ s.2.1 _ t' (a1 s.1 _ _ ht hT) (a2 s.1 _ _ hT b3) (by rw [hlen]; omega) (by rw [hlen]; congr 1; omega) hsh'
  | nil => rename_i T hT _ _ _ _ _ _ _ _ _; simp at hT
  | cons t ts ih1 ih2 =>
    rename_i T hT v i out T' a b c d e
    rcases List.mem_cons.1 hT with rfl | hT
    · exact ih1 v i out T' a b c d e
    · exact ih2 T hT v i out T' a b c d e

end

/-! ## Renamed edges -/

section
variable {g h : Hypergraph (EVal φ)} {f : Nat → Nat}

def Same (g h : Hypergraph (EVal φ)) (f : Nat → Nat) (T : Tree) : Prop :=
  ∀ e ∈ T.edges, e < g.edges.length ∧ (h.edges[f e]?).map Edge.val = (g.edges[e]?).map Edge.val

theorem Same.root {e : Nat} {ch : List Tree} (hs : Same g h f (.node e ch)) : ∃ x y : Edge (EVal φ), g.edges[e]? = some x ∧ h.edges[f e]? = some y ∧ y.val = x.val := by
  obtain ⟨h1, h2⟩ := hs e (by rw [Tree.edges]; exact List.mem_cons_self)
  rw [List.getElem?_eq_getElem h1, Option.map_some, Option.map_eq_some_iff] at h2
  obtain ⟨y, hy, hv⟩ := h2
  exact ⟨_, y, List.getElem?_eq_getElem h1, hy, hv⟩

theorem Same.child {e : Nat} {ch : List Tree} (hs : Same g h f (.node e ch)) {T : Tree} (hT : T ∈ ch) : Same g h f T := fun e' he' =>
  hs e' (by rw [Tree.edges]; exact List.mem_cons_of_mem _ (List.mem_flatMap.2 ⟨T, hT, he'⟩))

theorem yields_map (T : Tree) : ∀ out, Same g h f T → (Yields h (T.map f) out ↔ Yields g T out) := by
  induction T using Tree.rec (motive_2 := fun ch => (∀ T ∈ ch, Same g h f T) → ∀ vals, List.Forall₂ (Yields h) (ch.map fun t => t.map f) vals ↔ List.Forall₂ (Yields g) ch vals) with
  | node e ch ih =>
    intro out hs
    obtain ⟨x, y, h1, h2, h3⟩ := hs.root
    rw [Tree.map, yields_iff, yields_iff]
    have ih' := ih fun T hT => hs.child hT
    constructor
    · rintro ⟨y', vals, a, b, c⟩
      rw [h2] at a
      rw [← Option.some.inj a, h3] at c
      exact ⟨x, vals, h1, (ih' vals).1 b, c⟩
    · rintro ⟨x', vals, a, b, c⟩
      rw [h1] at a
      rw [← Option.some.inj a, ← h3] at c
      exact ⟨y, vals, h2, (ih' vals).2 b, c⟩
  | nil => simp
  | cons t ts ih1 ih2 =>
    rename_i hs vals
    cases vals with
    | nil => simp
    | cons o vals =>
      rw [List.map_cons, List.forall₂_cons, List.forall₂_cons, ih1 o (hs t List.mem_cons_self), ih2 (fun T hT => hs T (List.mem_cons_of_mem _ hT)) vals]

theorem copy_map {ws : List Int} {g' : Hypergraph (EVal φ)} (hg : ∀ (e : Nat) (x : Edge (EVal φ)), g.edges[e]? = some x → Linear x.val.rule.e x.tails.length)
    (hh : ∀ (e : Nat) (x : Edge (EVal φ)), h.edges[e]? = some x → Linear x.val.rule.e x.tails.length) (T : Tree) :
    ∀ T', Same g h f T → Copy ws h g' (T.map f) T' → Copy ws g g' T T' := by
  induction T using Tree.rec (motive_2 := fun ch => ∀ T ∈ ch, ∀ T', Same g h f T → Copy ws h g' (T.map f) T' → Copy ws g g' T T') with
  | node e ch ih =>
    intro T' hs hc
    obtain ⟨x, y, h1, h2, h3⟩ := hs.root
    have hy' := fun out => yields_map (.node e ch) out hs
    rw [Tree.map] at hc hy'
    generalize hch : (ch.map fun t => t.map f) = chm at hc hy'
    cases hc with
    | @node _ e' a y' x' _ sub ch' out a1 a2 a3 a4 a5 a6 a7 a8 a9 a10 a11 a12 a13 =>
      rw [h2] at a1
      have := Option.some.inj a1
      subst this
      subst hch
      have hn : y.tails.length = x.tails.length := by
        rw [← order_length (hh _ y h2), ← order_length (hg _ x h1), h3]
      rw [h3] at a3 a4 a5 a6 a7 a12
      rw [hn] at a4
      -- the parts
      have hsub : ∀ (l : List Nat) (sub : List Tree), List.Forall₂ (fun (k : Nat) t => (ch.map fun t => t.map f)[k]? = some t) l sub →
          ∃ sub0, List.Forall₂ (fun (k : Nat) t => ch[k]? = some t) l sub0 ∧ sub = sub0.map fun t => t.map f := by
        intro l sub hl
        induction hl with
        | nil => exact ⟨[], .nil, rfl⟩
        | @cons k t l sub b1 _ ih' =>
          obtain ⟨sub0, c1, c2⟩ := ih'
          rw [List.getElem?_map, Option.map_eq_some_iff] at b1
          obtain ⟨t0, d1, d2⟩ := b1
          exact ⟨t0 :: sub0, .cons d1 c1, by rw [List.map_cons, c2, d2]⟩
      obtain ⟨sub0, c1, rfl⟩ := hsub _ _ a12
      rw [List.forall₂_map_left_iff] at a13
      refine .node h1 a2 a3 a4 a5 a6 a7 ((hy' out).1 a8) a9 a10 a11 c1 ?_
      refine forall₂_get.2 ⟨(forall₂_get.1 a13).1, fun q t t' hq hq' => ?_⟩
      have hmem : t ∈ ch := by
        obtain ⟨l1, l2⟩ := forall₂_get.1 c1
        have hql := (List.getElem?_eq_some_iff.1 hq).1
        have hk := List.getElem?_eq_getElem (l := order x.val.rule.e) (i := q) (by omega)
        exact List.mem_of_getElem? (l2 q _ _ hk hq)
      exact ih t hmem t' (hs.child hmem) ((forall₂_get.1 a13).2 q t t' hq hq')
  | nil => rename_i T hT _ _ _; simp at hT
  | cons t ts ih1 ih2 =>
    rename_i T hT T' a b
    rcases List.mem_cons.1 hT with rfl | hT
    · exact ih1 T' a b
    · exact ih2 T hT T' a b

end
end Cdec.Dec.Intersect
