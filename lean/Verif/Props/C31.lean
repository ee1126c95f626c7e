import Verif.Util.Atools
import Verif.Util.FoldM
import Mathlib.Logic.Relation
import Mathlib.Tactic.ByContra
/-! # C31: alignment symmetrization -/
namespace Cdec

/-- `(i, j)` is a link of the alignment `g`. -/
def Link (g : Grid Bool) (i j : Nat) : Prop := g.get i j = some true

theorem mem_cells {w h : Nat} {p : Nat × Nat} : p ∈ cells w h ↔ p.1 < w ∧ p.2 < h := by
  obtain ⟨i, j⟩ := p
  simp [cells]

theorem link_range {g : Grid Bool} {i j : Nat} (h : Link g i j) : i < g.w ∧ j < g.h := by
  by_contra hc
  unfold Link at h
  rw [Grid.get_none hc] at h
  simp at h

/-- `Safe` always answers, and answers whether there is a link. -/
theorem safe_some {g : Grid Bool} (hv : g.Valid) (i j : Int) :
    ∃ b, safe g i j = some b ∧ (b = true ↔ ∃ i' j' : Nat, (i' : Int) = i ∧ (j' : Int) = j ∧ Link g i' j') := by
  rw [safe]
  by_cases h : 0 ≤ i ∧ 0 ≤ j ∧ i < g.w ∧ j < g.h
  · rw [if_pos h]
    obtain ⟨v, e⟩ := Grid.get_some hv (i := i.toNat) (j := j.toNat) (by omega) (by omega)
    refine ⟨v, e, ?_, ?_⟩
    · rintro rfl
      exact ⟨i.toNat, j.toNat, by omega, by omega, e⟩
    · rintro ⟨i', j', h1, h2, h3⟩
      have e1 : i.toNat = i' := by omega
      have e2 : j.toNat = j' := by omega
      rw [e1, e2] at e
      unfold Link at h3
      rw [h3] at e
      exact (Option.some.inj e).symm
  · rw [if_neg h]
    refine ⟨false, rfl, by simp, ?_⟩
    rintro ⟨i', j', h1, h2, h3⟩
    obtain ⟨h4, h5⟩ := link_range h3
    omega

theorem safe_nat {g : Grid Bool} (hv : g.Valid) (i j : Nat) :
    ∃ b, safe g (i : Int) (j : Int) = some b ∧ (b = true ↔ Link g i j) := by
  obtain ⟨b, h1, h2⟩ := safe_some hv (i : Int) (j : Int)
  refine ⟨b, h1, h2.trans ⟨?_, fun h => ⟨i, j, rfl, rfl, h⟩⟩⟩
  rintro ⟨i', j', e1, e2, h⟩
  have e1 : i' = i := by omega
  have e2 : j' = j := by omega
  subst e1 e2
  exact h

/-- Filling the cells `cells w h` of a blank grid. -/
theorem fillCells_spec (f : Nat → Nat → Option Bool) (W H w h : Nat) (hw : w ≤ W) (hh : h ≤ H) (P : Nat → Nat → Prop)
    (hf : ∀ i < w, ∀ j < h, ∃ b, f i j = some b ∧ (b = true ↔ P i j)) :
    ∃ r, fillCells f (.new W H false) (cells w h) = some r ∧ r.Valid ∧ r.w = W ∧ r.h = H ∧
      ∀ i j, Link r i j ↔ i < w ∧ j < h ∧ P i j := by
  obtain ⟨r, h1, h2, h3, h4, h5⟩ := foldlM_inv (fun x (p : Nat × Nat) => (f p.1 p.2).bind fun v => x.set p.1 p.2 v)
    (fun d (x : Grid Bool) => x.Valid ∧ x.w = W ∧ x.h = H ∧ ∀ i j, Link x i j ↔ (i, j) ∈ d ∧ P i j)
    (cells w h) [] (.new W H false)
    ⟨Grid.valid_new _ _ _, rfl, rfl, fun i j => by
      constructor
      · intro hl
        obtain ⟨a, b⟩ := link_range hl
        unfold Link at hl
        rw [Grid.get_new W H false a b] at hl
        simp at hl
      · simp⟩
    (by
      rintro d ⟨i, j⟩ rest x he ⟨hv, hxw, hxh, hl⟩
      have hm : (i, j) ∈ cells w h := by
        have : cells w h = d ++ (i, j) :: rest := by simpa using he
        rw [this]; simp
      obtain ⟨hi, hj⟩ := mem_cells.1 hm
      obtain ⟨b, hb1, hb2⟩ := hf i hi j hj
      have hi' : i < w := hi
      have hj' : j < h := hj
      obtain ⟨x', hs, a1, a2, a3, a4⟩ := Grid.set_some hv (i := i) (j := j) (by omega) (by omega) b
      refine ⟨x', by rw [hb1, Option.bind_some]; exact hs, a3, by omega, by omega, fun i' j' => ?_⟩
      unfold Link at hl ⊢
      rw [a4]
      by_cases hij : i' = i ∧ j' = j
      · obtain ⟨rfl, rfl⟩ := hij
        simp [hb2]
      · rw [if_neg hij, hl]
        simp [hij])
  refine ⟨r, h1, h2, h3, h4, fun i j => ?_⟩
  rw [h5 i j, List.nil_append, mem_cells]
  tauto

/-! ## The refinement state -/

/-- `is_i_aligned_`/`is_j_aligned_` record which rows and columns of `res_` have links. -/
structure RInv (W H : Nat) (s : Refine) : Prop where
  valid : s.res.Valid
  w : s.res.w = W
  h : s.res.h = H
  il : s.ia.length = W
  jl : s.ja.length = H
  ia : ∀ i, s.ia[i]? = some true ↔ ∃ j, Link s.res i j
  ja : ∀ j, s.ja[j]? = some true ↔ ∃ i, Link s.res i j

theorem align_spec {W H : Nat} {s : Refine} (hs : RInv W H s) {p : Nat × Nat} (h1 : p.1 < W) (h2 : p.2 < H) :
    ∃ s', s.align p = some s' ∧ RInv W H s' ∧
      ∀ i j, Link s'.res i j ↔ (i = p.1 ∧ j = p.2) ∨ Link s.res i j := by
  obtain ⟨i0, j0⟩ := p
  simp only at h1 h2
  obtain ⟨r, e1, e2, e3, e4, e5⟩ := Grid.set_some hs.valid (i := i0) (j := j0) (by rw [hs.w]; exact h1)
    (by rw [hs.h]; exact h2) true
  have hl : ∀ i j, Link r i j ↔ (i = i0 ∧ j = j0) ∨ Link s.res i j := by
    intro i j
    unfold Link
    rw [e5]
    by_cases h : i = i0 ∧ j = j0 <;> simp [h]
  refine ⟨⟨r, s.ia.set i0 true, s.ja.set j0 true⟩, ?_, ?_, hl⟩
  · rw [Refine.align]
    simp only [e1, Option.bind_some]
    rw [if_pos ⟨by rw [hs.il]; exact h1, by rw [hs.jl]; exact h2⟩]
  · refine ⟨e4, by rw [e2, hs.w], by rw [e3, hs.h], by simp [hs.il], by simp [hs.jl], fun i => ?_, fun j => ?_⟩
    · simp only [List.getElem?_set, hl]
      by_cases h : i0 = i
      · subst h
        rw [if_pos rfl, if_pos (by rw [hs.il]; exact h1)]
        exact ⟨fun _ => ⟨j0, .inl ⟨rfl, rfl⟩⟩, fun _ => rfl⟩
      · rw [if_neg h, hs.ia]
        constructor
        · rintro ⟨j, hj⟩; exact ⟨j, .inr hj⟩
        · rintro ⟨j, hj | hj⟩
          · exact absurd hj.1.symm h
          · exact ⟨j, hj⟩
    · simp only [List.getElem?_set, hl]
      by_cases h : j0 = j
      · subst h
        rw [if_pos rfl, if_pos (by rw [hs.jl]; exact h2)]
        exact ⟨fun _ => ⟨i0, .inl ⟨rfl, rfl⟩⟩, fun _ => rfl⟩
      · rw [if_neg h, hs.ja]
        constructor
        · rintro ⟨i, hi⟩; exact ⟨i, .inr hi⟩
        · rintro ⟨i, hi | hi⟩
          · exact absurd hi.2.symm h
          · exact ⟨i, hi⟩

/-- Row `i` and column `j` are both covered. -/
def Both (g : Grid Bool) (p : Nat × Nat) : Prop := (∃ j, Link g p.1 j) ∧ ∃ i, Link g i p.2

/-- Row `i` or column `j` is covered. -/
def Either (g : Grid Bool) (p : Nat × Nat) : Prop := (∃ j, Link g p.1 j) ∨ ∃ i, Link g i p.2

/-- Horizontal, vertical or diagonal neighbours. -/
def Nbr (p q : Nat × Nat) : Prop :=
  p ≠ q ∧ p.1 ≤ q.1 + 1 ∧ q.1 ≤ p.1 + 1 ∧ p.2 ≤ q.2 + 1 ∧ q.2 ≤ p.2 + 1

theorem rows_get {W H : Nat} {s : Refine} (hs : RInv W H s) {p : Nat × Nat} (h1 : p.1 < W) (h2 : p.2 < H) :
    ∃ x y, s.ia[p.1]? = some x ∧ s.ja[p.2]? = some y ∧ (x = true ↔ ∃ j, Link s.res p.1 j) ∧
      (y = true ↔ ∃ i, Link s.res i p.2) := by
  have a : s.ia[p.1]? = some (s.ia[p.1]'(by rw [hs.il]; exact h1)) := List.getElem?_eq_getElem _
  have b : s.ja[p.2]? = some (s.ja[p.2]'(by rw [hs.jl]; exact h2)) := List.getElem?_eq_getElem _
  refine ⟨_, _, a, b, ?_, ?_⟩
  · rw [← hs.ia, a]; simp
  · rw [← hs.ja, b]; simp

theorem oneOrBoth_spec {W H : Nat} {s : Refine} (hs : RInv W H s) {p : Nat × Nat} (h1 : p.1 < W) (h2 : p.2 < H) :
    ∃ b, s.oneOrBoth p = some b ∧ (b = false ↔ Both s.res p) := by
  obtain ⟨x, y, e1, e2, e3, e4⟩ := rows_get hs h1 h2
  refine ⟨!(x && y), by simp [Refine.oneOrBoth, e1, e2], ?_⟩
  unfold Both
  rw [← e3, ← e4]
  simp

theorem neither_spec {W H : Nat} {s : Refine} (hs : RInv W H s) {p : Nat × Nat} (h1 : p.1 < W) (h2 : p.2 < H) :
    ∃ b, s.neither p = some b ∧ (b = false ↔ Either s.res p) := by
  obtain ⟨x, y, e1, e2, e3, e4⟩ := rows_get hs h1 h2
  refine ⟨!(x || y), by simp [Refine.neither, e1, e2], ?_⟩
  unfold Either
  rw [← e3, ← e4]
  cases x <;> cases y <;> simp

theorem neighbor_list {s : Refine} (hv : s.res.Valid) (p : Nat × Nat) (ds : List (Int × Int)) :
    ∃ b, s.neighborAligned p ds = some b ∧ (b = true ↔ ∃ d ∈ ds, ∃ i j : Nat, (i : Int) = p.1 + d.1 ∧
      (j : Int) = p.2 + d.2 ∧ Link s.res i j) := by
  induction ds with
  | nil => exact ⟨false, rfl, by simp⟩
  | cons d ds ih =>
    obtain ⟨b, e, hb⟩ := safe_some hv ((p.1 : Int) + d.1) ((p.2 : Int) + d.2)
    obtain ⟨b', e', hb'⟩ := ih
    rw [Refine.neighborAligned, e, Option.bind_some]
    cases b with
    | true =>
      refine ⟨true, by simp, ?_⟩
      simp only [true_iff]
      obtain ⟨i, j, h1, h2, h3⟩ := hb.1 rfl
      exact ⟨d, by simp, i, j, h1, h2, h3⟩
    | false =>
      refine ⟨b', by simpa using e', ?_⟩
      rw [hb']
      constructor
      · rintro ⟨d', hd, h⟩; exact ⟨d', by simp [hd], h⟩
      · rintro ⟨d', hd, i, j, h1, h2, h3⟩
        simp only [List.mem_cons] at hd
        rcases hd with rfl | hd
        · have := hb.2 ⟨i, j, h1, h2, h3⟩
          simp at this
        · exact ⟨d', hd, i, j, h1, h2, h3⟩

theorem neighbor_iff (p q : Nat × Nat) :
    (∃ d ∈ neighbors, (q.1 : Int) = p.1 + d.1 ∧ (q.2 : Int) = p.2 + d.2) ↔ Nbr p q := by
  obtain ⟨a, b⟩ := p
  obtain ⟨c, d⟩ := q
  simp only [neighbors, Nbr, List.mem_cons, List.not_mem_nil, or_false, ne_eq, Prod.mk.injEq]
  constructor
  · rintro ⟨⟨x, y⟩, h, h1, h2⟩
    simp only [Prod.mk.injEq] at h
    omega
  · intro h
    refine ⟨((c : Int) - a, (d : Int) - b), ?_, by simp only; omega, by simp only; omega⟩
    simp only [Prod.mk.injEq]
    omega

theorem koehn_spec {W H : Nat} {s : Refine} (hs : RInv W H s) {p : Nat × Nat} (h1 : p.1 < W) (h2 : p.2 < H) :
    ∃ b, s.koehn p = some b ∧ (b = true ↔ ¬ Both s.res p ∧ ∃ q, Nbr p q ∧ Link s.res q.1 q.2) := by
  obtain ⟨x, e1, e2⟩ := oneOrBoth_spec hs h1 h2
  obtain ⟨y, e3, e4⟩ := neighbor_list hs.valid p neighbors
  have hy : y = true ↔ ∃ q, Nbr p q ∧ Link s.res q.1 q.2 := by
    rw [e4]
    constructor
    · rintro ⟨d, hd, i, j, a, b, c⟩
      exact ⟨(i, j), (neighbor_iff p (i, j)).1 ⟨d, hd, a, b⟩, c⟩
    · rintro ⟨q, hn, c⟩
      obtain ⟨d, hd, a, b⟩ := (neighbor_iff p q).2 hn
      exact ⟨d, hd, q.1, q.2, a, b, c⟩
  rw [Refine.koehn, e1, Option.bind_some]
  cases x with
  | true =>
    refine ⟨y, by simpa using e3, ?_⟩
    have : ¬ Both s.res p := by rw [← e2]; simp
    simp [hy, this]
  | false => exact ⟨false, by simp, by simp [e2.1 rfl]⟩

/-! ## Initialisation -/

theorem initRefine_spec (a b : Grid Bool) (ha : a.Valid) (hb : b.Valid) :
    ∃ un inn s, initRefine a b = some (un, inn, s) ∧ un.Valid ∧ un.w = max a.w b.w ∧ un.h = max a.h b.h ∧
      RInv (max a.w b.w) (max a.h b.h) s ∧ (∀ i j, Link un i j ↔ Link a i j ∨ Link b i j) ∧
      (∀ i j, Link s.res i j ↔ Link a i j ∧ Link b i j) := by
  have blank : ∀ W H i j, ¬ Link (Grid.new W H false) i j := by
    intro W H i j hl
    obtain ⟨x, y⟩ := link_range hl
    unfold Link at hl
    rw [Grid.get_new W H false x y] at hl
    simp at hl
  obtain ⟨⟨un, inn, s⟩, e, hv, hw, hh, hi0, hi1, hi2, hR, hun, hres⟩ := foldlM_inv (initCell a b)
    (fun d (st : Grid Bool × Grid Bool × Refine) => st.1.Valid ∧ st.1.w = max a.w b.w ∧ st.1.h = max a.h b.h ∧
      st.2.1.Valid ∧ st.2.1.w = max a.w b.w ∧ st.2.1.h = max a.h b.h ∧
      RInv (max a.w b.w) (max a.h b.h) st.2.2 ∧
      (∀ i j, Link st.1 i j ↔ (i, j) ∈ d ∧ (Link a i j ∨ Link b i j)) ∧
      (∀ i j, Link st.2.2.res i j ↔ (i, j) ∈ d ∧ Link a i j ∧ Link b i j))
    (cells (max a.w b.w) (max a.h b.h)) []
    (ensureSize a b, ensureSize a b,
      ⟨ensureSize a b, List.replicate (max a.w b.w) false, List.replicate (max a.h b.h) false⟩)
    ⟨Grid.valid_new _ _ _, rfl, rfl, Grid.valid_new _ _ _, rfl, rfl,
      ⟨Grid.valid_new _ _ _, rfl, rfl, by simp, by simp, fun i => by
        simp only [ensureSize, blank, exists_false, iff_false, List.getElem?_replicate]
        split <;> simp, fun i => by
        simp only [ensureSize, blank, exists_false, iff_false, List.getElem?_replicate]
        split <;> simp⟩,
      fun i j => by simp [ensureSize, blank], fun i j => by simp [ensureSize, blank]⟩
    (by
      rintro d ⟨i, j⟩ rest ⟨un, inn, s⟩ he ⟨hv, hw, hh, hi0, hi1, hi2, hR, hun, hres⟩
      have hm : (i, j) ∈ cells (max a.w b.w) (max a.h b.h) := by
        have : cells (max a.w b.w) (max a.h b.h) = d ++ (i, j) :: rest := by simpa using he
        rw [this]; simp
      obtain ⟨hi, hj⟩ := mem_cells.1 hm
      simp only at hi hj hv hw hh hi0 hi1 hi2 hR hun hres
      obtain ⟨x, ex, hx⟩ := safe_nat ha i j
      obtain ⟨y, ey, hy⟩ := safe_nat hb i j
      obtain ⟨un', u1, u2, u3, u4, u5⟩ := Grid.set_some hv (i := i) (j := j) (by omega) (by omega) (x || y)
      obtain ⟨inn', v1, v2, v3, v4, v5⟩ := Grid.set_some hi0 (i := i) (j := j) (by omega) (by omega) (x && y)
      have hun' : ∀ i' j', Link un' i' j' ↔ (i', j') ∈ d ++ [(i, j)] ∧ (Link a i' j' ∨ Link b i' j') := by
        intro i' j'
        unfold Link at hun hx hy ⊢
        rw [u5]
        by_cases hij : i' = i ∧ j' = j
        · obtain ⟨rfl, rfl⟩ := hij
          simp [← hx, ← hy]
        · rw [if_neg hij, hun]
          simp [hij]
      by_cases hxy : (x && y) = true
      · obtain ⟨s', s1, s2, s3⟩ := align_spec hR (p := (i, j)) hi hj
        refine ⟨(un', inn', s'), ?_, u4, by simp only; omega, by simp only; omega, v4, by simp only; omega, by simp only; omega, s2, hun', ?_⟩
        · unfold initCell
          rw [hxy] at v1
          simp only [ex, ey, u1, v1, s1, hxy, Option.bind_eq_bind, Option.bind_some, if_true]
          rfl
        · intro i' j'
          rw [s3, hres]
          simp only [Bool.and_eq_true, hx, hy] at hxy
          simp only [List.mem_append, List.mem_singleton, Prod.mk.injEq]
          constructor
          · rintro (⟨rfl, rfl⟩ | h)
            · exact ⟨.inr ⟨rfl, rfl⟩, hxy⟩
            · exact ⟨.inl h.1, h.2⟩
          · rintro ⟨h1 | h1, h2⟩
            · exact .inr ⟨h1, h2⟩
            · exact .inl h1
      · refine ⟨(un', inn', s), ?_, u4, by simp only; omega, by simp only; omega, v4, by simp only; omega, by simp only; omega, hR, hun', ?_⟩
        · have hf : (x && y) = false := by simpa using hxy
          unfold initCell
          rw [hf] at v1
          simp only [ex, ey, u1, v1, hf, Option.bind_eq_bind, Option.bind_some]
          rfl
        · intro i' j'
          simp only
          rw [hres]
          simp only [Bool.and_eq_true, hx, hy] at hxy
          simp only [List.mem_append, List.mem_singleton, Prod.mk.injEq]
          constructor
          · rintro h
            exact ⟨.inl h.1, h.2⟩
          · rintro ⟨h1 | ⟨rfl, rfl⟩, h2⟩
            · exact ⟨h1, h2⟩
            · exact absurd h2 hxy)
  simp only [List.nil_append] at hun hres hR hv hw hh
  refine ⟨un, inn, s, e, hv, hw, hh, hR, fun i j => ?_, fun i j => ?_⟩
  · rw [hun, mem_cells]
    constructor
    · exact fun h => h.2
    · intro h
      refine ⟨?_, h⟩
      rcases h with h | h
      · have := link_range h; simp only; omega
      · have := link_range h; simp only; omega
  · rw [hres, mem_cells]
    constructor
    · exact fun h => h.2
    · intro h
      refine ⟨?_, h⟩
      have := link_range h.1
      simp only; omega

/-! ## Growing -/

/-- `pred` decides `N` on every valid state. -/
def PredOK (W H : Nat) (pred : Refine → Nat × Nat → Option Bool) (N : Grid Bool → Nat × Nat → Prop) : Prop :=
  ∀ s, RInv W H s → ∀ p : Nat × Nat, p.1 < W → p.2 < H → ∃ b, pred s p = some b ∧ (b = true ↔ N s.res p)

theorem growOnce_spec {W H : Nat} {pred : Refine → Nat × Nat → Option Bool} {N : Grid Bool → Nat × Nat → Prop}
    (hp : PredOK W H pred N)
    (hmono : ∀ g g' p, (∀ i j, Link g i j → Link g' i j) → ¬ N g p → ¬ N g' p)
    (adds : Grid Bool) (hv : adds.Valid) (hw : adds.w ≤ W) (hh : adds.h ≤ H) (s : Refine) (hs : RInv W H s) :
    ∃ s', growOnce pred adds s = some s' ∧ RInv W H s' ∧ (∀ i j, Link s.res i j → Link s'.res i j) ∧
      (∀ i j, Link s'.res i j → Link s.res i j ∨ Link adds i j) ∧
      (∀ i j, Link adds i j → Link s'.res i j ∨ ¬ N s'.res (i, j)) := by
  obtain ⟨s', h1, h2, h3, h4, h5⟩ := foldlM_inv (fun s (p : Nat × Nat) => do
      let x ← adds.get p.1 p.2
      let y ← s.res.get p.1 p.2
      if x && !y then
        let c ← pred s p
        if c then s.align p else return s
      else return s)
    (fun d s' => RInv W H s' ∧ (∀ i j, Link s.res i j → Link s'.res i j) ∧
      (∀ i j, Link s'.res i j → Link s.res i j ∨ Link adds i j) ∧
      (∀ i j, (i, j) ∈ d → Link adds i j → Link s'.res i j ∨ ¬ N s'.res (i, j)))
    (cells adds.w adds.h) [] s ⟨hs, fun _ _ h => h, fun _ _ h => .inl h, by simp⟩
    (by
      rintro d ⟨i, j⟩ rest t he ⟨ht, k1, k2, k3⟩
      have hm : (i, j) ∈ cells adds.w adds.h := by
        have : cells adds.w adds.h = d ++ (i, j) :: rest := by simpa using he
        rw [this]; simp
      obtain ⟨hi, hj⟩ := mem_cells.1 hm
      simp only at hi hj
      obtain ⟨x, ex⟩ := Grid.get_some hv hi hj
      obtain ⟨y, ey⟩ := Grid.get_some ht.valid (i := i) (j := j) (by rw [ht.w]; omega) (by rw [ht.h]; omega)
      obtain ⟨c, ec, hc⟩ := hp t ht (i, j) (by simp only; omega) (by simp only; omega)
      simp only [ex, ey, Option.bind_eq_bind, Option.bind_some]
      have keep : (Link adds i j → Link t.res i j ∨ ¬ N t.res (i, j)) →
          ∃ s', some t = some s' ∧ RInv W H s' ∧ (∀ i j, Link s.res i j → Link s'.res i j) ∧
          (∀ i j, Link s'.res i j → Link s.res i j ∨ Link adds i j) ∧
          (∀ i' j', (i', j') ∈ d ++ [(i, j)] → Link adds i' j' → Link s'.res i' j' ∨ ¬ N s'.res (i', j')) := by
        intro hk
        refine ⟨t, rfl, ht, k1, k2, fun i' j' hd hl => ?_⟩
        simp only [List.mem_append, List.mem_singleton, Prod.mk.injEq] at hd
        rcases hd with hd | ⟨rfl, rfl⟩
        · exact k3 i' j' hd hl
        · exact hk hl
      cases x with
      | false => exact keep fun h => by unfold Link at h; rw [ex] at h; simp at h
      | true =>
        cases y with
        | true => exact keep fun _ => .inl ey
        | false =>
          simp only [Bool.not_false, Bool.and_self, if_true, ec, Option.bind_some]
          cases c with
          | false => exact keep fun _ => .inr (by rw [← hc]; simp)
          | true =>
            simp only [if_true]
            obtain ⟨t', a1, a2, a3⟩ := align_spec ht (p := (i, j)) (by simp only; omega) (by simp only; omega)
            have hmon : ∀ i j, Link t.res i j → Link t'.res i j := fun i j h => (a3 i j).2 (.inr h)
            refine ⟨t', a1, a2, fun i' j' h => hmon _ _ (k1 _ _ h), fun i' j' h => ?_, fun i' j' hd hl => ?_⟩
            · rcases (a3 i' j').1 h with ⟨rfl, rfl⟩ | h
              · exact .inr ex
              · exact k2 _ _ h
            · simp only [List.mem_append, List.mem_singleton, Prod.mk.injEq] at hd
              rcases hd with hd | ⟨rfl, rfl⟩
              · rcases k3 i' j' hd hl with h | h
                · exact .inl (hmon _ _ h)
                · exact .inr (hmono _ _ _ hmon h)
              · exact .inl ((a3 i' j').2 (.inl ⟨rfl, rfl⟩)))
  exact ⟨s', h1, h2, h3, h4, fun i j h => h5 i j (by
    rw [List.nil_append, mem_cells]; exact link_range h) h⟩

section
variable {W H : Nat} {pred : Refine → Nat × Nat → Option Bool} {N : Grid Bool → Nat × Nat → Prop}

theorem growSweep_spec (hp : PredOK W H pred N) (A : Nat × Nat → Prop) (J : Grid Bool → Prop)
    (hJ : ∀ g g' p, J g → A p → N g p → (∀ i j, Link g' i j ↔ (i = p.1 ∧ j = p.2) ∨ Link g i j) → J g') :
    ∀ (ps : List (Nat × Nat)) (s : Refine) (added : List (Nat × Nat)), RInv W H s → J s.res →
      (∀ p ∈ ps, A p ∧ p.1 < W ∧ p.2 < H) →
      ∃ s' more, growSweep pred (s, added) ps = some (s', added ++ more) ∧ RInv W H s' ∧ J s'.res ∧
        (∀ i j, Link s.res i j → Link s'.res i j) ∧ (∀ i j, Link s'.res i j → Link s.res i j ∨ A (i, j)) ∧
        (∀ q ∈ more, Link s'.res q.1 q.2) ∧ (more = [] → s' = s ∧ ∀ p ∈ ps, ¬ N s.res p) := by
  intro ps
  induction ps with
  | nil =>
    intro s added hs hj _
    exact ⟨s, [], by simp [growSweep], hs, hj, fun _ _ h => h, fun _ _ h => .inl h, by simp, fun _ => ⟨rfl, by simp⟩⟩
  | cons p ps ih =>
    intro s added hs hj hps
    obtain ⟨hA, h1, h2⟩ := hps p (by simp)
    obtain ⟨b, e, hb⟩ := hp s hs p h1 h2
    rw [growSweep, e, Option.bind_some]
    cases b with
    | false =>
      simp only [Bool.false_eq_true, if_false]
      obtain ⟨s', more, a1, a2, a3, a4, a5, a6, a7⟩ := ih s added hs hj fun q hq => hps q (by simp [hq])
      refine ⟨s', more, a1, a2, a3, a4, a5, a6, fun hm => ⟨(a7 hm).1, fun q hq => ?_⟩⟩
      simp only [List.mem_cons] at hq
      rcases hq with rfl | hq
      · rw [← hb]; simp
      · exact (a7 hm).2 q hq
    | true =>
      simp only [if_true]
      obtain ⟨t, b1, b2, b3⟩ := align_spec hs h1 h2
      rw [b1, Option.bind_some]
      obtain ⟨s', more, a1, a2, a3, a4, a5, a6, a7⟩ := ih t (added ++ [p]) b2
        (hJ s.res t.res p hj hA (hb.1 rfl) b3) fun q hq => hps q (by simp [hq])
      refine ⟨s', p :: more, by rw [a1]; simp, a2, a3, fun i j h => a4 i j ((b3 i j).2 (.inr h)), fun i j h => ?_,
        fun q hq => ?_, by simp⟩
      · rcases a5 i j h with h | h
        · rcases (b3 i j).1 h with ⟨rfl, rfl⟩ | h
          · exact .inr hA
          · exact .inl h
        · exact .inr h
      · simp only [List.mem_cons] at hq
        rcases hq with rfl | hq
        · exact a4 _ _ ((b3 _ _).2 (.inl ⟨rfl, rfl⟩))
        · exact a6 q hq

theorem growLoop_spec (hp : PredOK W H pred N) (A : Nat × Nat → Prop) (J : Grid Bool → Prop)
    (hJ : ∀ g g' p, J g → A p → N g p → (∀ i j, Link g' i j ↔ (i = p.1 ∧ j = p.2) ∨ Link g i j) → J g') :
    ∀ (n : Nat) (ps : List (Nat × Nat)) (s : Refine), ps.length ≤ n → RInv W H s → J s.res →
      (∀ p ∈ ps, A p ∧ p.1 < W ∧ p.2 < H) →
      ∃ s', growLoop pred s ps = some s' ∧ RInv W H s' ∧ J s'.res ∧
        (∀ i j, Link s.res i j → Link s'.res i j) ∧ (∀ i j, Link s'.res i j → Link s.res i j ∨ A (i, j)) ∧
        (∀ p ∈ ps, Link s'.res p.1 p.2 ∨ ¬ N s'.res p) := by
  intro n
  induction n with
  | zero =>
    intro ps s hn hs hj _
    have : ps = [] := List.eq_nil_of_length_eq_zero (by omega)
    subst this
    refine ⟨s, ?_, hs, hj, fun _ _ h => h, fun _ _ h => .inl h, by simp⟩
    unfold growLoop
    split
    · rename_i h; simp [growSweep] at h
    · rename_i s' added h
      simp only [growSweep, Option.some.injEq, Prod.mk.injEq] at h
      obtain ⟨rfl, rfl⟩ := h
      simp
  | succ n ih =>
    intro ps s hn hs hj hps
    obtain ⟨t, more, a1, a2, a3, a4, a5, a6, a7⟩ := growSweep_spec hp A J hJ ps s [] hs hj hps
    simp only [List.nil_append] at a1
    unfold growLoop
    split
    · rename_i h; rw [a1] at h; simp at h
    · rename_i s' added h
      rw [a1] at h
      simp only [Option.some.injEq, Prod.mk.injEq] at h
      obtain ⟨rfl, rfl⟩ := h
      by_cases hm : more = []
      · rw [dif_pos hm]
        obtain ⟨rfl, h8⟩ := a7 hm
        exact ⟨t, rfl, a2, a3, a4, a5, fun p hp => .inr (h8 p hp)⟩
      · rw [dif_neg hm]
        have hlt : (erasePts ps more).length < ps.length := by
          obtain ⟨q, hq⟩ := List.exists_mem_of_ne_nil more hm
          have hqp : q ∈ ps := by
            rcases growSweep_sub ps _ _ a1 q hq with h1 | h1
            · simp at h1
            · exact h1
          exact List.length_filter_lt_length_iff_exists.2 ⟨q, hqp, by simp [hq]⟩
        obtain ⟨s', c1, c2, c3, c4, c5, c6⟩ := ih (erasePts ps more) t (by omega) a2 a3
          (fun p hp => hps p ((List.mem_filter.1 hp).1))
        refine ⟨s', c1, c2, c3, fun i j h => c4 _ _ (a4 _ _ h), fun i j h => ?_, fun p hp => ?_⟩
        · rcases c5 i j h with h | h
          · exact a5 i j h
          · exact .inr h
        · by_cases hpm : p ∈ more
          · exact .inl (c4 _ _ (a6 p hpm))
          · exact c6 p (by simp [erasePts, hp, hpm])

theorem filterMapM_some {β γ : Type} (f : β → Option (Option γ)) (g : β → Option γ) (l : List β)
    (h : ∀ x ∈ l, f x = some (g x)) : l.filterMapM f = some (l.filterMap g) := by
  induction l with
  | nil => rfl
  | cons x l ih =>
    rw [List.filterMapM_cons, h x (by simp), ih fun y hy => h y (by simp [hy])]
    simp only [Option.bind_eq_bind, Option.bind_some]
    cases hx : g x with
    | none => rw [List.filterMap_cons, hx]
    | some y => rw [List.filterMap_cons, hx]; rfl

theorem growAll_spec (hp : PredOK W H pred N) (J : Grid Bool → Prop)
    (adds : Grid Bool) (hv : adds.Valid) (hw : adds.w ≤ W) (hh : adds.h ≤ H)
    (hJ : ∀ g g' p, J g → Link adds p.1 p.2 → N g p → (∀ i j, Link g' i j ↔ (i = p.1 ∧ j = p.2) ∨ Link g i j) → J g')
    (s : Refine) (hs : RInv W H s) (hj : J s.res) :
    ∃ s', growAll pred adds s = some s' ∧ RInv W H s' ∧ J s'.res ∧ (∀ i j, Link s.res i j → Link s'.res i j) ∧
      (∀ i j, Link s'.res i j → Link s.res i j ∨ Link adds i j) ∧
      (∀ i j, Link adds i j → Link s'.res i j ∨ ¬ N s'.res (i, j)) := by
  rw [growAll, filterMapM_some _ (fun p => if (adds.get p.1 p.2 == some true) && !(s.res.get p.1 p.2 == some true)
    then some p else none)]
  · simp only [Option.bind_eq_bind, Option.bind_some]
    have hmem : ∀ p, p ∈ (cells adds.w adds.h).filterMap (fun p =>
        if (adds.get p.1 p.2 == some true) && !(s.res.get p.1 p.2 == some true) then some p else none) ↔
        Link adds p.1 p.2 ∧ ¬ Link s.res p.1 p.2 := by
      intro p
      simp only [List.mem_filterMap]
      constructor
      · rintro ⟨q, hq, he⟩
        split at he
        · rename_i hc
          cases he
          simpa [Link] using hc
        · simp at he
      · intro h
        refine ⟨p, mem_cells.2 (link_range h.1), ?_⟩
        rw [if_pos]
        simpa [Link] using h
    obtain ⟨s', c1, c2, c3, c4, c5, c6⟩ := growLoop_spec hp (fun p => Link adds p.1 p.2) J hJ _
      ((cells adds.w adds.h).filterMap (fun p =>
        if (adds.get p.1 p.2 == some true) && !(s.res.get p.1 p.2 == some true) then some p else none))
      s (Nat.le_refl _) hs hj
      (fun p hp => by
        have h1 := ((hmem p).1 hp).1
        have h2 := link_range h1
        exact ⟨h1, by omega, by omega⟩)
    refine ⟨s', c1, c2, c3, c4, c5, fun i j h => ?_⟩
    by_cases hl : Link s.res i j
    · exact .inl (c4 i j hl)
    · exact c6 (i, j) ((hmem (i, j)).2 ⟨h, hl⟩)
  · rintro ⟨i, j⟩ hm
    obtain ⟨hi, hj⟩ := mem_cells.1 hm
    simp only at hi hj
    obtain ⟨x, ex⟩ := Grid.get_some hv hi hj
    obtain ⟨y, ey⟩ := Grid.get_some hs.valid (i := i) (j := j) (by rw [hs.w]; omega) (by rw [hs.h]; omega)
    simp only [ex, ey, Option.bind_eq_bind, Option.bind_some]
    cases x <;> cases y <;> rfl

end

/-! ## The properties -/

/-- The alignment `r` is connected to the intersection: every link is reached from a link common to `a` and
`b` by steps between neighbouring links of `r`. -/
def Connected (a b r : Grid Bool) : Prop :=
  ∀ i j, Link r i j → ∃ p : Nat × Nat, Link a p.1 p.2 ∧ Link b p.1 p.2 ∧
    Relation.ReflTransGen (fun p q : Nat × Nat => Nbr p q ∧ Link r p.1 p.2 ∧ Link r q.1 q.2) p (i, j)

theorem nbr_symm {p q : Nat × Nat} (h : Nbr p q) : Nbr q p := by
  unfold Nbr at *
  exact ⟨fun e => h.1 e.symm, h.2.2.1, h.2.1, h.2.2.2.2, h.2.2.2.1⟩

/-- Common part of the three grow-diag commands. -/
theorem grow_phase (a b : Grid Bool) (ha : a.Valid) (hb : b.Valid) :
    ∃ un inn s0 s, initRefine a b = some (un, inn, s0) ∧ growAll Refine.koehn un s0 = some s ∧
      RInv (max a.w b.w) (max a.h b.h) s ∧ (∀ i j, Link a i j → Link b i j → Link s.res i j) ∧
      (∀ i j, Link s.res i j → Link a i j ∨ Link b i j) ∧ Connected a b s.res ∧
      (∀ i j, Link a i j ∨ Link b i j → Link s.res i j ∨ Both s.res (i, j) ∨
        ∀ q, Nbr (i, j) q → ¬ Link s.res q.1 q.2) := by
  obtain ⟨un, inn, s0, e, h1, h2, h3, hR, hun, hres⟩ := initRefine_spec a b ha hb
  obtain ⟨s, c1, c2, c3, c4, c5, c6⟩ := growAll_spec (W := max a.w b.w) (H := max a.h b.h)
    (pred := Refine.koehn) (N := fun g p => ¬ Both g p ∧ ∃ q, Nbr p q ∧ Link g q.1 q.2)
    (fun s hs p hp1 hp2 => koehn_spec hs hp1 hp2) (Connected a b) un h1 (by omega) (by omega)
    (by
      intro g g' p hJ _ hN hl i j hij
      have hmono : ∀ p q : Nat × Nat, (Nbr p q ∧ Link g p.1 p.2 ∧ Link g q.1 q.2) →
          Nbr p q ∧ Link g' p.1 p.2 ∧ Link g' q.1 q.2 :=
        fun p q h => ⟨h.1, (hl _ _).2 (.inr h.2.1), (hl _ _).2 (.inr h.2.2)⟩
      rcases (hl i j).1 hij with ⟨rfl, rfl⟩ | h
      · obtain ⟨_, q, hq, hlq⟩ := hN
        obtain ⟨r, r1, r2, r3⟩ := hJ q.1 q.2 hlq
        exact ⟨r, r1, r2, (Relation.ReflTransGen.mono hmono _ _ r3).tail
          ⟨nbr_symm hq, (hl _ _).2 (.inr hlq), hij⟩⟩
      · obtain ⟨r, r1, r2, r3⟩ := hJ i j h
        exact ⟨r, r1, r2, Relation.ReflTransGen.mono hmono _ _ r3⟩)
    s0 hR (fun i j h => ⟨(i, j), ((hres i j).1 h).1, ((hres i j).1 h).2, .refl⟩)
  refine ⟨un, inn, s0, s, e, c1, c2, fun i j x y => c4 _ _ ((hres i j).2 ⟨x, y⟩), fun i j h => ?_, c3, fun i j h => ?_⟩
  · rcases c5 i j h with h | h
    · exact .inl ((hres i j).1 h).1
    · exact (hun i j).1 h
  · rcases c6 i j ((hun i j).2 h) with h | h
    · exact .inl h
    · right
      by_cases hB : Both s.res (i, j)
      · exact .inl hB
      · right
        intro q hq hl
        exact h ⟨hB, q, hq, hl⟩

/-- C31, grow-diag.  For all alignments the growth loop terminates without a failed assertion, the result
lies between intersection and union, every link is connected to the intersection, and a link of the union
is left out only if its row and column are both covered or no neighbour is linked. -/
theorem C31_grow_diag (a b : Grid Bool) (ha : a.Valid) (hb : b.Valid) :
    ∃ r, growDiag a b = some r ∧ r.Valid ∧
      (∀ i j, Link a i j → Link b i j → Link r i j) ∧ (∀ i j, Link r i j → Link a i j ∨ Link b i j) ∧
      Connected a b r ∧
      ∀ i j, Link a i j ∨ Link b i j → Link r i j ∨ Both r (i, j) ∨ ∀ q, Nbr (i, j) q → ¬ Link r q.1 q.2 := by
  obtain ⟨un, inn, s0, s, h1, h2, h3, h4, h5, h6, h7⟩ := grow_phase a b ha hb
  refine ⟨s.res, ?_, h3.valid, h4, h5, h6, h7⟩
  simp only [growDiag, h1, Option.bind_eq_bind, Option.bind_some, h2]
  rfl

theorem both_mono {g g' : Grid Bool} (h : ∀ i j, Link g i j → Link g' i j) {p : Nat × Nat} (hb : Both g p) : Both g' p :=
  ⟨hb.1.imp fun _ => h _ _, hb.2.imp fun _ => h _ _⟩

theorem either_mono {g g' : Grid Bool} (h : ∀ i j, Link g i j → Link g' i j) {p : Nat × Nat} (hb : Either g p) :
    Either g' p :=
  hb.imp (·.imp fun _ => h _ _) (·.imp fun _ => h _ _)

/-- Common part of the two `final` commands. -/
theorem final_phase (a b : Grid Bool) (ha : a.Valid) (hb : b.Valid) {s : Refine}
    (pred : Refine → Nat × Nat → Option Bool) (N : Grid Bool → Nat × Nat → Prop)
    (hp : PredOK (max a.w b.w) (max a.h b.h) pred fun g p => ¬ N g p)
    (hmono : ∀ g g' p, (∀ i j, Link g i j → Link g' i j) → N g p → N g' p)
    (hlink : ∀ g p, Link g p.1 p.2 → N g p)
    (hs : RInv (max a.w b.w) (max a.h b.h) s) (h4 : ∀ i j, Link a i j → Link b i j → Link s.res i j)
    (h5 : ∀ i j, Link s.res i j → Link a i j ∨ Link b i j) :
    ∃ s1 s2, growOnce pred a s = some s1 ∧ growOnce pred b s1 = some s2 ∧ s2.res.Valid ∧
      (∀ i j, Link a i j → Link b i j → Link s2.res i j) ∧ (∀ i j, Link s2.res i j → Link a i j ∨ Link b i j) ∧
      (∀ i j, Link s.res i j → Link s2.res i j) ∧
      ∀ i j, Link a i j ∨ Link b i j → N s2.res (i, j) := by
  obtain ⟨s1, a1, a2, a3, a4, a5⟩ := growOnce_spec hp (fun g g' p hm hn => fun h => hn fun h' => h (hmono g g' p hm h'))
    a ha (by omega) (by omega) s hs
  obtain ⟨s2, b1, b2, b3, b4, b5⟩ := growOnce_spec hp (fun g g' p hm hn => fun h => hn fun h' => h (hmono g g' p hm h'))
    b hb (by omega) (by omega) s1 a2
  refine ⟨s1, s2, a1, b1, b2.valid, fun i j x y => b3 _ _ (a3 _ _ (h4 _ _ x y)), fun i j h => ?_,
    fun i j h => b3 _ _ (a3 _ _ h), fun i j h => ?_⟩
  · rcases b4 i j h with h | h
    · rcases a4 i j h with h | h
      · exact h5 i j h
      · exact .inl h
    · exact .inr h
  · rcases h with h | h
    · rcases a5 i j h with h | h
      · exact hmono _ _ _ b3 (hlink _ (i, j) h)
      · exact hmono _ _ _ b3 (Classical.byContradiction h)
    · rcases b5 i j h with h | h
      · exact hlink _ (i, j) h
      · exact Classical.byContradiction h

/-- C31, grow-diag-final: terminates, between intersection and union, contains the grow-diag result, and
every link of the union has its row and its column covered. -/
theorem C31_grow_diag_final (a b : Grid Bool) (ha : a.Valid) (hb : b.Valid) :
    ∃ d r, growDiag a b = some d ∧ growDiagFinal a b = some r ∧ r.Valid ∧
      (∀ i j, Link a i j → Link b i j → Link r i j) ∧ (∀ i j, Link r i j → Link a i j ∨ Link b i j) ∧
      (∀ i j, Link d i j → Link r i j) ∧
      ∀ i j, Link a i j ∨ Link b i j → (∃ j', Link r i j') ∧ ∃ i', Link r i' j := by
  obtain ⟨un, inn, s0, s, h1, h2, h3, h4, h5, h6, h7⟩ := grow_phase a b ha hb
  obtain ⟨s1, s2, c1, c2, c3, c4, c5, c6, c7⟩ := final_phase a b ha hb Refine.oneOrBoth Both
    (fun s hs p hp1 hp2 => by
      obtain ⟨x, e1, e2⟩ := oneOrBoth_spec hs hp1 hp2
      exact ⟨x, e1, by simp only [← e2]; simp⟩)
    (fun _ _ _ h => both_mono h) (fun _ _ h => ⟨⟨_, h⟩, ⟨_, h⟩⟩) h3 h4 h5
  refine ⟨s.res, s2.res, ?_, ?_, c3, c4, c5, c6, c7⟩
  · simp only [growDiag, h1, Option.bind_eq_bind, Option.bind_some, h2]
    rfl
  · simp only [growDiagFinal, h1, Option.bind_eq_bind, Option.bind_some, h2, c1, c2]
    rfl

/-- C31, grow-diag-final-and: the same, with row or column covered. -/
theorem C31_grow_diag_final_and (a b : Grid Bool) (ha : a.Valid) (hb : b.Valid) :
    ∃ d r, growDiag a b = some d ∧ growDiagFinalAnd a b = some r ∧ r.Valid ∧
      (∀ i j, Link a i j → Link b i j → Link r i j) ∧ (∀ i j, Link r i j → Link a i j ∨ Link b i j) ∧
      (∀ i j, Link d i j → Link r i j) ∧
      ∀ i j, Link a i j ∨ Link b i j → (∃ j', Link r i j') ∨ ∃ i', Link r i' j := by
  obtain ⟨un, inn, s0, s, h1, h2, h3, h4, h5, h6, h7⟩ := grow_phase a b ha hb
  obtain ⟨s1, s2, c1, c2, c3, c4, c5, c6, c7⟩ := final_phase a b ha hb Refine.neither Either
    (fun s hs p hp1 hp2 => by
      obtain ⟨x, e1, e2⟩ := neither_spec hs hp1 hp2
      exact ⟨x, e1, by simp only [← e2]; simp⟩)
    (fun _ _ _ h => either_mono h) (fun _ _ h => .inl ⟨_, h⟩) h3 h4 h5
  refine ⟨s.res, s2.res, ?_, ?_, c3, c4, c5, c6, c7⟩
  · simp only [growDiag, h1, Option.bind_eq_bind, Option.bind_some, h2]
    rfl
  · simp only [growDiagFinalAnd, h1, Option.bind_eq_bind, Option.bind_some, h2, c1, c2]
    rfl

/-- C31, the elementary commands: `intersect`, `union` and `invert` compute what they say. -/
theorem C31_elementary (a b : Grid Bool) (ha : a.Valid) (hb : b.Valid) :
    (∃ r, intersectCmd a b = some r ∧ r.Valid ∧ ∀ i j, Link r i j ↔ Link a i j ∧ Link b i j) ∧
    (∃ r, unionCmd a b = some r ∧ r.Valid ∧ ∀ i j, Link r i j ↔ Link a i j ∨ Link b i j) ∧
    (∃ r, invertCmd a = some r ∧ r.Valid ∧ r.w = a.h ∧ r.h = a.w ∧ ∀ i j, Link r i j ↔ Link a j i) := by
  refine ⟨?_, ?_, ?_⟩
  · obtain ⟨r, h1, h2, h3, h4, h5⟩ := fillCells_spec
      (fun i j => (safe a i j).bind fun x => (safe b i j).map fun y => x && y) (max a.w b.w) (max a.h b.h) a.w a.h
      (by omega) (by omega) (fun i j => Link a i j ∧ Link b i j) (fun i _ j _ => by
        obtain ⟨x, ex, hx⟩ := safe_nat ha i j
        obtain ⟨y, ey, hy⟩ := safe_nat hb i j
        exact ⟨x && y, by rw [ex, ey]; rfl, by simp [hx, hy]⟩)
    refine ⟨r, h1, h2, fun i j => (h5 i j).trans ⟨fun h => h.2.2, fun h => ?_⟩⟩
    have := link_range h.1
    exact ⟨this.1, this.2, h⟩
  · obtain ⟨r, h1, h2, h3, h4, h5⟩ := fillCells_spec
      (fun i j => (safe a i j).bind fun x => (safe b i j).map fun y => x || y) (max a.w b.w) (max a.h b.h)
      (max a.w b.w) (max a.h b.h)
      (by omega) (by omega) (fun i j => Link a i j ∨ Link b i j) (fun i _ j _ => by
        obtain ⟨x, ex, hx⟩ := safe_nat ha i j
        obtain ⟨y, ey, hy⟩ := safe_nat hb i j
        exact ⟨x || y, by rw [ex, ey]; rfl, by simp [hx, hy]⟩)
    refine ⟨r, h1, h2, fun i j => (h5 i j).trans ⟨fun h => h.2.2, fun h => ?_⟩⟩
    rcases h with h' | h'
    · have := link_range h'
      exact ⟨by omega, by omega, .inl h'⟩
    · have := link_range h'
      exact ⟨by omega, by omega, .inr h'⟩
  · obtain ⟨r, h1, h2, h3, h4, h5⟩ := fillCells_spec (fun i j => a.get j i) a.h a.w a.h a.w
      (by omega) (by omega) (fun i j => Link a j i) (fun i hi j hj => by
        obtain ⟨x, ex⟩ := Grid.get_some ha hj hi
        exact ⟨x, ex, by simp [Link, ex]⟩)
    refine ⟨r, h1, h2, h3, h4, fun i j => (h5 i j).trans ⟨fun h => h.2.2, fun h => ?_⟩⟩
    have := link_range h
    exact ⟨this.2, this.1, h⟩

/-- Non-vacuity: two 3×3 alignments on which the three commands give three different results. -/
example :
    let a : Grid Bool := ⟨3, 3, [true, false, false, false, true, false, false, false, true]⟩
    let b : Grid Bool := ⟨3, 3, [true, true, false, false, false, false, false, false, false]⟩
    a.Valid ∧ b.Valid ∧
    (intersectCmd a b).map Grid.data = some [true, false, false, false, false, false, false, false, false] ∧
    (unionCmd a b).map Grid.data = some [true, true, false, false, true, false, false, false, true] := by
  refine ⟨rfl, rfl, ?_, ?_⟩ <;> decide +kernel

end Cdec
