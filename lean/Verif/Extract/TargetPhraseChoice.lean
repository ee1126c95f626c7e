import Verif.Extract.TargetPhraseLemmas
/-!
# The enumerated target phrases are the choices of the specification
-/
namespace Cdec.Extract
open Spec RuleSpec

/-- Links inside the two sentences. -/
def LinksOK (E : XEnv) : Prop := ∀ l ∈ E.links, l.1 < E.src.length ∧ l.2 < E.tgt.length

theorem targetLow_iff {E : XEnv} (hE : LinksOK E) {p : Nat} (hp : p < E.tgt.length) :
    E.spans.targetLow.getD p (-1) = -1 ↔ ∀ l ∈ E.links, l.2 ≠ p := by
  obtain ⟨_, ht⟩ := getLinksSpans_ok E.src.length E.tgt.length E.links hE
  rcases ht.entry p hp with ⟨h1, _, h3⟩ | ⟨a, b, h1, _, h3, _, _⟩
  · exact ⟨fun _ l hl e => h3 l.1 (by subst e; exact hl), fun _ => h1⟩
  · constructor
    · intro h
      have : ((a : Nat) : Int) = -1 := by rw [← h1]; exact h
      omega
    · intro h
      exact absurd rfl (h _ h3)

theorem walk_iff (last : Nat × Nat) (d : Nat) : ∀ (gs : List ((Nat × Nat) × (Nat × Nat))) (gs' : List (Nat × Nat)) (prev : Nat) (r : Nat × Nat) (s : Nat),
    (∀ g ∈ gs, g.1.1 < g.1.2) →
    (Walk last d prev r s gs gs' ↔ prev ≤ s ∧ r.1 ≤ s ∧ s ≤ r.2 ∧ last.1 ≤ d ∧ d ≤ last.2 ∧ InOrder d s gs' ∧
      List.Forall₂ (fun g g' => (g.2.1 ≤ g'.1 ∧ g'.1 ≤ g.1.1) ∧ g.1.2 ≤ g'.2 ∧ g'.2 ≤ g.2.2) gs gs')
  | [], [], prev, r, s, _ => by simp [Walk, InOrder]; omega
  | [], _ :: _, prev, r, s, _ => by simp [Walk]
  | _ :: _, [], prev, r, s, _ => by simp [Walk]
  | g :: gs, g' :: gs', prev, r, s, h => by
    rw [Walk, walk_iff last d gs gs' g'.1 (g.1.2, g.2.2) g'.2 fun x hx => h x (List.mem_cons_of_mem _ hx)]
    have hg := h g List.mem_cons_self
    simp only [InOrder, List.forall₂_cons]
    constructor
    · rintro ⟨h1, h2, h3, h4, h5, h6, h7, h8, h9, h10, h11, h12, h13⟩
      exact ⟨h1, h2, h3, h10, h11, ⟨h4, by omega, h12⟩, ⟨⟨h5, h6⟩, h8, h9⟩, h13⟩
    · rintro ⟨h1, h2, h3, h10, h11, ⟨h4, h7, h12⟩, ⟨⟨h5, h6⟩, h8, h9⟩, h13⟩
      exact ⟨h1, h2, h3, h4, h5, h6, by omega, h8, h9, h10, h11, h12, h13⟩

theorem looseGap_low {E : XEnv} (hE : LinksOK E) {xlow xhigh y : Nat} {g : Nat × Nat} (hy : y ≤ g.1) (hx : xlow ≤ y) (hg : g.1 ≤ E.tgt.length) :
    (looseGap E xlow xhigh g).1 ≤ y ↔ Free E y g.1 := by
  unfold looseGap
  split
  · rename_i ht
    constructor
    · intro h p h1 h2; omega
    · intro h
      by_contra hc
      have := (h y (Nat.le_refl _) (by omega)).1
      rw [ht] at this
      cases this
  · rename_i ht
    rw [looseLow_le_iff _ _ _ _ hy]
    constructor
    · intro h p h1 h2
      exact ⟨by simpa using ht, (targetLow_iff hE (by omega)).1 (h p h1 h2).2⟩
    · intro h p h1 h2
      exact ⟨by simp; omega, (targetLow_iff hE (by omega)).2 (h p h1 h2).2⟩

theorem looseGap_high {E : XEnv} (hE : LinksOK E) {xlow xhigh y : Nat} {g : Nat × Nat} (hy : g.2 ≤ y) (hx : y ≤ xhigh) (hg : xhigh ≤ E.tgt.length) :
    y ≤ (looseGap E xlow xhigh g).2 ↔ Free E g.2 y := by
  unfold looseGap
  split
  · rename_i ht
    constructor
    · intro h p h1 h2; omega
    · intro h
      by_contra hc
      have := (h g.2 (Nat.le_refl _) (by omega)).1
      rw [ht] at this
      cases this
  · rename_i ht
    rw [le_looseHigh_iff _ _ _ _ _ hy]
    constructor
    · rintro ⟨_, h⟩ p h1 h2
      exact ⟨by simpa using ht, (targetLow_iff hE (by omega)).1 (h p h1 h2).2⟩
    · intro h
      exact ⟨by omega, fun p h1 h2 => ⟨by simp; omega, (targetLow_iff hE (by omega)).2 (h p h1 h2).2⟩⟩

theorem looseSpan_low {E : XEnv} (hE : LinksOK E) {low high s : Nat} (hs : s ≤ low) (hh : low ≤ E.tgt.length) (hm : (high : Int) - s ≤ E.maxSpan) :
    (looseSpan E low high).1 ≤ s ↔ Free E s low := by
  unfold looseSpan
  split
  · rename_i ht
    constructor
    · intro h p h1 h2; simp only [] at h; omega
    · intro h
      by_contra hc
      have := (h s (Nat.le_refl _) (by simp only [] at hc; omega)).1
      rw [ht] at this
      cases this
  · rename_i ht
    rw [looseLow_le_iff _ _ _ _ hs]
    constructor
    · intro h p h1 h2
      exact ⟨by simpa using ht, (targetLow_iff hE (by omega)).1 (h p h1 h2).2⟩
    · intro h p h1 h2
      exact ⟨by simp; omega, (targetLow_iff hE (by omega)).2 (h p h1 h2).2⟩

theorem looseSpan_high {E : XEnv} (hE : LinksOK E) {low high d : Nat} (hs : high ≤ d) (hh : high ≤ E.tgt.length) (hm : (d : Int) - low ≤ E.maxSpan) :
    d ≤ (looseSpan E low high).2 ↔ d ≤ E.tgt.length ∧ Free E high d := by
  unfold looseSpan
  split
  · rename_i ht
    constructor
    · intro h; exact ⟨by simp only [] at h; omega, fun p h1 h2 => by simp only [] at h; omega⟩
    · rintro ⟨_, h⟩
      by_contra hc
      have := (h high (Nat.le_refl _) (by simp only [] at hc; omega)).1
      rw [ht] at this
      cases this
  · rename_i ht
    rw [le_looseHigh_iff _ _ _ _ _ hs]
    constructor
    · rintro ⟨h0, h⟩
      exact ⟨by omega, fun p h1 h2 => ⟨by simpa using ht, (targetLow_iff hE (by omega)).1 (h p h1 h2).2⟩⟩
    · rintro ⟨h0, h⟩
      exact ⟨by omega, fun p h1 h2 => ⟨by simp; omega, (targetLow_iff hE (by omega)).2 (h p h1 h2).2⟩⟩

theorem looseSpan_bounds (E : XEnv) (low high : Nat) (hh : high ≤ E.tgt.length) :
    (looseSpan E low high).1 ≤ low ∧ high ≤ (looseSpan E low high).2 ∧ (looseSpan E low high).2 ≤ E.tgt.length := by
  unfold looseSpan
  split
  · exact ⟨Nat.le_refl _, Nat.le_refl _, hh⟩
  · refine ⟨looseLow_le _ _ _, le_looseHigh _ _ _ _, ?_⟩
    have := (le_looseHigh_iff E.spans.targetLow (fun x => decide ((x : Int) - low < E.maxSpan)) (E.tgt.length - high) high _ (le_looseHigh _ _ _ _)).1 (Nat.le_refl _)
    simp only [] at this ⊢
    omega

/-- The gaps, cast to the integers of the code. -/
def castGaps (gaps : List (Nat × Nat)) : List (Int × Int) := gaps.map fun g => ((g.1 : Int), (g.2 : Int))

/-- One choice of chunks. -/
theorem walk_choice {E : XEnv} (hE : LinksOK E) {gaps : List (Nat × Nat)} {low high : Nat} (hg : GapsIn low high gaps) (hh : high ≤ E.tgt.length)
    {order : List Nat} (ho : order.Perm (List.range gaps.length))
    (hsort : (order.map fun o => gaps.getD o (0, 0)).Pairwise fun a b => a.2 ≤ b.1)
    (s d : Nat) (gaps' : List (Nat × Nat)) (hl : gaps'.length = gaps.length) :
    (Walk (high, (looseSpan E low high).2) d 0 ((looseSpan E low high).1, low) s
      (order.map fun o => (gaps.getD o (0, 0), looseGap E (looseSpan E low high).1 (looseSpan E low high).2 (gaps.getD o (0, 0))))
      (order.map fun o => gaps'.getD o (0, 0)) ∧ (d : Int) - s ≤ E.maxSpan) ↔ IsChoice E gaps low high ⟨s, d, gaps'⟩ := by
  obtain ⟨hg1, hg2, hg3⟩ := hg
  have hmem : ∀ o, o ∈ order ↔ o < gaps.length := fun o => by rw [ho.mem_iff, List.mem_range]
  have hget : ∀ o, o < gaps.length → low ≤ (gaps.getD o (0, 0)).1 ∧ (gaps.getD o (0, 0)).1 < (gaps.getD o (0, 0)).2 ∧ (gaps.getD o (0, 0)).2 ≤ high := by
    intro o h
    rw [List.getD_eq_getElem?_getD, List.getElem?_eq_getElem h, Option.getD_some]
    exact hg2 _ (List.getElem_mem h)
  rw [walk_iff]
  swap
  · intro g h
    rw [List.mem_map] at h
    obtain ⟨o, h, rfl⟩ := h
    exact (hget o ((hmem o).1 h)).2.1
  have hb := looseSpan_bounds E low high hh
  rw [List.forall₂_map_left_iff, List.forall₂_map_right_iff, List.forall₂_same]
  constructor
  · rintro ⟨⟨_, h1, h2, h3, h4, h5, h6⟩, h7⟩
    simp only [] at h1 h2 h3 h4
    have a1 := (looseSpan_low hE h2 (by omega) (by omega)).1 h1
    have a2 := (looseSpan_high hE h3 hh (low := low) (by omega)).1 h4
    have hin : ∀ o, o < gaps.length → s ≤ (gaps'.getD o (0, 0)).1 ∧ (gaps'.getD o (0, 0)).1 < (gaps'.getD o (0, 0)).2 ∧ (gaps'.getD o (0, 0)).2 ≤ d :=
      fun o h => h5.mem _ (List.mem_map_of_mem ((hmem o).2 h))
    refine ⟨⟨h2, h3, a2.1, h7⟩, ⟨a1, a2.2⟩, hl, ?_, h5.le, ?_, ?_⟩
    · intro k g g' hk hk'
      have hk1 := (List.getElem?_eq_some_iff.1 hk).1
      have e1 : gaps.getD k (0, 0) = g := by rw [List.getD_eq_getElem?_getD, hk]; rfl
      have e2 : gaps'.getD k (0, 0) = g' := by rw [List.getD_eq_getElem?_getD, hk']; rfl
      have b1 := h6 k ((hmem k).2 hk1)
      have b2 := hin k hk1
      have b3 := hget k hk1
      rw [e1, e2] at b1
      simp only [] at b1
      rw [e2] at b2
      rw [e1] at b3
      refine ⟨b1.1.2, b1.2.1, (looseGap_low hE b1.1.2 (Nat.le_trans h1 b2.1) (by omega)).1 b1.1.1, (looseGap_high hE b1.2.1 (by omega) (by omega)).1 b1.2.2⟩
    · intro g hg'
      obtain ⟨k, hk, rfl⟩ := List.mem_iff_getElem.1 hg'
      simp only [] at hk
      have := hin k (by omega)
      rw [List.getD_eq_getElem?_getD, List.getElem?_eq_getElem hk, Option.getD_some] at this
      exact this
    · have hp : gaps'.Perm (order.map fun o => gaps'.getD o (0, 0)) := by
        have : gaps' = (List.range gaps.length).map fun o => gaps'.getD o (0, 0) := by
          apply List.ext_getElem
          · simp [hl]
          · intro i h1 h2
            simp [List.getD_eq_getElem?_getD, h1]
        conv => lhs; rw [this]
        exact (ho.map _).symm
      refine (hp.pairwise_iff ?_).2 (h5.pairwise.imp fun h => Or.inl h)
      exact fun h => Or.symm h
  · rintro ⟨⟨h2, h3, h4, h7⟩, ⟨a1, a2⟩, _, h6, h8, h9, h10⟩
    simp only [] at h2 h3 h4 h7 a1 a2 h6 h8 h9 h10
    have c1 := (looseSpan_low hE h2 (high := high) (by omega) (by omega)).2 a1
    have c2 := (looseSpan_high hE h3 hh (low := low) (by omega)).2 ⟨h4, a2⟩
    have hin : ∀ o, o < gaps.length → s ≤ (gaps'.getD o (0, 0)).1 ∧ (gaps'.getD o (0, 0)).1 < (gaps'.getD o (0, 0)).2 ∧ (gaps'.getD o (0, 0)).2 ≤ d := by
      intro o h
      rw [List.getD_eq_getElem?_getD, List.getElem?_eq_getElem (by omega), Option.getD_some]
      exact h9 _ (List.getElem_mem _)
    have hall : ∀ o, o < gaps.length → _ := fun o h => h6 o (gaps.getD o (0, 0)) (gaps'.getD o (0, 0))
      (by rw [List.getD_eq_getElem?_getD, List.getElem?_eq_getElem h]; rfl)
      (by rw [List.getD_eq_getElem?_getD, List.getElem?_eq_getElem (by omega)]; rfl)
    refine ⟨⟨Nat.zero_le _, c1, h2, h3, c2, ?_, ?_⟩, h7⟩
    · refine inOrder_iff h8 ?_ ?_
      · intro g hg'
        rw [List.mem_map] at hg'
        obtain ⟨o, h, rfl⟩ := hg'
        exact hin o ((hmem o).1 h)
      · rw [List.pairwise_map] at hsort ⊢
        have hnd : order.Nodup := ho.nodup_iff.2 List.nodup_range
        refine (hsort.and hnd).imp_of_mem ?_
        rintro x y hx hy ⟨hxy, hne⟩
        have ha : Apart (gaps'.getD x (0, 0)) (gaps'.getD y (0, 0)) := by
          have : Std.Symm Apart := ⟨fun a b h => Or.symm h⟩
          have hx' := (hmem x).1 hx
          have hy' := (hmem y).1 hy
          rw [List.getD_eq_getElem?_getD, List.getElem?_eq_getElem (by omega), Option.getD_some,
            List.getD_eq_getElem?_getD, List.getElem?_eq_getElem (by omega), Option.getD_some]
          rcases Nat.lt_or_gt_of_ne hne with h | h
          · exact List.pairwise_iff_getElem.1 h10 x y (by omega) (by omega) h
          · exact Or.symm (List.pairwise_iff_getElem.1 h10 y x (by omega) (by omega) h)
        rcases ha with ha | ha
        · exact ha
        · have b1 := hall x ((hmem x).1 hx)
          have b2 := hall y ((hmem y).1 hy)
          have b3 := hget x ((hmem x).1 hx)
          have b4 := hget y ((hmem y).1 hy)
          omega
    · intro o h
      have h' := (hmem o).1 h
      have b1 := hall o h'
      have b2 := hin o h'
      have b3 := hget o h'
      refine ⟨⟨(looseGap_low hE b1.1 (Nat.le_trans c1 b2.1) (by omega)).2 b1.2.2.1, b1.1⟩, b1.2.1, (looseGap_high hE b1.2.1 (by omega) (by omega)).2 b1.2.2.2⟩

theorem sorted_apart {lo hi : Nat} {gaps : List (Nat × Nat)} (hg : GapsIn lo hi gaps) {order : List Nat} (hs : SortsGaps (castGaps gaps) order) :
    order.Perm (List.range gaps.length) ∧ (order.map fun o => gaps.getD o (0, 0)).Pairwise fun a b => a.2 ≤ b.1 := by
  obtain ⟨hp, hw⟩ := hs
  have hlen : (castGaps gaps).length = gaps.length := by simp [castGaps]
  rw [hlen] at hp
  refine ⟨hp, ?_⟩
  have hnd : order.Nodup := hp.nodup_iff.2 List.nodup_range
  rw [List.pairwise_map] at hw ⊢
  refine (hw.and hnd).imp_of_mem ?_
  rintro x y hx hy ⟨hxy, hne⟩
  rw [hp.mem_iff, List.mem_range] at hx hy
  have ha : Apart (gaps.getD x (0, 0)) (gaps.getD y (0, 0)) := by
    rw [List.getD_eq_getElem?_getD, List.getElem?_eq_getElem (by omega), Option.getD_some,
      List.getD_eq_getElem?_getD, List.getElem?_eq_getElem (by omega), Option.getD_some]
    rcases Nat.lt_or_gt_of_ne hne with h | h
    · exact List.pairwise_iff_getElem.1 hg.2.2 x y (by omega) (by omega) h
    · exact Or.symm (List.pairwise_iff_getElem.1 hg.2.2 y x (by omega) (by omega) h)
  have hin : ∀ o, o < gaps.length → lo ≤ (gaps.getD o (0, 0)).1 ∧ (gaps.getD o (0, 0)).1 < (gaps.getD o (0, 0)).2 ∧ (gaps.getD o (0, 0)).2 ≤ hi := by
    intro o h
    rw [List.getD_eq_getElem?_getD, List.getElem?_eq_getElem (by omega), Option.getD_some]
    exact hg.2.1 _ (List.getElem_mem _)
  have hc : ∀ o, o < gaps.length → (castGaps gaps).getD o (0, 0) = (((gaps.getD o (0, 0)).1 : Int), ((gaps.getD o (0, 0)).2 : Int)) := by
    intro o h
    simp [castGaps, List.getD_eq_getElem?_getD, h]
  rw [hc x hx, hc y hy] at hxy
  simp only [gapLt, decide_eq_true_eq] at hxy
  have b1 := hin x hx
  have b2 := hin y hy
  rcases ha with ha | ha
  · exact ha
  · omega

theorem flat_getD : ∀ (gs : List (Nat × Nat)) (d i : Nat), i < gs.length →
    ((flat gs ++ [d]).getD (2 * i) 0, (flat gs ++ [d]).getD (2 * i + 1) 0) = gs.getD i (0, 0)
  | [], _, _, h => absurd h (Nat.not_lt_zero _)
  | g :: gs, d, 0, _ => by simp [flat]
  | g :: gs, d, i + 1, h => by
    have := flat_getD gs d i (by simpa using h)
    simp only [flat, List.flatMap_cons, List.cons_append, List.nil_append] at this ⊢
    rw [show 2 * (i + 1) = 2 * i + 1 + 1 from by omega]
    simpa using this

theorem getLastD_concat {α : Type} (l : List α) (d x : α) : (l ++ [d]).getLastD x = d := by
  rw [List.getLastD_eq_getLast?, List.getLast?_concat]; rfl

/-- The choice that a list of chunk bounds stands for. -/
def parseChunks (order : List Nat) (b : List Nat) : Choice :=
  ⟨b.headD 0, b.getLastD 0, (List.range order.length).map fun k => (b.getD (2 * order.idxOf k + 1) 0, b.getD (2 * order.idxOf k + 2) 0)⟩

theorem parseChunks_flat {order : List Nat} {n : Nat} (ho : order.Perm (List.range n)) (s d : Nat) (gs : List (Nat × Nat)) (hl : gs.length = n) :
    parseChunks order (s :: flat gs ++ [d]) = ⟨s, d, (List.range n).map fun k => gs.getD (order.idxOf k) (0, 0)⟩ := by
  have hon : order.length = n := by rw [ho.length_eq, List.length_range]
  unfold parseChunks
  congr 1
  · exact getLastD_concat _ _ _
  · rw [hon]
    refine List.map_congr_left ?_
    intro k hk
    have hk' : order.idxOf k < gs.length := by
      rw [hl, ← hon]; exact List.idxOf_lt_length_iff.2 (ho.mem_iff.2 hk)
    have := flat_getD gs d _ hk'
    rw [← this]
    simp

theorem parse_gaps {order : List Nat} {n : Nat} (ho : order.Perm (List.range n)) (gs : List (Nat × Nat)) (hl : gs.length = n) :
    (order.map fun o => ((List.range n).map fun k => gs.getD (order.idxOf k) (0, 0)).getD o (0, 0)) = gs := by
  have hon : order.length = n := by rw [ho.length_eq, List.length_range]
  have hnd : order.Nodup := ho.nodup_iff.2 List.nodup_range
  apply List.ext_getElem
  · simp [hon, hl]
  · intro i h1 h2
    rw [List.length_map] at h1
    have : order[i] < n := List.mem_range.1 (ho.mem_iff.1 (List.getElem_mem h1))
    have hi : List.idxOf order[i] order = i := hnd.idxOf_getElem i h1
    simp [List.getD_eq_getElem?_getD, this, hi, h2]

theorem parse_back {order : List Nat} {n : Nat} (ho : order.Perm (List.range n)) (gaps' : List (Nat × Nat)) (hl : gaps'.length = n) :
    ((List.range n).map fun k => (order.map fun o => gaps'.getD o (0, 0)).getD (order.idxOf k) (0, 0)) = gaps' := by
  apply List.ext_getElem
  · simp [hl]
  · intro i h1 h2
    have hm : i ∈ order := ho.mem_iff.2 (List.mem_range.2 (by omega))
    have hi : order.idxOf i < order.length := List.idxOf_lt_length_iff.2 hm
    simp [List.getD_eq_getElem?_getD, hi, h2]

theorem chunkSlots_flat : ∀ (order : List Nat) (gs : List (Nat × Nat)) (s d : Nat), gs.length = order.length →
    chunkSlots (s :: flat gs ++ [d]) order = fillN s d (gs.zip (order.map (· + 1)))
  | [], [], s, d, _ => by simp [flat, chunkSlots, fillN]
  | [], _ :: _, _, _, h => by simp at h
  | _ :: _, [], _, _, h => by simp at h
  | o :: order, g :: gs, s, d, h => by
    have ih := chunkSlots_flat order gs g.2 d (by simpa using h)
    have e : s :: flat (g :: gs) ++ [d] = s :: g.1 :: (g.2 :: flat gs ++ [d]) := by simp [flat]
    rw [e, chunkSlots, ih]
    simp [fillN]

theorem chunkSlots_side {order : List Nat} {n : Nat} (ho : order.Perm (List.range n)) (s d : Nat) (gaps' : List (Nat × Nat)) (hl : gaps'.length = n)
    (hin : InOrder d s (order.map fun o => gaps'.getD o (0, 0))) :
    chunkSlots (s :: flat (order.map fun o => gaps'.getD o (0, 0)) ++ [d]) order = side s d gaps' := by
  rw [chunkSlots_flat _ _ _ _ (by simp), side_eq_sideN]
  have e : (order.map fun o => gaps'.getD o (0, 0)).zip (order.map (· + 1)) = order.map fun o => (gaps'.getD o (0, 0), o + 1) := by
    clear hin ho
    induction order with
    | nil => rfl
    | cons o order ih => rw [List.map_cons, List.map_cons, List.zip_cons_cons, ih, List.map_cons]
  rw [e]
  have e2 : gaps'.zipIdx 1 = (List.range n).map fun o => (gaps'.getD o (0, 0), o + 1) := by
    apply List.ext_getElem
    · simp [hl]
    · intro i h1 h2
      simp only [List.length_zipIdx] at h1
      simp [List.getD_eq_getElem?_getD, h1, Nat.add_comm]
  have hin' : InOrder d s ((order.map fun o => (gaps'.getD o (0, 0), o + 1)).map (·.1)) := by
    rw [List.map_map]; exact hin
  rw [e2, ← sideN_inOrder _ _ _ hin']
  refine sideN_perm _ _ (ho.map _) ?_
  have := hin'.pairwise
  rw [List.pairwise_map] at this
  exact this.imp fun h => Or.inl h

theorem gaps_lt {lo hi : Nat} {gaps : List (Nat × Nat)} (hg : GapsIn lo hi gaps) {order : List Nat} (ho : order.Perm (List.range gaps.length)) (f : Nat × Nat → Nat × Nat) :
    ∀ g ∈ order.map fun o => (gaps.getD o (0, 0), f (gaps.getD o (0, 0))), g.1.1 < g.1.2 := by
  intro g hg'
  rw [List.mem_map] at hg'
  obtain ⟨o, h, rfl⟩ := hg'
  rw [ho.mem_iff, List.mem_range] at h
  simp only []
  rw [List.getD_eq_getElem?_getD, List.getElem?_eq_getElem h, Option.getD_some]
  exact (hg.2.1 _ (List.getElem_mem h)).2.1

theorem order_of_choice {E : XEnv} (hE : LinksOK E) {gaps : List (Nat × Nat)} {low high : Nat} (hg : GapsIn low high gaps) (hh : high ≤ E.tgt.length)
    {order : List Nat} (ho : order.Perm (List.range gaps.length))
    (hsort : (order.map fun o => gaps.getD o (0, 0)).Pairwise fun a b => a.2 ≤ b.1) {ch : Choice} (h : IsChoice E gaps low high ch) :
    InOrder ch.hi ch.lo (order.map fun o => ch.gaps.getD o (0, 0)) := by
  have hw := ((walk_choice hE hg hh ho hsort ch.lo ch.hi ch.gaps h.length).2 h).1
  rw [walk_iff] at hw
  · exact hw.2.2.2.2.2.1
  · exact gaps_lt hg ho _

theorem mapM_congr' {α β : Type} (f g : α → Option β) (l : List α) (h : ∀ a ∈ l, f a = g a) : l.mapM f = l.mapM g := by
  induction l with
  | nil => rfl
  | cons a l ih =>
    rw [List.mapM_cons, List.mapM_cons, h a List.mem_cons_self, ih fun x hx => h x (List.mem_cons_of_mem _ hx)]

/-- The enumeration of target phrases in terms of choices. -/
theorem extractPhrases_eq {E : XEnv} (hE : LinksOK E) {gaps : List (Nat × Nat)} {low high : Nat} (hg : GapsIn low high gaps) (hh : high ≤ E.tgt.length)
    (hs : SortsGaps (castGaps gaps) (gapOrder (castGaps gaps))) :
    ∃ choices : List Choice, choices.Nodup ∧ (∀ ch, ch ∈ choices ↔ IsChoice E gaps low high ch) ∧ ∀ idx,
      extractPhrases E gaps low high idx = choices.mapM fun ch => (phraseLinks E.links idx (side ch.lo ch.hi ch.gaps)).map fun al =>
        ((side ch.lo ch.hi ch.gaps).map (Slot.sym E.tgt), al) := by
  obtain ⟨ho, hsort⟩ := sorted_apart hg hs
  have e : gapOrder (gaps.map fun g => ((g.1 : Int), (g.2 : Int))) = gapOrder (castGaps gaps) := rfl
  generalize gapOrder (castGaps gaps) = order at *
  -- every enumerated list of bounds
  have key : ∀ b, b ∈ targetChunks E gaps low high ↔
      ∃ ch, IsChoice E gaps low high ch ∧ b = ch.lo :: flat (order.map fun o => ch.gaps.getD o (0, 0)) ++ [ch.hi] ∧ parseChunks order b = ch ∧
        chunkSlots b order = side ch.lo ch.hi ch.gaps := by
    intro b
    unfold targetChunks
    simp only [e]
    rw [List.mem_filter, decide_eq_true_eq, ranges, mem_generate]
    constructor
    · rintro ⟨⟨s, gs', d, rfl, hw⟩, hm⟩
      have hlast : (s :: flat gs' ++ [d]).getLastD 0 = d := by
        exact getLastD_concat _ _ _
      rw [hlast] at hm
      simp only [List.cons_append, List.headD_cons] at hm
      have hl : gs'.length = gaps.length := by
        rw [walk_iff] at hw
        · have := hw.2.2.2.2.2.2.length_eq
          rw [← this, List.length_map, ho.length_eq, List.length_range]
        · exact gaps_lt hg ho _
      have hpg := parse_gaps ho gs' hl
      have hl' : ((List.range gaps.length).map fun k => gs'.getD (order.idxOf k) (0, 0)).length = gaps.length := by simp
      rw [← hpg] at hw
      have hch := (walk_choice hE hg hh ho hsort s d _ hl').1 ⟨hw, hm⟩
      refine ⟨_, hch, ?_, parseChunks_flat ho s d gs' hl, ?_⟩
      · rw [hpg]
      · have := chunkSlots_side ho s d _ hl' ?_
        · rw [hpg] at this; exact this
        · exact order_of_choice hE hg hh ho hsort hch
    · rintro ⟨ch, hch, rfl, _, _⟩
      have hw := (walk_choice hE hg hh ho hsort ch.lo ch.hi ch.gaps hch.length).2 hch
      refine ⟨⟨_, _, _, rfl, hw.1⟩, ?_⟩
      have hlast : (ch.lo :: flat (order.map fun o => ch.gaps.getD o (0, 0)) ++ [ch.hi]).getLastD 0 = ch.hi := by
        exact getLastD_concat _ _ _
      rw [hlast]
      exact hw.2
  refine ⟨(targetChunks E gaps low high).map (parseChunks order), ?_, ?_, ?_⟩
  · refine List.Nodup.map_on ?_ ((generate_nodup _ _).filter _)
    intro b hb b' hb' h
    obtain ⟨ch, _, e1, e2, _⟩ := (key b).1 hb
    obtain ⟨ch', _, e1', e2', _⟩ := (key b').1 hb'
    rw [e2, e2'] at h
    subst h
    rw [e1, e1']
  · intro ch
    rw [List.mem_map]
    constructor
    · rintro ⟨b, hb, rfl⟩
      obtain ⟨ch, h, _, e2, _⟩ := (key b).1 hb
      rw [e2]; exact h
    · intro h
      have hw := (walk_choice hE hg hh ho hsort ch.lo ch.hi ch.gaps h.length).2 h
      have hpb : parseChunks order (ch.lo :: flat (order.map fun o => ch.gaps.getD o (0, 0)) ++ [ch.hi]) = ch := by
        rw [parseChunks_flat ho _ _ _ (by rw [List.length_map, ho.length_eq, List.length_range]), parse_back ho _ h.length]
      refine ⟨_, (key _).2 ⟨ch, h, rfl, hpb, chunkSlots_side ho _ _ _ h.length ?_⟩, hpb⟩
      exact order_of_choice hE hg hh ho hsort h
  · intro idx
    rw [extractPhrases, List.mapM_map]
    refine mapM_congr' _ _ _ ?_
    intro b hb
    obtain ⟨ch, _, _, e2, e3⟩ := (key b).1 hb
    simp only [e, Function.comp, e2, e3]

end Cdec.Extract
