import Verif.Decoder.ParserCell
/-! All the cells. -/
namespace Cdec.Dec.Parser
open Cdec.HG
variable {ι R φ : Type}

/-- The cell from `a` to `b` is done when all cells shorter than `l` are, and those of length `l` that start before `i`. -/
def Done (n l i a b : Nat) : Prop := a < b ∧ b ≤ n ∧ (b - a < l ∨ (b - a = l ∧ a < i))

/-- The end of the last cell from `a` that is done. -/
def lastDone (n l i a : Nat) : Nat := if a < i then a + l else min n (a + l - 1)

variable [Add φ] [Zero φ]

/-- The jobs of a cell. -/
def cellJobs (p : Env ι R φ) (u : List R) (q : Passive R φ) (act : Nat → Nat → Row ι φ) (i j : Nat) : List (Job R φ) :=
  p.grams.zipIdx.flatMap (gramJobs act i j) ++ (q.chart i j).flatMap (unJobs p u q)

/-- What holds before the cell of length `l` that starts at `i`. -/
structure SInv (p : Env ι R φ) (u : List R) (l i : Nat) (s : State ι R φ) : Prop where
  pinv : PInv p s.psv
  goalNone : s.psv.goalIdx = none
  ants : AntsOk s
  placed : ∀ gi G, p.grams[gi]? = some G → ∀ a m, ∀ it ∈ s.act gi a m, Placed G it.g
  rows : ∀ gi G, p.grams[gi]? = some G → ∀ a ≤ p.n, RowInv p s.psv G a (lastDone p.n l i a) (s.act gi a)
  done : ∀ a b, Done p.n l i a b → ∀ c, s.psv.at a b c = appsOf p a b c (cellJobs p u s.psv s.act a b)
  empty : ∀ a b, ¬ Done p.n l i a b → s.psv.chart a b = [] ∧ ∀ c, s.psv.nodemap a b c = none

theorem gramJobs_congr {act act' : Nat → Nat → Row ι φ} {i j : Nat} {x : Gram ι R × Nat} (h : (act' x.2 i j).flatMap (itemJobs (R := R) x.1) = (act x.2 i j).flatMap (itemJobs x.1)) :
    gramJobs act' i j x = gramJobs act i j x := by
  unfold gramJobs
  rw [h]

theorem row_start {p : Env ι R φ} (hp : ∀ k (a : Arc φ), a ∈ p.lat.getD k [] → 0 < a.len) {q : Passive R φ} {G : Gram ι R} {i j : Nat} {row : Row ι φ} (h : RowInv p q G i j row) :
    row i = seed G i i := by
  rw [h i]
  have : ((List.range' i (j - i)).flatMap fun k => rowStep p q G row i k i) = [] := by
    rw [List.flatMap_eq_nil_iff]
    intro k hk
    have := List.mem_range'_1.1 hk
    exact rowStep_early hp (by omega)
  rw [this, List.append_nil]

theorem single_jobs {p : Env ι R φ} (hs : ∀ G ∈ p.grams, ∀ c g, (∃ r, c = p.lhs r) → G.extend G.root c = some g → G.rules g = []) {q : Passive R φ} (h : PInv p q) {G : Gram ι R}
    (hG : G ∈ p.grams) {i j : Nat} {row : Row ι φ} (hrow : row i = seed G i i) : (nodeExts q G row i j).flatMap (itemJobs (R := R) G) = [] := by
  rw [List.flatMap_eq_nil_iff]
  intro it hit
  unfold nodeExts at hit
  obtain ⟨y, hy, hit⟩ := List.mem_flatMap.1 hit
  obtain ⟨v, hv, e⟩ := List.mem_filterMap.1 hit
  unfold extNode at e
  obtain ⟨g, eg, e⟩ := Option.map_eq_some_iff.1 e
  rw [hrow] at hy
  unfold seed at hy
  simp only [if_true] at hy
  split at hy
  · rw [List.mem_singleton.1 hy] at eg
    subst e
    simp only [itemJobs]
    rw [hs G hG _ g (h.cat_lhs i j v hv) eg]
    rfl
  · simp at hy

theorem sinv_cell {p : Env ι R φ} (hok : Spec.Ok p) {u : List R} (hu : ∀ r ∈ u, p.lhs r ≠ p.kGoal) {l i : Nat} (hl : 0 < l) (hi : i + l ≤ p.n) {s : State ι R φ} (h : SInv p u l i s) :
    ∃ s', parseCell p u i (i + l) s = some s' ∧ SInv p u l (i + 1) s' := by
  have hp := fun k a ha => (hok.arcs k a ha).1
  have hpl := fun gi G hG => advance_placed hp (q := s.psv) (show i < i + l by omega) (h.placed gi G hG i)
  have hrl : ∀ gi G, p.grams[gi]? = some G → ∀ it ∈ advance p s.psv G i (i + l) (s.act gi i) (i + l), ∀ r ∈ G.rules it.g, p.lhs r ≠ p.kGoal := by
    intro gi G hG it hit
    obtain ⟨α, hα⟩ := hpl gi G hG _ it hit
    exact hok.rules_ne G (List.mem_of_getElem? hG) α it.g hα
  obtain ⟨s', act1, e, hants, hran, hother, hact⟩ := parseCell_spec hp hu (i := i) (j := i + l) (by omega) s hrl h.pinv h.ants
  refine ⟨s', e, hran.inv, hran.grow.goalIdx.trans h.goalNone, hants, ?_, ?_, ?_, ?_⟩
  · intro gi G hG a m it hit
    by_cases hai : a = i
    · subst hai
      rw [(hact gi G hG).2] at hit
      split at hit
      · simp only [extendActive, Row.push] at hit
        split at hit
        · rcases List.mem_append.1 hit with hit | hit
          · exact hpl gi G hG _ it hit
          · exact nodeExts_placed (hpl gi G hG) it hit
        · exact hpl gi G hG _ it hit
      · exact h.placed gi G hG a m it hit
    · rw [hother gi a hai] at hit
      exact h.placed gi G hG a m it hit
  · intro gi G hG a ha
    have hrow := h.rows gi G hG a ha
    by_cases hai : a = i
    · subst hai
      have e1 : lastDone p.n l a a = a + l - 1 := by
        unfold lastDone
        rw [if_neg (by omega)]
        omega
      have e2 : lastDone p.n l (a + 1) a = (a + l - 1) + 1 := by
        unfold lastDone
        rw [if_pos (by omega)]
        omega
      rw [e1] at hrow
      rw [e2, (hact gi G hG).2]
      have e3 : a + l = (a + l - 1) + 1 := by omega
      have hg := hran.grow
      rw [e3] at hg ⊢
      refine rowInv_step hp (by omega) hrow ?_ ?_
      · intro x y hx hy hxy
        exact hg.chart x y (by omega)
      · intro x y hx hy hxy v hv
        exact hg.cat v (h.pinv.lt x y v hv)
    · have e1 : lastDone p.n l (i + 1) a = lastDone p.n l i a := by
        unfold lastDone
        by_cases h1 : a < i
        · rw [if_pos h1, if_pos (by omega)]
        · rw [if_neg h1, if_neg (by omega)]
      rw [e1, hother gi a hai]
      refine rowInv_congr hrow ?_ ?_
      · intro x y hx hy
        by_cases hxy : x = i ∧ y = i + l
        · exfalso
          unfold lastDone at hy
          split at hy <;> omega
        · exact hran.grow.chart x y hxy
      · intro x y hx hy v hv
        exact hran.grow.cat v (h.pinv.lt x y v hv)
  · intro a b hd c
    by_cases hab : a = i ∧ b = i + l
    · obtain ⟨rfl, rfl⟩ := hab
      have hnew := hran.at_eq c
      have hemp := (h.empty a (a + l) (by unfold Done; omega)).2 c
      have h0 : s.psv.at a (a + l) c = [] := by
        unfold Passive.at
        rw [hemp]
      rw [hnew, h0, List.nil_append]
      congr 1
      unfold cellJobs
      congr 1
      rw [List.flatMap_def, List.flatMap_def]
      congr 1
      apply List.map_congr_left
      rintro ⟨G, gi⟩ hx
      have hG : p.grams[gi]? = some G := List.mk_mem_zipIdx_iff_getElem?.1 hx
      have hGm : G ∈ p.grams := List.mem_of_getElem? hG
      symm
      apply gramJobs_congr
      simp only []
      rw [(hact gi G hG).1, (hact gi G hG).2]
      by_cases hh : G.has a (a + l) = true
      · rw [if_pos hh, if_pos hh]
        have : extendActive s'.psv G (advance p s.psv G a (a + l) (s.act gi a)) a (a + l) (a + l) =
            advance p s.psv G a (a + l) (s.act gi a) (a + l) ++ nodeExts s'.psv G (advance p s.psv G a (a + l) (s.act gi a)) a (a + l) := by
          simp [extendActive, Row.push, nodeExts]
        rw [this, List.flatMap_append, single_jobs hok.single hran.inv hGm, List.append_nil]
        rw [advance_low hp _ _ (by omega) _ (by omega)]
        exact row_start hp (h.rows gi G hG a (by omega))
      · rw [if_neg hh, if_neg hh]
    · have hd' : Done p.n l i a b := by unfold Done at hd ⊢; omega
      rw [hran.grow.other a b c hab, h.done a b hd' c]
      congr 1
      unfold cellJobs
      rw [hran.grow.chart a b hab]
      congr 1
      · rw [List.flatMap_def, List.flatMap_def]
        congr 1
        apply List.map_congr_left
        rintro ⟨G, gi⟩ hx
        have hG : p.grams[gi]? = some G := List.mk_mem_zipIdx_iff_getElem?.1 hx
        symm
        apply gramJobs_congr
        simp only []
        by_cases hai : a = i
        · subst hai
          rw [(hact gi G hG).2]
          have hb : b < a + l := by unfold Done at hd'; omega
          by_cases hh : G.has a (a + l) = true
          · rw [if_pos hh, extendActive_low _ _ _ (by omega), advance_low hp _ _ (by omega) _ hb]
          · rw [if_neg hh]
        · rw [hother gi a hai]
      · rw [List.flatMap_def, List.flatMap_def]
        congr 1
        apply List.map_congr_left
        intro v hv
        exact (unJobs_congr p u (hran.grow.cat v (h.pinv.lt a b v hv))).symm
  · intro a b hd
    have hab : ¬ (a = i ∧ b = i + l) := by
      rintro ⟨rfl, rfl⟩
      apply hd
      unfold Done
      omega
    have hd' : ¬ Done p.n l i a b := by
      unfold Done at hd ⊢
      omega
    have := h.empty a b hd'
    exact ⟨(hran.grow.chart a b hab).trans this.1, fun c => (hran.grow.map a b c hab).trans (this.2 c)⟩

theorem sinv_start (p : Env ι R φ) (u : List R) : SInv p u 1 0 (start p) := by
  have hnd : ∀ a b, ¬ Done p.n 1 0 a b := by unfold Done; omega
  refine ⟨⟨inv_empty, ?_, ?_, ?_, ?_, ?_, ?_, ?_, ?_, ?_⟩, rfl, ?_, ?_, ?_, ?_, ?_⟩
  · simp [start]
  · simp [start]
  · simp [start]
  · simp [start]
  · simp [start]
  · simp [start]
  · simp [start]
  · simp [start]
  · simp [start]
  · intro gi a m it hit v hv
    simp only [start] at hit
    split at hit
    · split at hit
      · split at hit
        · rw [List.mem_singleton.1 hit] at hv
          simp at hv
        · simp at hit
      · simp at hit
    · simp at hit
  · intro gi G hG a m it hit
    simp only [start, hG] at hit
    split at hit
    · split at hit
      · rw [List.mem_singleton.1 hit]
        exact ⟨[], rfl⟩
      · simp at hit
    · simp at hit
  · intro gi G hG a ha m
    have : lastDone p.n 1 0 a - a = 0 := by
      unfold lastDone
      rw [if_neg (by omega)]
      omega
    rw [this]
    simp only [start, hG, seed, List.range'_zero, List.flatMap_nil, List.append_nil]
    by_cases hm : m = a
    · simp [hm, ha]
    · simp [hm]
  · intro a b hd; exact absurd hd (hnd a b)
  · intro a b _; simp [start]

theorem sinv_cells {p : Env ι R φ} (hok : Spec.Ok p) {u : List R} (hu : ∀ r ∈ u, p.lhs r ≠ p.kGoal) {l : Nat} (hl : 0 < l) (m : Nat) (hm : m + l ≤ p.n + 1) {s : State ι R φ} (h : SInv p u l 0 s) :
    ∃ s', (List.range m).foldlM (fun s i => parseCell p u i (i + l) s) s = some s' ∧ SInv p u l m s' := by
  induction m with
  | zero => exact ⟨s, rfl, h⟩
  | succ m ih =>
    obtain ⟨s1, e1, h1⟩ := ih (by omega)
    obtain ⟨s2, e2, h2⟩ := sinv_cell hok hu hl (i := m) (by omega) h1
    refine ⟨s2, ?_, h2⟩
    rw [List.range_succ, List.foldlM_append, e1]
    simp [e2]

theorem sinv_next {p : Env ι R φ} {u : List R} {l : Nat} (hl : 0 < l) (hln : l ≤ p.n) {s : State ι R φ} (h : SInv p u l (p.n + 1 - l) s) : SInv p u (l + 1) 0 s := by
  have hd : ∀ a b, Done p.n (l + 1) 0 a b ↔ Done p.n l (p.n + 1 - l) a b := by
    intro a b
    unfold Done
    omega
  refine ⟨h.pinv, h.goalNone, h.ants, h.placed, ?_, fun a b hx => h.done a b ((hd a b).1 hx), fun a b hx => h.empty a b (fun hy => hx ((hd a b).2 hy))⟩
  intro gi G hG a ha
  have : lastDone p.n (l + 1) 0 a = lastDone p.n l (p.n + 1 - l) a := by
    unfold lastDone
    rw [if_neg (by omega)]
    split <;> omega
  rw [this]
  exact h.rows gi G hG a ha

theorem sinv_lens {p : Env ι R φ} (hok : Spec.Ok p) {u : List R} (hu : ∀ r ∈ u, p.lhs r ≠ p.kGoal) (m : Nat) (hm : m < p.n) :
    ∃ s', (List.range' 1 m).foldlM (parseLen p u) (start p) = some s' ∧ SInv p u (m + 1) 0 s' := by
  induction m with
  | zero => exact ⟨start p, rfl, sinv_start p u⟩
  | succ m ih =>
    obtain ⟨s1, e1, h1⟩ := ih (by omega)
    obtain ⟨s2, e2, h2⟩ := sinv_cells hok hu (l := m + 1) (by omega) (p.n + 1 - (m + 1)) (by omega) h1
    have h3 := sinv_next (by omega) (by omega) h2
    refine ⟨s2, ?_, h3⟩
    rw [List.range'_concat, List.foldlM_append, e1]
    change (List.foldlM (m := Option) _ s1 [1 + 1 * m]) = _
    rw [List.foldlM_cons]
    have : parseLen p u s1 (1 + 1 * m) = some s2 := by
      have e : 1 + 1 * m = m + 1 := by omega
      rw [e]
      unfold parseLen
      rw [e2]
      simp only []
      have hc := (h3.empty 0 p.n (by unfold Done; omega)).1
      unfold goalLoop
      rw [hc]
      rfl
    rw [this]
    rfl

/-- The state before the last loop over the goal categories. -/
theorem sinv_end {p : Env ι R φ} (hok : Spec.Ok p) {u : List R} (hu : ∀ r ∈ u, p.lhs r ≠ p.kGoal) (hn : 0 < p.n) :
    ∃ s, SInv p u (p.n + 1) 0 s ∧ (List.range' 1 p.n).foldlM (parseLen p u) (start p) = (goalLoop p s.psv).map fun q => { s with psv := q } := by
  obtain ⟨s1, e1, h1⟩ := sinv_lens hok hu (p.n - 1) (by omega)
  have en : p.n - 1 + 1 = p.n := by omega
  rw [en] at h1
  obtain ⟨s2, e2, h2⟩ := sinv_cells hok hu (l := p.n) (by omega) (p.n + 1 - p.n) (by omega) h1
  refine ⟨s2, sinv_next hn (Nat.le_refl _) h2, ?_⟩
  have : List.range' 1 p.n = List.range' 1 (p.n - 1) ++ [p.n] := by
    conv => lhs; rw [← en]
    rw [List.range'_concat]
    congr 2
    omega
  rw [this, List.foldlM_append, e1]
  change (List.foldlM (m := Option) _ s1 [p.n]) = _
  rw [List.foldlM_cons]
  unfold parseLen
  rw [e2]
  simp only []
  cases goalLoop p s2.psv <;> rfl

end Cdec.Dec.Parser
