import Verif.Klm.LmAdjust
import Mathlib.Tactic.ByContra
namespace Cdec.Klm.Builder

/-! ## Prefixes of lists in lexicographic order -/

theorem lt_of_take_lt : ∀ (k : Nat) (a b : List Nat), a.take k < b.take k → a < b
  | 0, _, _, h => by simp at h
  | k + 1, a, [], h => by simp at h
  | k + 1, [], b :: bs, _ => List.nil_lt_cons b bs
  | k + 1, a :: as, b :: bs, h => by
    rw [List.take_succ_cons, List.take_succ_cons] at h
    rw [List.cons_lt_cons_iff] at h ⊢
    rcases h with h | ⟨h1, h2⟩
    · exact Or.inl h
    · exact Or.inr ⟨h1, lt_of_take_lt k as bs h2⟩

theorem take_le_take (k : Nat) (a b : List Nat) (h : a ≤ b) : a.take k ≤ b.take k :=
  not_lt.1 fun hlt => absurd h (not_le.2 (lt_of_take_lt k b a hlt))

theorem take_sandwich {k : Nat} {a b c : List Nat} (h1 : a ≤ b) (h2 : b ≤ c) (h : a.take k = c.take k) :
    b.take k = c.take k :=
  le_antisymm (take_le_take k b c h2) (h ▸ take_le_take k a b h1)

theorem sameWords_comm : ∀ (a b : List Nat), sameWords a b = sameWords b a
  | [], [] => rfl
  | [], _ :: _ => rfl
  | _ :: _, [] => rfl
  | a :: as, b :: bs => by
    simp only [sameWords]
    by_cases h : a = b
    · simp [h, sameWords_comm as bs]
    · have : ¬ b = a := fun e => h e.symm
      simp [h, this]

theorem take_eq_iff_sameWords : ∀ (k : Nat) (a b : List Nat), k ≤ a.length → k ≤ b.length →
    (a.take k = b.take k ↔ k ≤ sameWords a b)
  | 0, _, _, _, _ => by simp
  | k + 1, [], _, h, _ => by simp at h
  | k + 1, _, [], _, h => by simp at h
  | k + 1, a :: as, b :: bs, h1, h2 => by
    simp only [List.take_succ_cons, sameWords, List.cons.injEq]
    by_cases e : a = b
    · simp only [e, true_and, if_true]
      rw [take_eq_iff_sameWords k as bs (by simpa using h1) (by simpa using h2)]
      omega
    · simp [e]

theorem sameWords_take : ∀ (a b : List Nat) (m : Nat), sameWords a (b.take m) = min (sameWords a b) m
  | [], _, _ => by simp [sameWords]
  | _ :: _, [], _ => by simp [sameWords]
  | _ :: _, _ :: _, 0 => by simp [sameWords]
  | a :: as, b :: bs, m + 1 => by
    rw [List.take_succ_cons]
    simp only [sameWords]
    by_cases h : a = b
    · simp only [h, if_true, sameWords_take as bs m]; omega
    · simp [h]

theorem sameWords_le : ∀ (a b : List Nat), sameWords a b ≤ a.length
  | [], b => by simp [sameWords]
  | a :: as, [] => by simp [sameWords]
  | a :: as, b :: bs => by
    simp only [sameWords]
    have := sameWords_le as bs
    split <;> simp <;> omega

/-! ## Padding -/

/-- The words of a padded n-gram, last word first: words that are neither `<unk>` nor `<s>`, at least one, then `<s>`. -/
structure Padded (order : Nat) (g : List Nat) : Prop where
  len : g.length = order
  first : ∀ x, g[0]? = some x → 1 < x
  bos : ∀ i j, i ≤ j → j < order → g[i]? = some kBOS → g[j]? = some kBOS

/-- The suffix ends (in the reversed list) with `<s>`. -/
def bosEnd (s : List Nat) : Prop := s.getLast? = some kBOS

instance (s : List Nat) : Decidable (bosEnd s) := inferInstanceAs (Decidable (_ = _))

theorem bosEnd_take {g : List Nat} {i : Nat} (h : i < g.length) : bosEnd (g.take (i + 1)) ↔ g[i]? = some kBOS := by
  unfold bosEnd
  rw [List.getLast?_eq_getElem?, List.length_take, List.getElem?_take]
  have : min (i + 1) g.length - 1 = i := by omega
  rw [this]; simp

theorem padded_eq {order : Nat} {g f : List Nat} (hg : Padded order g) (hf : Padded order f) {i : Nat} (hi : i < order)
    (hb : g[i]? = some kBOS) (h : g.take (i + 1) = f.take (i + 1)) : g = f := by
  apply List.ext_getElem?
  intro j
  by_cases hj : j ≤ i
  · have := congrArg (fun l => l[j]?) h
    simpa [List.getElem?_take, show j < i + 1 by omega] using this
  · have hb' : f[i]? = some kBOS := by
      have := congrArg (fun l => l[i]?) h
      rw [List.getElem?_take, List.getElem?_take] at this
      simpa [hb] using this.symm
    by_cases hj2 : j < order
    · rw [hg.bos i j (by omega) hj2 hb, hf.bos i j (by omega) hj2 hb']
    · rw [List.getElem?_eq_none (by rw [hg.len]; omega), List.getElem?_eq_none (by rw [hf.len]; omega)]

/-! ## The adjusted counts of a list of n-grams -/

/-- Total count of the n-grams that begin (in the reversed list) with `s`. -/
def rawR (l : List (List Nat × Nat)) (s : List Nat) : Nat := ((l.filter fun r => s <+: r.1).map (·.2)).sum

/-- The words that come after `s` in the reversed n-grams. -/
def preSet (l : List (List Nat × Nat)) (s : List Nat) : Set Nat := {x | ∃ r ∈ l, (s ++ [x]) <+: r.1}

noncomputable def adjR (l : List (List Nat × Nat)) (s : List Nat) : Nat :=
  if bosEnd s then rawR l s else (preSet l s).ncard

theorem rawR_append (l : List (List Nat × Nat)) (f : List Nat × Nat) (s : List Nat) :
    rawR (l ++ [f]) s = rawR l s + if s <+: f.1 then f.2 else 0 := by
  unfold rawR
  by_cases h : s <+: f.1 <;> simp [List.filter_append, h]

theorem preSet_append (l : List (List Nat × Nat)) (f : List Nat × Nat) (s : List Nat) :
    preSet (l ++ [f]) s = preSet l s ∪ {x | (s ++ [x]) <+: f.1} := by
  ext x
  simp only [preSet, List.mem_append, List.mem_singleton, Set.mem_setOf_eq, Set.mem_union]
  constructor
  · rintro ⟨r, h | rfl, h2⟩
    · exact Or.inl ⟨r, h, h2⟩
    · exact Or.inr h2
  · rintro (⟨r, h, h2⟩ | h)
    · exact ⟨r, Or.inl h, h2⟩
    · exact ⟨f, Or.inr rfl, h⟩

theorem preSet_finite (l : List (List Nat × Nat)) (s : List Nat) : (preSet l s).Finite := by
  induction l using List.reverseRecOn with
  | nil => simp [preSet]
  | append_singleton l f ih =>
    rw [preSet_append]
    refine ih.union ?_
    refine Set.Subsingleton.finite ?_
    intro x hx y hy
    have h1 := List.prefix_iff_eq_take.1 hx
    have h2 := List.prefix_iff_eq_take.1 hy
    simp only [List.length_append, List.length_singleton] at h1 h2
    have := h1.trans h2.symm
    simpa using this

theorem rawR_none {l : List (List Nat × Nat)} {s : List Nat} (h : ∀ r ∈ l, ¬ s <+: r.1) : rawR l s = 0 := by
  unfold rawR
  rw [List.filter_eq_nil_iff.2]
  · rfl
  · simpa using h

theorem preSet_none {l : List (List Nat × Nat)} {s : List Nat} (h : ∀ r ∈ l, ¬ s <+: r.1) : preSet l s = ∅ := by
  ext x
  simp only [preSet, Set.mem_setOf_eq, Set.mem_empty_iff_false, iff_false, not_exists, not_and]
  intro r hr h2
  exact h r hr ((List.prefix_append s [x]).trans h2)

theorem adjR_append_of_not {l : List (List Nat × Nat)} {f : List Nat × Nat} {s : List Nat} (h : ¬ s <+: f.1) :
    adjR (l ++ [f]) s = adjR l s := by
  unfold adjR
  rw [rawR_append, preSet_append]
  have : {x | (s ++ [x]) <+: f.1} = (∅ : Set Nat) := by
    ext x
    simp only [Set.mem_setOf_eq, Set.mem_empty_iff_false, iff_false]
    exact fun h2 => h ((List.prefix_append s [x]).trans h2)
  simp [h, this]

theorem take_prefix_iff {g f : List Nat} {k : Nat} (hg : k ≤ g.length) : g.take k <+: f ↔ g.take k = f.take k := by
  rw [List.prefix_iff_eq_take]
  simp [Nat.min_eq_left hg]

theorem pre_take {f : List Nat} {k : Nat} (hk : k < f.length) : {x | (f.take k ++ [x]) <+: f} = {f[k]} := by
  ext x
  simp only [Set.mem_setOf_eq, Set.mem_singleton_iff]
  rw [List.prefix_iff_eq_take]
  simp only [List.length_append, List.length_take, List.length_singleton]
  have : min k f.length = k := by omega
  rw [this, List.take_add_one, List.getElem?_eq_getElem hk, Option.toList_some, List.append_right_inj]
  simp

/-- Number of the lower orders for which an n-gram has a record. -/
def lowerLen (order : Nat) (g : List Nat) : Nat := min (order - 1) (g.idxOf kBOS + 1)

theorem lt_lowerLen {order : Nat} {g : List Nat} (hg : Padded order g) {i : Nat} :
    i < lowerLen order g ↔ i + 1 < order ∧ kBOS ∉ (g.take i) := by
  unfold lowerLen
  have h : i ≤ g.idxOf kBOS ∧ i + 1 < order ↔ i + 1 < order ∧ kBOS ∉ g.take i := by
    rw [and_comm]
    refine and_congr_right fun hi => ?_
    constructor
    · intro h hm
      obtain ⟨j, hj, e⟩ := List.getElem_of_mem hm
      rw [List.length_take] at hj
      rw [List.getElem_take] at e
      have := List.not_of_lt_findIdx (p := fun x => x == kBOS) (xs := g) (i := j) (by
        have : g.idxOf kBOS = g.findIdx (fun x => x == kBOS) := rfl
        omega)
      simp [e] at this
    · intro h
      by_contra hlt
      have hlt : g.idxOf kBOS < i := by omega
      have hl : g.idxOf kBOS < g.length := by rw [hg.len]; omega
      exact h (List.mem_take_iff_getElem.2 ⟨_, by rw [hg.len] at *; omega, List.getElem_idxOf hl⟩)
  rw [← h]
  omega

/-- The loop that makes new records. -/
theorem newValid_spec {order : Nat} {f : List Nat} (hf : Padded order f) (c : Nat) : ∀ (n i : Nat), i + n = order - 1 →
    (∀ j < i, f[j]? ≠ some kBOS) →
    newValid f c i n = ((List.range' i (lowerLen order f - i)).map fun j =>
      (f.take (j + 1), if f[j]? = some kBOS then c else 1), decide (kBOS ∉ f.take (order - 1))) := by
  intro n
  induction n with
  | zero =>
    intro i hi hb
    have h0 : lowerLen order f - i = 0 := by unfold lowerLen; omega
    rw [newValid, h0]
    simp only [List.range'_zero, List.map_nil, Prod.mk.injEq, true_and]
    symm
    rw [decide_eq_true_iff]
    intro hm
    obtain ⟨j, hj, e⟩ := List.getElem_of_mem hm
    rw [List.length_take] at hj
    rw [List.getElem_take] at e
    exact hb j (by omega) (by rw [List.getElem?_eq_getElem (by omega), e])
  | succ n ih =>
    intro i hi hb
    have hnm : kBOS ∉ f.take i := by
      intro hm
      obtain ⟨j, hj, e⟩ := List.getElem_of_mem hm
      rw [List.length_take] at hj
      rw [List.getElem_take] at e
      exact hb j (by omega) (by rw [List.getElem?_eq_getElem (by omega), e])
    have hil : i < lowerLen order f := (lt_lowerLen hf).2 ⟨by omega, hnm⟩
    rw [newValid]
    by_cases hbi : f[i]? = some kBOS
    · simp only [hbi, if_true]
      have hlen : i < f.length := by rw [hf.len]; omega
      have hm1 : kBOS ∈ f.take (i + 1) := by
        rw [List.mem_take_iff_getElem]
        refine ⟨i, by omega, ?_⟩
        rw [List.getElem?_eq_getElem hlen] at hbi
        simpa using hbi
      have hl2 : ¬ i + 1 < lowerLen order f := fun h => ((lt_lowerLen hf).1 h).2 hm1
      have : lowerLen order f - i = 1 := by omega
      rw [this]
      have hm2 : kBOS ∈ f.take (order - 1) := by
        have : f.take (i + 1) <+: f.take (order - 1) := List.take_prefix_take_left (by omega)
        exact this.subset hm1
      simp [hm2, hbi]
    · simp only [hbi, if_false]
      rw [ih (i + 1) (by omega) (by
        intro j hj
        by_cases e : j = i
        · exact e ▸ hbi
        · exact hb j (by omega))]
      have : lowerLen order f - i = (lowerLen order f - (i + 1)) + 1 := by omega
      rw [this, List.range'_succ]
      simp [hbi]

/-! ## The invariant of the loop -/

/-- The condition on a record of order `i + 1`: its words end an n-gram that has been read, and at most its first word is `<s>`. -/
def Ends (l : List (List Nat × Nat)) (i : Nat) (s : List Nat) : Prop :=
  (∃ r ∈ l, r.1.take (i + 1) = s) ∧ kBOS ∉ s.dropLast

/-- The two records every unigram stream begins with. -/
def firstRecs (i : Nat) : List AdjRec := if i = 0 then [⟨[kUNK], 0, false⟩, ⟨[kBOS], 0, false⟩] else []

structure AdjInv (order : Nat) (prune : Nat → Nat) (l : List (List Nat × Nat)) (g : List Nat) (s : AdjState) : Prop where
  valid : s.valid = (List.range (lowerLen order g)).map fun i => (g.take (i + 1), adjR l (g.take (i + 1)))
  real : ∀ i < order, s.real.getD i 0 = rawR l (g.take (i + 1))
  mem : ∀ i, i + 1 < order → ∀ r, r ∈ s.out i ↔ r ∈ firstRecs i ∨
    Ends l i r.words ∧ r.words ≠ g.take (i + 1) ∧ r.count = adjR l r.words ∧ r.marked = pruneMark prune i (rawR l r.words)
  sorted : ∀ i, i + 1 < order → (s.out i).Pairwise fun a b => a.words < b.words
  below : ∀ i, i + 1 < order → ∀ r ∈ s.out i, r.words < g.take (i + 1)
  full : s.full = l.filter fun r => kBOS ∉ r.1.take (order - 1)

theorem dropLast_take {g : List Nat} {i : Nat} (h : i < g.length) : (g.take (i + 1)).dropLast = g.take i := by
  rw [List.dropLast_eq_take, List.take_take, List.length_take]
  congr 1; omega

/-- The numbers of a step from `g` to `f`. -/
structure StepFacts (order : Nat) (g f : List Nat) (same : Nat) : Prop where
  eq : ∀ k, k ≤ order → (g.take k = f.take k ↔ k ≤ same)
  lt : same < order
  le : same ≤ lowerLen order g
  nobos : ∀ j < same, f[j]? ≠ some kBOS
  def_ : sameWords f (g.take (lowerLen order g)) = same

theorem stepFacts {order : Nat} (ho : 2 ≤ order) {g f : List Nat} (hg : Padded order g) (hf : Padded order f) (hne : g ≠ f) :
    StepFacts order g f (sameWords g f) := by
  have heq : ∀ k, k ≤ order → (g.take k = f.take k ↔ k ≤ sameWords g f) := fun k hk =>
    take_eq_iff_sameWords k g f (by rw [hg.len]; exact hk) (by rw [hf.len]; exact hk)
  have hlt : sameWords g f < order := by
    by_contra h
    have := (heq order (le_refl _)).2 (by omega)
    rw [List.take_of_length_le (by rw [hg.len]), List.take_of_length_le (by rw [hf.len])] at this
    exact hne this
  have hnb : ∀ j < sameWords g f, g[j]? ≠ some kBOS := by
    intro j hj hb
    exact hne (padded_eq hg hf (by omega) hb ((heq (j + 1) (by omega)).2 (by omega)))
  have hle : sameWords g f ≤ lowerLen order g := by
    by_contra h
    have hl : lowerLen order g < sameWords g f := by omega
    have : ¬ lowerLen order g < lowerLen order g := lt_irrefl _
    rw [lt_lowerLen hg] at this
    apply this
    refine ⟨?_, ?_⟩
    · have := this
      by_contra hc
      have hl1 : lowerLen order g ≤ order - 1 := by unfold lowerLen; omega
      omega
    · intro hm
      obtain ⟨j, hj, e⟩ := List.getElem_of_mem hm
      rw [List.length_take] at hj
      rw [List.getElem_take] at e
      exact hnb j (by omega) (by rw [List.getElem?_eq_getElem (by omega), e])
  refine ⟨heq, hlt, hle, ?_, ?_⟩
  · intro j hj hb
    have h1 := (heq (j + 1) (by omega)).2 (by omega)
    have := congrArg (fun l => l[j]?) h1
    simp only [List.getElem?_take, show j < j + 1 by omega, if_true] at this
    exact hnb j hj (this.trans hb)
  · rw [sameWords_take, sameWords_comm, Nat.min_eq_left hle]

theorem adjInv_step {order : Nat} (ho : 2 ≤ order) {prune : Nat → Nat} {l : List (List Nat × Nat)} {g : List Nat} {s : AdjState}
    (h : AdjInv order prune l g s) (hl : ∀ r ∈ l, Padded order r.1 ∧ r.1 ≤ g) (hgl : ∃ c, (g, c) ∈ l) {f : List Nat} {c : Nat}
    (hf : Padded order f) (hlt : g < f) : AdjInv order prune (l ++ [(f, c)]) f (s.step order prune (f, c)) := by
  obtain ⟨cg, hgl⟩ := hgl
  have hg : Padded order g := (hl _ hgl).1
  have sf := stepFacts ho hg hf (ne_of_lt hlt)
  generalize sameWords g f = same at sf
  have hlast : (s.valid.getLast?.getD ([], 0)).1 = g.take (lowerLen order g) := by
    have hp : 0 < lowerLen order g := by unfold lowerLen; omega
    rw [h.valid, List.getLast?_eq_getElem?, List.getElem?_map, List.length_map, List.length_range, List.getElem?_range (by omega)]
    simp only [Option.map_some, Option.getD_some]
    congr 1; omega
  have hsame : sameWords f (s.valid.getLast?.getD ([], 0)).1 = same := by rw [hlast, sf.def_]
  -- no n-gram read so far shares more than `same` words with `f`
  have hnone : ∀ k, k ≤ order → same < k → ∀ r ∈ l, ¬ f.take k <+: r.1 := by
    intro k hk hsk r hr hp
    rw [take_prefix_iff (by rw [hf.len]; exact hk)] at hp
    have := take_sandwich (hl r hr).2 (le_of_lt hlt) hp.symm
    have := (sf.eq k hk).1 this
    omega
  -- the adjusted counts of the suffixes of `f`
  have hadjNew : ∀ i, same ≤ i → i + 1 < order → adjR (l ++ [(f, c)]) (f.take (i + 1)) = if f[i]? = some kBOS then c else 1 := by
    intro i hi hio
    have hpf : f.take (i + 1) <+: f := List.take_prefix _ _
    unfold adjR
    rw [rawR_append, preSet_append, rawR_none (hnone (i + 1) (by omega) (by omega)),
      preSet_none (hnone (i + 1) (by omega) (by omega)), pre_take (by rw [hf.len]; omega)]
    simp only [bosEnd_take (show i < f.length by rw [hf.len]; omega), hpf, if_true, Set.empty_union, Set.ncard_singleton, Nat.zero_add]
  have hadjOld : ∀ i, i < same → adjR (l ++ [(f, c)]) (f.take (i + 1)) =
      adjR l (g.take (i + 1)) + if i + 1 = same then 1 else 0 := by
    intro i hi
    have hso := sf.lt
    have hgf : g.take (i + 1) = f.take (i + 1) := (sf.eq (i + 1) (by omega)).2 (by omega)
    have hnb : ¬ bosEnd (f.take (i + 1)) := by
      rw [bosEnd_take (by rw [hf.len]; omega)]; exact sf.nobos i hi
    rw [hgf]
    unfold adjR
    rw [if_neg hnb, if_neg hnb, preSet_append, pre_take (by rw [hf.len]; omega)]
    by_cases he : i + 1 = same
    · simp only [he, if_true]
      rw [Set.union_singleton, Set.ncard_insert_of_notMem _ (preSet_finite _ _)]
      rintro ⟨r, hr, hp⟩
      have := hnone (same + 1) (by omega) (by omega) r hr
      rw [List.take_add_one, List.getElem?_eq_getElem (by rw [hf.len]; omega)] at this
      exact this (by simpa using hp)
    · simp only [he, if_false, Nat.add_zero]
      congr 1
      rw [Set.union_singleton, Set.insert_eq_of_mem]
      refine ⟨(g, cg), hgl, ?_⟩
      have h2 := (sf.eq (i + 1 + 1) (by omega)).2 (by omega)
      rw [List.take_add_one (l := f), List.getElem?_eq_getElem (by rw [hf.len]; omega)] at h2
      have : f.take (i + 1) ++ [f[i + 1]'(by rw [hf.len]; omega)] = g.take (i + 1 + 1) := by rw [h2]; simp
      rw [this]
      exact List.take_prefix _ _
  have hreal : ∀ i < order, rawR (l ++ [(f, c)]) (f.take (i + 1)) =
      (if same ≤ i then 0 else rawR l (g.take (i + 1))) + c := by
    intro i hi
    rw [rawR_append, if_pos (List.take_prefix _ _)]
    congr 1
    split
    · rename_i hs
      exact rawR_none (hnone (i + 1) (by omega) (by omega))
    · rename_i hs
      rw [(sf.eq (i + 1) (by omega)).2 (by omega)]
  have hbv : ∀ i, same ≤ i → (bumpValid same s.valid)[i]? = s.valid[i]? := by
    intro i hi
    unfold bumpValid
    split
    · rfl
    · have hne : ¬ same - 1 = i := by omega
      rw [List.getElem?_modify]; simp [hne]
  have hvi : ∀ i, s.valid[i]? = if i < lowerLen order g then some (g.take (i + 1), adjR l (g.take (i + 1))) else none := by
    intro i
    rw [h.valid, List.getElem?_map]
    split
    · rename_i hi
      rw [List.getElem?_range hi]; rfl
    · rename_i hi
      rw [List.getElem?_eq_none (by simpa using hi)]; rfl
  have hEnds : ∀ i, i + 1 < order → ∀ w, (Ends (l ++ [(f, c)]) i w ∧ w ≠ f.take (i + 1)) ↔ (Ends l i w ∧ w ≠ f.take (i + 1)) := by
    intro i hi w
    unfold Ends
    constructor
    · rintro ⟨⟨⟨r, hr, hrw⟩, hb⟩, hw⟩
      rcases List.mem_append.1 hr with hr | hr
      · exact ⟨⟨⟨r, hr, hrw⟩, hb⟩, hw⟩
      · rw [List.mem_singleton.1 hr] at hrw
        exact absurd hrw.symm hw
    · rintro ⟨⟨⟨r, hr, hrw⟩, hb⟩, hw⟩
      exact ⟨⟨⟨r, List.mem_append_left _ hr, hrw⟩, hb⟩, hw⟩
  have hchg : ∀ i, i + 1 < order → ∀ w, Ends l i w → w ≠ f.take (i + 1) →
      adjR (l ++ [(f, c)]) w = adjR l w ∧ rawR (l ++ [(f, c)]) w = rawR l w := by
    intro i hi w hw hne
    have hnp : ¬ w <+: f := by
      obtain ⟨⟨r, hr, hrw⟩, _⟩ := hw
      rw [← hrw] at hne ⊢
      rw [take_prefix_iff (by rw [(hl r hr).1.len]; omega)]
      exact hne
    exact ⟨adjR_append_of_not hnp, by rw [rawR_append, if_neg hnp]; rfl⟩
  have hEg : ∀ i, i + 1 < order → (Ends l i (g.take (i + 1)) ↔ i < lowerLen order g) := by
    intro i hi
    rw [lt_lowerLen hg]
    unfold Ends
    rw [dropLast_take (by rw [hg.len]; omega)]
    constructor
    · rintro ⟨_, hb⟩; exact ⟨hi, hb⟩
    · rintro ⟨_, hb⟩; exact ⟨⟨(g, cg), hgl, rfl⟩, hb⟩
  have hstep : s.step order prune (f, c) = ⟨(bumpValid same s.valid).take same ++ (newValid f c same (order - 1 - same)).1,
     (List.range order).map fun i => (if same ≤ i then 0 else s.real.getD i 0) + c,
     fun i => if same ≤ i then
        s.out i ++ ((bumpValid same s.valid)[i]?.toList.map fun r => ⟨r.1, r.2, pruneMark prune i (s.real.getD i 0)⟩) else s.out i,
     if (newValid f c same (order - 1 - same)).2 then s.full ++ [(f, c)] else s.full⟩ := by
    unfold AdjState.step
    simp only []
    rw [hsame]
  have hnv := newValid_spec hf c (order - 1 - same) same (by have := sf.lt; omega) sf.nobos
  rw [hstep]
  refine ⟨?_, ?_, ?_, ?_, ?_, ?_⟩
  · -- valid
    show (bumpValid same s.valid).take same ++ (newValid f c same (order - 1 - same)).1 = _
    rw [hnv]
    have hlf : same ≤ lowerLen order f := by
      by_cases h0 : same = 0
      · omega
      · have : same - 1 < lowerLen order f := by
          rw [lt_lowerLen hf]
          refine ⟨by have := sf.lt; omega, ?_⟩
          intro hm
          obtain ⟨j, hj, e⟩ := List.getElem_of_mem hm
          rw [List.length_take] at hj
          rw [List.getElem_take] at e
          exact sf.nobos j (by omega) (by rw [List.getElem?_eq_getElem (by omega), e])
        omega
    have hsplit : List.range (lowerLen order f) = List.range same ++ List.range' same (lowerLen order f - same) := by
      rw [List.range_eq_range', List.range_eq_range']
      have := List.range'_append (s := 0) (m := same) (n := lowerLen order f - same) (step := 1)
      rw [show same + (lowerLen order f - same) = lowerLen order f by omega] at this
      simpa using this.symm
    rw [hsplit, List.map_append]
    congr 1
    · apply List.ext_getElem?
      intro i
      by_cases hi : i < same
      · rw [List.getElem?_take, if_pos hi, List.getElem?_map, List.getElem?_range hi]
        simp only [Option.map_some]
        rw [hadjOld i hi]
        have hgf : g.take (i + 1) = f.take (i + 1) := (sf.eq (i + 1) (by have := sf.lt; omega)).2 (by omega)
        unfold bumpValid
        rw [if_neg (by omega), List.getElem?_modify, hvi i, if_pos (by have := sf.le; omega), hgf]
        by_cases he : i + 1 = same
        · have he' : same - 1 = i := by omega
          simp [he, he']
        · have he' : ¬ same - 1 = i := by omega
          simp [he, he']
      · rw [List.getElem?_take, if_neg hi, List.getElem?_eq_none (by simpa using hi)]
    · apply List.map_congr_left
      intro i hi
      rw [List.mem_range'_1] at hi
      have hi2 := (lt_lowerLen hf).1 (show i < lowerLen order f by omega)
      rw [hadjNew i hi.1 hi2.1]
  · -- real
    intro i hi
    rw [List.getD_eq_getElem?_getD, List.getElem?_map, List.getElem?_range hi]
    simp only [Option.map_some, Option.getD_some]
    rw [hreal i hi]
    congr 1
    split
    · rfl
    · exact h.real i hi
  · -- mem
    intro i hi r
    have hgoal : ∀ (P : Prop), (P ↔ (Ends l i r.words ∧ r.words ≠ f.take (i + 1)) ∧ r.count = adjR l r.words ∧
        r.marked = pruneMark prune i (rawR l r.words)) → (P ↔ Ends (l ++ [(f, c)]) i r.words ∧ r.words ≠ f.take (i + 1) ∧
        r.count = adjR (l ++ [(f, c)]) r.words ∧ r.marked = pruneMark prune i (rawR (l ++ [(f, c)]) r.words)) := by
      intro P hP
      rw [hP, ← and_assoc (a := Ends (l ++ [(f, c)]) i r.words), hEnds i hi]
      refine and_congr_right fun hw => ?_
      obtain ⟨h1, h2⟩ := hchg i hi _ hw.1 hw.2
      rw [h1, h2]
    show r ∈ (if same ≤ i then _ else _) ↔ _
    by_cases hs : same ≤ i
    · have hne : g.take (i + 1) ≠ f.take (i + 1) := fun e => by have := (sf.eq (i + 1) (by omega)).1 e; omega
      have hltw : g.take (i + 1) < f.take (i + 1) := lt_of_le_of_ne (take_le_take _ _ _ (le_of_lt hlt)) hne
      rw [if_pos hs, List.mem_append, hbv i hs, hvi i, h.mem i hi r, or_assoc]
      refine or_congr_right (hgoal _ ?_)
      constructor
      · rintro (⟨h1, h2, h3, h4⟩ | h1)
        · refine ⟨⟨h1, ?_⟩, h3, h4⟩
          obtain ⟨⟨q, hq, hqw⟩, _⟩ := h1
          rw [← hqw]
          exact ne_of_lt (lt_of_le_of_lt (take_le_take _ _ _ (hl q hq).2) hltw)
        · by_cases hil : i < lowerLen order g
          · rw [if_pos hil] at h1
            simp only [Option.toList_some, List.map_cons, List.map_nil, List.mem_singleton] at h1
            rw [h1, h.real i (by omega)]
            exact ⟨⟨(hEg i hi).2 hil, hne⟩, rfl, rfl⟩
          · rw [if_neg hil] at h1
            simp at h1
      · rintro ⟨⟨h1, h2⟩, h3, h4⟩
        by_cases hw : r.words = g.take (i + 1)
        · right
          have hil := (hEg i hi).1 (hw ▸ h1)
          rw [if_pos hil]
          simp only [Option.toList_some, List.map_cons, List.map_nil, List.mem_singleton]
          rw [h.real i (by omega), ← hw, ← h3, ← h4]
        · exact Or.inl ⟨h1, hw, h3, h4⟩
    · have hgf : g.take (i + 1) = f.take (i + 1) := (sf.eq (i + 1) (by omega)).2 (by omega)
      rw [if_neg hs, h.mem i hi r, hgf]
      refine or_congr_right (hgoal _ ?_)
      rw [and_assoc]
  · -- sorted
    intro i hi
    show (if same ≤ i then _ else _ : List AdjRec).Pairwise _
    split
    · rename_i hs
      refine List.pairwise_append.2 ⟨h.sorted i hi, ?_, ?_⟩
      · cases (bumpValid same s.valid)[i]? <;> simp
      · intro a ha b hb
        rw [hbv i hs, hvi i] at hb
        split at hb
        · simp only [Option.toList_some, List.map_cons, List.map_nil, List.mem_singleton] at hb
          rw [hb]
          exact h.below i hi a ha
        · simp at hb
    · exact h.sorted i hi
  · -- below
    intro i hi r hr
    have hr : r ∈ (if same ≤ i then s.out i ++ ((bumpValid same s.valid)[i]?.toList.map fun r =>
      (⟨r.1, r.2, pruneMark prune i (s.real.getD i 0)⟩ : AdjRec)) else s.out i) := hr
    have hle : g.take (i + 1) ≤ f.take (i + 1) := take_le_take _ _ _ (le_of_lt hlt)
    split at hr
    · rename_i hs
      rcases List.mem_append.1 hr with hr | hr
      · exact lt_of_lt_of_le (h.below i hi r hr) hle
      · rw [hbv i hs, hvi i] at hr
        split at hr
        · simp only [Option.toList_some, List.map_cons, List.map_nil, List.mem_singleton] at hr
          rw [hr]
          exact lt_of_le_of_ne hle fun e => by have := (sf.eq (i + 1) (by omega)).1 e; omega
        · simp at hr
    · exact lt_of_lt_of_le (h.below i hi r hr) hle
  · -- full
    show (if (newValid f c same (order - 1 - same)).2 then _ else _) = _
    rw [hnv, h.full, List.filter_append]
    by_cases hb : kBOS ∈ f.take (order - 1) <;> simp [hb]

end Cdec.Klm.Builder
