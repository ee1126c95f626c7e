import Verif.Util.Alias
import Mathlib.Tactic.Linarith
import Mathlib.Tactic.FieldSimp
import Mathlib.Data.List.Perm.Basic
import Mathlib.Tactic.Ring
import Mathlib.Tactic.NormNum
import Mathlib.Data.Rat.Floor
/-! # C55: the alias sampler represents the distribution -/
namespace Cdec
variable {K : Type} [Field K] [LinearOrder K] [IsStrictOrderedRing K]
open Finset

/-- Loop invariant. -/
structure AInv (p : List K) (st : AliasSt K) : Prop where
  nodup : (st.s ++ st.g).Nodup
  lt : ∀ i ∈ st.s ++ st.g, i < p.length
  small : ∀ i ∈ st.s, 0 ≤ st.cut i ∧ st.cut i < 1
  big : ∀ i ∈ st.g, 1 ≤ st.cut i
  open_ : ∀ i ∈ st.s ++ st.g, st.al i = none
  done : ∀ i < p.length, i ∉ st.s ++ st.g → 0 ≤ st.cut i ∧ st.cut i ≤ 1 ∧ ∃ a, a < p.length ∧ st.al i = some a
  balance : ∀ i < p.length, (p.length : K) * p.getD i 0 =
    st.cut i + ∑ n ∈ range p.length, if st.al n = some i then 1 - st.cut n else 0
  total : ((st.s ++ st.g).map st.cut).sum = ((st.s ++ st.g).length : K)

theorem init_fold (p : List K) (n : Nat) :
    let st := (List.range n).foldl (aliasPut p) ⟨fun _ => 0, fun _ => none, [], []⟩
    (st.s ++ st.g).Perm (List.range n) ∧ (∀ i, st.al i = none) ∧
    (∀ i < n, st.cut i = (p.length : K) * p.getD i 0) ∧
    (∀ i ∈ st.s, st.cut i < 1) ∧ (∀ i ∈ st.g, 1 ≤ st.cut i) := by
  induction n with
  | zero => simp
  | succ n ih =>
    simp only [List.range_succ, List.foldl_append, List.foldl_cons, List.foldl_nil]
    generalize (List.range n).foldl (aliasPut p) ⟨fun _ => 0, fun _ => none, [], []⟩ = st at ih ⊢
    obtain ⟨hp, ha, hc, hs, hg⟩ := ih
    have hlt : ∀ i, i ∈ st.s ∨ i ∈ st.g → i < n := by
      intro i hi
      have := (hp.mem_iff (a := i)).1 (List.mem_append.2 hi)
      simpa using this
    unfold aliasPut
    simp only
    split
    · rename_i h1
      refine ⟨?_, ha, ?_, ?_, ?_⟩
      · simp only
        refine List.Perm.trans List.perm_middle ?_
        refine List.Perm.trans (List.Perm.cons n hp) ?_
        exact (List.perm_append_singleton n _).symm
      · intro i hi
        simp only
        split
        · rename_i h; rw [h]
        · exact hc i (by omega)
      · intro i hi
        simp only at hi ⊢
        rw [if_neg (by have := hlt i (.inl hi); omega)]; exact hs i hi
      · intro i hi
        simp only at hi ⊢
        rcases List.mem_cons.1 hi with rfl | hi
        · simpa using h1
        · rw [if_neg (by have := hlt i (.inr hi); omega)]; exact hg i hi
    · rename_i h1
      refine ⟨?_, ha, ?_, ?_, ?_⟩
      · simp only [List.cons_append]
        refine List.Perm.trans (List.Perm.cons n hp) ?_
        exact (List.perm_append_singleton n _).symm
      · intro i hi
        simp only
        split
        · rename_i h; rw [h]
        · exact hc i (by omega)
      · intro i hi
        simp only at hi ⊢
        rcases List.mem_cons.1 hi with rfl | hi
        · simpa using h1
        · rw [if_neg (by have := hlt i (.inl hi); omega)]; exact hs i hi
      · intro i hi
        simp only at hi ⊢
        rw [if_neg (by have := hlt i (.inr hi); omega)]; exact hg i hi

theorem sum_range_getD (p : List K) : ((List.range p.length).map fun i => p.getD i 0).sum = p.sum := by
  congr 1
  apply List.ext_getElem
  · simp
  · intro i h1 h2
    simp [List.getD_eq_getElem?_getD, h2]

theorem init_inv (p : List K) (h0 : ∀ x ∈ p, 0 ≤ x) (h1 : p.sum = 1) : AInv p (aliasInit p) := by
  obtain ⟨hp, ha, hc, hs, hg⟩ := init_fold p p.length
  change (((aliasInit p).s ++ (aliasInit p).g).Perm _) at hp
  change ∀ i, (aliasInit p).al i = none at ha
  change ∀ i < p.length, (aliasInit p).cut i = _ at hc
  change ∀ i ∈ (aliasInit p).s, (aliasInit p).cut i < 1 at hs
  change ∀ i ∈ (aliasInit p).g, 1 ≤ (aliasInit p).cut i at hg
  generalize aliasInit p = st at *
  have hlt : ∀ i ∈ st.s ++ st.g, i < p.length := fun i hi => by
    have := hp.mem_iff.1 hi; simpa using this
  refine ⟨hp.nodup_iff.2 List.nodup_range, hlt, fun i hi => ⟨?_, hs i hi⟩, hg, fun i _ => ha i, ?_, ?_, ?_⟩
  · have hl := hlt i (List.mem_append_left _ hi)
    rw [hc i hl]
    refine mul_nonneg (by positivity) (h0 _ ?_)
    rw [List.getD_eq_getElem?_getD, List.getElem?_eq_getElem hl]; simp
  · intro i hi hn
    exact absurd (hp.mem_iff.2 (by simpa using hi)) hn
  · intro i hi
    rw [hc i hi, sum_eq_zero]
    · simp
    · intro n _; rw [ha n]; simp
  · rw [(hp.map st.cut).sum_eq, hp.length_eq, List.length_range]
    have : (List.range p.length).map st.cut = (List.range p.length).map fun i => (p.length : K) * p.getD i 0 := by
      apply List.map_congr_left
      intro i hi; exact hc i (by simpa using hi)
    rw [this, List.sum_map_mul_left, sum_range_getD, h1, mul_one]

theorem step_inv {p : List K} {st : AliasSt K} (h : AInv p st) {k j : Nat} {g' s' : List Nat}
    (hg : st.g = k :: g') (hs : st.s = j :: s') : AInv p (aliasStep st k j g' s') := by
  have hj : j ∈ st.s := by rw [hs]; simp
  have hk : k ∈ st.g := by rw [hg]; simp
  have hnd := h.nodup
  rw [hs, hg] at hnd
  have hjk : j ≠ k := by
    intro he; subst he
    simp at hnd
  have hjs := h.small j hj
  have hkb := h.big k hk
  have hjl := h.lt j (List.mem_append_left _ hj)
  have hkl := h.lt k (List.mem_append_right _ hk)
  have hak := h.open_ k (List.mem_append_right _ hk)
  have haj := h.open_ j (List.mem_append_left _ hj)
  simp only [List.cons_append, List.nodup_cons, List.nodup_append, List.mem_append, List.mem_cons, not_or] at hnd
  obtain ⟨⟨hjs', _, hjg'⟩, hnds, ⟨hkg', hndg⟩, hdis⟩ := hnd
  have hks' : k ∉ s' := fun hm => hdis k hm k (.inl rfl) rfl
  have ht := h.total
  rw [hs, hg] at ht
  -- facts that do not depend on where `k` goes
  let cut : Nat → K := fun i => if i = k then st.cut k - (1 - st.cut j) else st.cut i
  let al : Nat → Option Nat := fun i => if i = j then some k else st.al i
  have hck : cut k = st.cut k - (1 - st.cut j) := if_pos rfl
  have hcn : ∀ i, i ≠ k → cut i = st.cut i := fun i hi => if_neg hi
  have hck0 : 0 ≤ cut k := by rw [hck]; linarith
  have balance : ∀ i < p.length, (p.length : K) * p.getD i 0 =
      cut i + ∑ n ∈ range p.length, if al n = some i then 1 - cut n else 0 := by
    intro i hi
    rw [h.balance i hi]
    have e : ∀ n ∈ range p.length, (if al n = some i then 1 - cut n else 0) =
        (if st.al n = some i then 1 - st.cut n else 0) + (if n = j then (if i = k then 1 - st.cut j else 0) else 0) := by
      intro n _
      by_cases hn : n = j
      · subst hn
        simp only [al, if_true, Option.some.injEq, haj, reduceCtorEq, if_false, zero_add]
        by_cases hik : i = k
        · rw [if_pos hik.symm, if_pos hik, hcn n hjk]
        · rw [if_neg (Ne.symm hik), if_neg hik]
      · simp only [al, if_neg hn, add_zero]
        by_cases hnk : n = k
        · subst hnk; rw [hak]; simp
        · rw [hcn n hnk]
    rw [sum_congr rfl e, sum_add_distrib, sum_ite_eq' (range p.length) j, if_pos (by simpa using hjl)]
    by_cases hik : i = k
    · subst hik; rw [hck, if_pos rfl]; ring
    · rw [hcn i hik, if_neg hik]; ring
  have done : ∀ i < p.length, i ≠ k → i ∉ s' → i ∉ g' → 0 ≤ cut i ∧ cut i ≤ 1 ∧ ∃ a, a < p.length ∧ al i = some a := by
    intro i hi h1 h2 h3
    rw [hcn i h1]
    by_cases hij : i = j
    · subst hij; exact ⟨hjs.1, hjs.2.le, k, hkl, by simp [al]⟩
    · obtain ⟨d1, d2, a, d3, d4⟩ := h.done i hi (by rw [hs, hg]; simp [hij, h1, h2, h3])
      exact ⟨d1, d2, a, d3, by simp [al, hij, d4]⟩
  have map_eq : ∀ l : List Nat, k ∉ l → l.map cut = l.map st.cut := by
    intro l hl
    apply List.map_congr_left
    intro i hi; exact hcn i fun he => hl (he ▸ hi)
  have total : (s'.map cut).sum + (cut k + (g'.map cut).sum) = (s'.length : K) + (1 + g'.length) := by
    rw [map_eq s' hks', map_eq g' hkg', hck]
    simp only [List.cons_append, List.map_cons, List.map_append, List.sum_cons, List.sum_append,
      List.length_cons, List.length_append] at ht
    push_cast at ht
    linarith
  have mem_s : ∀ i ∈ s', i ∈ st.s := fun i hi => by rw [hs]; simp [hi]
  have mem_g : ∀ i ∈ g', i ∈ st.g := fun i hi => by rw [hg]; simp [hi]
  have small' : ∀ i ∈ s', 0 ≤ cut i ∧ cut i < 1 := fun i hi => by
    rw [hcn i fun he => hks' (he ▸ hi)]; exact h.small i (mem_s i hi)
  have big' : ∀ i ∈ g', 1 ≤ cut i := fun i hi => by
    rw [hcn i fun he => hkg' (he ▸ hi)]; exact h.big i (mem_g i hi)
  have open' : ∀ i, i = k ∨ i ∈ s' ∨ i ∈ g' → al i = none := by
    intro i hi
    have hij : i ≠ j := by
      rintro rfl
      rcases hi with hi | hi | hi
      · exact hjk hi
      · exact hjs' hi
      · exact hjg' hi
    simp only [al, if_neg hij]
    rcases hi with rfl | hi | hi
    · exact hak
    · exact h.open_ i (List.mem_append_left _ (mem_s i hi))
    · exact h.open_ i (List.mem_append_right _ (mem_g i hi))
  have lt' : ∀ i, i = k ∨ i ∈ s' ∨ i ∈ g' → i < p.length := by
    rintro i (rfl | hi | hi)
    · exact hkl
    · exact h.lt i (List.mem_append_left _ (mem_s i hi))
    · exact h.lt i (List.mem_append_right _ (mem_g i hi))
  have hdis' : ∀ a ∈ s', ∀ b ∈ g', a ≠ b := fun a ha b hb => hdis a ha b (.inr hb)
  unfold aliasStep
  simp only
  split
  · rename_i hlt
    refine ⟨?_, ?_, ?_, big', ?_, ?_, balance, ?_⟩
    · simp only [List.cons_append, List.nodup_cons, List.nodup_append, List.mem_append, not_or]
      exact ⟨⟨hks', hkg'⟩, hnds, hndg, hdis'⟩
    · intro i hi; apply lt'; simpa using hi
    · intro i hi
      rcases List.mem_cons.1 hi with rfl | hi
      · exact ⟨hck0, by change cut i < 1; rw [hck]; exact hlt⟩
      · exact small' i hi
    · intro i hi; apply open'; simpa using hi
    · intro i hi hn
      simp only [List.cons_append, List.mem_cons, List.mem_append, not_or] at hn
      exact done i hi hn.1 hn.2.1 hn.2.2
    · change ((k :: s' ++ g').map cut).sum = _
      simp only [List.cons_append, List.map_cons, List.map_append, List.sum_cons, List.sum_append,
        List.length_cons, List.length_append]
      push_cast
      linarith
  · rename_i hlt
    refine ⟨?_, ?_, small', ?_, ?_, ?_, balance, ?_⟩
    · simp only [List.nodup_cons, List.nodup_append, List.mem_cons]
      refine ⟨hnds, ⟨hkg', hndg⟩, ?_⟩
      rintro a ha b (rfl | hb)
      · exact fun he => hks' (he ▸ ha)
      · exact hdis' a ha b hb
    · intro i hi; apply lt'
      simp only [List.mem_append, List.mem_cons] at hi
      tauto
    · intro i hi
      rcases List.mem_cons.1 hi with rfl | hi
      · change 1 ≤ cut i; rw [hck]; exact not_lt.1 hlt
      · exact big' i hi
    · intro i hi; apply open'
      simp only [List.mem_append, List.mem_cons] at hi
      tauto
    · intro i hi hn
      simp only [List.mem_cons, List.mem_append, not_or] at hn
      exact done i hi hn.2.1 hn.1 hn.2.2
    · change ((s' ++ k :: g').map cut).sum = _
      simp only [List.map_cons, List.map_append, List.sum_cons, List.sum_append,
        List.length_cons, List.length_append]
      push_cast
      linarith

theorem loop_inv (p : List K) (st : AliasSt K) (h : AInv p st) :
    AInv p (aliasLoop st) ∧ ((aliasLoop st).s = [] ∨ (aliasLoop st).g = []) := by
  fun_induction aliasLoop st with
  | case1 => rename_i ih; exact ih (step_inv h (by assumption) (by assumption))
  | case2 st hne =>
    refine ⟨h, ?_⟩
    cases hs : st.s with
    | nil => exact .inl rfl
    | cons j s' =>
      cases hg : st.g with
      | nil => exact .inr rfl
      | cons k g' => exact (hne j s' k g' hs hg).elim

theorem all_one (l : List Nat) (f : Nat → K) (h : ∀ i ∈ l, 1 ≤ f i) (hs : (l.map f).sum = l.length) :
    ∀ i ∈ l, f i = 1 := by
  have ge : ∀ l : List Nat, (∀ i ∈ l, 1 ≤ f i) → (l.length : K) ≤ (l.map f).sum := by
    intro l
    induction l with
    | nil => intro _; simp
    | cons a l ih =>
      intro hl
      have := ih fun i hi => hl i (by simp [hi])
      have := hl a (by simp)
      simp only [List.map_cons, List.sum_cons, List.length_cons]; push_cast; linarith
  induction l with
  | nil => simp
  | cons a l ih =>
    have hl := ge l fun i hi => h i (by simp [hi])
    have ha := h a (by simp)
    simp only [List.map_cons, List.sum_cons, List.length_cons] at hs
    push_cast at hs
    intro i hi
    rcases List.mem_cons.1 hi with rfl | hi
    · linarith
    · exact ih (fun i hi => h i (by simp [hi])) (by linarith) i hi

theorem none_small (l : List Nat) (f : Nat → K) (h : ∀ i ∈ l, f i < 1) (hs : (l.map f).sum = l.length) : l = [] := by
  have le : ∀ l : List Nat, (∀ i ∈ l, f i < 1) → (l.map f).sum ≤ l.length := by
    intro l
    induction l with
    | nil => intro _; simp
    | cons a l ih =>
      intro hl
      have := ih fun i hi => hl i (by simp [hi])
      have := hl a (by simp)
      simp only [List.map_cons, List.sum_cons, List.length_cons]; push_cast; linarith
  cases l with
  | nil => rfl
  | cons a l =>
    have h1 := le l fun i hi => h i (by simp [hi])
    have h2 := h a (by simp)
    simp only [List.map_cons, List.sum_cons, List.length_cons] at hs
    push_cast at hs
    linarith

theorem build_spec (p : List K) (h0 : ∀ x ∈ p, 0 ≤ x) (h1 : p.sum = 1) :
    (∀ i < p.length, 0 ≤ (aliasBuild p).cut i ∧ (aliasBuild p).cut i ≤ 1 ∧
      ((aliasBuild p).cut i < 1 → ∃ a, a < p.length ∧ (aliasBuild p).al i = some a)) ∧
    ∀ i < p.length, (p.length : K) * p.getD i 0 =
      (aliasBuild p).cut i + ∑ n ∈ range p.length, if (aliasBuild p).al n = some i then 1 - (aliasBuild p).cut n else 0 := by
  obtain ⟨h, he⟩ := loop_inv p _ (init_inv p h0 h1)
  change AInv p (aliasBuild p) at h
  change (aliasBuild p).s = [] ∨ (aliasBuild p).g = [] at he
  generalize aliasBuild p = st at *
  have hs : st.s = [] := by
    rcases he with he | he
    · exact he
    · have ht := h.total
      rw [he, List.append_nil] at ht
      exact none_small st.s st.cut (fun i hi => (h.small i hi).2) ht
  have hg : ∀ i ∈ st.g, st.cut i = 1 := by
    have ht := h.total
    rw [hs, List.nil_append] at ht
    exact all_one st.g st.cut h.big ht
  refine ⟨fun i hi => ?_, h.balance⟩
  by_cases hm : i ∈ st.g
  · rw [hg i hm]; exact ⟨zero_le_one, le_refl _, fun h => absurd h (lt_irrefl _)⟩
  · obtain ⟨a, b, c⟩ := h.done i hi (by rw [hs]; simpa using hm)
    exact ⟨a, b, fun _ => c⟩

/-- C55.  For every probability vector `p` of length N, `Init(p)` terminates with cutoffs in [0, 1] and
such that the uniform mixture of the N two-point distributions "n with probability `cutoffs[n]`, else
`aliases[n]`" gives outcome `i` exactly the probability `p[i]`. -/
theorem C55_mixture_is_p (p : List K) (h0 : ∀ x ∈ p, 0 ≤ x) (h1 : p.sum = 1) :
    (∀ n < p.length, 0 ≤ (aliasBuild p).cut n ∧ (aliasBuild p).cut n ≤ 1) ∧
    ∀ i (hi : i < p.length),
      ∑ n ∈ range p.length, (1 / (p.length : K)) *
        ((if n = i then (aliasBuild p).cut n else 0) +
          (if (aliasBuild p).al n = some i then 1 - (aliasBuild p).cut n else 0)) = p[i] := by
  obtain ⟨h, hb⟩ := build_spec p h0 h1
  refine ⟨fun n hn => ⟨(h n hn).1, (h n hn).2.1⟩, fun i hi => ?_⟩
  have hN : (p.length : K) ≠ 0 := by
    have : 0 < p.length := by omega
    positivity
  rw [← mul_sum, sum_add_distrib, sum_ite_eq' (range p.length) i, if_pos (by simpa using hi), ← hb i hi]
  rw [List.getD_eq_getElem?_getD, List.getElem?_eq_getElem hi]
  simp only [Option.getD_some]
  field_simp

/-- C55, drawing: for uniform numbers `0 ≤ u1 < 1` and `0 ≤ u2 ≤ 1` a draw is always one of the N outcomes
(never the placeholder of an alias that was not assigned). -/
theorem C55_draw_is_an_outcome [FloorRing K] (p : List K) (h0 : ∀ x ∈ p, 0 ≤ x) (h1 : p.sum = 1) (u1 u2 : K)
    (hu : 0 ≤ u1) (hu1 : u1 < 1) (hu2 : u2 ≤ 1) :
    ∃ i, i < p.length ∧ aliasDraw p.length (aliasBuild p) u1 u2 = some i := by
  obtain ⟨h, _⟩ := build_spec p h0 h1
  have hN : 0 < p.length := by
    cases p with
    | nil => simp at h1
    | cons => simp
  have hNK : (0 : K) < p.length := by exact_mod_cast hN
  have hk : ⌊u1 * (p.length : K)⌋.toNat < p.length := by
    have h2 : ⌊u1 * (p.length : K)⌋ < (p.length : Int) := by
      rw [Int.floor_lt]
      push_cast
      nlinarith
    omega
  unfold aliasDraw
  simp only
  obtain ⟨_, _, c⟩ := h _ hk
  split
  · rename_i hlt
    obtain ⟨a, ha, ha2⟩ := c (lt_of_lt_of_le hlt hu2)
    exact ⟨a, ha, ha2⟩
  · exact ⟨_, hk, rfl⟩

/-- Non-vacuity: the distribution 1/2, 1/3, 1/6. -/
example : (∀ x ∈ [(1/2 : ℚ), 1/3, 1/6], 0 ≤ x) ∧ [(1/2 : ℚ), 1/3, 1/6].sum = 1 := by
  constructor
  · intro x hx; simp at hx; rcases hx with rfl | rfl | rfl <;> norm_num
  · norm_num

end Cdec
