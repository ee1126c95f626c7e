import Verif.Train.L1Model
import Verif.Props.C25
import Mathlib.Tactic.Linarith
import Mathlib.Tactic.NormNum
import Mathlib.Algebra.Order.Group.Abs
/-! # C60: the cumulative L1 penalty -/
namespace Cdec.Sparse
variable {K : Type} [Field K] [LinearOrder K] [IsStrictOrderedRing K]

/-- `y` lies between 0 and `x`: same sign, not larger in magnitude. -/
def Shrunk (x y : K) : Prop := (0 ≤ y ∧ y ≤ x) ∨ (x ≤ y ∧ y ≤ 0)

/-- The weight of feature `i` after gradient steps only. -/
def unpenalised (frozen : Nat → Bool) (w : FSV K) (i : Nat) (steps : List (K × FSV K × Nat)) : K :=
  w.value i + (steps.map fun s => if frozen i then 0 else s.1 * s.2.1.value i).sum

/-- The penalty budget: the sum of `eta * C / N`. -/
def budget (C N : K) (steps : List (K × FSV K × Nat)) : K := (steps.map fun s => s.1 * C / N).sum

theorem Shrunk.refl (x : K) : Shrunk x x := by
  rcases le_total 0 x with h | h
  · exact .inl ⟨h, le_refl _⟩
  · exact .inr ⟨le_refl _, h⟩

theorem Shrunk.trans {x y z : K} (h1 : Shrunk x y) (h2 : Shrunk y z) : Shrunk x z := by
  rcases h1 with ⟨a, b⟩ | ⟨a, b⟩ <;> rcases h2 with ⟨c, d⟩ | ⟨c, d⟩
  · exact .inl ⟨c, d.trans b⟩
  · have : z = 0 := le_antisymm d (a.trans c)
    exact .inl ⟨this ▸ le_refl _, by rw [this]; exact a.trans b⟩
  · have : z = 0 := le_antisymm (d.trans b) c
    exact .inr ⟨by rw [this]; exact a.trans b, this ▸ le_refl _⟩
  · exact .inr ⟨a.trans c, d⟩

theorem pen_step (u q z : K) (hq : |q| ≤ u) :
    Shrunk z (penalised u q z) ∧ |q + (penalised u q z - z)| ≤ u := by
  rw [abs_le] at hq
  unfold penalised
  split
  · rename_i h
    rcases le_total 0 (z - (u + q)) with h1 | h1
    · rw [max_eq_right h1, abs_le]
      exact ⟨.inl ⟨h1, by linarith⟩, by linarith, by linarith⟩
    · rw [max_eq_left h1, abs_le]
      exact ⟨.inl ⟨le_refl _, h.le⟩, by linarith, by linarith⟩
  · split
    · rename_i h
      rcases le_total 0 (z + (u - q)) with h1 | h1
      · rw [min_eq_left h1, abs_le]
        exact ⟨.inr ⟨h.le, le_refl _⟩, by linarith, by linarith⟩
      · rw [min_eq_right h1, abs_le]
        exact ⟨.inr ⟨by linarith, h1⟩, by linarith, by linarith⟩
    · rw [abs_le]
      exact ⟨Shrunk.refl _, by linarith, by linarith⟩

theorem checked_spec {v v' : FSV K} (hv : v.Inv) {k : Nat} (h : v.eraseChecked k = some v') :
    v.erase k = some v' ∧ v'.Inv ∧ ∀ i, v'.value i = if i = k then 0 else v.value i := by
  have key : (k ∈ v.entries.map Prod.fst ∨ ∃ m, v = .rem m) ∧ v.erase k = some v' := by
    cases v with
    | rem m => exact ⟨.inr ⟨m, rfl⟩, h⟩
    | loc l =>
      simp only [FSV.eraseChecked] at h
      split at h
      · rename_i hs
        refine ⟨.inl ?_, h⟩
        by_contra hn
        rw [lookup_eq_none.2 (show k ∉ l.map Prod.fst from hn)] at hs
        simp at hs
      · simp at h
  obtain ⟨v'', h1, h2, h3⟩ := C25_erase_partial v hv k key.1
  rw [key.2, Option.some.injEq] at h1
  subst h1
  exact ⟨key.2, h2, h3⟩

structure L1Inv (frozen : Nat → Bool) (base : Nat → K) (st : L1St K) : Prop where
  qi : st.q.Inv
  wi : st.w.Inv
  bal : ∀ i, st.w.value i = base i + st.q.value i
  bound : ∀ i, |st.q.value i| ≤ st.u
  zero : ∀ i, (frozen i = true ∨ i = 0) → st.q.value i = 0

theorem put_spec {L : Nat} {v v' : FSV K} (hv : v.Inv) {k : Nat} {x : K}
    (h : (if x = 0 then v.eraseChecked k else some (v.setValue L k x)) = some v') :
    (if x = 0 then v.erase k else some (v.setValue L k x)) = some v' ∧ v'.Inv ∧
      ∀ i, v'.value i = if i = k then x else v.value i := by
  split at h
  · rename_i hx
    rw [if_pos hx, hx]
    exact checked_spec hv h
  · rename_i hx
    rw [if_neg hx]
    rw [Option.some.injEq] at h
    subst h
    exact ⟨rfl, update_inv L hv _ _, fun i => value_update L v k _ i⟩

theorem penalty_spec {L : Nat} {frozen : Nat → Bool} {base : Nat → K} {st st' : L1St K} {i : Nat}
    (hi : L1Inv frozen base st) (hz : frozen i = false) (h0 : i ≠ 0)
    (h : applyPenalty FSV.eraseChecked L st i = some st') :
    applyPenalty FSV.erase L st i = some st' ∧ L1Inv frozen base st' ∧ st'.u = st.u ∧
      (∀ j, Shrunk (st.w.value j) (st'.w.value j)) ∧ (∀ j, j ≠ i → st'.q.value j = st.q.value j) := by
  unfold applyPenalty at h ⊢
  simp only [Option.bind_eq_some_iff, Option.some.injEq] at h ⊢
  obtain ⟨q', hq, w', hw, rfl⟩ := h
  obtain ⟨hq1, hq2, hq3⟩ := put_spec hi.qi hq
  obtain ⟨hw1, hw2, hw3⟩ := put_spec hi.wi hw
  obtain ⟨hs, hb⟩ := pen_step st.u (st.q.value i) (st.w.value i) (hi.bound i)
  refine ⟨⟨q', hq1, w', hw1, rfl⟩, ⟨hq2, hw2, ?_, ?_, ?_⟩, rfl, ?_, ?_⟩
  · intro j
    simp only [hq3, hw3]
    split
    · rename_i hj
      have := hi.bal i
      rw [hj]; linarith
    · exact hi.bal j
  · intro j
    simp only [hq3]
    split
    · exact hb
    · exact hi.bound j
  · intro j hj
    simp only [hq3]
    rw [if_neg (by rintro rfl; rcases hj with hj | hj; · rw [hz] at hj; cases hj
                   · exact h0 hj)]
    exact hi.zero j hj
  · intro j
    simp only [hw3]
    split
    · rename_i hj; rw [hj]; exact hs
    · exact Shrunk.refl _
  · intro j hj
    simp only [hq3, if_neg hj]

theorem penalties_spec {L : Nat} {frozen : Nat → Bool} {base : Nat → K} (is : List Nat) (h0 : ∀ i ∈ is, i ≠ 0) :
    ∀ {st st' : L1St K}, L1Inv frozen base st → penalties FSV.eraseChecked L frozen is st = some st' →
    penalties FSV.erase L frozen is st = some st' ∧ L1Inv frozen base st' ∧ st'.u = st.u ∧
      (∀ j, Shrunk (st.w.value j) (st'.w.value j)) ∧ (∀ j, j ∉ is → st'.q.value j = st.q.value j) := by
  induction is with
  | nil =>
    intro st st' hi h
    simp only [penalties, Option.some.injEq] at h ⊢
    subst h
    exact ⟨rfl, hi, rfl, fun j => Shrunk.refl _, fun _ _ => rfl⟩
  | cons i is ih =>
    intro st st' hi h
    simp only [penalties, Option.bind_eq_some_iff] at h ⊢
    obtain ⟨st1, h1, h2⟩ := h
    have key : (if frozen i then some st else applyPenalty FSV.erase L st i) = some st1 ∧ L1Inv frozen base st1 ∧
        st1.u = st.u ∧ (∀ j, Shrunk (st.w.value j) (st1.w.value j)) ∧
        (∀ j, j ≠ i → st1.q.value j = st.q.value j) := by
      split at h1
      · rename_i hf
        rw [if_pos hf]
        rw [Option.some.injEq] at h1; subst h1
        exact ⟨rfl, hi, rfl, fun j => Shrunk.refl _, fun _ _ => rfl⟩
      · rename_i hf
        rw [if_neg hf]
        exact penalty_spec hi (by simpa using hf) (h0 i (by simp)) h1
    obtain ⟨k1, k2, k3, k4, k5⟩ := key
    obtain ⟨r1, r2, r3, r4, r5⟩ := ih (fun j hj => h0 j (by simp [hj])) k2 h2
    refine ⟨⟨st1, k1, r1⟩, r2, r3.trans k3, fun j => (k4 j).trans (r4 j), fun j hj => ?_⟩
    simp only [List.mem_cons, not_or] at hj
    rw [r5 j hj.2, k5 j hj.1]

theorem gradStep_spec (L : Nat) (frozen : Nat → Bool) (eta : K) (w g : FSV K) (hw : w.Inv) (hg : g.Inv) :
    (gradStep L frozen eta w g).Inv ∧
    ∀ i, (gradStep L frozen eta w g).value i = w.value i + if frozen i then 0 else eta * g.value i := by
  have key : ∀ (es : List (Nat × K)) (w : FSV K), w.Inv → (es.map Prod.fst).Nodup →
      (es.foldl (fun w p => if frozen p.1 then w else w.addValue L p.1 (eta * p.2)) w).Inv ∧
      ∀ i, (es.foldl (fun w p => if frozen p.1 then w else w.addValue L p.1 (eta * p.2)) w).value i =
        w.value i + if frozen i then 0 else eta * ((lookup es i).getD 0) := by
    intro es
    induction es with
    | nil => intro w hw _; exact ⟨hw, fun i => by simp [lookup]⟩
    | cons p es ih =>
      intro w hw hnd
      obtain ⟨k, x⟩ := p
      simp only [List.map_cons, List.nodup_cons] at hnd
      simp only [List.foldl_cons]
      have hw1 : (if frozen k = true then w else w.addValue L k (eta * x)).Inv := by
        split
        · exact hw
        · exact update_inv L hw _ _
      obtain ⟨r1, r2⟩ := ih _ hw1 hnd.2
      refine ⟨r1, fun i => ?_⟩
      rw [r2]
      simp only [lookup]
      by_cases hf : frozen k = true
      · rw [if_pos hf]
        by_cases hki : k = i
        · subst hki; simp [hf]
        · simp [hki]
      · rw [if_neg hf, FSV.addValue, value_update]
        by_cases hki : k = i
        · subst hki
          rw [lookup_eq_none.2 hnd.1]
          simp [hf]
        · simp [hki, Ne.symm hki]
  exact key g.entries w hw hg

theorem update_spec {L : Nat} {C N : K} (hCN : 0 ≤ C / N) {frozen : Nat → Bool} {base : Nat → K} {st st' : L1St K}
    {eta : K} {g : FSV K} {mf : Nat} (he : 0 ≤ eta) (hg : g.Inv) (hi : L1Inv frozen base st)
    (h : l1Update FSV.eraseChecked L C N frozen st eta g mf = some st') :
    l1Update FSV.erase L C N frozen st eta g mf = some st' ∧
    L1Inv frozen (fun i => base i + if frozen i then 0 else eta * g.value i) st' ∧
    st'.u = st.u + eta * C / N ∧
    (∀ j, Shrunk (st.w.value j + if frozen j then 0 else eta * g.value j) (st'.w.value j)) ∧
    (∀ j, mf ≤ j → st'.q.value j = st.q.value j) := by
  unfold l1Update at h ⊢
  obtain ⟨g1, g2⟩ := gradStep_spec L frozen eta st.w g hi.wi hg
  have hu : 0 ≤ eta * C / N := by rw [mul_div_assoc]; exact mul_nonneg he hCN
  have hi' : L1Inv frozen (fun i => base i + if frozen i then 0 else eta * g.value i)
      ⟨st.u + eta * C / N, st.q, gradStep L frozen eta st.w g⟩ := by
    refine ⟨hi.qi, g1, fun i => ?_, fun i => ?_, hi.zero⟩
    · simp only [g2, hi.bal i]; ring
    · have := hi.bound i
      simp only; linarith
  obtain ⟨r1, r2, r3, r4, r5⟩ := penalties_spec (List.range' 1 (mf - 1))
    (fun i hi => by have := List.mem_range'_1.1 hi; omega) hi' h
  refine ⟨r1, r2, r3, fun j => ?_, fun j hj => r5 j fun hm => ?_⟩
  · have := r4 j
    simp only [g2] at this
    exact this
  · have := List.mem_range'_1.1 hm; omega

theorem run_spec {L : Nat} {C N : K} (hCN : 0 ≤ C / N) {frozen : Nat → Bool} (steps : List (K × FSV K × Nat)) :
    ∀ {base : Nat → K} {st st' : L1St K}, (∀ s ∈ steps, 0 ≤ s.1 ∧ s.2.1.Inv) → L1Inv frozen base st →
    l1Run FSV.eraseChecked L C N frozen steps st = some st' →
    l1Run FSV.erase L C N frozen steps st = some st' ∧
    L1Inv frozen (fun i => base i + (steps.map fun s => if frozen i then 0 else s.1 * s.2.1.value i).sum) st' ∧
    st'.u = st.u + budget C N steps ∧
    (∀ j, (∀ s ∈ steps, s.2.2 ≤ j) → st'.q.value j = st.q.value j) := by
  induction steps with
  | nil =>
    intro base st st' _ hi h
    simp only [l1Run, Option.some.injEq] at h ⊢
    subst h
    refine ⟨rfl, ?_, by simp [budget], fun _ _ => rfl⟩
    simpa using hi
  | cons s steps ih =>
    obtain ⟨eta, g, mf⟩ := s
    intro base st st' hs hi h
    simp only [l1Run, Option.bind_eq_some_iff] at h ⊢
    obtain ⟨st1, h1, h2⟩ := h
    obtain ⟨a1, a2, a3, a4, a5⟩ := update_spec hCN (hs _ List.mem_cons_self).1 (hs _ List.mem_cons_self).2 hi h1
    obtain ⟨b1, b2, b3, b4⟩ := ih (fun s hm => hs s (by simp [hm])) a2 h2
    refine ⟨⟨st1, a1, b1⟩, ?_, ?_, ?_⟩
    · simpa [add_assoc] using b2
    · rw [b3, a3]; simp [budget, add_assoc]
    · intro j hj
      rw [b4 j fun s hm => hj s (by simp [hm]), a5 j (hj _ List.mem_cons_self)]

theorem start_inv (frozen : Nat → Bool) (w0 : FSV K) (hw : w0.Inv) :
    L1Inv frozen (fun i => w0.value i) ⟨0, .empty, w0⟩ := by
  refine ⟨by simp [FSV.Inv, FSV.empty, FSV.entries], hw, fun i => ?_, fun i => ?_, fun i _ => ?_⟩ <;>
    simp [FSV.value, FSV.empty, FSV.entries, lookup]

/-- C60 (partial), whole histories.  Take any sequence of updates of a new optimizer (no `ResetEpoch` in
between) with non-negative learning rates, in which no absent key is erased from a vector in its local
representation (`eraseChecked`).  Then the code's result is the same, and for every feature the difference
between its weight and the weight that the gradient steps alone would have given — the total penalty applied
to it — is at most the budget `Σ eta·C/N`.  The penalty is zero for frozen features, for feature 0 and for
features that are never below `max_feat`.
Missing: executions that erase an absent key (`C60_absent_key_fails`) and `ResetEpoch` (`C60_reset_fails`). -/
theorem C60_total_penalty_within_budget_partial (L : Nat) (C N : K) (hCN : 0 ≤ C / N) (frozen : Nat → Bool)
    (steps : List (K × FSV K × Nat)) (hs : ∀ s ∈ steps, 0 ≤ s.1 ∧ s.2.1.Inv) (w0 : FSV K) (hw : w0.Inv)
    (st : L1St K) (hrun : l1Run FSV.eraseChecked L C N frozen steps ⟨0, .empty, w0⟩ = some st) :
    l1Run FSV.erase L C N frozen steps ⟨0, .empty, w0⟩ = some st ∧
    (∀ i, |st.w.value i - unpenalised frozen w0 i steps| ≤ budget C N steps) ∧
    (∀ i, (frozen i = true ∨ i = 0 ∨ ∀ s ∈ steps, s.2.2 ≤ i) → st.w.value i = unpenalised frozen w0 i steps) := by
  obtain ⟨r1, r2, r3, r4⟩ := run_spec hCN steps hs (start_inv frozen w0 hw) hrun
  have hbal : ∀ i, st.w.value i = unpenalised frozen w0 i steps + st.q.value i := r2.bal
  refine ⟨r1, fun i => ?_, fun i hi => ?_⟩
  · have := r2.bound i
    rw [r3] at this
    rw [hbal i]; simpa using this
  · rw [hbal i]
    have : st.q.value i = 0 := by
      rcases hi with hi | hi | hi
      · exact r2.zero i (.inl hi)
      · exact r2.zero i (.inr hi)
      · rw [r4 i hi]; simp [FSV.value, FSV.empty, FSV.entries, lookup]
    rw [this, add_zero]

/-- C60 (partial), one step: after any such history, one more update moves every weight from the value that
its gradient step gives towards zero, and never across zero. -/
theorem C60_penalty_shrinks_partial (L : Nat) (C N : K) (hCN : 0 ≤ C / N) (frozen : Nat → Bool)
    (steps : List (K × FSV K × Nat)) (hs : ∀ s ∈ steps, 0 ≤ s.1 ∧ s.2.1.Inv) (w0 : FSV K) (hw : w0.Inv)
    (st st' : L1St K) (hrun : l1Run FSV.eraseChecked L C N frozen steps ⟨0, .empty, w0⟩ = some st)
    (eta : K) (g : FSV K) (mf : Nat) (he : 0 ≤ eta) (hg : g.Inv)
    (hupd : l1Update FSV.eraseChecked L C N frozen st eta g mf = some st') :
    l1Update FSV.erase L C N frozen st eta g mf = some st' ∧
    ∀ i, Shrunk (unpenalised frozen st.w i [(eta, g, mf)]) (st'.w.value i) := by
  obtain ⟨_, r2, _, _⟩ := run_spec hCN steps hs (start_inv frozen w0 hw) hrun
  obtain ⟨a1, _, _, a4, _⟩ := update_spec hCN he hg r2 hupd
  refine ⟨a1, fun i => ?_⟩
  simpa [unpenalised] using a4 i

omit [IsStrictOrderedRing K] in
/-- Once both vectors have spilled to their maps, no update erases in local representation, so the two
theorems above apply to every further update. -/
theorem C60_map_mode_partial (L : Nat) (C N : K) (frozen : Nat → Bool) (u : K) (mq mw : List (Nat × K))
    (eta : K) (g : FSV K) (mf : Nat) :
    ∃ u' mq' mw', l1Update FSV.eraseChecked L C N frozen ⟨u, .rem mq, .rem mw⟩ eta g mf =
      some ⟨u', .rem mq', .rem mw'⟩ := by
  have hg : ∀ (es : List (Nat × K)) (m : List (Nat × K)), ∃ m', es.foldl
      (fun w p => if frozen p.1 then w else w.addValue L p.1 (eta * p.2)) (FSV.rem m) = .rem m' := by
    intro es
    induction es with
    | nil => intro m; exact ⟨m, rfl⟩
    | cons p es ih =>
      intro m
      simp only [List.foldl_cons]
      split
      · exact ih m
      · exact ih _
  have hp : ∀ (is : List Nat) (u : K) (mq mw : List (Nat × K)), ∃ u' mq' mw',
      penalties FSV.eraseChecked L frozen is ⟨u, .rem mq, .rem mw⟩ = some ⟨u', .rem mq', .rem mw'⟩ := by
    intro is
    induction is with
    | nil => intro u mq mw; exact ⟨u, mq, mw, rfl⟩
    | cons i is ih =>
      intro u mq mw
      simp only [penalties]
      split
      · exact ih u mq mw
      · have put : ∀ (m : List (Nat × K)) (x : K), ∃ m', (if x = 0 then (FSV.rem m).eraseChecked i
            else some ((FSV.rem m).setValue L i x)) = some (.rem m') := by
          intro m x
          split
          · exact ⟨_, rfl⟩
          · exact ⟨_, rfl⟩
        obtain ⟨a, ha⟩ := put mq ((FSV.rem mq).value i +
          (penalised u ((FSV.rem mq).value i) ((FSV.rem mw).value i) - (FSV.rem mw).value i))
        obtain ⟨b, hb⟩ := put mw (penalised u ((FSV.rem mq).value i) ((FSV.rem mw).value i))
        simp only [applyPenalty, ha, hb, Option.bind_some]
        exact ih _ _ _
  unfold l1Update gradStep
  obtain ⟨m', hm'⟩ := hg g.entries mw
  simp only [hm']
  exact hp _ _ _ _

/-- C60 fails in general: with weight 5 for feature 1 and none for feature 2, one update with gradient 1 for
feature 1, rate 1, C = 1 and N = 10 (budget 1/10) loses the weight of feature 1 altogether, because the zero
weight of feature 2 is erased from a vector that does not contain it. -/
theorem C60_absent_key_fails :
    ∃ st : L1St ℚ, l1Run FSV.erase 7 1 10 (fun _ => false) [(1, .loc [(1, 1)], 3)] ⟨0, .empty, .loc [(1, 5)]⟩ = some st ∧
      unpenalised (fun _ => false) (.loc [(1, 5)]) 1 [((1 : ℚ), .loc [(1, 1)], 3)] = 6 ∧ st.w.value 1 = 0 ∧
      budget (1 : ℚ) 10 [((1 : ℚ), .loc [(1, 1)], 3)] = 1 / 10 :=
  ⟨⟨1/10, .loc [], .loc []⟩, by decide +kernel, by decide +kernel, by decide +kernel, by decide +kernel⟩

/-- In a new optimizer even the first penalty is undefined behaviour when feature 1 has weight zero. -/
theorem C60_first_update_fails : l1Run FSV.erase 7 (1 : ℚ) 10 (fun _ => false) [(1, .loc [(2, 1)], 3)]
    ⟨0, .empty, .empty⟩ = none := by decide +kernel

/-- C60 fails across epochs: `ResetEpoch` clears the budget but not the applied penalties, so the next update
increases the magnitude of a weight (its gradient is zero; the weight goes from 47/10 to 49/10). -/
theorem C60_reset_fails :
    ∃ st st' : L1St ℚ,
      l1Run FSV.erase 7 1 10 (fun _ => false) [(1, .empty, 2), (1, .empty, 2), (1, .empty, 2)]
        ⟨0, .empty, .loc [(1, 5)]⟩ = some st ∧
      l1Run FSV.erase 7 1 10 (fun _ => false) [(1, .empty, 2)] (resetEpoch st) = some st' ∧
      st.w.value 1 = 47 / 10 ∧ st'.w.value 1 = 49 / 10 :=
  ⟨⟨3/10, .loc [(1, -3/10)], .loc [(1, 47/10)]⟩, ⟨1/10, .loc [(1, -1/10)], .loc [(1, 49/10)]⟩,
    by decide +kernel, by decide +kernel, by decide +kernel, by decide +kernel⟩

/-- Non-vacuity: two updates of two features. -/
example : ∃ st, l1Run FSV.eraseChecked 7 (1 : ℚ) 10 (fun _ => false)
    [(1, .loc [(1, 1), (2, -3)], 3), (1/2, .loc [(2, 4)], 3)] ⟨0, .empty, .empty⟩ = some st ∧
    st.w.value 1 = 17 / 20 ∧ st.w.value 2 = -17 / 20 :=
  ⟨⟨3/20, .loc [(1, -3/20), (2, 3/20)], .loc [(1, 17/20), (2, -17/20)]⟩,
    by decide +kernel, by decide +kernel, by decide +kernel⟩

end Cdec.Sparse
