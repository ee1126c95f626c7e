import Verif.Klm.LmAdjust
import Mathlib.Tactic.ByContra
namespace Cdec.Klm.Builder

/-- No `<s>` in second place. -/
def noBos1 (r : Gram × Nat) : Bool := r.1[1]? ≠ some kBOS

theorem noBos1_iff (r : Gram × Nat) : noBos1 r = true ↔ r.1[1]? ≠ some kBOS := by simp [noBos1]

theorem updateCopyFrom_spec (b : List (Gram × Nat)) (cur : Nat) : ∀ cf, cur ≤ cf → cf ≤ b.length →
    cur ≤ updateCopyFrom b cur cf ∧ updateCopyFrom b cur cf ≤ cf ∧
    (b.take (updateCopyFrom b cur cf)).filter noBos1 = (b.take cf).filter noBos1 ∧
    (cur < updateCopyFrom b cur cf → noBos1 (b.getD (updateCopyFrom b cur cf - 1) ([], 0)) = true) := by
  intro cf
  induction cf with
  | zero =>
    intro h _
    have : cur = 0 := by omega
    subst this
    simp [updateCopyFrom]
  | succ cf ih =>
    intro h hl
    rw [updateCopyFrom]
    by_cases h1 : cf < cur
    · rw [if_pos h1]
      have : cur = cf + 1 := by omega
      subst this
      simp
    · rw [if_neg h1]
      by_cases h2 : (b.getD cf ([], 0)).1[1]? ≠ some kBOS
      · rw [if_pos h2]
        refine ⟨h, le_refl _, rfl, fun _ => ?_⟩
        rw [Nat.add_sub_cancel, noBos1_iff]
        exact h2
      · rw [if_neg h2]
        obtain ⟨i1, i2, i3, i4⟩ := ih (by omega) (by omega)
        refine ⟨i1, by omega, ?_, i4⟩
        rw [i3, List.take_add_one, List.getElem?_eq_getElem (by omega), List.filter_append]
        have : noBos1 b[cf] = false := by
          rw [Bool.eq_false_iff, Ne, noBos1_iff]
          rw [List.getD_eq_getElem?_getD, List.getElem?_eq_getElem (show cf < b.length by omega)] at h2
          exact h2
        simp [this]

theorem split_two {α : Type} (b : List α) (i j : Nat) (hij : i < j) (hj : j < b.length) :
    ∃ A y M x R, b = A ++ y :: (M ++ x :: R) ∧ A.length = i ∧ i + 1 + M.length = j := by
  refine ⟨b.take i, b[i], (b.drop (i + 1)).take (j - (i + 1)), b[j], b.drop (j + 1), ?_, by simp; omega, by simp; omega⟩
  have h1 : b.drop (i + 1) = (b.drop (i + 1)).take (j - (i + 1)) ++ b[j] :: b.drop (j + 1) := by
    conv_lhs => rw [← List.take_append_drop (j - (i + 1)) (b.drop (i + 1))]
    congr 1
    rw [List.drop_drop, show i + 1 + (j - (i + 1)) = j by omega, List.drop_eq_getElem_cons hj]
  rw [← h1, ← List.drop_eq_getElem_cons (by omega), List.take_append_drop]

theorem collapseLoop_spec : ∀ (n : Nat) (b : List (Gram × Nat)) (cur cf : Nat), b.length = cur + n → cf ≤ b.length →
    (∀ k, k < cur → k < cf → noBos1 (b.getD k ([], 0)) = true) → (cur < cf → noBos1 (b.getD (cf - 1) ([], 0)) = true) →
    (collapseLoop b cur cf n).Perm ((b.take cf).filter noBos1) := by
  intro n
  induction n with
  | zero =>
    intro b cur cf hl hcf h1 _
    rw [collapseLoop, List.filter_eq_self.2]
    intro r hr
    obtain ⟨k, hk, rfl⟩ := List.getElem_of_mem hr
    rw [List.length_take] at hk
    have := h1 k (by omega) (by omega)
    rw [List.getD_eq_getElem?_getD, List.getElem?_eq_getElem (by omega)] at this
    simpa using this
  | succ n ih =>
    intro b cur cf hl hcf h1 h2
    rw [collapseLoop]
    by_cases hc : (b.getD cur ([], 0)).1[1]? = some kBOS ∧ cur + 1 < cf
    · rw [if_pos hc]
      simp only []
      obtain ⟨A, y, M, x, R, hb, hA, hM⟩ := split_two b cur (cf - 1) (by omega) (by omega)
      have hx : b.getD (cf - 1) ([], 0) = x := by
        rw [hb, List.getD_eq_getElem?_getD, List.getElem?_append_right (by omega)]
        rw [show cf - 1 - A.length = M.length + 1 by omega, List.getElem?_cons_succ, List.getElem?_append_right (by omega)]
        simp
      have hy : b.getD cur ([], 0) = y := by
        rw [hb, List.getD_eq_getElem?_getD, List.getElem?_append_right (by omega)]
        simp [hA]
      have hset : b.set cur x = A ++ x :: (M ++ x :: R) := by
        rw [hb, List.set_append_right _ _ (by omega)]
        simp [hA]
      have hPx : noBos1 x = true := hx ▸ h2 (by omega)
      have hPy : noBos1 y = false := by
        rw [Bool.eq_false_iff, Ne, noBos1_iff, ← hy]
        exact fun h => h hc.1
      rw [hx]
      obtain ⟨u1, u2, u3, u4⟩ := updateCopyFrom_spec (b.set cur x) cur (cf - 1) (by omega) (by simp; omega)
      refine (ih _ _ _ (by simp; omega) (by simp; omega) ?_ ?_).trans ?_
      · intro k hk hk2
        by_cases hkc : k = cur
        · rw [hkc, hset, List.getD_eq_getElem?_getD, List.getElem?_append_right (by omega)]
          simp [hA, hPx]
        · have := h1 k (by omega) (by omega)
          rw [List.getD_eq_getElem?_getD, List.getElem?_set_ne (by omega), ← List.getD_eq_getElem?_getD]
          exact this
      · intro h; exact u4 (by omega)
      · rw [u3, hset]
        have t1 : (A ++ x :: (M ++ x :: R)).take (cf - 1) = A ++ x :: M := by
          rw [show A ++ x :: (M ++ x :: R) = (A ++ x :: M) ++ x :: R by simp, List.take_left' (by simp; omega)]
        have t2 : b.take cf = A ++ y :: (M ++ [x]) := by
          rw [hb, show A ++ y :: (M ++ x :: R) = (A ++ y :: (M ++ [x])) ++ R by simp, List.take_left' (by simp; omega)]
        rw [t1, t2]
        simp only [List.filter_append, List.filter_cons, hPx, hPy, if_true, List.filter_nil]
        refine List.Perm.append_left _ ?_
        simpa using (List.perm_append_singleton x (M.filter noBos1)).symm
    · rw [if_neg hc]
      refine ih _ _ _ (by omega) hcf ?_ ?_
      · intro k hk hk2
        by_cases hkc : k = cur
        · subst hkc
          by_contra hb
          have hnb : (b.getD k ([], 0)).1[1]? = some kBOS := by
            by_contra h
            exact hb ((noBos1_iff _).2 h)
          have : cf = k + 1 := by
            by_contra hne
            exact hc ⟨hnb, by omega⟩
          have := h2 hk2
          rw [show cf - 1 = k by omega] at this
          exact hb this
        · exact h1 k (by omega) hk2
      · intro h; exact h2 (by omega)

end Cdec.Klm.Builder
