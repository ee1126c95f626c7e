/-! Generic fact about a loop `for i in 0..n` that at step `i` overwrites only cell `i`. -/
namespace Cdec.HG

theorem getD_set {K : Type} (l : List K) (i j : Nat) (a d : K) (h : i < l.length) :
    (l.set i a).getD j d = if j = i then a else l.getD j d := by
  simp only [List.getD_eq_getElem?_getD, List.getElem?_set]
  by_cases hij : j = i
  · subst hij; simp [h]
  · have : ¬ i = j := fun h => hij h.symm
    simp [hij, this]

theorem getD_set_ne {K : Type} (l : List K) (i j : Nat) (a d : K) (h : j ≠ i) :
    (l.set i a).getD j d = l.getD j d := by
  simp only [List.getD_eq_getElem?_getD, List.getElem?_set]
  have : ¬ i = j := fun e => h e.symm
  simp [this]

theorem forward {K : Type} (d : K) (step : Nat → List K → List K) (init : List K)
    (hlen : ∀ i acc, (step i acc).length = acc.length)
    (hne : ∀ i acc j, j ≠ i → (step i acc).getD j d = acc.getD j d) (n : Nat) :
    let R := (List.range n).foldl (fun acc i => step i acc) init
    R.length = init.length ∧ (∀ j, n ≤ j → R.getD j d = init.getD j d) ∧
    ∀ j < n, ∃ acc : List K, acc.length = init.length ∧
      (∀ k < j, acc.getD k d = R.getD k d) ∧ (∀ k, j ≤ k → acc.getD k d = init.getD k d) ∧
      R.getD j d = (step j acc).getD j d := by
  induction n with
  | zero => simp
  | succ n ih =>
    simp only [List.range_succ, List.foldl_append, List.foldl_cons, List.foldl_nil] at ih ⊢
    obtain ⟨h1, h2, h3⟩ := ih
    refine ⟨by rw [hlen, h1], fun j hj => by rw [hne _ _ _ (by omega), h2 j (by omega)], ?_⟩
    intro j hj
    by_cases hjn : j = n
    · subst hjn
      refine ⟨_, h1, fun k hk => ?_, fun k hk => h2 k hk, rfl⟩
      rw [hne _ _ _ (by omega)]
    · obtain ⟨acc, a1, a2, a3, a4⟩ := h3 j (by omega)
      refine ⟨acc, a1, fun k hk => ?_, a3, ?_⟩
      · rw [hne _ _ _ (by omega)]; exact a2 k hk
      · rw [hne _ _ _ (by omega)]; exact a4

end Cdec.HG
