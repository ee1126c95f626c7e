import Verif.Extract.LcpSpec
import Verif.Props.C39
/-!
# C41: The LCP array is correct
-/
namespace Cdec.Extract
open Spec

/-- The specification is the longest common prefix: the two lists agree on it and on no longer prefix. -/
theorem lcpLen_spec (a b : List Nat) :
    a.take (lcpLen a b) = b.take (lcpLen a b) ∧ lcpLen a b ≤ a.length ∧ lcpLen a b ≤ b.length ∧
    ∀ k, k ≤ a.length → k ≤ b.length → a.take k = b.take k → k ≤ lcpLen a b := by
  induction a generalizing b with
  | nil => simp [lcpLen]
  | cons x xs ih =>
    cases b with
    | nil => simp [lcpLen]
    | cons y ys =>
      obtain ⟨h1, h2, h3, h4⟩ := ih ys
      by_cases h : x = y
      · subst h
        simp only [lcpLen, if_true, List.take_succ_cons, h1, List.length_cons]
        refine ⟨trivial, by omega, by omega, ?_⟩
        intro k hk1 hk2 he
        cases k with
        | zero => omega
        | succ k =>
          simp only [List.take_succ_cons, List.cons.injEq, true_and] at he
          have := h4 k (by omega) (by omega) he
          omega
      · simp only [lcpLen, h, if_false, List.take_zero]
        refine ⟨trivial, by omega, by omega, ?_⟩
        intro k hk1 hk2 he
        cases k with
        | zero => omega
        | succ k =>
          simp only [List.take_succ_cons, List.cons.injEq] at he
          exact absurd he.1 h

theorem lcpLen_lt (a b : List Nat) (k : Nat) (hk : k ≤ lcpLen a b) :
    k < lcpLen a b ↔ ∃ x, a[k]? = some x ∧ b[k]? = some x := by
  induction a generalizing b k with
  | nil => simp [lcpLen]
  | cons x xs ih =>
    cases b with
    | nil => simp [lcpLen]
    | cons y ys =>
      by_cases h : x = y
      · subst h
        simp only [lcpLen, if_true] at hk ⊢
        cases k with
        | zero => simp
        | succ k => simpa using ih ys k (by omega)
      · simp only [lcpLen, h, if_false] at hk ⊢
        have : k = 0 := by omega
        subst this
        simp [eq_comm]; exact h

/-- A list between two others shares with the upper one at least what the lower one shares. -/
theorem lcpLen_squeeze (a b c : List Nat) (h1 : a ≤ b) (h2 : b < c) : lcpLen c a ≤ lcpLen c b := by
  induction c generalizing a b with
  | nil => simp [lcpLen]
  | cons z zs ih =>
    cases a with
    | nil => simp [lcpLen]
    | cons x xs =>
      cases b with
      | nil => exact absurd h1 (by simp)
      | cons y ys =>
        by_cases h : z = x
        · subst h
          have hy : y = z := by
            rw [List.cons_lt_cons_iff] at h2
            have h1' := h1
            rw [List.cons_le_cons_iff] at h1'
            omega
          subst hy
          simp only [lcpLen, if_true]
          have h1' : xs ≤ ys := by
            rw [List.cons_le_cons_iff] at h1
            rcases h1 with h | h
            · omega
            · exact h.2
          have h2' : ys < zs := by
            rw [List.cons_lt_cons_iff] at h2
            rcases h2 with h | h
            · omega
            · exact h.2
          have := ih xs ys h1' h2'
          omega
        · simp [lcpLen, h]

theorem extendPrefix_spec (data : List Nat) (i j : Nat) : ∀ fuel k,
    k ≤ lcpLen (data.drop i) (data.drop j) → data.length - i - k ≤ fuel →
    extendPrefix data i j fuel k = lcpLen (data.drop i) (data.drop j) := by
  have hlen := (lcpLen_spec (data.drop i) (data.drop j)).2.1
  rw [List.length_drop] at hlen
  have hcond : ∀ k, k ≤ lcpLen (data.drop i) (data.drop j) →
      ((i + k < data.length ∧ j + k < data.length ∧ data.getD (i + k) 0 = data.getD (j + k) 0) ↔
        k < lcpLen (data.drop i) (data.drop j)) := by
    intro k hk
    rw [lcpLen_lt _ _ _ hk, List.getElem?_drop, List.getElem?_drop]
    constructor
    · rintro ⟨a1, a2, a3⟩
      refine ⟨data.getD (i + k) 0, ?_, ?_⟩
      · rw [List.getD_eq_getElem?_getD, List.getElem?_eq_getElem a1]; rfl
      · rw [a3, List.getD_eq_getElem?_getD, List.getElem?_eq_getElem a2]; rfl
    · rintro ⟨x, e1, e2⟩
      refine ⟨(List.getElem?_eq_some_iff.1 e1).1, (List.getElem?_eq_some_iff.1 e2).1, ?_⟩
      rw [List.getD_eq_getElem?_getD, List.getD_eq_getElem?_getD, e1, e2]
  intro fuel
  induction fuel with
  | zero => intro k h1 h2; simp only [extendPrefix]; omega
  | succ fuel ih =>
    intro k h1 h2
    unfold extendPrefix
    by_cases hc : k < lcpLen (data.drop i) (data.drop j)
    · rw [if_pos ((hcond k h1).2 hc)]
      exact ih (k + 1) (by omega) (by omega)
    · rw [if_neg (fun h => hc ((hcond k h1).1 h))]
      omega

theorem rankOf_spec {sa : List Nat} (hn : sa.Nodup) (r p : Nat) (h : sa[r]? = some p) : rankOf sa p = r := by
  have gen : ∀ (xs : List Nat) k (rk : Nat → Nat), xs.Nodup → ∀ r p, xs[r]? = some p →
      (xs.zipIdx k).foldl (fun rk pi => upd rk pi.1 pi.2) rk p = k + r := by
    intro xs
    induction xs with
    | nil => intro k rk _ r p h; simp at h
    | cons x xs ih =>
      intro k rk hn r p h
      rw [List.nodup_cons] at hn
      rw [List.zipIdx_cons, List.foldl_cons]
      cases r with
      | zero =>
        simp only [List.getElem?_cons_zero, Option.some.injEq] at h
        subst h
        have keep : ∀ (ys : List Nat) k (rk : Nat → Nat), x ∉ ys →
            (ys.zipIdx k).foldl (fun rk pi => upd rk pi.1 pi.2) rk x = rk x := by
          intro ys
          induction ys with
          | nil => intro k rk _; rfl
          | cons y ys ih' =>
            intro k rk hy
            rw [List.mem_cons, not_or] at hy
            rw [List.zipIdx_cons, List.foldl_cons, ih' _ _ hy.2]
            exact upd_ne _ _ hy.1
        rw [keep _ _ _ hn.1]; simp [upd]
      | succ r =>
        simp only [List.getElem?_cons_succ] at h
        rw [ih _ _ hn.2 r p h]; omega
  have := gen sa 0 (fun _ => 0) hn r p h
  simpa [rankOf] using this

/-- At rank 0 the array holds -1 and at every other rank the length of the longest common prefix of the suffix at
that rank and the suffix at the previous rank. -/
theorem C41_lcp (lines : List (List String)) (h : ∀ l ∈ lines, "__NULL__" ∉ l) (rnd : Nat → Nat) (s : SuffixArray)
    (hs : buildSuffixArray (createDataArray lines).data (createDataArray lines).id2word.length rnd = some s) :
    (buildLCPArray (createDataArray lines).data s.sa).length = s.sa.length ∧
    (buildLCPArray (createDataArray lines).data s.sa)[0]? = some (-1) ∧
    ∀ (r p q : Nat), s.sa[r]? = some p → s.sa[r + 1]? = some q →
      (buildLCPArray (createDataArray lines).data s.sa)[r + 1]? =
        some (lcpLen ((createDataArray lines).data.drop q) ((createDataArray lines).data.drop p) : Int) := by
  have sok := saok_of_build h hs
  generalize (createDataArray lines).data = data at sok
  generalize (createDataArray lines).id2word.length = V at sok
  have hl := sok.length
  have hnd : s.sa.Nodup := sok.perm.nodup_iff.2 List.nodup_range
  -- ranks
  have hrk : ∀ r, r < data.length + 1 → rankOf s.sa (s.sa.getD r 0) = r := fun r hr =>
    rankOf_spec hnd r _ (sok.get hr).1
  have hsr : ∀ i, i ≤ data.length → rankOf s.sa i < data.length + 1 ∧ s.sa.getD (rankOf s.sa i) 0 = i := by
    intro i hi
    obtain ⟨r, hr, e⟩ := sok.exists_rank hi
    have := hrk r hr
    rw [e] at this
    rw [this]; exact ⟨hr, e⟩
  have hlt : ∀ i j, i ≤ data.length → j ≤ data.length → data.drop i < data.drop j →
      rankOf s.sa i < rankOf s.sa j := by
    intro i j hi hj hij
    obtain ⟨a1, a2⟩ := hsr i hi
    obtain ⟨b1, b2⟩ := hsr j hj
    by_contra hc
    rcases Nat.lt_or_ge (rankOf s.sa j) (rankOf s.sa i) with h' | h'
    · have := sok.lt h' a1
      rw [a2, b2] at this
      exact absurd this (List.lt_asymm hij)
    · have he : rankOf s.sa i = rankOf s.sa j := by omega
      rw [he, b2] at a2
      subst a2
      exact absurd hij (List.lt_irrefl _)
  let pred : Nat → Nat := fun i => s.sa.getD (rankOf s.sa i - 1) 0
  let L : Nat → Nat := fun i => lcpLen (data.drop i) (data.drop (pred i))
  -- the carried length is never too long
  have kasai : ∀ i, i + 1 ≤ data.length → 0 < rankOf s.sa i → 0 < rankOf s.sa (i + 1) → L i - 1 ≤ L (i + 1) := by
    intro i hi h0 h1
    by_cases h2 : L i ≤ 1
    · omega
    have hi' := hsr i (by omega)
    have hi1 := hsr (i + 1) (by omega)
    have hpj := sok.get (r := rankOf s.sa i - 1) (by omega)
    have hjlt : data.drop (pred i) < data.drop i := by
      have := sok.lt (show rankOf s.sa i - 1 < rankOf s.sa i by omega) hi'.1
      rwa [hi'.2] at this
    have hpl := (lcpLen_spec (data.drop i) (data.drop (pred i))).2.2.1
    have hLi : L i = lcpLen (data.drop i) (data.drop (pred i)) := rfl
    rw [List.length_drop] at hpl
    have hpj' : pred i < data.length := by omega
    have e1 : data.drop i = data[i] :: data.drop (i + 1) := List.drop_eq_getElem_cons (by omega)
    have e2 : data.drop (pred i) = data[pred i] :: data.drop (pred i + 1) := List.drop_eq_getElem_cons hpj'
    rw [e1, e2] at hLi hjlt
    by_cases hx : data[i] = data[pred i]
    swap
    · simp only [lcpLen, hx, if_false] at hLi; omega
    simp only [lcpLen, hx, if_true] at hLi
    rw [hx, List.cons_lt_cons_iff] at hjlt
    have hj1 : data.drop (pred i + 1) < data.drop (i + 1) := by
      rcases hjlt with h | h
      · omega
      · exact h.2
    have hr1 := hlt (pred i + 1) (i + 1) (by omega) hi hj1
    have hj1r := hsr (pred i + 1) (by omega)
    have hle : data.drop (pred i + 1) ≤ data.drop (pred (i + 1)) := by
      rcases Nat.lt_or_ge (rankOf s.sa (pred i + 1)) (rankOf s.sa (i + 1) - 1) with h | h
      · have := sok.lt h (by omega)
        rw [hj1r.2] at this
        exact List.le_of_lt this
      · have he : rankOf s.sa (i + 1) - 1 = rankOf s.sa (pred i + 1) := by omega
        show _ ≤ data.drop (s.sa.getD (rankOf s.sa (i + 1) - 1) 0)
        rw [he, hj1r.2]
        exact List.le_refl _
    have hlt2 : data.drop (pred (i + 1)) < data.drop (i + 1) := by
      have := sok.lt (show rankOf s.sa (i + 1) - 1 < rankOf s.sa (i + 1) by omega) hi1.1
      rwa [hi1.2] at this
    have := lcpLen_squeeze _ _ _ hle hlt2
    have hL1 : L (i + 1) = lcpLen (data.drop (i + 1)) (data.drop (pred (i + 1))) := rfl
    omega
  -- rank 0 is the end of the text
  have rank0 : ∀ i, i ≤ data.length → rankOf s.sa i = 0 → i = data.length := by
    intro i hi h0
    by_contra hc
    have := hlt data.length i (Nat.le_refl _) hi (by
      rw [List.drop_length, List.drop_eq_getElem_cons (by omega)]; exact List.nil_lt_cons _ _)
    omega
  have inv : ∀ k, k ≤ data.length + 1 →
      (∀ i, i < k → ((List.range k).foldl (lcpStep data s.sa (rankOf s.sa)) (fun _ => 0, 0)).1 (rankOf s.sa i) =
        if rankOf s.sa i = 0 then -1 else (L i : Int)) ∧
      (k ≤ data.length → 0 < rankOf s.sa k →
        ((List.range k).foldl (lcpStep data s.sa (rankOf s.sa)) (fun _ => 0, 0)).2 ≤ L k) := by
    intro k
    induction k with
    | zero => intro _; exact ⟨fun i hi => absurd hi (by omega), fun _ _ => by simp⟩
    | succ k ih =>
      intro hk
      obtain ⟨ih1, ih2⟩ := ih (by omega)
      rw [List.range_succ (n := k), List.foldl_append, List.foldl_cons, List.foldl_nil]
      generalize (List.range k).foldl (lcpStep data s.sa (rankOf s.sa)) (fun _ => 0, 0) = st at ih1 ih2
      have hinj : ∀ i, i < k → rankOf s.sa i ≠ rankOf s.sa k := by
        intro i hi he
        have a := (hsr i (by omega)).2
        have b := (hsr k (by omega)).2
        rw [he, b] at a; omega
      by_cases h0 : rankOf s.sa k = 0
      · have hkN := rank0 k (by omega) h0
        have e1 : (lcpStep data s.sa (rankOf s.sa) st k).1 = upd st.1 (rankOf s.sa k) (-1) := by
          simp only [lcpStep, h0, if_true]; split_ifs <;> rfl
        rw [e1]
        refine ⟨?_, fun h1 => by omega⟩
        intro i hi
        by_cases hik : i = k
        · subst hik; rw [upd_same, if_pos h0]
        · rw [upd_ne _ _ (hinj i (by omega))]; exact ih1 i (by omega)
      · have hext : extendPrefix data k (s.sa.getD (rankOf s.sa k - 1) 0) data.length st.2 = L k :=
          extendPrefix_spec data k _ _ _ (ih2 (by omega) (by omega)) (by omega)
        have e1 : (lcpStep data s.sa (rankOf s.sa) st k).1 = upd st.1 (rankOf s.sa k) (L k : Int) := by
          simp only [lcpStep, h0, if_false, hext]; split_ifs <;> rfl
        have e2 : (lcpStep data s.sa (rankOf s.sa) st k).2 = L k - 1 := by
          simp only [lcpStep, h0, if_false, hext]; split_ifs <;> simp only []; omega
        rw [e1, e2]
        refine ⟨?_, fun h1 h2 => kasai k h1 (by omega) h2⟩
        intro i hi
        by_cases hik : i = k
        · subst hik; rw [upd_same, if_neg h0]
        · rw [upd_ne _ _ (hinj i (by omega))]; exact ih1 i (by omega)
  have fin := (inv (data.length + 1) (Nat.le_refl _)).1
  have hget : ∀ r, r < data.length + 1 → (buildLCPArray data s.sa)[r]? =
      some (if r = 0 then -1 else (L (s.sa.getD r 0) : Int)) := by
    intro r hr
    have hr' := (sok.get hr).2
    have := fin (s.sa.getD r 0) (by omega)
    rw [hrk r hr] at this
    simp only [buildLCPArray, hl]
    rw [List.getElem?_map, List.getElem?_range hr, Option.map_some, this]
  refine ⟨by simp [buildLCPArray], by simpa using hget 0 (by omega), ?_⟩
  intro r p q hp hq
  have hr1 : r + 1 < data.length + 1 := by rw [← hl]; exact (List.getElem?_eq_some_iff.1 hq).1
  rw [hget (r + 1) hr1, if_neg (by omega)]
  have hq' : s.sa.getD (r + 1) 0 = q := by rw [List.getD_eq_getElem?_getD, hq]; rfl
  have hp' : s.sa.getD r 0 = p := by rw [List.getD_eq_getElem?_getD, hp]; rfl
  have hpred : pred q = p := by
    show s.sa.getD (rankOf s.sa q - 1) 0 = p
    rw [← hq', hrk (r + 1) hr1, Nat.add_sub_cancel, hp']
  simp only [hq', L, hpred]

example : buildLCPArray (createDataArray [["a", "b", "a", "b"], ["b", "a", "b"]]).data
      [9, 8, 4, 6, 2, 0, 7, 3, 5, 1] = [-1, 0, 1, 0, 3, 2, 0, 2, 1, 4] := by decide +kernel

end Cdec.Extract
