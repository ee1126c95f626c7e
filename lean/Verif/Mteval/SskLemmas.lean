import Verif.Mteval.Ssk
import Verif.Mteval.SskSpec
import Mathlib.Algebra.BigOperators.Ring.List
import Mathlib.Tactic.Ring
/-! Helper lemmas: sums over pairs of choices of places, and the table. -/
namespace Cdec.Mteval.Ssk
open Spec
variable {K α : Type} [CommSemiring K] [DecidableEq α]

theorem places_succ (n : Nat) : places (n + 1) = places n ++ (places n).map fun I => I ++ [n] := by
  unfold places
  rw [List.range_succ, List.sublists_concat]

theorem places_zero : places 0 = [[]] := rfl

theorem places_lt {n : Nat} {I : List Nat} (h : I ∈ places n) : ∀ x ∈ I, x < n := by
  intro x hx
  have := (List.mem_sublists.1 h).subset hx
  simpa using this

theorem headD_lt {n : Nat} {I : List Nat} (h : I ∈ places n) (hne : I ≠ []) (d : Nat) : I.headD d < n := by
  cases I with
  | nil => exact absurd rfl hne
  | cons x I => exact places_lt h x (by simp)

theorem headD_le {n : Nat} {I : List Nat} (h : I ∈ places n) : I.headD n ≤ n := by
  cases I with
  | nil => exact Nat.le_refl _
  | cons x I => exact Nat.le_of_lt (places_lt h x (by simp))

/-- A sum over pairs. -/
def pairs (w : List Nat → List Nat → K) (j k : Nat) : K := ((places j).map fun I => ((places k).map fun J => w I J).sum).sum

theorem pairs_congr {w w' : List Nat → List Nat → K} {j k : Nat} (h : ∀ I ∈ places j, ∀ J ∈ places k, w I J = w' I J) : pairs w j k = pairs w' j k := by
  unfold pairs
  congr 1
  refine List.map_congr_left fun I hI => ?_
  congr 1
  exact List.map_congr_left fun J hJ => h I hI J hJ

theorem pairs_succ_left (w : List Nat → List Nat → K) (j k : Nat) : pairs w (j + 1) k = pairs w j k + pairs (fun I J => w (I ++ [j]) J) j k := by
  unfold pairs
  rw [places_succ, List.map_append, List.sum_append, List.map_map]
  rfl

theorem pairs_succ_right (w : List Nat → List Nat → K) (j k : Nat) : pairs w j (k + 1) = pairs w j k + pairs (fun I J => w I (J ++ [k])) j k := by
  unfold pairs
  rw [← List.sum_map_add]
  congr 1
  refine List.map_congr_left fun I _ => ?_
  rw [places_succ, List.map_append, List.sum_append, List.map_map]
  rfl

theorem pairs_zero {w : List Nat → List Nat → K} {j k : Nat} (h : ∀ I ∈ places j, ∀ J ∈ places k, w I J = 0) : pairs w j k = 0 := by
  rw [pairs_congr h]
  unfold pairs
  simp

theorem pairs_mul (c : K) (w : List Nat → List Nat → K) (j k : Nat) : pairs (fun I J => c * w I J) j k = c * pairs w j k := by
  unfold pairs
  simp only [List.sum_map_mul_left]

theorem pairs_add (w w' : List Nat → List Nat → K) (j k : Nat) : pairs (fun I J => w I J + w' I J) j k = pairs w j k + pairs w' j k := by
  unfold pairs
  simp only [List.sum_map_add]

theorem pairs_zero_left (w : List Nat → List Nat → K) (k : Nat) (h : ∀ J ∈ places k, w [] J = 0) : pairs w 0 k = 0 := by
  refine pairs_zero fun I hI J hJ => ?_
  rw [places_zero, List.mem_singleton] at hI
  rw [hI]
  exact h J hJ

theorem pairs_zero_right (w : List Nat → List Nat → K) (j : Nat) (h : ∀ I ∈ places j, w I [] = 0) : pairs w j 0 = 0 := by
  refine pairs_zero fun I hI J hJ => ?_
  rw [places_zero, List.mem_singleton] at hJ
  rw [hJ]
  exact h I hI

theorem at_append (s : List α) (I : List Nat) (j : Nat) : at' s (I ++ [j]) = at' s I ++ [s[j]?] := by simp [at']

theorem at_eq_append (s t : List α) (I J : List Nat) (j k : Nat) : at' s (I ++ [j]) = at' t (J ++ [k]) ↔ at' s I = at' t J ∧ s[j]? = t[k]? := by
  rw [at_append, at_append]
  constructor
  · intro h
    have := List.append_inj' h rfl
    exact ⟨this.1, by simpa using this.2⟩
  · rintro ⟨h1, h2⟩
    rw [h1, h2]

theorem at_length {s t : List α} {I J : List Nat} (h : at' s I = at' t J) : I.length = J.length := by
  have := congrArg List.length h
  simpa [at'] using this

/-- The weight of two choices of `i` places, by the distances of the first places to the ends `j` and `k`. -/
def lead (lam : K) (s t : List α) (i j k : Nat) (I J : List Nat) : K :=
  if I.length = i ∧ at' s I = at' t J then lam ^ (j - I.headD j) * lam ^ (k - J.headD k) else 0

/-- What `kp[i][j][k]` should be. -/
def G (lam : K) (s t : List α) (i j k : Nat) : K := pairs (lead lam s t i j k) j k

/-- What `kpp` should be. -/
def D (lam : K) (s t : List α) (i j k : Nat) : K := pairs (fun I J => lead lam s t (i + 1) (j + 1) k (I ++ [j]) J) j k

variable {lam : K} {s t : List α}

theorem lead_succ_left {i j k : Nat} {I J : List Nat} (hI : I ∈ places j) : lead lam s t (i + 1) (j + 1) k I J = lam * lead lam s t (i + 1) j k I J := by
  unfold lead
  split
  · rename_i h
    have hne : I ≠ [] := by intro h0; rw [h0] at h; simp at h
    have h1 := headD_lt hI hne 0
    cases I with
    | nil => exact absurd rfl hne
    | cons x I =>
      simp only [List.headD_cons] at *
      rw [show j + 1 - x = (j - x) + 1 by omega, pow_succ]
      ring
  · rw [mul_zero]

theorem lead_succ_right {i j k : Nat} {I J : List Nat} (hJ : J ∈ places k) : lead lam s t (i + 1) j (k + 1) I J = lam * lead lam s t (i + 1) j k I J := by
  unfold lead
  split
  · rename_i h
    have hne : J ≠ [] := by intro h0; have := at_length h.2; rw [h0, h.1] at this; simp at this
    have h1 := headD_lt hJ hne 0
    cases J with
    | nil => exact absurd rfl hne
    | cons x J =>
      simp only [List.headD_cons] at *
      rw [show k + 1 - x = (k - x) + 1 by omega, pow_succ]
      ring
  · rw [mul_zero]

theorem headD_append (I : List Nat) (j d : Nat) : (I ++ [j]).headD d = I.headD j := by cases I <;> rfl

theorem lead_append {i j k : Nat} {I J : List Nat} (hI : I ∈ places j) (hJ : J ∈ places k) :
    lead lam s t (i + 1) (j + 1) (k + 1) (I ++ [j]) (J ++ [k]) = lam * (lam * same s t j k) * lead lam s t i j k I J := by
  unfold lead same
  simp only [at_eq_append, headD_append]
  have h1 := headD_le hI
  have h2 := headD_le hJ
  by_cases h : I.length = i ∧ at' s I = at' t J
  · by_cases h3 : s[j]? = t[k]?
    · rw [if_pos ⟨by simp [h.1], h.2, h3⟩, if_pos h, if_pos h3, show j + 1 - I.headD j = (j - I.headD j) + 1 by omega, show k + 1 - J.headD k = (k - J.headD k) + 1 by omega, pow_succ, pow_succ]
      ring
    · rw [if_neg fun h4 => h3 h4.2.2, if_neg h3]
      ring
  · rw [if_neg fun h4 => h ⟨by simpa using h4.1, h4.2.1⟩, if_neg h]
    ring

theorem D_zero (i j : Nat) : D lam s t i j 0 = 0 := by
  refine pairs_zero_right _ _ fun I _ => ?_
  unfold lead
  rw [if_neg]
  rintro ⟨_, h⟩
  have := at_length h
  simp at this

theorem D_succ (i j k : Nat) : D lam s t i j (k + 1) = lam * (D lam s t i j k + lam * same s t j k * G lam s t i j k) := by
  unfold D
  rw [pairs_succ_right]
  have h1 : pairs (fun I J => lead lam s t (i + 1) (j + 1) (k + 1) (I ++ [j]) J) j k = lam * pairs (fun I J => lead lam s t (i + 1) (j + 1) k (I ++ [j]) J) j k := by
    rw [← pairs_mul]
    exact pairs_congr fun I _ J hJ => lead_succ_right hJ
  have h2 : pairs (fun I J => lead lam s t (i + 1) (j + 1) (k + 1) (I ++ [j]) (J ++ [k])) j k = lam * (lam * same s t j k) * G lam s t i j k := by
    unfold G
    rw [← pairs_mul]
    exact pairs_congr fun I hI J hJ => lead_append hI hJ
  rw [h1, h2]
  ring

theorem G_left (i k : Nat) : G lam s t (i + 1) 0 k = 0 := by
  refine pairs_zero_left _ _ fun J _ => ?_
  unfold lead
  rw [if_neg]
  simp

theorem G_right (i j : Nat) : G lam s t (i + 1) j 0 = 0 := by
  refine pairs_zero_right _ _ fun I _ => ?_
  unfold lead
  rw [if_neg]
  rintro ⟨h1, h2⟩
  have := at_length h2
  rw [h1] at this
  simp at this

theorem G_succ (i j k : Nat) : G lam s t (i + 1) (j + 1) k = lam * G lam s t (i + 1) j k + D lam s t i j k := by
  unfold G
  rw [pairs_succ_left]
  congr 1
  rw [← pairs_mul]
  exact pairs_congr fun I hI J _ => lead_succ_left hI

theorem G_zero (j k : Nat) : G lam s t 0 j k = 1 := by
  unfold G
  have h0 : pairs (lead lam s t 0 j k) j k = pairs (fun I J => if I = [] ∧ J = [] then (1 : K) else 0) j k := by
    refine pairs_congr fun I _ J _ => ?_
    unfold lead
    by_cases h : I = [] ∧ J = []
    · obtain ⟨rfl, rfl⟩ := h
      simp [at']
    · rw [if_neg h, if_neg]
      rintro ⟨h1, h2⟩
      have h3 := at_length h2
      exact h ⟨List.eq_nil_of_length_eq_zero h1, List.eq_nil_of_length_eq_zero (by omega)⟩
  rw [h0]
  clear h0
  induction j with
  | zero =>
    induction k with
    | zero => simp [pairs, places_zero]
    | succ k ih =>
      rw [pairs_succ_right, ih, pairs_zero, add_zero]
      intro I _ J _
      simp
  | succ j ih =>
    rw [pairs_succ_left, ih, pairs_zero, add_zero]
    intro I _ J _
    simp

/-! ## The table -/

/-- The table while cell `i0`, `j0`, `k0` is next. -/
def stage (lam : K) (s t : List α) (i0 j0 k0 : Nat) : Table K := fun i j k =>
  if i = 0 then (if j < s.length ∧ k < t.length then 1 else 0)
  else if (i ≤ i0 ∨ (i = i0 + 1 ∧ (j ≤ j0 ∨ (j = j0 + 1 ∧ k ≤ k0)))) ∧ j ≤ s.length ∧ k ≤ t.length then G lam s t i j k else 0

theorem stage_edge {i j k : Nat} (hi : i ≠ 0) (h : j = 0 ∨ k = 0) : G lam s t i j k = 0 := by
  obtain ⟨i, rfl⟩ : ∃ i', i = i' + 1 := ⟨i - 1, by omega⟩
  rcases h with rfl | rfl
  · exact G_left _ _
  · exact G_right _ _

theorem stage_eq {i0 j0 k0 i1 j1 k1 : Nat} (h : ∀ i j k, i ≠ 0 → j ≠ 0 → k ≠ 0 → j ≤ s.length → k ≤ t.length →
    ((i ≤ i0 ∨ (i = i0 + 1 ∧ (j ≤ j0 ∨ (j = j0 + 1 ∧ k ≤ k0)))) ↔ (i ≤ i1 ∨ (i = i1 + 1 ∧ (j ≤ j1 ∨ (j = j1 + 1 ∧ k ≤ k1)))))) :
    stage lam s t i0 j0 k0 = stage lam s t i1 j1 k1 := by
  funext i j k
  unfold stage
  by_cases hi : i = 0
  · rw [if_pos hi, if_pos hi]
  · rw [if_neg hi, if_neg hi]
    by_cases hb : j ≤ s.length ∧ k ≤ t.length
    · by_cases he : j = 0 ∨ k = 0
      · rw [stage_edge hi he]
        simp
      · simp only [not_or] at he
        have := h i j k hi he.1 he.2 hb.1 hb.2
        simp only [this]
    · rw [if_neg fun h => hb h.2, if_neg fun h => hb h.2]

theorem init_eq : (init s.length t.length : Table K) = stage lam s t 0 0 0 := by
  have hrow : ∀ (n j : Nat) (kp : Table K), (List.range n).foldl (fun kp k => put kp 0 j k 1) kp = fun i' j' k' => if i' = 0 ∧ j' = j ∧ k' < n then 1 else kp i' j' k' := by
    intro n j kp
    induction n with
    | zero => funext i' j' k'; simp
    | succ n ih =>
      rw [List.range_succ, List.foldl_append, ih]
      funext i' j' k'
      simp only [List.foldl_cons, List.foldl_nil, put]
      by_cases h1 : i' = 0 ∧ j' = j ∧ k' = n
      · rw [if_pos h1, if_pos ⟨h1.1, h1.2.1, by omega⟩]
      · rw [if_neg h1]
        by_cases h2 : i' = 0 ∧ j' = j ∧ k' < n
        · rw [if_pos h2, if_pos ⟨h2.1, h2.2.1, by omega⟩]
        · rw [if_neg h2, if_neg fun h3 => ?_]
          have : ¬ k' = n := fun h => h1 ⟨h3.1, h3.2.1, h⟩
          exact h2 ⟨h3.1, h3.2.1, by omega⟩
  have hall : ∀ m : Nat, (List.range m).foldl (fun kp j => (List.range t.length).foldl (fun kp k => put kp 0 j k 1) kp) (fun _ _ _ => (0 : K)) =
      fun i' j' k' => if i' = 0 ∧ j' < m ∧ k' < t.length then 1 else 0 := by
    intro m
    induction m with
    | zero => funext i' j' k'; simp
    | succ m ih =>
      rw [List.range_succ, List.foldl_append, ih]
      simp only [List.foldl_cons, List.foldl_nil]
      rw [hrow]
      funext i' j' k'
      by_cases h1 : i' = 0 ∧ j' = m ∧ k' < t.length
      · rw [if_pos h1, if_pos ⟨h1.1, by omega, h1.2.2⟩]
      · rw [if_neg h1]
        by_cases h2 : i' = 0 ∧ j' < m ∧ k' < t.length
        · rw [if_pos h2, if_pos ⟨h2.1, by omega, h2.2.2⟩]
        · rw [if_neg h2, if_neg fun h3 => ?_]
          have : ¬ j' = m := fun h => h1 ⟨h3.1, h, h3.2.2⟩
          exact h2 ⟨h3.1, by omega, h3.2.2⟩
  unfold init
  rw [hall]
  funext i j k
  unfold stage
  by_cases hi : i = 0
  · simp [hi]
  · rw [if_neg fun h => hi h.1, if_neg hi]
    split
    · rename_i h
      rw [stage_edge hi (by omega)]
    · rfl

theorem cell_eq {i j k : Nat} (hj : j < s.length) (hk : k < t.length) :
    cell lam s t i j (stage lam s t i j k, D lam s t i j k) k = (stage lam s t i j (k + 1), D lam s t i j (k + 1)) := by
  have h1 : stage lam s t i j k i j k = G lam s t i j k := by
    unfold stage
    by_cases hi : i = 0
    · subst hi
      rw [if_pos rfl, if_pos ⟨hj, hk⟩, G_zero]
    · rw [if_neg hi, if_pos ⟨.inl (Nat.le_refl _), by omega, by omega⟩]
  have h2 : stage lam s t i j k (i + 1) j (k + 1) = G lam s t (i + 1) j (k + 1) := by
    unfold stage
    rw [if_neg (by omega), if_pos ⟨.inr ⟨rfl, .inl (Nat.le_refl _)⟩, by omega, by omega⟩]
  unfold cell
  simp only [h1, h2, ← D_succ, ← G_succ]
  congr 1
  funext i' j' k'
  unfold put
  by_cases h : i' = i + 1 ∧ j' = j + 1 ∧ k' = k + 1
  · obtain ⟨rfl, rfl, rfl⟩ := h
    rw [if_pos ⟨rfl, rfl, rfl⟩]
    unfold stage
    rw [if_neg (by omega), if_pos ⟨.inr ⟨rfl, .inr ⟨rfl, Nat.le_refl _⟩⟩, by omega, by omega⟩]
  · rw [if_neg h]
    unfold stage
    by_cases hi : i' = 0
    · rw [if_pos hi, if_pos hi]
    · rw [if_neg hi, if_neg hi]
      have : ((i' ≤ i ∨ (i' = i + 1 ∧ (j' ≤ j ∨ (j' = j + 1 ∧ k' ≤ k)))) ↔ (i' ≤ i ∨ (i' = i + 1 ∧ (j' ≤ j ∨ (j' = j + 1 ∧ k' ≤ k + 1))))) := by omega
      simp only [this]

theorem row_eq {i j : Nat} (hj : j < s.length) : row lam s t i (stage lam s t i j 0) j = stage lam s t i (j + 1) 0 := by
  have : ∀ n, n ≤ t.length → (List.range n).foldl (cell lam s t i j) (stage lam s t i j 0, 0) = (stage lam s t i j n, D lam s t i j n) := by
    intro n hn
    induction n with
    | zero => rw [D_zero]; rfl
    | succ n ih =>
      rw [List.range_succ, List.foldl_append, ih (by omega)]
      exact cell_eq hj (by omega)
  unfold row
  rw [this _ (Nat.le_refl _)]
  refine stage_eq fun i' j' k' _ _ _ _ _ => ?_
  omega

theorem fill_eq (N : Nat) : fill N lam s t = stage lam s t N 0 0 := by
  have hrows : ∀ i m, m ≤ s.length → (List.range m).foldl (row lam s t i) (stage lam s t i 0 0) = stage lam s t i m 0 := by
    intro i m hm
    induction m with
    | zero => rfl
    | succ m ih =>
      rw [List.range_succ, List.foldl_append, ih (by omega)]
      exact row_eq (by omega)
  unfold fill
  rw [init_eq (lam := lam)]
  induction N with
  | zero => rfl
  | succ N ih =>
    rw [List.range_succ, List.foldl_append, ih]
    simp only [List.foldl_cons, List.foldl_nil]
    rw [hrows _ _ (Nat.le_refl _)]
    refine stage_eq fun i' j' k' _ _ _ _ _ => ?_
    omega

/-! ## The sum -/

theorem foldl_add {β : Type} (f : β → K) (l : List β) (a : K) : l.foldl (fun x b => x + f b) a = a + (l.map f).sum := by
  induction l generalizing a with
  | nil => simp
  | cons b l ih => rw [List.foldl_cons, ih, List.map_cons, List.sum_cons, add_assoc]

theorem kernel_sum (N : Nat) : kernel N lam s t = ((List.range N).map fun i => ((List.range s.length).map fun j => ((List.range t.length).map fun k =>
    lam * lam * same s t j k * G lam s t i j k).sum).sum).sum := by
  unfold kernel
  simp only [foldl_add, zero_add]
  congr 1
  refine List.map_congr_left fun i hi => ?_
  congr 1
  refine List.map_congr_left fun j hj => ?_
  congr 1
  refine List.map_congr_left fun k hk => ?_
  rw [fill_eq]
  congr 1
  have h1 := List.mem_range.1 hi
  have h2 := List.mem_range.1 hj
  have h3 := List.mem_range.1 hk
  unfold stage
  by_cases h0 : i = 0
  · subst h0
    rw [if_pos rfl, if_pos ⟨h2, h3⟩, G_zero]
  · rw [if_neg h0, if_pos ⟨.inl (by omega), by omega, by omega⟩]

/-- A sum over pairs by the last places. -/
theorem pairs_last (w : List Nat → List Nat → K) (hl : ∀ J, w [] J = 0) (hr : ∀ I, w I [] = 0) (m n : Nat) :
    pairs w m n = ((List.range m).map fun j => ((List.range n).map fun k => pairs (fun I J => w (I ++ [j]) (J ++ [k])) j k).sum).sum := by
  induction m with
  | zero => rw [pairs_zero_left _ _ fun J _ => hl J]; rfl
  | succ m ih =>
    rw [pairs_succ_left, ih, List.range_succ, List.map_append, List.sum_append]
    congr 1
    simp only [List.map_cons, List.map_nil, List.sum_cons, List.sum_nil, add_zero]
    clear ih
    induction n with
    | zero => rw [pairs_zero_right _ _ fun I _ => hr _]; rfl
    | succ n ih =>
      rw [pairs_succ_right, ih, List.range_succ, List.map_append, List.sum_append]
      simp

/-- The weight of two choices of `i + 1` places. -/
def whole (lam : K) (s t : List α) (i : Nat) (I J : List Nat) : K := if I.length = i + 1 ∧ at' s I = at' t J then lam ^ span I * lam ^ span J else 0

theorem span_append {j : Nat} {I : List Nat} (hI : I ∈ places j) : span (I ++ [j]) = (j - I.headD j) + 1 := by
  unfold span
  have := headD_le hI
  rw [headD_append, List.getLastD_concat]
  omega

theorem whole_append {i j k : Nat} {I J : List Nat} (hI : I ∈ places j) (hJ : J ∈ places k) :
    whole lam s t i (I ++ [j]) (J ++ [k]) = lam * lam * same s t j k * lead lam s t i j k I J := by
  unfold whole lead same
  simp only [at_eq_append, span_append hI, span_append hJ]
  by_cases h : I.length = i ∧ at' s I = at' t J
  · by_cases h3 : s[j]? = t[k]?
    · rw [if_pos ⟨by simp [h.1], h.2, h3⟩, if_pos h, if_pos h3, pow_succ, pow_succ]
      ring
    · rw [if_neg fun h4 => h3 h4.2.2, if_neg h3]
      ring
  · rw [if_neg fun h4 => h ⟨by simpa using h4.1, h4.2.1⟩, if_neg h]
    ring

theorem kernel_pairs (N : Nat) : kernel N lam s t = ((List.range N).map fun i => pairs (whole lam s t i) s.length t.length).sum := by
  rw [kernel_sum]
  congr 1
  refine List.map_congr_left fun i _ => ?_
  rw [pairs_last]
  · congr 1
    refine List.map_congr_left fun j _ => ?_
    congr 1
    refine List.map_congr_left fun k _ => ?_
    unfold G
    rw [← pairs_mul]
    exact pairs_congr fun I hI J hJ => (whole_append hI hJ).symm
  · intro J
    unfold whole
    rw [if_neg]
    simp
  · intro I
    unfold whole
    rw [if_neg]
    rintro ⟨h1, h2⟩
    have := at_length h2
    rw [h1] at this
    simp at this

theorem kernel_spec (N : Nat) : kernel N lam s t = Spec.kernel N lam s t := by
  rw [kernel_pairs]
  have : Spec.kernel N lam s t = pairs (fun I J => if 1 ≤ I.length ∧ I.length ≤ N ∧ at' s I = at' t J then lam ^ span I * lam ^ span J else 0) s.length t.length := rfl
  rw [this]
  clear this
  induction N with
  | zero =>
    rw [pairs_zero]
    · rfl
    · intro I _ J _
      rw [if_neg]
      omega
  | succ N ih =>
    rw [List.range_succ, List.map_append, List.sum_append, ih]
    simp only [List.map_cons, List.map_nil, List.sum_cons, List.sum_nil, add_zero]
    rw [← pairs_add]
    refine pairs_congr fun I _ J _ => ?_
    unfold whole
    by_cases h : at' s I = at' t J
    · simp only [h, and_true]
      by_cases h1 : I.length = N + 1
      · rw [if_neg (by omega), if_pos h1, if_pos (by omega), zero_add]
      · rw [if_neg h1, add_zero]
        by_cases h2 : 1 ≤ I.length ∧ I.length ≤ N
        · rw [if_pos h2, if_pos (by omega)]
        · rw [if_neg h2, if_neg (by omega)]
    · simp [h]

end Cdec.Mteval.Ssk
