import Verif.Decoder.ParserJobs
/-! The active charts. -/
namespace Cdec.Dec.Parser
open Cdec.HG
variable {ι R φ : Type}

/-- Extensions of the items at `k` by nodes up to `m`. -/
def nodeExts (q : Passive R φ) (G : Gram ι R) (row : Row ι φ) (k m : Nat) : List (Item ι φ) :=
  (row k).flatMap fun it => (q.chart k m).filterMap fun v => extNode q G v it

/-- Extensions of the items at `k` by arcs up to `m`. -/
def arcExts [Add φ] (p : Env ι R φ) (G : Gram ι R) (row : Row ι φ) (k m : Nat) : List (Item ι φ) :=
  (p.lat.getD k []).zipIdx.flatMap fun a => if m = k + a.1.len then (row k).filterMap (extTerm p G k a.2 a.1) else []

theorem extendActive_fold (q : Passive R φ) (G : Gram ι R) (j : Nat) (ks : List Nat) (hk : ∀ k ∈ ks, k ≠ j) : ∀ (row : Row ι φ) (m : Nat),
    ks.foldl (fun row k => extendActive q G row k j) row m = row m ++ if m = j then ks.flatMap fun k => nodeExts q G row k j else [] := by
  induction ks with
  | nil => intro row m; simp
  | cons k ks ih =>
    intro row m
    have hk0 := hk k (by simp)
    rw [List.foldl_cons, ih (fun k' h => hk k' (by simp [h]))]
    have hsame : ∀ k', k' ≠ j → extendActive q G row k j k' = row k' := by
      intro k' h'; simp [extendActive, Row.push, h']
    by_cases hm : m = j
    · subst hm
      have e1 : (ks.flatMap fun k' => nodeExts q G (extendActive q G row k m) k' m) = ks.flatMap fun k' => nodeExts q G row k' m := by
        rw [List.flatMap_def, List.flatMap_def]
        congr 1
        apply List.map_congr_left
        intro k' hk'
        unfold nodeExts
        rw [hsame k' (hk k' (by simp [hk']))]
      rw [if_pos rfl, if_pos rfl, e1, List.flatMap_cons]
      simp [extendActive, Row.push, nodeExts]
    · simp [hm, hsame m hm]

theorem arcs_fold [Add φ] (p : Env ι R φ) (G : Gram ι R) (j : Nat) (hj : 0 < j) (as : List (Arc φ × Nat)) (ha : ∀ a ∈ as, 0 < a.1.len) : ∀ (row : Row ι φ) (m : Nat),
    as.foldl (fun row a => row.push (j + a.1.len - 1) ((row (j - 1)).filterMap (extTerm p G (j - 1) a.2 a.1))) row m =
      row m ++ as.flatMap fun a => if m = j - 1 + a.1.len then (row (j - 1)).filterMap (extTerm p G (j - 1) a.2 a.1) else [] := by
  induction as with
  | nil => intro row m; simp
  | cons a as ih =>
    intro row m
    have h0 := ha a (by simp)
    rw [List.foldl_cons, ih (fun a' h => ha a' (by simp [h]))]
    have e : row.push (j + a.1.len - 1) ((row (j - 1)).filterMap (extTerm p G (j - 1) a.2 a.1)) (j - 1) = row (j - 1) := by
      unfold Row.push
      rw [if_neg (by omega)]
    rw [e, List.flatMap_cons, ← List.append_assoc]
    congr 1
    unfold Row.push
    by_cases hm : m = j - 1 + a.1.len
    · rw [if_pos hm, if_pos (by omega)]
    · rw [if_neg hm, if_neg (by omega), List.append_nil]

theorem advance_eq [Add φ] {p : Env ι R φ} (hp : ∀ k (a : Arc φ), a ∈ p.lat.getD k [] → 0 < a.len) (q : Passive R φ) (G : Gram ι R) (i j : Nat) (hj : 0 < j)
    (row : Row ι φ) (m : Nat) :
    advance p q G i j row m = row m ++ (if m = j then (List.range' (i + 1) (j - 1 - i)).flatMap fun k => nodeExts q G row k j else []) ++ arcExts p G row (j - 1) m := by
  unfold advance
  have hk : ∀ k ∈ List.range' (i + 1) (j - 1 - i), k ≠ j := by
    intro k hk
    have := List.mem_range'_1.1 hk
    omega
  rw [arcs_fold p G j hj _ (by
    intro a ha
    exact hp (j - 1) a.1 (List.fst_mem_of_mem_zipIdx ha)), extendActive_fold q G j _ hk, extendActive_fold q G j _ hk, if_neg (by omega : ¬ j - 1 = j), List.append_nil]
  rfl

/-- The items that are there at the start. -/
def seed [Zero φ] (G : Gram ι R) (i m : Nat) : List (Item ι φ) := if m = i then if G.has i i then [⟨G.root, [], 0, []⟩] else [] else []

/-- What the cell from `i` to `k + 1` adds to the items up to `m`. -/
def rowStep [Add φ] (p : Env ι R φ) (q : Passive R φ) (G : Gram ι R) (row : Row ι φ) (i k m : Nat) : List (Item ι φ) :=
  if G.has i (k + 1) then
    (if m = k + 1 then (List.range' (i + 1) (k - i)).flatMap fun k' => nodeExts q G row k' m else []) ++ arcExts p G row k m ++ (if m = k + 1 then nodeExts q G row i m else [])
  else []

/-- The row after the cells from `i` to `j` and below. -/
def RowInv [Add φ] [Zero φ] (p : Env ι R φ) (q : Passive R φ) (G : Gram ι R) (i j : Nat) (row : Row ι φ) : Prop :=
  ∀ m, row m = seed G i m ++ (List.range' i (j - i)).flatMap fun k => rowStep p q G row i k m

theorem nodeExts_congr {q q' : Passive R φ} {G : Gram ι R} {row row' : Row ι φ} {k m : Nat} (h1 : q'.chart k m = q.chart k m) (h2 : ∀ v ∈ q.chart k m, q'.cat v = q.cat v)
    (h3 : row' k = row k) : nodeExts q' G row' k m = nodeExts q G row k m := by
  unfold nodeExts
  rw [h1, h3]
  congr 1
  funext it
  apply List.filterMap_congr
  intro v hv
  unfold extNode
  rw [h2 v hv]

theorem arcExts_congr [Add φ] {p : Env ι R φ} {G : Gram ι R} {row row' : Row ι φ} {k m : Nat} (h : row' k = row k) : arcExts p G row' k m = arcExts p G row k m := by
  unfold arcExts
  rw [h]

theorem rowStep_congr [Add φ] {p : Env ι R φ} {q q' : Passive R φ} {G : Gram ι R} {row row' : Row ι φ} {i k m : Nat} (hik : i ≤ k)
    (h1 : ∀ a, i ≤ a → q'.chart a (k + 1) = q.chart a (k + 1)) (h2 : ∀ a, i ≤ a → ∀ v ∈ q.chart a (k + 1), q'.cat v = q.cat v)
    (h3 : ∀ a, a ≤ k → row' a = row a) : rowStep p q' G row' i k m = rowStep p q G row i k m := by
  unfold rowStep
  rw [arcExts_congr (h3 k (Nat.le_refl _))]
  by_cases hm : m = k + 1
  · subst hm
    simp only [if_true]
    have e2 : nodeExts q' G row' i (k + 1) = nodeExts q G row i (k + 1) :=
      nodeExts_congr (h1 i (Nat.le_refl _)) (h2 i (Nat.le_refl _)) (h3 i hik)
    have e1 : ((List.range' (i + 1) (k - i)).flatMap fun k' => nodeExts q' G row' k' (k + 1)) = (List.range' (i + 1) (k - i)).flatMap fun k' => nodeExts q G row k' (k + 1) := by
      rw [List.flatMap_def, List.flatMap_def]
      congr 1
      apply List.map_congr_left
      intro a ha
      have := List.mem_range'_1.1 ha
      exact nodeExts_congr (h1 a (by omega)) (h2 a (by omega)) (h3 a (by omega))
    rw [e1, e2]
  · simp only [hm, if_false]

theorem rowStep_early [Add φ] {p : Env ι R φ} (hp : ∀ k (a : Arc φ), a ∈ p.lat.getD k [] → 0 < a.len) {q : Passive R φ} {G : Gram ι R} {row : Row ι φ} {i k m : Nat}
    (hm : m ≤ k) : rowStep p q G row i k m = [] := by
  unfold rowStep
  have e : arcExts p G row k m = [] := by
    unfold arcExts
    rw [List.flatMap_eq_nil_iff]
    intro a ha
    have := hp k a.1 (List.fst_mem_of_mem_zipIdx ha)
    rw [if_neg (by omega)]
  have hm' : ¬ m = k + 1 := by omega
  simp [e, hm']

/-- The row of a cell after advancing and after finishing. -/
def finishRow (q : Passive R φ) (G : Gram ι R) (i j : Nat) (row : Row ι φ) : Row ι φ := extendActive q G row i j

theorem rowInv_step [Add φ] [Zero φ] {p : Env ι R φ} (hp : ∀ k (a : Arc φ), a ∈ p.lat.getD k [] → 0 < a.len) {q q' : Passive R φ} {G : Gram ι R} {row : Row ι φ} {i j : Nat}
    (hij : i ≤ j) (h : RowInv p q G i j row) 
    (h1 : ∀ a b, i ≤ a → b ≤ j + 1 → (i < a ∨ b ≤ j) → q'.chart a b = q.chart a b) (h2 : ∀ a b, i ≤ a → b ≤ j + 1 → (i < a ∨ b ≤ j) → ∀ v ∈ q.chart a b, q'.cat v = q.cat v) :
    RowInv p q' G i (j + 1) (if G.has i (j + 1) then extendActive q' G (advance p q G i (j + 1) row) i (j + 1) else row) := by
  intro m
  generalize hr' : (if G.has i (j + 1) then extendActive q' G (advance p q G i (j + 1) row) i (j + 1) else row) = row'
  have hadv : ∀ m, advance p q G i (j + 1) row m = row m ++ (if m = j + 1 then (List.range' (i + 1) (j - i)).flatMap fun k => nodeExts q G row k (j + 1) else []) ++ arcExts p G row j m := by
    intro m
    rw [advance_eq hp q G i (j + 1) (by omega)]
    have : j + 1 - 1 - i = j - i := by omega
    rw [this]
    rfl
  have harc : ∀ m, m ≤ j → arcExts p G row j m = [] := by
    intro m hm
    unfold arcExts
    rw [List.flatMap_eq_nil_iff]
    intro a ha
    have := hp j a.1 (List.fst_mem_of_mem_zipIdx ha)
    rw [if_neg (by omega)]
  have hlow0 : ∀ m, m ≤ j → advance p q G i (j + 1) row m = row m := by
    intro m hm
    rw [hadv, harc m hm, if_neg (by omega)]
    simp
  have hlow : ∀ m, m ≤ j → row' m = row m := by
    intro m hm
    rw [← hr']
    split
    · unfold extendActive Row.push
      rw [if_neg (by omega), hlow0 m hm]
    · rfl
  have hstep : row' m = row m ++ rowStep p q' G row' i j m := by
    unfold rowStep
    by_cases hh : G.has i (j + 1) = true
    · rw [if_pos hh]
      have e0 : row' m = advance p q G i (j + 1) row m ++ if m = j + 1 then nodeExts q' G (advance p q G i (j + 1) row) i (j + 1) else [] := by
        rw [← hr', if_pos hh]
        unfold extendActive Row.push nodeExts
        split <;> simp
      rw [e0, hadv, arcExts_congr (hlow j (Nat.le_refl _))]
      by_cases hm : m = j + 1
      · subst hm
        simp only [if_true]
        have e1 : ((List.range' (i + 1) (j - i)).flatMap fun k' => nodeExts q' G row' k' (j + 1)) = (List.range' (i + 1) (j - i)).flatMap fun k' => nodeExts q G row k' (j + 1) := by
          rw [List.flatMap_def, List.flatMap_def]
          congr 1
          apply List.map_congr_left
          intro a ha
          have := List.mem_range'_1.1 ha
          exact nodeExts_congr (h1 a _ (by omega) (by omega) (by omega)) (h2 a _ (by omega) (by omega) (by omega)) (hlow a (by omega))
        have e2 : nodeExts q' G (advance p q G i (j + 1) row) i (j + 1) = nodeExts q' G row' i (j + 1) :=
          nodeExts_congr rfl (fun _ _ => rfl) ((hlow0 i hij).trans (hlow i hij).symm)
        rw [e1, e2]
        simp
      · simp only [hm, if_false]
        simp
    · rw [if_neg hh, ← hr', if_neg hh, List.append_nil]
  rw [hstep, h m]
  have hr : List.range' i (j + 1 - i) = List.range' i (j - i) ++ [j] := by
    have : j + 1 - i = (j - i) + 1 := by omega
    rw [this, List.range'_concat]
    congr 2
    omega
  rw [hr, List.flatMap_append, ← List.append_assoc]
  congr 1
  · congr 1
    rw [List.flatMap_def, List.flatMap_def]
    congr 1
    apply List.map_congr_left
    intro k hk
    have := List.mem_range'_1.1 hk
    exact (rowStep_congr (by omega) (fun a ha => h1 a _ ha (by omega) (by omega)) (fun a ha => h2 a _ ha (by omega) (by omega)) (fun a ha => hlow a (by omega))).symm
  · simp

theorem rowInv_congr [Add φ] [Zero φ] {p : Env ι R φ} {q q' : Passive R φ} {G : Gram ι R} {row : Row ι φ} {i j : Nat} (h : RowInv p q G i j row)
    (h1 : ∀ a b, i ≤ a → b ≤ j → q'.chart a b = q.chart a b) (h2 : ∀ a b, i ≤ a → b ≤ j → ∀ v ∈ q.chart a b, q'.cat v = q.cat v) : RowInv p q' G i j row := by
  intro m
  rw [h m]
  congr 1
  rw [List.flatMap_def, List.flatMap_def]
  congr 1
  apply List.map_congr_left
  intro k hk
  have := List.mem_range'_1.1 hk
  exact (rowStep_congr (by omega) (fun a ha => h1 a _ ha (by omega)) (fun a ha => h2 a _ ha (by omega)) (fun a ha => rfl)).symm

end Cdec.Dec.Parser
