import Verif.Decoder.Lattice
/-!
# C18: the distances of a lattice are shortest paths
-/
namespace Cdec.Dec

namespace Spec

/-- There is an arc from position `i` to position `j`. -/
def Arc (lat : List (List Nat)) (i j : Nat) : Prop := ∃ alts, lat[i]? = some alts ∧ ∃ d ∈ alts, i + d = j

/-- There is a path of `n` arcs, at least one, from `i` to `j`. -/
inductive Path (lat : List (List Nat)) : Nat → Nat → Nat → Prop
  | arc {i j : Nat} : Arc lat i j → Path lat i j 1
  | cons {i m j n : Nat} : Arc lat i m → Path lat m j n → Path lat i j (n + 1)

/-- `d` is the least number of arcs of a path from `i` to `j`. -/
def Shortest (lat : List (List Nat)) (i j d : Nat) : Prop := Path lat i j d ∧ ∀ n, Path lat i j n → d ≤ n

/-- Arcs go forward, and stay inside the lattice. -/
def Forward (lat : List (List Nat)) : Prop := ∀ i j, Arc lat i j → i < j ∧ j ≤ lat.length

end Spec
open Spec

/-- Paths whose inner positions are below `k`. -/
inductive Walk (lat : List (List Nat)) (k : Nat) : Nat → Nat → Nat → Prop
  | arc {i j : Nat} : Arc lat i j → Walk lat k i j 1
  | cons {i m j n : Nat} : Arc lat i m → m < k → Walk lat k m j n → Walk lat k i j (n + 1)

theorem Walk.path {lat : List (List Nat)} {k i j n : Nat} (h : Walk lat k i j n) : Path lat i j n := by
  induction h with
  | arc h => exact .arc h
  | cons h _ _ ih => exact .cons h ih

theorem Path.append {lat : List (List Nat)} {i k j a b : Nat} (h : Path lat i k a) (h' : Path lat k j b) : Path lat i j (a + b) := by
  induction h with
  | arc h => rw [Nat.add_comm]; exact .cons h h'
  | cons h _ ih =>
    have := Path.cons h (ih h')
    rw [show ∀ x : Nat, x + 1 + b = x + b + 1 from fun x => by omega]
    exact this

/-- Splitting a walk at `k`. -/
theorem Walk.split {lat : List (List Nat)} {k i j n : Nat} (h : Walk lat (k + 1) i j n) :
    Walk lat k i j n ∨ ∃ a b, Walk lat k i k a ∧ Walk lat k k j b ∧ a + b ≤ n := by
  induction h with
  | arc h => exact Or.inl (.arc h)
  | @cons i m j n ha hm _ ih =>
    by_cases hmk : m = k
    · subst hmk
      rcases ih with h | ⟨a, b, h1, h2, h3⟩
      · exact Or.inr ⟨1, n, .arc ha, h, by omega⟩
      · exact Or.inr ⟨1, b, .arc ha, h2, by omega⟩
    · have hm' : m < k := by omega
      rcases ih with h | ⟨a, b, h1, h2, h3⟩
      · exact Or.inl (.cons ha hm' h)
      · exact Or.inr ⟨a + 1, b, .cons ha hm' h1, h2, by omega⟩

/-- Every entry that is not the unreachable mark is the length of a path. -/
def Sound (lat : List (List Nat)) (D : Matrix) : Prop := ∀ i j, D i j ≤ kUnreachable ∧ (D i j < kUnreachable → Path lat i j (D i j))

/-- No entry in the table exceeds the length of a walk with inner positions below `k`. -/
def Complete (lat : List (List Nat)) (n k : Nat) (D : Matrix) : Prop :=
  ∀ i j, i < n → j < n → ∀ l, Walk lat k i j l → D i j ≤ l

/-- Entries only decrease. -/
def Below (D D' : Matrix) : Prop := ∀ i j, D' i j ≤ D i j

theorem Below.trans {A B C : Matrix} (h : Below A B) (h' : Below B C) : Below A C := fun i j => Nat.le_trans (h' i j) (h i j)

theorem set_apply (D : Matrix) (i j v a b : Nat) : D.set i j v a b = if a = i ∧ b = j then v else D a b := rfl

/-! ## The arcs -/

theorem setArcs_apply (i : Nat) (D : Matrix) (alts : List Nat) (a b : Nat) :
    setArcs i D alts a b = if a = i ∧ (∃ d ∈ alts, i + d = b) then 1 else D a b := by
  unfold setArcs
  induction alts generalizing D with
  | nil => simp
  | cons d l ih =>
    rw [List.foldl_cons, ih, set_apply]
    by_cases h1 : a = i ∧ ∃ d ∈ l, i + d = b
    · rw [if_pos h1, if_pos ⟨h1.1, by obtain ⟨_, x, hx, e⟩ := h1; exact ⟨x, by simp [hx], e⟩⟩]
    · rw [if_neg h1]
      by_cases h2 : a = i ∧ b = i + d
      · rw [if_pos h2, if_pos ⟨h2.1, d, by simp, h2.2.symm⟩]
      · rw [if_neg h2, if_neg]
        rintro ⟨e, x, hx, e'⟩
        rcases List.mem_cons.1 hx with rfl | hx
        · exact h2 ⟨e, e'.symm⟩
        · exact h1 ⟨e, x, hx, e'⟩

open Classical in
theorem initArcs_apply (lat : List (List Nat)) (D : Matrix) (a b : Nat) :
    initArcs lat D a b = if Arc lat a b then 1 else D a b := by
  unfold initArcs
  suffices h : ∀ m, m ≤ lat.length → ((List.range m).foldl (fun D i => setArcs i D (lat.getD i [])) D) a b =
      if a < m ∧ Arc lat a b then 1 else D a b by
    rw [h lat.length (Nat.le_refl _)]
    by_cases ha : Arc lat a b
    · obtain ⟨alts, h1, _⟩ := id ha
      have := (List.getElem?_eq_some_iff.1 h1).1
      rw [if_pos ⟨this, ha⟩, if_pos ha]
    · rw [if_neg (fun h => ha h.2), if_neg ha]
  intro m
  induction m with
  | zero => intro _; simp
  | succ m ih =>
    intro hm
    rw [List.range_succ, List.foldl_append, List.foldl_cons, List.foldl_nil, setArcs_apply, ih (by omega)]
    have hget : lat[m]? = some (lat.getD m []) := by
      rw [List.getD_eq_getElem?_getD, List.getElem?_eq_getElem (by omega)]
      rfl
    by_cases h1 : a = m ∧ ∃ d ∈ lat.getD m [], m + d = b
    · rw [if_pos h1]
      obtain ⟨rfl, h2⟩ := h1
      rw [if_pos ⟨by omega, _, hget, h2⟩]
    · rw [if_neg h1]
      by_cases h2 : a < m ∧ Arc lat a b
      · rw [if_pos h2, if_pos ⟨by omega, h2.2⟩]
      · rw [if_neg h2, if_neg]
        rintro ⟨h3, h4⟩
        by_cases h5 : a = m
        · subst h5
          obtain ⟨alts, e, h6⟩ := h4
          rw [hget] at e
          cases e
          exact h1 ⟨rfl, h6⟩
        · exact h2 ⟨by omega, h4⟩

/-! ## Floyd-Warshall -/

theorem fwCell_sound {lat : List (List Nat)} {D : Matrix} (h : Sound lat D) (k i j : Nat) : Sound lat (fwCell k i D j) := by
  unfold fwCell
  simp only []
  split
  · rename_i hgt
    intro a b
    rw [set_apply]
    split
    · rename_i hab
      obtain ⟨rfl, rfl⟩ := hab
      have h1 := h a b
      have h2 := h a k
      have h3 := h k b
      refine ⟨by omega, fun hlt => Path.append (h2.2 (by omega)) (h3.2 (by omega))⟩
    · exact h a b
  · exact h

theorem fwCell_below (k i : Nat) (D : Matrix) (j : Nat) : Below D (fwCell k i D j) := by
  intro a b
  unfold fwCell
  split
  · rw [set_apply]
    split
    · rename_i hgt hab
      obtain ⟨rfl, rfl⟩ := hab
      omega
    · exact Nat.le_refl _
  · exact Nat.le_refl _

theorem fwCell_at (k i : Nat) (D : Matrix) (j : Nat) : fwCell k i D j i j ≤ D i k + D k j := by
  unfold fwCell
  split
  · rw [set_apply, if_pos ⟨rfl, rfl⟩]
    omega
  · omega

theorem foldl_sound {lat : List (List Nat)} (step : Matrix → Nat → Matrix) (hs : ∀ D x, Sound lat D → Sound lat (step D x))
    (l : List Nat) (D : Matrix) (h : Sound lat D) : Sound lat (l.foldl step D) := by
  induction l generalizing D with
  | nil => exact h
  | cons a l ih => exact ih _ (hs D a h)

theorem foldl_below (step : Matrix → Nat → Matrix) (hs : ∀ D x, Below D (step D x)) (l : List Nat) (D : Matrix) :
    Below D (l.foldl step D) := by
  induction l generalizing D with
  | nil => exact fun _ _ => Nat.le_refl _
  | cons a l ih => exact (hs D a).trans (ih _)

theorem fwRow_below (n k : Nat) (D : Matrix) (i : Nat) : Below D (fwRow n k D i) := foldl_below _ (fun D x => fwCell_below k i D x) _ _

theorem fwStage_below (n : Nat) (D : Matrix) (k : Nat) : Below D (fwStage n D k) := foldl_below _ (fun D x => fwRow_below n k D x) _ _

theorem foldl_split {β : Type} (step : β → Nat → β) (n x : Nat) (hx : x < n) (b : β) :
    ∃ pre post, (List.range n).foldl step b = (post : List Nat).foldl step (step ((pre : List Nat).foldl step b) x) := by
  have : (List.range n) = (List.range n).take x ++ x :: (List.range n).drop (x + 1) := by
    have hl : x < (List.range n).length := by simpa using hx
    have h1 : (List.range n)[x] = x := List.getElem_range hl
    conv => lhs; rw [← List.take_append_drop x (List.range n), List.drop_eq_getElem_cons hl, h1]
  refine ⟨(List.range n).take x, (List.range n).drop (x + 1), ?_⟩
  conv => lhs; rw [this]
  rw [List.foldl_append, List.foldl_cons]

theorem fwRow_at (n k : Nat) (D : Matrix) (i j : Nat) (hj : j < n) : fwRow n k D i i j ≤ D i k + D k j := by
  obtain ⟨pre, post, e⟩ := foldl_split (fwCell k i) n j hj D
  unfold fwRow
  rw [e]
  have h1 := foldl_below (fwCell k i) (fun D x => fwCell_below k i D x) pre D
  have h2 := foldl_below (fwCell k i) (fun D x => fwCell_below k i D x) post (fwCell k i (pre.foldl (fwCell k i) D) j)
  have h3 := fwCell_at k i (pre.foldl (fwCell k i) D) j
  have h4 := h1 i k
  have h5 := h1 k j
  have h6 := h2 i j
  omega

theorem fwStage_at (n k : Nat) (D : Matrix) (i j : Nat) (hi : i < n) (hj : j < n) : fwStage n D k i j ≤ D i k + D k j := by
  obtain ⟨pre, post, e⟩ := foldl_split (fwRow n k) n i hi D
  unfold fwStage
  rw [e]
  have h1 := foldl_below (fwRow n k) (fun D x => fwRow_below n k D x) pre D
  have h2 := foldl_below (fwRow n k) (fun D x => fwRow_below n k D x) post (fwRow n k (pre.foldl (fwRow n k) D) i)
  have h3 := fwRow_at n k (pre.foldl (fwRow n k) D) i j hj
  have h4 := h1 i k
  have h5 := h1 k j
  have h6 := h2 i j
  omega

theorem fwStage_complete {lat : List (List Nat)} {n k : Nat} (hk : k < n) {D : Matrix} (h : Complete lat n k D) :
    Complete lat n (k + 1) (fwStage n D k) := by
  intro i j hi hj l hw
  rcases hw.split with hw | ⟨a, b, h1, h2, h3⟩
  · exact Nat.le_trans (fwStage_below n D k i j) (h i j hi hj l hw)
  · have e1 := h i k hi hk a h1
    have e2 := h k j hk hj b h2
    have e3 := fwStage_at n k D i j hi hj
    omega

theorem floyd_spec {lat : List (List Nat)} {n : Nat} {D : Matrix} (hs : Sound lat D) (hc : Complete lat n 0 D) :
    Sound lat (floyd n D) ∧ Complete lat n n (floyd n D) := by
  refine ⟨foldl_sound _ (fun D k h => foldl_sound _ (fun D i h => foldl_sound _ (fun D j h => fwCell_sound h k i j) _ _ h) _ _ h) _ _ hs, ?_⟩
  unfold floyd
  suffices h : ∀ m, m ≤ n → Complete lat n m ((List.range m).foldl (fwStage n) D) from h n (Nat.le_refl _)
  intro m
  induction m with
  | zero => intro _; exact hc
  | succ m ih =>
    intro hm
    rw [List.range_succ, List.foldl_append, List.foldl_cons, List.foldl_nil]
    exact fwStage_complete (by omega) (ih (by omega))

/-! ## Filling -/

/-- The value at `j` after filling the row from the right: the nearest reachable position at or after `j`. -/
def filled (row : Nat → Nat) : Nat → Nat → Nat
  | _, 0 => kUnreachable
  | j, m + 1 => if row j < kUnreachable then row j else filled row (j + 1) m

theorem fillRow_aux (i n : Nat) (D : Matrix) (m : Nat) (hm : m ≤ n) :
    let s := ((List.range n).reverse.take m).foldl (fillCell i) (D, kUnreachable)
    (∀ a b, s.1 a b = if a = i ∧ n - m ≤ b ∧ b < n then filled (D i) b (n - b) else D a b) ∧ s.2 = filled (D i) (n - m) m := by
  induction m with
  | zero =>
    refine ⟨fun a b => ?_, rfl⟩
    rw [if_neg (by omega)]
    rfl
  | succ m ih =>
    have hlen : m < (List.range n).reverse.length := by simp; omega
    rw [List.take_succ_eq_append_getElem hlen, List.foldl_append, List.foldl_cons, List.foldl_nil]
    have hel : (List.range n).reverse[m] = n - 1 - m := by simp
    rw [hel]
    obtain ⟨h1, h2⟩ := ih (by omega)
    generalize ((List.range n).reverse.take m).foldl (fillCell i) (D, kUnreachable) = s at h1 h2
    have hcell : s.1 i (n - 1 - m) = D i (n - 1 - m) := by rw [h1, if_neg (by omega)]
    have hj : n - (m + 1) = n - 1 - m := by omega
    have hfill : filled (D i) (n - 1 - m) (m + 1) = if D i (n - 1 - m) < kUnreachable then D i (n - 1 - m) else filled (D i) (n - m) m := by
      show (if _ then _ else filled (D i) (n - 1 - m + 1) m) = _
      rw [show n - 1 - m + 1 = n - m by omega]
    unfold fillCell
    simp only [hcell, hj]
    by_cases hc : D i (n - 1 - m) < kUnreachable
    · rw [if_pos hc]
      rw [if_pos hc] at hfill
      refine ⟨fun a b => ?_, hfill.symm⟩
      simp only []
      rw [h1]
      by_cases hb : a = i ∧ b = n - 1 - m
      · obtain ⟨rfl, rfl⟩ := hb
        rw [if_neg (by omega), if_pos ⟨rfl, by omega, by omega⟩, show n - (n - 1 - m) = m + 1 by omega, hfill]
      · by_cases h3 : a = i ∧ n - m ≤ b ∧ b < n
        · rw [if_pos h3, if_pos ⟨h3.1, by omega, h3.2.2⟩]
        · rw [if_neg h3, if_neg (by omega)]
    · rw [if_neg hc]
      rw [if_neg hc] at hfill
      refine ⟨fun a b => ?_, by rw [hfill, ← h2]⟩
      simp only []
      rw [set_apply, h1]
      by_cases hb : a = i ∧ b = n - 1 - m
      · obtain ⟨rfl, rfl⟩ := hb
        rw [if_pos ⟨rfl, rfl⟩, if_pos ⟨rfl, by omega, by omega⟩, show n - (n - 1 - m) = m + 1 by omega, hfill, h2]
      · rw [if_neg hb]
        by_cases h3 : a = i ∧ n - m ≤ b ∧ b < n
        · rw [if_pos h3, if_pos ⟨h3.1, by omega, h3.2.2⟩]
        · rw [if_neg h3, if_neg (by omega)]

theorem fillRow_apply (n i : Nat) (D : Matrix) (a b : Nat) :
    fillRow n D i a b = if a = i ∧ b < n then filled (D i) b (n - b) else D a b := by
  have h := (fillRow_aux i n D n (Nat.le_refl _)).1 a b
  have e : (List.range n).reverse.take n = (List.range n).reverse := by rw [List.take_of_length_le (by simp)]
  rw [e] at h
  unfold fillRow
  rw [h]
  simp

theorem fillRows_apply (n : Nat) (D : Matrix) (m a b : Nat) :
    (List.range m).foldl (fillRow n) D a b = if a < m ∧ b < n then filled (D a) b (n - b) else D a b := by
  induction m generalizing a b with
  | zero => simp
  | succ m ih =>
    rw [List.range_succ, List.foldl_append, List.foldl_cons, List.foldl_nil, fillRow_apply]
    have hrow : (List.range m).foldl (fillRow n) D m = D m := by
      funext c
      rw [ih, if_neg (by omega)]
    by_cases h : a = m ∧ b < n
    · obtain ⟨rfl, hb⟩ := h
      rw [if_pos ⟨rfl, hb⟩, hrow, if_pos ⟨by omega, hb⟩]
    · rw [if_neg h, ih]
      by_cases h2 : a < m ∧ b < n
      · rw [if_pos h2, if_pos ⟨by omega, h2.2⟩]
      · rw [if_neg h2, if_neg (by omega)]

theorem filled_of_lt {row : Nat → Nat} {j m : Nat} (h : row j < kUnreachable) (hm : 0 < m) : filled row j m = row j := by
  cases m with
  | zero => omega
  | succ m => simp [filled, h]

/-- Walks inside the table are walks below its size. -/
theorem Path.walk {lat : List (List Nat)} (hf : ∀ i j, Arc lat i j → j ≤ lat.length) {i j n : Nat} (h : Path lat i j n) :
    Walk lat (lat.length + 1) i j n := by
  induction h with
  | arc h => exact .arc h
  | cons h _ ih => exact .cons h (by have := hf _ _ h; omega) ih

theorem Path.length_le {lat : List (List Nat)} (hf : Forward lat) {i j n : Nat} (h : Path lat i j n) : i + n ≤ j ∧ j ≤ lat.length := by
  induction h with
  | arc h => have := hf _ _ h; omega
  | cons h _ ih => have := hf _ _ h; omega

/-- What the table holds before the fill. -/
theorem floyd_lattice {lat : List (List Nat)} (hf : Forward lat) (hn : lat.length < kUnreachable) (i j : Nat) (hi : i ≤ lat.length)
    (hj : j ≤ lat.length) :
    let D := floyd (lat.length + 1) (initArcs lat (resizeDist [] (lat.length + 1)))
    (D i j < kUnreachable → Shortest lat i j (D i j)) ∧ ((∃ n, Path lat i j n) → D i j < kUnreachable) := by
  have h0 : ∀ a b, resizeDist [] (lat.length + 1) a b = kUnreachable := fun a b => by simp [resizeDist]
  have hs : Sound lat (initArcs lat (resizeDist [] (lat.length + 1))) := by
    intro a b
    rw [initArcs_apply, h0]
    split
    · rename_i h
      exact ⟨by simp [kUnreachable], fun _ => .arc h⟩
    · exact ⟨Nat.le_refl _, fun h => absurd h (by omega)⟩
  have hc : Complete lat (lat.length + 1) 0 (initArcs lat (resizeDist [] (lat.length + 1))) := by
    intro a b _ _ l hw
    cases hw with
    | arc h => rw [initArcs_apply, if_pos h]; exact Nat.le_refl _
    | cons _ h _ => omega
  obtain ⟨s, c⟩ := floyd_spec hs hc
  have hle : ∀ n, Path lat i j n → floyd (lat.length + 1) (initArcs lat (resizeDist [] (lat.length + 1))) i j ≤ n :=
    fun n h => c i j (by omega) (by omega) n (Path.walk (fun a b h => (hf a b h).2) h)
  refine ⟨fun h => ⟨(s i j).2 h, hle⟩, ?_⟩
  rintro ⟨n, h⟩
  have := hle n h
  have := Path.length_le hf h
  omega

/-- For positions joined by a path, the table holds the least number of arcs of such a path. -/
theorem C18_distance (lat : List (List Nat)) (hf : Forward lat) (hn : lat.length < kUnreachable) (i j : Nat)
    (hr : ∃ n, Path lat i j n) : Shortest lat i j (computeDistances [] lat i j) := by
  obtain ⟨n, h⟩ := hr
  have hl := Path.length_le hf h
  obtain ⟨h1, h2⟩ := floyd_lattice hf hn i j (by omega) (by omega)
  have hlt := h2 ⟨n, h⟩
  unfold computeDistances
  rw [fillRows_apply, if_pos ⟨by omega, by omega⟩, filled_of_lt hlt (by omega)]
  exact h1 hlt

theorem filled_spec {row : Nat → Nat} {j m : Nat} (hj : ¬ row j < kUnreachable) :
    (∃ j', j < j' ∧ j' < j + m ∧ row j' < kUnreachable ∧ filled row j m = row j' ∧ ∀ x, j ≤ x → x < j' → ¬ row x < kUnreachable) ∨
      (filled row j m = kUnreachable ∧ ∀ x, j ≤ x → x < j + m → ¬ row x < kUnreachable) := by
  induction m generalizing j with
  | zero => exact Or.inr ⟨rfl, fun x _ _ => by omega⟩
  | succ m ih =>
    simp only [filled, if_neg hj]
    by_cases h1 : row (j + 1) < kUnreachable
    · cases m with
      | zero =>
        refine Or.inr ⟨rfl, fun x h2 h3 => ?_⟩
        have : x = j := by omega
        subst this
        exact hj
      | succ m =>
        refine Or.inl ⟨j + 1, by omega, by omega, h1, filled_of_lt h1 (by omega), fun x h2 h3 => ?_⟩
        have : x = j := by omega
        subst this
        exact hj
    · rcases ih h1 with ⟨j', h2, h3, h4, h5, h6⟩ | ⟨h2, h3⟩
      · refine Or.inl ⟨j', by omega, by omega, h4, h5, fun x h7 h8 => ?_⟩
        by_cases hx : x = j
        · subst hx; exact hj
        · exact h6 x (by omega) h8
      · refine Or.inr ⟨h2, fun x h7 h8 => ?_⟩
        by_cases hx : x = j
        · subst hx; exact hj
        · exact h3 x (by omega) (by omega)

/-- For positions not joined by a path, the table holds the distance to the nearest later position that can be reached,
or the unreachable mark when there is none. -/
theorem C18_unreachable (lat : List (List Nat)) (hf : Forward lat) (hn : lat.length < kUnreachable) (i j : Nat)
    (hi : i ≤ lat.length) (hj : j ≤ lat.length) (hr : ¬ ∃ n, Path lat i j n) :
    (∃ j', j < j' ∧ Shortest lat i j' (computeDistances [] lat i j) ∧ ∀ x, j ≤ x → x < j' → ¬ ∃ n, Path lat i x n) ∨
      (computeDistances [] lat i j = kUnreachable ∧ ∀ x, j ≤ x → ¬ ∃ n, Path lat i x n) := by
  have key := fun x (hx : x ≤ lat.length) => floyd_lattice hf hn i x hi hx
  simp only [] at key
  have e : computeDistances [] lat i j =
      filled (floyd (lat.length + 1) (initArcs lat (resizeDist [] (lat.length + 1))) i) j (lat.length + 1 - j) := by
    unfold computeDistances
    rw [fillRows_apply, if_pos ⟨by omega, by omega⟩]
  rw [e]
  generalize floyd (lat.length + 1) (initArcs lat (resizeDist [] (lat.length + 1))) = D at key
  have hnot : ¬ D i j < kUnreachable := fun h => hr ⟨_, ((key j hj).1 h).1⟩
  rcases filled_spec (m := lat.length + 1 - j) hnot with ⟨j', h1, h2, h3, h4, h5⟩ | ⟨h1, h2⟩
  · refine Or.inl ⟨j', h1, ?_, fun x hx hx' hp => h5 x hx hx' ((key x (by omega)).2 hp)⟩
    rw [h4]
    exact (key j' (by omega)).1 h3
  · refine Or.inr ⟨h1, fun x hx hp => ?_⟩
    by_cases hxl : x ≤ lat.length
    · exact h2 x hx (by omega) ((key x hxl).2 hp)
    · obtain ⟨n, hp⟩ := hp
      have := Path.length_le hf hp
      omega

/-- A lattice with a skip: `a|b . c`. -/
def exampleLattice : List (List Nat) := [[1, 2], [1], [1]]

example : Forward exampleLattice ∧ (∃ n, Path exampleLattice 0 3 n) ∧ computeDistances [] exampleLattice 0 3 = 2 := by
  refine ⟨?_, ⟨2, .cons ⟨[1, 2], rfl, 2, by simp, rfl⟩ (.arc ⟨[1], rfl, 1, by simp, rfl⟩)⟩, by decide +kernel⟩
  rintro i j ⟨alts, h1, d, h2, rfl⟩
  match i with
  | 0 => simp [exampleLattice] at h1; subst h1; simp at h2; rcases h2 with rfl | rfl <;> simp [exampleLattice]
  | 1 => simp [exampleLattice] at h1; subst h1; simp at h2; subst h2; simp [exampleLattice]
  | 2 => simp [exampleLattice] at h1; subst h1; simp at h2; subst h2; simp [exampleLattice]
  | n + 3 => simp [exampleLattice] at h1

/-- `Array2D::resize` keeps the old contents, so a lattice object that is filled a second time starts from the
distances of the first: here a two-word lattice after a one-arc lattice over the same positions. -/
theorem C18_reused_lattice_fails :
    let first := [[2], [1]]
    let D := computeDistances [] first
    let old := (List.range 3).flatMap fun j => (List.range 3).map fun i => D i j
    let lat := [[1], [1]]
    computeDistances old lat 0 2 = 1 ∧ Shortest lat 0 2 2 := by
  refine ⟨by decide +kernel, .cons ⟨[1], rfl, 1, by simp, rfl⟩ (.arc ⟨[1], rfl, 1, by simp, rfl⟩), ?_⟩
  intro n h
  cases h with
  | arc h =>
    obtain ⟨alts, h1, d, h2, h3⟩ := h
    simp at h1
    subst h1
    simp at h2
    omega
  | cons _ h => cases h <;> omega

end Cdec.Dec
