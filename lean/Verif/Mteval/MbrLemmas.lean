import Verif.Mteval.MbrSpec
import Mathlib.Tactic.Linarith
import Mathlib.Tactic.FieldSimp
import Mathlib.Tactic.Ring
import Mathlib.Algebra.Order.BigOperators.Group.List
/-!
# Lemmas about minimum Bayes risk decoding
-/
namespace Cdec.Mbr

/-! ## The choice -/

/-- The sum that the inner loop is after. -/
noncomputable def total (i : Nat) (f : Nat → ℝ) (js : List Nat) : ℝ := (js.map fun j => if i = j then 0 else f j).sum

theorem total_nonneg (i : Nat) {f : Nat → ℝ} {js : List Nat} (h : ∀ j ∈ js, 0 ≤ f j) : 0 ≤ total i f js := by
  apply List.sum_nonneg
  intro x hx
  obtain ⟨j, hj, rfl⟩ := List.mem_map.1 hx
  split
  · exact le_refl _
  · exact h j hj

theorem total_cons (i j : Nat) (f : Nat → ℝ) (js : List Nat) : total i f (j :: js) = (if i = j then 0 else f j) + total i f js := rfl

theorem accumulate_true (best : Option ℝ) (i : Nat) (f : Nat → ℝ) : ∀ (js : List Nat) (acc : ℝ),
    accumulate true best i f js acc = acc + total i f js
  | [], acc => by simp [accumulate, total]
  | j :: js, acc => by
    rw [accumulate, total_cons]
    split
    · rw [accumulate_true best i f js]; ring
    · rw [if_neg (by simp), accumulate_true best i f js]; ring

theorem accumulate_false (best : Option ℝ) (i : Nat) (f : Nat → ℝ) : ∀ (js : List Nat) (acc : ℝ), (∀ j ∈ js, 0 ≤ f j) →
    accumulate false best i f js acc = acc + total i f js ∨
      ∃ b, best = some b ∧ b < accumulate false best i f js acc ∧ b < acc + total i f js
  | [], acc, _ => by simp [accumulate, total]
  | j :: js, acc, h => by
    have h' : ∀ j ∈ js, 0 ≤ f j := fun j hj => h j (by simp [hj])
    rw [accumulate, total_cons]
    split
    · rename_i e
      rw [zero_add]; exact accumulate_false best i f js acc h'
    · split
      · rename_i e hb
        obtain ⟨_, b, hb, hlt⟩ := hb
        right
        refine ⟨b, hb, hlt, ?_⟩
        have := total_nonneg i h'
        linarith
      · rename_i e hb
        rw [← add_assoc]; exact accumulate_false best i f js _ h'

section
variable (metric : String) (score : List Nat → List Nat → ℝ) (l : List Item)

/-- The risk of an index. -/
noncomputable def risk (i : Nat) : ℝ := total i (weighted metric score l i) (List.range l.length)

theorem mbrLoop_some (hf : ∀ i j, j < l.length → 0 ≤ weighted metric score l i j) : ∀ (is : List Nat) (k : Nat) (scores : List ℝ),
    ∃ k', (mbrLoop false metric score l is (some (k, risk metric score l k)) scores).1 = some (k', risk metric score l k') ∧
      (k' = k ∨ k' ∈ is) ∧ risk metric score l k' ≤ risk metric score l k ∧ ∀ i ∈ is, risk metric score l k' ≤ risk metric score l i
  | [], k, scores => ⟨k, rfl, Or.inl rfl, le_refl _, by simp⟩
  | i :: is, k, scores => by
    rw [mbrLoop]
    simp only [Option.map_some]
    have ha := accumulate_false (some (risk metric score l k)) i (weighted metric score l i) (List.range l.length) 0
      (fun j hj => hf i j (List.mem_range.1 hj))
    rw [zero_add] at ha
    change (_ = risk metric score l i ∨ ∃ b, _ ∧ _ ∧ b < risk metric score l i) at ha
    by_cases hlt : accumulate false (some (risk metric score l k)) i (weighted metric score l i) (List.range l.length) 0 < risk metric score l k
    · rw [if_pos hlt]
      rcases ha with ha | ⟨b, hb, h1, h2⟩
      · rw [ha] at hlt ⊢
        obtain ⟨k', e, hm, hle, hall⟩ := mbrLoop_some hf is i (scores ++ [risk metric score l i])
        refine ⟨k', e, Or.inr ?_, by linarith, ?_⟩
        · rcases hm with rfl | hm
          · simp
          · simp [hm]
        · intro x hx
          rcases List.mem_cons.1 hx with rfl | hx
          · exact hle
          · exact hall x hx
      · cases hb; linarith
    · rw [if_neg hlt]
      obtain ⟨k', e, hm, hle, hall⟩ := mbrLoop_some hf is k _
      refine ⟨k', e, ?_, hle, ?_⟩
      · rcases hm with rfl | hm
        · exact Or.inl rfl
        · exact Or.inr (by simp [hm])
      · intro x hx
        rcases List.mem_cons.1 hx with rfl | hx
        · rcases ha with ha | ⟨b, hb, h1, h2⟩
          · rw [ha] at hlt; linarith [not_lt.1 hlt]
          · cases hb; linarith
        · exact hall x hx

theorem best_spec (hf : ∀ i j, j < l.length → 0 ≤ weighted metric score l i j) (hl : l ≠ []) :
    ∃ k, k < l.length ∧ best metric score l = some (l.getD k emptyItem).words ∧
      ∀ i, i < l.length → risk metric score l k ≤ risk metric score l i := by
  have hpos : 0 < l.length := List.length_pos_iff.2 hl
  obtain ⟨n, hn⟩ : ∃ n, l.length = n + 1 := ⟨l.length - 1, by omega⟩
  have er : List.range l.length = 0 :: (List.range n).map Nat.succ := by rw [hn, List.range_succ_eq_map]
  have e0 : accumulate false (Option.map Prod.snd (none : Option (Nat × ℝ))) 0 (weighted metric score l 0) (List.range l.length) 0 = risk metric score l 0 := by
    rcases accumulate_false none 0 (weighted metric score l 0) (List.range l.length) 0 (fun j hj => hf 0 j (List.mem_range.1 hj)) with h | ⟨b, hb, _⟩
    · rw [zero_add] at h; exact h
    · cases hb
  obtain ⟨k', e, hm, hle, hall⟩ := mbrLoop_some metric score l hf ((List.range n).map Nat.succ) 0 ([] ++ [risk metric score l 0])
  refine ⟨k', ?_, ?_, ?_⟩
  · rcases hm with rfl | hm
    · exact hpos
    · obtain ⟨x, hx, rfl⟩ := List.mem_map.1 hm
      have := List.mem_range.1 hx
      omega
  · unfold best
    have : (mbrLoop false metric score l (List.range l.length) none []).1 = some (k', risk metric score l k') := by
      have e1 : mbrLoop false metric score l (0 :: (List.range n).map Nat.succ) none [] =
          mbrLoop false metric score l ((List.range n).map Nat.succ)
            (some (0, accumulate false (Option.map Prod.snd (none : Option (Nat × ℝ))) 0 (weighted metric score l 0) (List.range l.length) 0))
            ([] ++ [accumulate false (Option.map Prod.snd (none : Option (Nat × ℝ))) 0 (weighted metric score l 0) (List.range l.length) 0]) := rfl
      rw [e0] at e1
      have e2 : mbrLoop false metric score l (List.range l.length) none [] = mbrLoop false metric score l (0 :: (List.range n).map Nat.succ) none [] :=
        congrArg (fun r => mbrLoop false metric score l r none []) er
      rw [e2, e1]
      exact e
    rw [this]
  · intro i hi
    rcases Nat.eq_zero_or_pos i with rfl | h
    · exact hle
    · exact hall i (List.mem_map.2 ⟨i - 1, List.mem_range.2 (by omega), by omega⟩)

theorem mbrLoop_scores : ∀ (is : List Nat) (best : Option (Nat × ℝ)) (scores : List ℝ),
    (mbrLoop true metric score l is best scores).2 = scores ++ is.map (risk metric score l)
  | [], _, scores => by simp [mbrLoop]
  | i :: is, best, scores => by
    have e : mbrLoop true metric score l (i :: is) best scores = mbrLoop true metric score l is
        (match best with
          | none => some (i, accumulate true (best.map Prod.snd) i (weighted metric score l i) (List.range l.length) 0)
          | some b => if accumulate true (best.map Prod.snd) i (weighted metric score l i) (List.range l.length) 0 < b.2 then
              some (i, accumulate true (best.map Prod.snd) i (weighted metric score l i) (List.range l.length) 0) else some b)
        (scores ++ [accumulate true (best.map Prod.snd) i (weighted metric score l i) (List.range l.length) 0]) := by
      cases best <;> rfl
    rw [e, mbrLoop_scores is, accumulate_true, zero_add]
    simp [risk]

theorem range_map_getD {β : Type} (g : Item → β) : ∀ l : List Item, (List.range l.length).map (fun j => g (l.getD j emptyItem)) = l.map g := by
  intro l
  apply List.ext_getElem
  · simp
  · intro i h1 h2
    simp at h1 h2
    simp [List.getD_eq_getElem?_getD, h1]

theorem joints_getD {l : List Item} {j : Nat} (hj : j < l.length) :
    (joints l).getD j 0 = (l.getD j emptyItem).weight / (l.getD 0 emptyItem).weight := by
  cases l with
  | nil => simp at hj
  | cons m l =>
    unfold joints
    simp only [List.getD_eq_getElem?_getD, List.getElem?_map]
    rw [List.getElem?_eq_getElem hj]
    simp

theorem joints_sum (l : List Item) : (joints l).sum = (l.map Item.weight).sum / (l.getD 0 emptyItem).weight := by
  cases l with
  | nil => simp [joints]
  | cons m l' =>
    unfold joints
    simp only [List.getD_cons_zero]
    have : (fun x : Item => x.weight / m.weight) = fun x => x.weight * (1 / m.weight) := by funext x; ring
    rw [this, List.sum_map_mul_right]
    ring

theorem weighted_eq {l : List Item} (h0 : (l.getD 0 emptyItem).weight ≠ 0) (i : Nat) {j : Nat} (hj : j < l.length) :
    weighted metric score l i j =
      loss metric score (l.getD i emptyItem).words (l.getD j emptyItem).words * posterior l (l.getD j emptyItem) := by
  unfold weighted posterior
  rw [joints_getD hj, joints_sum, div_div_div_cancel_right₀ h0]

theorem risk_eq {l : List Item} (h0 : (l.getD 0 emptyItem).weight ≠ 0) (hself : ∀ x : List Nat, loss metric score x x = 0) {i : Nat} :
    risk metric score l i = expectedError (loss metric score) l (l.getD i emptyItem).words := by
  unfold risk total expectedError
  rw [← range_map_getD (fun x => loss metric score (l.getD i emptyItem).words x.words * posterior l x) l]
  congr 1
  apply List.map_congr_left
  intro j hj
  have hj := List.mem_range.1 hj
  split
  · rename_i e
    subst e
    rw [hself, zero_mul]
  · exact weighted_eq metric score h0 i hj

theorem posterior_nonneg {l : List Item} (hw : ∀ x ∈ l, 0 ≤ x.weight) {x : Item} (hx : x ∈ l) : 0 ≤ posterior l x := by
  apply div_nonneg (hw x hx)
  apply List.sum_nonneg
  intro y hy
  obtain ⟨z, hz, rfl⟩ := List.mem_map.1 hy
  exact hw z hz

theorem getD_mem {l : List Item} {j : Nat} (hj : j < l.length) : l.getD j emptyItem ∈ l := by
  rw [List.getD_eq_getElem?_getD, List.getElem?_eq_getElem hj]
  simp

theorem weighted_nonneg {l : List Item} (hw : ∀ x ∈ l, 0 < x.weight) (hl : ∀ a b, 0 ≤ loss metric score a b) (i : Nat) {j : Nat} (hj : j < l.length) :
    0 ≤ weighted metric score l i j := by
  have h0 : (l.getD 0 emptyItem).weight ≠ 0 := ne_of_gt (hw _ (getD_mem (by omega)))
  rw [weighted_eq metric score h0 i hj]
  exact mul_nonneg (hl _ _) (posterior_nonneg (fun x hx => le_of_lt (hw x hx)) (getD_mem hj))

end

theorem exists_getD {l : List Item} {x : Item} (hx : x ∈ l) : ∃ i, i < l.length ∧ l.getD i emptyItem = x := by
  obtain ⟨i, hi, rfl⟩ := List.getElem_of_mem hx
  exact ⟨i, hi, by rw [List.getD_eq_getElem?_getD, List.getElem?_eq_getElem hi]; rfl⟩

theorem best_mbr {metric : String} {score : List Nat → List Nat → ℝ} {l : List Item} (hl : l ≠ []) (hw : ∀ x ∈ l, 0 < x.weight)
    (hn : ∀ a b, 0 ≤ loss metric score a b) (hself : ∀ a, loss metric score a a = 0) :
    ∃ c, best metric score l = some c ∧ IsMbr (loss metric score) l c := by
  have h0 : (l.getD 0 emptyItem).weight ≠ 0 := ne_of_gt (hw _ (getD_mem (List.length_pos_iff.2 hl)))
  obtain ⟨k, hk, hb, hall⟩ := best_spec metric score l (fun i j hj => weighted_nonneg metric score hw hn i hj) hl
  refine ⟨_, hb, ⟨_, getD_mem hk, rfl⟩, fun x hx => ?_⟩
  obtain ⟨i, hi, rfl⟩ := exists_getD hx
  have := hall i hi
  rwa [risk_eq metric score h0 hself, risk_eq metric score h0 hself] at this

theorem scored_eq {metric : String} {score : List Nat → List Nat → ℝ} {l : List Item} (hw : ∀ x ∈ l, 0 < x.weight)
    (hself : ∀ a, loss metric score a a = 0) :
    scored metric score l = l.map fun x => (x.words, expectedError (loss metric score) l x.words) := by
  unfold scored
  rw [mbrLoop_scores, List.nil_append]
  cases hl : l with
  | nil => rfl
  | cons m t =>
    rw [← hl]
    have h0 : (l.getD 0 emptyItem).weight ≠ 0 := ne_of_gt (hw _ (getD_mem (by simp [hl])))
    have e : (List.range l.length).map (risk metric score l) = l.map fun x => expectedError (loss metric score) l x.words := by
      rw [← range_map_getD (fun x => expectedError (loss metric score) l x.words) l]
      apply List.map_congr_left
      intro j _
      rw [risk_eq metric score h0 hself]
    rw [e, List.zip_map']

/-! ## The lists -/

/-- The lines of hypotheses with an id. -/
def linesOf (a : Nat) (hs : List (List Nat × ℝ)) : List Line := hs.map fun h => { id := a, words := h.1, value := h.2 }

noncomputable def itemsFrom (scale offset : ℝ) (hs : List (List Nat × ℝ)) : List Item :=
  hs.map fun h => { words := h.1, weight := Real.exp (h.2 * scale + offset) }

/-- The id of the last line that is read. -/
def lastId (a cacheId : Nat) (hs : List (List Nat × ℝ)) : List Line → Nat
  | [] => if hs = [] then cacheId else a
  | l :: _ => l.id

theorem readFile_run (scale offset : ℝ) {a : Nat} (ha : a ≠ 0) (rest : List Line) (hr : ∀ l ∈ rest.head?, l.id ≠ a) :
    ∀ (hs : List (List Nat × ℝ)) (sent cacheId : Nat) (list : List Item),
    readFile scale offset (linesOf a hs ++ rest) { cur := a, sent := sent, cacheId := cacheId, list := list } =
      ({ cur := a, sent := if hs = [] then sent else a, cacheId := lastId a cacheId hs rest, list := list ++ itemsFrom scale offset hs },
        rest.head?.map (itemOf scale offset), rest.tail)
  | [], sent, cacheId, list => by
    cases rest with
    | nil => simp [linesOf, readFile, itemsFrom, lastId]
    | cons l ls =>
      have := hr l (by simp)
      simp [linesOf, readFile, itemsFrom, lastId, ha, this.symm]
  | h :: hs, sent, cacheId, list => by
    have ih := readFile_run scale offset ha rest hr hs a a (list ++ [itemOf scale offset { id := a, words := h.1, value := h.2 }])
    have e : linesOf a (h :: hs) ++ rest = { id := a, words := h.1, value := h.2 } :: (linesOf a hs ++ rest) := rfl
    rw [e, readFile]
    simp only [ha, if_false, if_true]
    rw [ih]
    simp only [itemsFrom, itemOf, List.map_cons, List.append_assoc, List.singleton_append, reduceCtorEq, if_false, ite_self]
    congr 2
    cases rest with
    | nil => simp [lastId]
    | cons l ls => rfl

theorem fileOf_cons (g : Nat × List (List Nat × ℝ)) (gs : List (Nat × List (List Nat × ℝ))) : fileOf (g :: gs) = linesOf g.1 g.2 ++ fileOf gs := rfl

theorem grouped_tail {g : Nat × List (List Nat × ℝ)} {gs : List (Nat × List (List Nat × ℝ))} (h : Grouped (g :: gs)) : g.1 ≠ 0 ∧ g.2 ≠ [] ∧ Grouped gs := by
  cases gs with
  | nil => exact ⟨h.1, h.2, trivial⟩
  | cons x gs => exact ⟨h.1, h.2.1, h.2.2.2⟩

theorem grouped_next {g : Nat × List (List Nat × ℝ)} {gs : List (Nat × List (List Nat × ℝ))} (h : Grouped (g :: gs)) : ∀ l ∈ (fileOf gs).head?, l.id ≠ g.1 := by
  cases gs with
  | nil => simp [fileOf]
  | cons x gs =>
    have hx := (grouped_tail h.2.2.2).2.1
    intro l hl
    rw [fileOf_cons] at hl
    cases hxs : x.2 with
    | nil => exact absurd hxs hx
    | cons y ys =>
      rw [hxs] at hl
      simp [linesOf] at hl
      rw [← hl]
      exact h.2.2.1.symm

/-- A reader of one file. -/
def reader (a : Nat) (c : Item) (f : List Line) : Reader := { cacheId := a, cache := [c], files := [f] }

theorem readLists_done (ps : ℝ × ℝ) (fuel a sent : Nat) : readLists [ps] fuel (reader a emptyItem []) sent = [] := by
  cases fuel with
  | zero => rfl
  | succ n => simp [readLists, readList, readFiles, readFile, emptyItem, reader]

/-- The ids that are printed. -/
def printed : Nat → List (Nat × List (List Nat × ℝ)) → List Nat
  | _, [] => []
  | sent, g :: gs => (if g.2.tail = [] then sent else g.1) :: printed (if g.2.tail = [] then sent else g.1) gs

theorem readLists_groups (scale offset : ℝ) : ∀ (gs : List (Nat × List (List Nat × ℝ))) (g : Nat × List (List Nat × ℝ)) (h : List Nat × ℝ) (hs : List (List Nat × ℝ))
    (fuel sent : Nat), g.2 = h :: hs → h.1 ≠ [] → Grouped (g :: gs) → (∀ x ∈ gs, ∀ y ∈ x.2.head?, y.1 ≠ []) → gs.length < fuel →
    readLists [(scale, offset)] fuel (reader g.1 { words := h.1, weight := Real.exp (h.2 * scale + offset) } (linesOf g.1 hs ++ fileOf gs)) sent =
      (printed sent (g :: gs)).zip ((g :: gs).map (itemsOf scale offset))
  | gs, g, h, hs, 0, sent, _, _, _, _, hf => by omega
  | [], g, h, hs, fuel + 1, sent, hg, hne, hgr, _, _ => by
    have ha := (grouped_tail hgr).1
    have hrun := readFile_run scale offset ha [] (by simp) hs sent g.1 [{ words := h.1, weight := Real.exp (h.2 * scale + offset) }]
    rw [readLists]
    have e : readList [(scale, offset)] (reader g.1 { words := h.1, weight := Real.exp (h.2 * scale + offset) } (linesOf g.1 hs ++ fileOf [])) sent =
        (itemsOf scale offset g, (if hs = [] then sent else g.1), reader (lastId g.1 g.1 hs []) emptyItem []) := by
      unfold readList reader
      simp only [hne, ne_eq, not_false_eq_true, decide_true, if_true, List.length_singleton, List.replicate_one, readFiles, fileOf, List.flatMap_nil]
      rw [hrun]
      simp [itemsOf, itemsFrom, hg]
    rw [e]
    simp only [readLists_done]
    rw [if_neg (by simp [itemsOf, hg])]
    simp [printed, hg]
  | g' :: gs, g, h, hs, fuel + 1, sent, hg, hne, hgr, hfirst, hfuel => by
    have ha := (grouped_tail hgr).1
    have hgr' := (grouped_tail hgr).2.2
    obtain ⟨h', hs', hg'⟩ : ∃ h' hs', g'.2 = h' :: hs' := by
      cases hx : g'.2 with
      | nil => exact absurd hx (grouped_tail hgr').2.1
      | cons a b => exact ⟨a, b, rfl⟩
    have hne' : h'.1 ≠ [] := hfirst g' (by simp) h' (by simp [hg'])
    have hrun := readFile_run scale offset ha (fileOf (g' :: gs)) (grouped_next hgr) hs sent g.1 [{ words := h.1, weight := Real.exp (h.2 * scale + offset) }]
    have ef : fileOf (g' :: gs) = { id := g'.1, words := h'.1, value := h'.2 } :: (linesOf g'.1 hs' ++ fileOf gs) := by
      rw [fileOf_cons, hg']; rfl
    have ih := readLists_groups scale offset gs g' h' hs' fuel (if hs = [] then sent else g.1) hg' hne' hgr'
      (fun x hx => hfirst x (by simp [hx])) (by simp at hfuel; omega)
    rw [readLists]
    have e : readList [(scale, offset)] (reader g.1 { words := h.1, weight := Real.exp (h.2 * scale + offset) } (linesOf g.1 hs ++ fileOf (g' :: gs))) sent =
        (itemsOf scale offset g, (if hs = [] then sent else g.1), reader g'.1 { words := h'.1, weight := Real.exp (h'.2 * scale + offset) } (linesOf g'.1 hs' ++ fileOf gs)) := by
      unfold readList reader
      simp only [hne, ne_eq, not_false_eq_true, decide_true, if_true, List.length_singleton, List.replicate_one, readFiles]
      rw [hrun, ef]
      simp [itemsOf, itemsFrom, hg, itemOf, lastId]
    rw [e]
    simp only
    rw [if_neg (by simp [itemsOf, hg]), ih]
    simp only [printed, hg, List.tail_cons, List.map_cons, List.zip_cons_cons]

theorem readLists_start (scale offset : ℝ) {gs : List (Nat × List (List Nat × ℝ))} (hgr : Grouped gs) (hfirst : ∀ x ∈ gs.tail, ∀ y ∈ x.2.head?, y.1 ≠ [])
    {fuel : Nat} (hf : gs.length < fuel) :
    readLists [(scale, offset)] fuel (start [fileOf gs]) 0 =
      (match gs with | [] => [] | g :: gs' => (g.1 :: printed g.1 gs').zip (gs.map (itemsOf scale offset))) := by
  cases fuel with
  | zero => omega
  | succ fuel =>
    cases gs with
    | nil => simp [readLists, readList, start, fileOf, readFiles, readFile, emptyItem]
    | cons g gs =>
      have ha := (grouped_tail hgr).1
      have hgr' := (grouped_tail hgr).2.2
      obtain ⟨h, hs, hg⟩ : ∃ h hs, g.2 = h :: hs := by
        cases hx : g.2 with
        | nil => exact absurd hx (grouped_tail hgr).2.1
        | cons a b => exact ⟨a, b, rfl⟩
      have hrun := readFile_run scale offset ha (fileOf gs) (grouped_next hgr) hs g.1 g.1 [itemOf scale offset { id := g.1, words := h.1, value := h.2 }]
      have e : readList [(scale, offset)] (start [fileOf (g :: gs)]) 0 =
          (itemsOf scale offset g, g.1, reader (lastId g.1 g.1 hs (fileOf gs)) (((fileOf gs).head?.map (itemOf scale offset)).getD emptyItem) (fileOf gs).tail) := by
        unfold readList start reader
        have e1 : fileOf (g :: gs) = { id := g.1, words := h.1, value := h.2 } :: (linesOf g.1 hs ++ fileOf gs) := by rw [fileOf_cons, hg]; rfl
        simp only [List.length_singleton, List.replicate_one, emptyItem, ne_eq, not_true_eq_false, decide_false, Bool.false_eq_true, if_false, readFiles]
        rw [e1, readFile]
        simp only [if_true, List.nil_append]
        rw [hrun]
        simp [itemsOf, itemsFrom, hg, itemOf]
      rw [readLists, e]
      simp only
      rw [if_neg (by simp [itemsOf, hg])]
      simp only [List.map_cons, List.zip_cons_cons]
      congr 1
      cases gs with
      | nil =>
        simp only [fileOf, List.flatMap_nil, List.head?_nil, Option.map_none, Option.getD_none, List.tail_nil, readLists_done, printed, List.map_nil, List.zip_nil_right]
      | cons g' gs =>
        obtain ⟨h', hs', hg'⟩ : ∃ h' hs', g'.2 = h' :: hs' := by
          cases hx : g'.2 with
          | nil => exact absurd hx (grouped_tail hgr').2.1
          | cons a b => exact ⟨a, b, rfl⟩
        have hne' : h'.1 ≠ [] := hfirst g' (by simp) h' (by simp [hg'])
        have ef : fileOf (g' :: gs) = { id := g'.1, words := h'.1, value := h'.2 } :: (linesOf g'.1 hs' ++ fileOf gs) := by
          rw [fileOf_cons, hg']; rfl
        have ih := readLists_groups scale offset gs g' h' hs' fuel g.1 hg' hne' hgr'
          (fun x hx => hfirst x (by simp [hx])) (by simp at hf; omega)
        rw [ef]
        simp only [lastId, List.head?_cons, Option.map_some, Option.getD_some, List.tail_cons]
        exact ih

theorem printed_length : ∀ (gs : List (Nat × List (List Nat × ℝ))) (sent : Nat), (printed sent gs).length = gs.length
  | [], _ => rfl
  | _ :: gs, _ => by simp [printed, printed_length gs]

theorem printed_eq : ∀ (gs : List (Nat × List (List Nat × ℝ))) (sent : Nat), (∀ g ∈ gs, 2 ≤ g.2.length) → printed sent gs = gs.map Prod.fst
  | [], _, _ => rfl
  | g :: gs, sent, h => by
    have h2 := h g (by simp)
    have : g.2.tail ≠ [] := by
      intro hh
      have := congrArg List.length hh
      simp at this
      omega
    simp only [printed, if_neg this, List.map_cons]
    rw [printed_eq gs g.1 fun x hx => h x (by simp [hx])]

end Cdec.Mbr
