import Verif.Klm.TrieSeq
import Verif.Klm.TrieSpec
import Verif.Klm.HashedBuildInv
import Mathlib.Data.List.Forall2
/-!
# The probabilities of blanks
-/
namespace Cdec.Klm.LM

variable {K : Type}

/-! ## Both passes make the same calls -/

section
variable [AddCommGroup K]

def Rec.bare (r : Rec K) : Rec K := ⟨r.g, r.prob, 0, false⟩

def Call.bare : Call K → Call K
  | .middle r => .middle r.bare
  | .longest r => .longest r.bare
  | c => c

theorem popMin_bare (qs : List (List (Rec K))) : popMin (qs.map (List.map Rec.bare)) = (popMin qs).map fun x => (x.1.bare, x.2.map (List.map Rec.bare)) := by
  induction qs with
  | nil => rfl
  | cons q qs ih =>
    cases q with
    | nil => simp only [List.map_cons, List.map_nil, popMin, ih]; cases popMin qs <;> rfl
    | cons r q =>
      simp only [List.map_cons, popMin, ih]
      cases popMin qs with
      | none => rfl
      | some x =>
        simp only [Option.map_some]
        have e1 : r.bare.g = r.g := rfl
        have e2 : x.1.bare.g = x.1.g := rfl
        rw [e1, e2]
        by_cases h : r.g < x.1.g <;> simp [h]

theorem mergeAll_bare (fuel : Nat) : ∀ qs : List (List (Rec K)), mergeAll fuel (qs.map (List.map Rec.bare)) = (mergeAll fuel qs).map Rec.bare := by
  induction fuel with
  | zero => intro qs; rfl
  | succ fuel ih =>
    intro qs
    simp only [mergeAll, popMin_bare]
    cases popMin qs with
    | none => rfl
    | some x => simp [ih]

theorem visit_calls {b : Blank K} {g : List Word} {p : K} {cs : List (Call K)} {b' : Blank K} (h : visit b g p = some (cs, b')) : cs.map Call.bare = cs := by
  unfold visit at h
  simp only at h
  split at h
  · cases h; rfl
  · split at h
    · cases h
    · split at h
      · cases h
      · cases h
        simp [Call.bare, Function.comp_def]

theorem insertLoop_bare (order : Nat) (E : List (Rec K)) : ∀ b : Blank K, insertLoop order b (E.map Rec.bare) = (insertLoop order b E).map (List.map Call.bare) := by
  induction E with
  | nil => intro b; rfl
  | cons r E ih =>
    intro b
    simp only [List.map_cons, insertLoop]
    have e : visit b r.bare.g r.bare.prob = visit b r.g r.prob := rfl
    rw [e]
    cases hv : visit b r.g r.prob with
    | none => rfl
    | some x =>
      obtain ⟨cs, b'⟩ := x
      simp only [ih]
      cases insertLoop order b' E with
      | none => rfl
      | some t =>
        simp only [Option.map_some, List.map_append, List.map_cons, visit_calls hv]
        congr 2
        congr 1
        unfold callOf
        have : r.bare.g = r.g := rfl
        rw [this]
        split
        · rfl
        · split <;> rfl

theorem recursiveInsert_bare (order vocab : Nat) {uni uni' : Word → Wt K} {full full' : Nat → List (Rec K)} (hu : ∀ w, (uni w).prob = (uni' w).prob)
    (hf : ∀ n, 2 ≤ n → n ≤ order → (full n).map Rec.bare = (full' n).map Rec.bare) :
    (recursiveInsert order vocab uni full).map (List.map Call.bare) = (recursiveInsert order vocab uni' full').map (List.map Call.bare) := by
  unfold recursiveInsert
  simp only
  rw [← insertLoop_bare, ← insertLoop_bare, ← mergeAll_bare, ← mergeAll_bare]
  have e : ((((List.range vocab).map fun w => (⟨[w], (uni w).prob, (uni w).bo, (uni w).ext⟩ : Rec K)) :: (List.range' 2 (order - 1)).map full).map (List.map Rec.bare)) =
      ((((List.range vocab).map fun w => (⟨[w], (uni' w).prob, (uni' w).bo, (uni' w).ext⟩ : Rec K)) :: (List.range' 2 (order - 1)).map full').map (List.map Rec.bare)) := by
    simp only [List.map_cons, List.map_map, Function.comp_def]
    congr 1
    · refine List.map_congr_left fun w _ => ?_
      simp [Rec.bare, hu w]
    · refine List.map_congr_left fun n hn => ?_
      rw [List.mem_range'_1] at hn
      exact hf n hn.1 (by omega)
  have el := congrArg (List.map List.length) e
  simp only [List.map_map, Function.comp_def, List.length_map] at el
  rw [e]
  congr 3

/-- The blanks of an order. -/
def blanksOf (calls : List (Call K)) (n : Nat) : List (List Word × Nat × K) :=
  calls.filterMap fun c => match c with
    | .blank g lower q => if g.length = n then some (g, lower, q) else none
    | _ => none

theorem blanksOf_bare (calls : List (Call K)) (n : Nat) : blanksOf (calls.map Call.bare) n = blanksOf calls n := by
  unfold blanksOf
  rw [List.filterMap_map]
  congr 1
  funext c
  cases c <;> rfl

theorem blanksOf_concat (calls : List (Call K)) (c : Call K) (n : Nat) : blanksOf (calls ++ [c]) n = blanksOf calls n ++ blanksOf [c] n := by
  unfold blanksOf
  rw [List.filterMap_append]

/-! ## Messages -/

/-- The contexts of the messages with a pointer. -/
def toPtr (ms : List Message) (n j : Nat) : List (List Word) := (ms.filter fun m => decide (m.2 = (n, j))).map (·.1)

theorem toPtr_append (ms ms' : List Message) (n j : Nat) : toPtr (ms ++ ms') n j = toPtr ms n j ++ toPtr ms' n j := by
  simp [toPtr]

theorem toPtr_cons (m : Message) (ms : List Message) (n j : Nat) : toPtr (m :: ms) n j = (if m.2 = (n, j) then [m.1] else []) ++ toPtr ms n j := by
  unfold toPtr
  by_cases h : m.2 = (n, j) <;> simp [h]

theorem toPtr_perm {ms ms' : List Message} (h : ms.Perm ms') (n j : Nat) : (toPtr ms n j).Perm (toPtr ms' n j) := (h.filter _).map _

/-- What a blank asks for from contexts of `i` words. -/
def asked (n i : Nat) : Option (List Word × Nat × K) → List (List Word)
  | some x => if x.2.1 ≤ i ∧ i < n then [x.1.tail.take i] else []
  | none => []

theorem findBlanks_spec (calls : List (Call K)) : (∀ n, (findBlanks calls).values n = (blanksOf calls n).map (·.2.2)) ∧
    ∀ i n j, toPtr ((findBlanks calls).messages i) n j = asked n i (blanksOf calls n)[j]? := by
  induction calls using List.reverseRecOn with
  | nil =>
    refine ⟨fun n => rfl, fun i n j => ?_⟩
    simp [findBlanks, toPtr, blanksOf, asked]
  | append_singleton calls c ih =>
    obtain ⟨ih1, ih2⟩ := ih
    unfold findBlanks at ih1 ih2 ⊢
    rw [List.foldl_append, List.foldl_cons, List.foldl_nil]
    generalize List.foldl _ _ calls = s at ih1 ih2
    cases c with
    | blank g lower q =>
      simp only
      refine ⟨fun n => ?_, fun i n j => ?_⟩
      · rw [blanksOf_concat]
        unfold Sri.send blanksOf
        simp only [List.filterMap_cons, List.filterMap_nil]
        by_cases h : n = g.length
        · subst h
          have := ih1 g.length
          unfold blanksOf at this
          simp [this]
        · have := ih1 n
          unfold blanksOf at this
          simp [h, Ne.symm h, this]
      · rw [blanksOf_concat]
        have hl : (s.values g.length).length = (blanksOf calls g.length).length := by rw [ih1]; simp
        unfold Sri.send
        simp only
        by_cases h : n = g.length
        · subst h
          have e : blanksOf [Call.blank g lower q] g.length = [(g, lower, q)] := by simp [blanksOf]
          rw [e, hl]
          rcases Nat.lt_trichotomy j (blanksOf calls g.length).length with hj | hj | hj
          · rw [List.getElem?_append_left hj, ← ih2]
            split
            · rw [toPtr_append]
              have : toPtr [(g.tail.take i, g.length, (blanksOf calls g.length).length)] g.length j = [] := by
                simp [toPtr, Ne.symm (Nat.ne_of_lt hj)]
              rw [this, List.append_nil]
            · rfl
          · subst hj
            have h0 : toPtr (s.messages i) g.length (blanksOf calls g.length).length = [] := by
              rw [ih2, List.getElem?_eq_none (le_refl _)]; rfl
            rw [List.getElem?_append_right (le_refl _)]
            simp only [Nat.sub_self, List.getElem?_cons_zero, asked]
            split
            · rw [toPtr_append, h0]
              simp [toPtr]
            · exact h0
          · rw [List.getElem?_eq_none (by simp; omega)]
            have h0 : toPtr (s.messages i) g.length j = [] := by
              rw [ih2, List.getElem?_eq_none (by omega)]; rfl
            split
            · rw [toPtr_append, h0]
              simp [toPtr, asked, Nat.ne_of_lt hj]
            · rw [h0]; rfl
        · have e : blanksOf [Call.blank g lower q] n = [] := by simp [blanksOf, Ne.symm h]
          rw [e, List.append_nil, ← ih2]
          split
          · rw [toPtr_append]
            have : toPtr [(g.tail.take i, g.length, (s.values g.length).length)] n j = [] := by simp [toPtr, Ne.symm h]
            rw [this, List.append_nil]
          · rfl
    | unigram w =>
      have e : ∀ n, blanksOf (calls ++ [Call.unigram w]) n = blanksOf calls n := fun n => by rw [blanksOf_concat]; simp [blanksOf]
      simp only [e]
      exact ⟨ih1, ih2⟩
    | middle r =>
      have e : ∀ n, blanksOf (calls ++ [Call.middle r]) n = blanksOf calls n := fun n => by rw [blanksOf_concat]; simp [blanksOf]
      simp only [e]
      exact ⟨ih1, ih2⟩
    | longest r =>
      have e : ∀ n, blanksOf (calls ++ [Call.longest r]) n = blanksOf calls n := fun n => by rw [blanksOf_concat]; simp [blanksOf]
      simp only [e]
      exact ⟨ih1, ih2⟩

/-! ## Delivery -/

theorem addTo_get (v : Nat → List K) (p : Nat × Nat) (x : K) (n j : Nat) : (addTo v p x n)[j]? = (v n)[j]?.map (· + if p = (n, j) then x else 0) := by
  unfold addTo
  by_cases h : n = p.1
  · rw [if_pos h]
    by_cases h2 : p.2 = j
    · have : p = (n, j) := by ext <;> simp [h, h2]
      rw [if_pos this, List.getElem?_modify]; simp [h2]
    · have : p ≠ (n, j) := by rintro rfl; exact h2 rfl
      rw [if_neg this, List.getElem?_modify]
      simp [h2]
  · have : p ≠ (n, j) := by rintro rfl; exact h rfl
    rw [if_neg h, if_neg this]
    simp

theorem map_add_add (o : Option K) (x y : K) : (o.map (· + x)).map (· + y) = o.map (· + (x + y)) := by
  cases o <;> simp [add_assoc]

/-- The same probability and back-off; marks are only added. -/
def Wt.Same (u u' : Wt K) : Prop := u.prob = u'.prob ∧ u.bo = u'.bo ∧ (u'.ext = false → u.ext = false)

theorem Wt.mark_same {u : Wt K} (h : u.ext = false → u.bo = 0) : u.Same u.mark := by
  unfold Wt.mark Wt.Same
  split
  · simp
  · rename_i he
    simp at he
    simp [h he]

theorem applyUni_spec (ms : List Message) : ∀ (uni : Word → Wt K) (v : Nat → List K), (∀ w, (uni w).ext = false → (uni w).bo = 0) →
    (∀ w, (uni w).Same ((applyUni uni v ms).1 w)) ∧
    ∀ n j, ((applyUni uni v ms).2 n)[j]? = (v n)[j]?.map (· + ((toPtr ms n j).map fun h => (uni (h.headD 0)).bo).sum) := by
  induction ms with
  | nil =>
    intro uni v _
    refine ⟨fun w => ⟨rfl, rfl, id⟩, fun n j => ?_⟩
    simp [applyUni, toPtr]
  | cons m ms ih =>
    intro uni v hx
    unfold applyUni
    simp only
    have hm := Wt.mark_same (hx (m.1.headD 0))
    have hx' : ∀ w, (if w = m.1.headD 0 then (uni (m.1.headD 0)).mark else uni w).ext = false → (if w = m.1.headD 0 then (uni (m.1.headD 0)).mark else uni w).bo = 0 := by
      intro w
      split
      · intro h
        rw [← hm.2.1]
        exact hx _ (hm.2.2 h)
      · exact hx w
    have hbo : ∀ w, (if w = m.1.headD 0 then (uni (m.1.headD 0)).mark else uni w).bo = (uni w).bo := by
      intro w
      split
      · rename_i h; rw [h]; exact hm.2.1.symm
      · rfl
    obtain ⟨h1, h2⟩ := ih _ (addTo v m.2 (uni (m.1.headD 0)).mark.bo) hx'
    refine ⟨fun w => ?_, fun n j => ?_⟩
    · have h3 := h1 w
      split at h3
      · rename_i h
        rw [h] at h3 ⊢
        exact ⟨hm.1.trans h3.1, hm.2.1.trans h3.2.1, fun h4 => hm.2.2 (h3.2.2 h4)⟩
      · exact h3
    · rw [h2, addTo_get, map_add_add, toPtr_cons]
      congr 1
      funext y
      congr 1
      rw [List.map_append, List.sum_append]
      congr 1
      · rw [← hm.2.1]
        split <;> simp
      · exact congrArg List.sum (List.map_congr_left fun h _ => hbo _)

/-- The back-off of an n-gram in a file. -/
def boIn (R : List (Rec K)) (h : List Word) : K := ((R.find? fun r => decide (r.g = h)).map (·.bo)).getD 0

/-- The same n-gram, probability and back-off; marks are only added. -/
def Rec.Same (r r' : Rec K) : Prop := r.g = r'.g ∧ r.prob = r'.prob ∧ r.bo = r'.bo ∧ (r'.ext = false → r.ext = false)

theorem Rec.Same.rfl' (r : Rec K) : r.Same r := ⟨rfl, rfl, rfl, id⟩

theorem forall₂_same (rs : List (Rec K)) : List.Forall₂ Rec.Same rs rs := by
  induction rs with
  | nil => exact .nil
  | cons r rs ih => exact .cons (Rec.Same.rfl' r) ih

theorem apply_spec (v : Nat → List K) (rs : List (Rec K)) (ms : List Message) (hr : InOrder rs) (hm : ms.Pairwise fun m m' => m.1 ≤ m'.1) (hx : ∀ r ∈ rs, r.ext = false → r.bo = 0) :
    List.Forall₂ Rec.Same rs (apply v rs ms).1 ∧
    ∀ n j, ((apply v rs ms).2.1 n)[j]? = (v n)[j]?.map (· + ((toPtr ms n j).map (boIn rs)).sum) := by
  fun_induction apply v rs ms with
  | case1 v ms =>
    refine ⟨.nil, fun n j => ?_⟩
    have : (toPtr ms n j).map (boIn ([] : List (Rec K))) = (toPtr ms n j).map fun _ => 0 := rfl
    rw [this]
    simp
  | case2 v rs h =>
    refine ⟨forall₂_same rs, fun n j => ?_⟩
    simp [toPtr]
  | case3 v r rs m ms hlt o ih =>
    obtain ⟨h1, h2⟩ := ih (List.pairwise_cons.1 hr).2 hm fun x hx' => hx x (by simp [hx'])
    refine ⟨.cons (Rec.Same.rfl' r) h1, fun n j => ?_⟩
    simp only [o]
    rw [h2]
    congr 1
    funext y
    congr 2
    refine List.map_congr_left fun h hh => ?_
    have hgt : r.g ≠ h := by
      unfold toPtr at hh
      obtain ⟨m', hm', rfl⟩ := List.mem_map.1 hh
      have hm'' := (List.mem_filter.1 hm').1
      rcases List.mem_cons.1 hm'' with rfl | hm''
      · exact ne_of_lt hlt
      · exact ne_of_lt (lt_of_lt_of_le hlt ((List.pairwise_cons.1 hm).1 _ hm''))
    simp [boIn, hgt]
  | case4 v r rs m ms hlt hgt o ih =>
    obtain ⟨h1, h2⟩ := ih hr (List.pairwise_cons.1 hm).2 hx
    refine ⟨h1, fun n j => ?_⟩
    simp only [o]
    rw [h2, toPtr_cons]
    congr 1
    funext y
    congr 1
    rw [List.map_append, List.sum_append]
    have h0 : boIn (r :: rs) m.1 = 0 := by
      unfold boIn
      have : (r :: rs).find? (fun x => decide (x.g = m.1)) = none := by
        rw [List.find?_eq_none]
        intro x hx'
        simp only [decide_eq_true_eq]
        rcases List.mem_cons.1 hx' with rfl | hx'
        · exact ne_of_gt hgt
        · exact ne_of_gt (lt_trans hgt ((List.pairwise_cons.1 hr).1 x hx'))
      rw [this]
      rfl
    split
    · simp [h0]
    · simp
  | case5 v r rs m ms hlt hgt hext ih =>
    obtain ⟨h1, h2⟩ := ih hr (List.pairwise_cons.1 hm).2 hx
    refine ⟨h1, fun n j => ?_⟩
    rw [h2, addTo_get, map_add_add, toPtr_cons]
    congr 1
    funext y
    congr 1
    rw [List.map_append, List.sum_append]
    have he : r.g = m.1 := le_antisymm (not_lt.1 hgt) (not_lt.1 hlt)
    have h0 : boIn (r :: rs) m.1 = r.bo := by simp [boIn, he]
    congr 1
    split
    · simp [h0]
    · simp
  | case6 v r rs m ms hlt hgt hext ih =>
    have hf : r.ext = false := by simpa using hext
    have h0 : r.bo = 0 := hx r (by simp) hf
    obtain ⟨hr1, hr2⟩ := List.pairwise_cons.1 hr
    obtain ⟨h1, h2⟩ := ih (List.pairwise_cons.2 ⟨hr1, hr2⟩) (List.pairwise_cons.1 hm).2 (by
      intro x hx' hx''
      rcases List.mem_cons.1 hx' with rfl | hx'
      · rfl
      · exact hx x (by simp [hx']) hx'')
    have hb : ∀ h, boIn (⟨r.g, r.prob, 0, true⟩ :: rs) h = boIn (r :: rs) h := by
      intro h
      unfold boIn
      by_cases hh : r.g = h <;> simp [hh, h0]
    refine ⟨?_, fun n j => ?_⟩
    · revert h1
      generalize (apply v _ ms).1 = o
      rintro h1
      cases h1 with
      | cons ha hb' => exact .cons ⟨ha.1, ha.2.1, h0.trans ha.2.2.1, fun h => by have := ha.2.2.2 h; simp at this⟩ hb'
    · rw [h2, toPtr_cons]
      congr 1
      funext y
      congr 1
      rw [List.map_append, List.sum_append]
      have he : r.g = m.1 := le_antisymm (not_lt.1 hgt) (not_lt.1 hlt)
      have h00 : boIn (r :: rs) m.1 = 0 := by simp [boIn, he, h0]
      rw [List.map_congr_left fun h _ => hb h]
      split
      · simp [h00]
      · simp

end

end Cdec.Klm.LM
