import Verif.Klm.TrieSort
import Mathlib.Data.List.Sort
import Mathlib.Tactic.ByContra
/-!
# Lemmas on the sorted files of the trie builder
-/
namespace Cdec.Klm.LM

variable {K : Type}

theorem uniq_spec (l : List (List Word)) (h : l.Pairwise (· ≤ ·)) : (uniq l).Pairwise (· < ·) ∧ ∀ c, c ∈ uniq l ↔ c ∈ l := by
  fun_induction uniq l with
  | case1 => simp
  | case2 => simp
  | case3 c l ih =>
    obtain ⟨h1, h2⟩ := List.pairwise_cons.1 h
    obtain ⟨h3, h4⟩ := ih h2
    refine ⟨h3, fun x => ?_⟩
    rw [h4]
    simp
  | case4 c d l hne ih =>
    obtain ⟨h1, h2⟩ := List.pairwise_cons.1 h
    obtain ⟨h3, h4⟩ := ih h2
    refine ⟨List.pairwise_cons.2 ⟨fun x hx => ?_, h3⟩, fun x => ?_⟩
    · rw [h4] at hx
      have hcd : c < d := lt_of_le_of_ne (h1 d (by simp)) hne
      rcases List.mem_cons.1 hx with rfl | hx
      · exact hcd
      · exact lt_of_lt_of_le hcd ((List.pairwise_cons.1 h2).1 x hx)
    · rw [List.mem_cons, h4, List.mem_cons (a := x) (l := d :: l)]

theorem batches_flatten (b : Nat) (hb : 0 < b) (l : List (Rec K)) : (batches b l).flatten = l := by
  fun_induction batches b l with
  | case1 l h =>
    rcases h with h | h
    · omega
    · simp [h]
  | case2 l h ih => rw [List.flatten_cons, ih, List.take_append_drop]

/-- Merging two files. -/
theorem mergeFiles_spec {α : Type} (key : α → List Word) (combine : α → α → Option α) (hc : ∀ x y z, combine x y = some z → z = x) (l l' m : List α)
    (h : l.Pairwise fun x y => key x < key y) (h' : l'.Pairwise fun x y => key x < key y) (hm : mergeFiles key combine l l' = some m) :
    (m.Pairwise fun x y => key x < key y) ∧ (∀ x ∈ m, x ∈ l ∨ x ∈ l') ∧ (∀ x ∈ l, x ∈ m) ∧ (∀ x ∈ l', x ∈ m ∨ ∃ y ∈ l, key y = key x) := by
  fun_induction mergeFiles key combine l l' generalizing m with
  | case1 l => cases hm; exact ⟨h', by simp, by simp, fun x hx => .inl hx⟩
  | case2 l hne => cases hm; exact ⟨h, by simp, by simp, by simp⟩
  | case3 x xs y ys hlt ih =>
    obtain ⟨m', h1, rfl⟩ := Option.map_eq_some_iff.1 hm
    obtain ⟨a1, a2⟩ := List.pairwise_cons.1 h
    obtain ⟨b1, b2⟩ := List.pairwise_cons.1 h'
    obtain ⟨c1, c2, c3, c4⟩ := ih m' a2 h' h1
    refine ⟨List.pairwise_cons.2 ⟨fun z hz => ?_, c1⟩, fun z hz => ?_, fun z hz => ?_, fun z hz => ?_⟩
    · rcases c2 z hz with hz | hz
      · exact a1 z hz
      · rcases List.mem_cons.1 hz with rfl | hz
        · exact hlt
        · exact lt_trans hlt (b1 z hz)
    · rcases List.mem_cons.1 hz with rfl | hz
      · simp
      · rcases c2 z hz with hz | hz
        · simp [hz]
        · exact .inr hz
    · rcases List.mem_cons.1 hz with rfl | hz
      · simp
      · exact List.mem_cons_of_mem _ (c3 z hz)
    · rcases c4 z hz with hz | ⟨w, hw, e⟩
      · exact .inl (List.mem_cons_of_mem _ hz)
      · exact .inr ⟨w, List.mem_cons_of_mem _ hw, e⟩
  | case4 x xs y ys hn hlt ih =>
    obtain ⟨m', h1, rfl⟩ := Option.map_eq_some_iff.1 hm
    obtain ⟨a1, a2⟩ := List.pairwise_cons.1 h
    obtain ⟨b1, b2⟩ := List.pairwise_cons.1 h'
    obtain ⟨c1, c2, c3, c4⟩ := ih m' h b2 h1
    refine ⟨List.pairwise_cons.2 ⟨fun z hz => ?_, c1⟩, fun z hz => ?_, fun z hz => ?_, fun z hz => ?_⟩
    · rcases c2 z hz with hz | hz
      · rcases List.mem_cons.1 hz with rfl | hz
        · exact hlt
        · exact lt_trans hlt (a1 z hz)
      · exact b1 z hz
    · rcases List.mem_cons.1 hz with rfl | hz
      · simp
      · rcases c2 z hz with hz | hz
        · exact .inl hz
        · simp [hz]
    · exact List.mem_cons_of_mem _ (c3 z hz)
    · rcases List.mem_cons.1 hz with rfl | hz
      · simp
      · rcases c4 z hz with hz | hz
        · exact .inl (List.mem_cons_of_mem _ hz)
        · exact .inr hz
  | case5 => cases hm
  | case6 x xs y ys hn1 hn2 z hz ih =>
    have := hc _ _ _ hz
    subst this
    obtain ⟨m', h1, rfl⟩ := Option.map_eq_some_iff.1 hm
    obtain ⟨a1, a2⟩ := List.pairwise_cons.1 h
    obtain ⟨b1, b2⟩ := List.pairwise_cons.1 h'
    obtain ⟨c1, c2, c3, c4⟩ := ih m' a2 b2 h1
    have hxy : key z = key y := le_antisymm (not_lt.1 hn2) (not_lt.1 hn1)
    refine ⟨List.pairwise_cons.2 ⟨fun w hw => ?_, c1⟩, fun w hw => ?_, fun w hw => ?_, fun w hw => ?_⟩
    · rcases c2 w hw with hw | hw
      · exact a1 w hw
      · rw [hxy]; exact b1 w hw
    · rcases List.mem_cons.1 hw with rfl | hw
      · simp
      · rcases c2 w hw with hw | hw <;> simp [hw]
    · rcases List.mem_cons.1 hw with rfl | hw
      · simp
      · exact List.mem_cons_of_mem _ (c3 w hw)
    · rcases List.mem_cons.1 hw with rfl | hw
      · exact .inr ⟨z, by simp, hxy⟩
      · rcases c4 w hw with hw | ⟨v, hv, e⟩
        · exact .inl (List.mem_cons_of_mem _ hw)
        · exact .inr ⟨v, List.mem_cons_of_mem _ hv, e⟩

/-- Files without a common record are merged. -/
theorem mergeFiles_perm {α : Type} (key : α → List Word) (combine : α → α → Option α) (l l' : List α) (hd : ∀ x ∈ l, ∀ y ∈ l', key x ≠ key y) :
    ∃ m, mergeFiles key combine l l' = some m ∧ m.Perm (l ++ l') := by
  fun_induction mergeFiles key combine l l' with
  | case1 l => exact ⟨l, rfl, by simp⟩
  | case2 l hne => exact ⟨l, rfl, by simp⟩
  | case3 x xs y ys hlt ih =>
    obtain ⟨m, h1, h2⟩ := ih (fun z hz => hd z (by simp [hz]))
    exact ⟨x :: m, by rw [h1]; rfl, h2.cons x⟩
  | case4 x xs y ys hn hlt ih =>
    obtain ⟨m, h1, h2⟩ := ih (fun z hz w hw => hd z hz w (by simp [hw]))
    exact ⟨y :: m, by rw [h1]; rfl, (h2.cons y).trans (List.perm_middle (l₁ := x :: xs)).symm⟩
  | case5 x xs y ys hn1 hn2 hz => exact absurd (le_antisymm (not_lt.1 hn2) (not_lt.1 hn1)) (hd x (by simp) y (by simp))
  | case6 x xs y ys hn1 hn2 z hz ih => exact absurd (le_antisymm (not_lt.1 hn2) (not_lt.1 hn1)) (hd x (by simp) y (by simp))

/-- Two files with a common record are not merged. -/
theorem mergeFiles_dup {α : Type} (key : α → List Word) (l l' : List α) (h : l.Pairwise fun x y => key x ≤ key y) (h' : l'.Pairwise fun x y => key x ≤ key y)
    (hd : ∃ x ∈ l, ∃ y ∈ l', key x = key y) : mergeFiles key (fun _ _ => none) l l' = none := by
  fun_induction mergeFiles key (fun _ _ => none) l l' with
  | case1 l => simp at hd
  | case2 l hne => simp at hd
  | case3 x xs y ys hlt ih =>
    rw [ih (List.pairwise_cons.1 h).2 h' ?_]
    · rfl
    · obtain ⟨z, hz, w, hw, e⟩ := hd
      rcases List.mem_cons.1 hz with rfl | hz
      · exfalso
        have : key y ≤ key w := by
          rcases List.mem_cons.1 hw with rfl | hw
          · exact le_refl _
          · exact (List.pairwise_cons.1 h').1 w hw
        exact absurd e (ne_of_lt (lt_of_lt_of_le hlt this))
      · exact ⟨z, hz, w, hw, e⟩
  | case4 x xs y ys hn hlt ih =>
    rw [ih h (List.pairwise_cons.1 h').2 ?_]
    · rfl
    · obtain ⟨z, hz, w, hw, e⟩ := hd
      rcases List.mem_cons.1 hw with rfl | hw
      · exfalso
        have : key x ≤ key z := by
          rcases List.mem_cons.1 hz with rfl | hz
          · exact le_refl _
          · exact (List.pairwise_cons.1 h).1 z hz
        exact absurd e.symm (ne_of_lt (lt_of_lt_of_le hlt this))
      · exact ⟨z, hz, w, hw, e⟩
  | case5 => rfl
  | case6 x xs y ys hn1 hn2 z hz ih => cases hz

/-- The files of an order. -/
structure SortedTo (l : List (Rec K)) (o : List (Rec K) × List (List Word)) : Prop where
  perm : o.1.Perm l
  order : o.1.Pairwise fun r r' => r.g < r'.g
  ctxOrder : o.2.Pairwise (· < ·)
  ctx : ∀ c, c ∈ o.2 ↔ ∃ r ∈ l, r.g.tail = c

theorem SortedTo.congr {l l' : List (Rec K)} {o : List (Rec K) × List (List Word)} (h : SortedTo l o) (hp : l.Perm l') : SortedTo l' o :=
  ⟨h.perm.trans hp, h.order, h.ctxOrder, fun c => by rw [h.ctx]; exact exists_congr fun r => by rw [hp.mem_iff]⟩

theorem mergeQueue_spec (q : List (List (Rec K) × List (List Word))) : ∀ (L : List (List (Rec K))), List.Forall₂ SortedTo L q → (L.flatten.map (·.g)).Nodup → ∃ o, mergeQueue q = some o ∧ SortedTo L.flatten o := by
  fun_induction mergeQueue q with
  | case1 =>
    intro L h _
    cases h
    exact ⟨_, rfl, by simp, by simp, by simp, by simp⟩
  | case2 x =>
    intro L h _
    cases h with
    | cons h1 h2 =>
      cases h2
      exact ⟨x, rfl, by simpa using h1⟩
  | case3 x y q f c hc hf ih =>
    intro L h hn
    match L, h with
    | l :: l' :: L, .cons h1 (.cons h2 h3) =>
      have hdis : ∀ r ∈ x.1, ∀ r' ∈ y.1, r.g ≠ r'.g := by
        intro r hr r' hr' e
        simp only [List.flatten_cons, List.map_append] at hn
        obtain ⟨_, _, hd⟩ := List.nodup_append.1 hn
        exact hd r.g (List.mem_map.2 ⟨r, h1.perm.mem_iff.1 hr, rfl⟩) r'.g (List.mem_append_left _ (List.mem_map.2 ⟨r', h2.perm.mem_iff.1 hr', rfl⟩)) e
      obtain ⟨m, e, hp⟩ := mergeFiles_perm (fun r : Rec K => r.g) (fun _ _ => none) x.1 y.1 hdis
      have e' : m = f := by rw [e] at hf; cases hf; rfl
      subst e'
      obtain ⟨s1, _⟩ := mergeFiles_spec _ _ (by intro _ _ _ h; cases h) _ _ _ h1.order h2.order e
      obtain ⟨c1, c2, c3, c4⟩ := mergeFiles_spec id _ (by intro _ _ _ h; cases h; rfl) _ _ _ h1.ctxOrder h2.ctxOrder hc
      have hnew : SortedTo (l ++ l') (m, c) := by
        refine ⟨hp.trans (h1.perm.append h2.perm), s1, c1, fun d => ?_⟩
        constructor
        · intro hd
          rcases c2 d hd with hd | hd
          · obtain ⟨r, hr, e⟩ := (h1.ctx d).1 hd
            exact ⟨r, List.mem_append_left _ hr, e⟩
          · obtain ⟨r, hr, e⟩ := (h2.ctx d).1 hd
            exact ⟨r, List.mem_append_right _ hr, e⟩
        · rintro ⟨r, hr, e⟩
          rcases List.mem_append.1 hr with hr | hr
          · exact c3 d ((h1.ctx d).2 ⟨r, hr, e⟩)
          · rcases c4 d ((h2.ctx d).2 ⟨r, hr, e⟩) with h | ⟨d', h, e'⟩
            · exact h
            · simp only [id] at e'
              exact c3 d (e' ▸ h)
      have hperm : (L ++ [l ++ l']).flatten.Perm (l :: l' :: L).flatten := by
        have e1 : (L ++ [l ++ l']).flatten = L.flatten ++ (l ++ l') := by simp
        have e2 : (l :: l' :: L).flatten = (l ++ l') ++ L.flatten := by simp
        rw [e1, e2]
        exact List.perm_append_comm
      obtain ⟨o, e1, e2⟩ := ih (L ++ [l ++ l']) (List.rel_append h3 (.cons hnew .nil)) ((hperm.map _).nodup_iff.2 hn)
      exact ⟨o, e1, e2.congr hperm⟩
  | case4 x y q hne =>
    intro L h hn
    match L, h with
    | l :: l' :: L, .cons h1 (.cons h2 h3) =>
      exfalso
      have hdis : ∀ r ∈ x.1, ∀ r' ∈ y.1, r.g ≠ r'.g := by
        intro r hr r' hr' e
        simp only [List.flatten_cons, List.map_append] at hn
        obtain ⟨_, _, hd⟩ := List.nodup_append.1 hn
        exact hd r.g (List.mem_map.2 ⟨r, h1.perm.mem_iff.1 hr, rfl⟩) r'.g (List.mem_append_left _ (List.mem_map.2 ⟨r', h2.perm.mem_iff.1 hr', rfl⟩)) e
      obtain ⟨m, e, hp⟩ := mergeFiles_perm (fun r : Rec K => r.g) (fun _ _ => none) x.1 y.1 hdis
      have : ∀ l l' : List (List Word), ∃ c, mergeFiles id (fun c _ => some c) l l' = some c := by
        intro l l'
        fun_induction mergeFiles id (fun c (_ : List Word) => some c) l l' with
        | case1 l => exact ⟨_, rfl⟩
        | case2 l => exact ⟨_, rfl⟩
        | case3 _ _ _ _ _ ih => obtain ⟨c, h⟩ := ih; exact ⟨_, by rw [h]; rfl⟩
        | case4 _ _ _ _ _ _ ih => obtain ⟨c, h⟩ := ih; exact ⟨_, by rw [h]; rfl⟩
        | case5 _ _ _ _ _ _ h => cases h
        | case6 _ _ _ _ _ _ _ _ ih => obtain ⟨c, h⟩ := ih; exact ⟨_, by rw [h]; rfl⟩
      obtain ⟨c, hc⟩ := this x.2 y.2
      exact hne m c e hc

theorem flush_spec {st : Sorters K} (hs : Spec.SortersOk st) {l : List (Rec K)} (hn : (l.map (·.g)).Nodup) : SortedTo l (flush st l) := by
  obtain ⟨h1, h2⟩ := hs.recs l
  obtain ⟨h3, h4⟩ := hs.ctxs ((st.recs l).map fun r => r.g.tail)
  obtain ⟨h5, h6⟩ := uniq_spec _ h4
  refine ⟨h1, ?_, h5, fun c => ?_⟩
  · have : (st.recs l).Pairwise fun r r' => r.g ≠ r'.g := by
      have := ((h1.map (·.g)).nodup_iff.2 hn)
      unfold List.Nodup at this
      rwa [List.pairwise_map] at this
    exact (h2.and this).imp fun h => lt_of_le_of_ne h.1 h.2
  · rw [show (flush st l).2 = uniq (st.ctxs ((st.recs l).map fun r => r.g.tail)) from rfl, h6, h3.mem_iff, List.mem_map]
    exact exists_congr fun r => by rw [h1.mem_iff]

theorem convertToSorted_spec {st : Sorters K} (hs : Spec.SortersOk st) {b : Nat} (hb : 0 < b) {l : List (Rec K)} (hn : (l.map (·.g)).Nodup) : ∃ o, convertToSorted st b l = some o ∧ SortedTo l o := by
  have hf := batches_flatten b hb l
  obtain ⟨o, h1, h2⟩ := mergeQueue_spec ((batches b l).map (flush st)) (batches b l) (by
    rw [List.forall₂_map_right_iff]
    refine List.forall₂_same.2 fun x hx => flush_spec hs ?_
    have : x.Sublist l := by
      rw [← hf]
      exact List.sublist_flatten_of_mem hx
    exact hn.sublist (this.map _)) (by rw [hf]; exact hn)
  rw [hf] at h2
  exact ⟨o, h1, h2⟩

/-! ## Duplicates -/

theorem mergeFiles_le {α : Type} (key : α → List Word) (l l' m : List α) (h : l.Pairwise fun x y => key x ≤ key y) (h' : l'.Pairwise fun x y => key x ≤ key y)
    (hm : mergeFiles key (fun _ _ => none) l l' = some m) : (m.Pairwise fun x y => key x ≤ key y) ∧ m.Perm (l ++ l') := by
  fun_induction mergeFiles key (fun _ _ => none) l l' generalizing m with
  | case1 l => cases hm; exact ⟨h', by simp⟩
  | case2 l hne => cases hm; exact ⟨h, by simp⟩
  | case3 x xs y ys hlt ih =>
    obtain ⟨m', h1, rfl⟩ := Option.map_eq_some_iff.1 hm
    obtain ⟨a1, a2⟩ := List.pairwise_cons.1 h
    obtain ⟨b1, b2⟩ := List.pairwise_cons.1 h'
    obtain ⟨c1, c2⟩ := ih m' a2 h' h1
    refine ⟨List.pairwise_cons.2 ⟨fun z hz => ?_, c1⟩, c2.cons x⟩
    rcases List.mem_append.1 (c2.mem_iff.1 hz) with hz | hz
    · exact a1 z hz
    · rcases List.mem_cons.1 hz with rfl | hz
      · exact le_of_lt hlt
      · exact le_trans (le_of_lt hlt) (b1 z hz)
  | case4 x xs y ys hn hlt ih =>
    obtain ⟨m', h1, rfl⟩ := Option.map_eq_some_iff.1 hm
    obtain ⟨a1, a2⟩ := List.pairwise_cons.1 h
    obtain ⟨b1, b2⟩ := List.pairwise_cons.1 h'
    obtain ⟨c1, c2⟩ := ih m' h b2 h1
    refine ⟨List.pairwise_cons.2 ⟨fun z hz => ?_, c1⟩, (c2.cons y).trans (List.perm_middle (l₁ := x :: xs)).symm⟩
    rcases List.mem_append.1 (c2.mem_iff.1 hz) with hz | hz
    · rcases List.mem_cons.1 hz with rfl | hz
      · exact le_of_lt hlt
      · exact le_trans (le_of_lt hlt) (a1 z hz)
    · exact b1 z hz
  | case5 => cases hm
  | case6 x xs y ys hn1 hn2 z hz ih => cases hz

/-- Two files have no n-gram in common. -/
def Apart (x y : List (Rec K) × List (List Word)) : Prop := ∀ r ∈ x.1, ∀ r' ∈ y.1, r.g ≠ r'.g

theorem mergeQueue_apart (q : List (List (Rec K) × List (List Word))) (o : List (Rec K) × List (List Word)) (hq : ∀ x ∈ q, x.1.Pairwise fun r r' => r.g ≤ r'.g) (h : mergeQueue q = some o) : q.Pairwise Apart := by
  fun_induction mergeQueue q with
  | case1 => exact .nil
  | case2 x => exact List.pairwise_singleton _ _
  | case3 x y q f c hc hf ih =>
    have hx := hq x (by simp)
    have hy := hq y (by simp)
    obtain ⟨f1, f2⟩ := mergeFiles_le _ _ _ _ hx hy hf
    have hxy : Apart x y := by
      intro r hr r' hr' e
      rw [mergeFiles_dup (fun r : Rec K => r.g) x.1 y.1 hx hy ⟨r, hr, r', hr', e⟩] at hf
      cases hf
    have := ih (by
      intro z hz
      rcases List.mem_append.1 hz with hz | hz
      · exact hq z (by simp [hz])
      · rw [List.mem_singleton.1 hz]; exact f1) h
    obtain ⟨h1, _, h2⟩ := List.pairwise_append.1 this
    have hfar : ∀ z ∈ q, (∀ r ∈ z.1, ∀ r' ∈ x.1, r.g ≠ r'.g) ∧ ∀ r ∈ z.1, ∀ r' ∈ y.1, r.g ≠ r'.g := by
      intro z hz
      have := h2 z hz _ (List.mem_singleton.2 rfl)
      exact ⟨fun r hr r' hr' => this r hr r' (f2.mem_iff.2 (List.mem_append_left _ hr')), fun r hr r' hr' => this r hr r' (f2.mem_iff.2 (List.mem_append_right _ hr'))⟩
    refine List.pairwise_cons.2 ⟨fun z hz => ?_, List.pairwise_cons.2 ⟨fun z hz => ?_, h1⟩⟩
    · rcases List.mem_cons.1 hz with rfl | hz
      · exact hxy
      · exact fun r hr r' hr' => ((hfar z hz).1 r' hr' r hr).symm
    · exact fun r hr r' hr' => ((hfar z hz).2 r' hr' r hr).symm
  | case4 => cases h

theorem mem_batch (b : Nat) (hb : 0 < b) (l : List (Rec K)) : ∀ (i : Nat) (r : Rec K), l[i]? = some r → ∃ x, (batches b l)[i / b]? = some x ∧ r ∈ x := by
  fun_induction batches b l with
  | case1 l h =>
    intro i r hr
    rcases h with h | h
    · omega
    · rw [h] at hr; simp at hr
  | case2 l h ih =>
    intro i r hr
    by_cases hi : i < b
    · rw [Nat.div_eq_of_lt hi]
      refine ⟨_, List.getElem?_cons_zero, ?_⟩
      have : (l.take b)[i]? = some r := by rw [List.getElem?_take, if_pos hi, hr]
      exact List.mem_of_getElem? this
    · obtain ⟨j, rfl⟩ : ∃ j, i = j + b := ⟨i - b, by omega⟩
      rw [Nat.add_div_right _ hb, List.getElem?_cons_succ]
      exact ih j r (by rw [List.getElem?_drop, Nat.add_comm]; exact hr)

/-- An n-gram in two batches is an error. -/
theorem convertToSorted_dup {st : Sorters K} (hs : Spec.SortersOk st) {b : Nat} (hb : 0 < b) {l : List (Rec K)} {i j : Nat} {r r' : Rec K} (hi : l[i]? = some r) (hj : l[j]? = some r') (he : r.g = r'.g)
    (hij : i / b ≠ j / b) : convertToSorted st b l = none := by
  by_contra hne
  obtain ⟨o, ho⟩ := Option.ne_none_iff_exists'.1 hne
  have hp := mergeQueue_apart _ o (by
    intro x hx
    obtain ⟨y, _, rfl⟩ := List.mem_map.1 hx
    exact (hs.recs y).2) ho
  obtain ⟨x, hx, hrx⟩ := mem_batch b hb l i r hi
  obtain ⟨y, hy, hry⟩ := mem_batch b hb l j r' hj
  have key : ∀ (m n : Nat) (x y : List (Rec K)) (r r' : Rec K), m < n → (batches b l)[m]? = some x → (batches b l)[n]? = some y → r ∈ x → r' ∈ y → r.g ≠ r'.g := by
    intro m n x y r r' hmn hx hy hr hr'
    have hx' : ((batches b l).map (flush st))[m]? = some (flush st x) := by rw [List.getElem?_map, hx]; rfl
    have hy' : ((batches b l).map (flush st))[n]? = some (flush st y) := by rw [List.getElem?_map, hy]; rfl
    obtain ⟨h1, e1⟩ := List.getElem?_eq_some_iff.1 hx'
    obtain ⟨h2, e2⟩ := List.getElem?_eq_some_iff.1 hy'
    have := List.pairwise_iff_getElem.1 hp m n h1 h2 hmn
    rw [e1, e2] at this
    exact this r ((hs.recs x).1.mem_iff.2 hr) r' ((hs.recs y).1.mem_iff.2 hr')
  rcases Nat.lt_or_gt_of_ne hij with h | h
  · exact key _ _ x y r r' h hx hy hrx hry he
  · exact key _ _ y x r' r h hy hx hry hrx he.symm

/-! ## All orders -/

theorem sortFiles_step (st : Sorters K) (b : Nat → Nat) (sect : Nat → List (Rec K)) (k : Nat) (g : Nat → List (Rec K) × List (List Word)) (hg : ∀ n, 2 ≤ n → n < 2 + k → convertToSorted st (b n) (sect n) = some (g n)) :
    ∃ f, (List.range' 2 k).foldl (fun o n => match o, convertToSorted st (b n) (sect n) with
      | some f, some x => some ⟨fun i => if i = n then x.1 else f.full i, fun i => if i + 1 = n then x.2 else f.ctx i⟩
      | _, _ => none) (some (⟨fun _ => [], fun _ => []⟩ : Files K)) = some f ∧ ∀ n, 2 ≤ n → n < 2 + k → f.full n = (g n).1 ∧ f.ctx (n - 1) = (g n).2 := by
  induction k with
  | zero => exact ⟨_, rfl, fun n h1 h2 => by omega⟩
  | succ k ih =>
    obtain ⟨f, h1, h2⟩ := ih fun n h3 h4 => hg n h3 (by omega)
    rw [List.range'_concat, List.foldl_append, h1]
    simp only [List.foldl_cons, List.foldl_nil, Nat.one_mul]
    rw [hg (2 + k) (by omega) (by omega)]
    refine ⟨_, rfl, fun n h3 h4 => ?_⟩
    by_cases hn : n = 2 + k
    · subst hn
      simp only [if_true, if_pos (show 2 + k - 1 + 1 = 2 + k by omega), and_self]
    · simp only [if_neg hn, if_neg (show ¬ n - 1 + 1 = 2 + k by omega)]
      exact h2 n h3 (by omega)

theorem sortFiles_none (st : Sorters K) (order : Nat) (b : Nat → Nat) (sect : Nat → List (Rec K)) {n : Nat} (h1 : 2 ≤ n) (h2 : n ≤ order) (h : convertToSorted st (b n) (sect n) = none) : sortFiles st order b sect = none := by
  unfold sortFiles
  have hm : n ∈ List.range' 2 (order - 1) := List.mem_range'_1.2 (by omega)
  generalize (some (⟨fun _ => [], fun _ => []⟩ : Files K)) = o
  generalize List.range' 2 (order - 1) = L at hm
  induction L generalizing o with
  | nil => cases hm
  | cons m l ih =>
    rw [List.foldl_cons]
    rcases List.mem_cons.1 hm with rfl | hm
    · rw [h]
      have : ∀ l : List Nat, l.foldl (fun o n => match o, convertToSorted st (b n) (sect n) with
        | some f, some x => some ⟨fun i => if i = n then x.1 else f.full i, fun i => if i + 1 = n then x.2 else f.ctx i⟩
        | _, _ => none) (none : Option (Files K)) = none := by
        intro l
        induction l with
        | nil => rfl
        | cons _ l ih => exact ih
      cases o <;> exact this l
    · exact ih _ hm

end Cdec.Klm.LM
