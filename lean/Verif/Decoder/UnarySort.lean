import Verif.Decoder.Parser
import Mathlib.Data.List.Perm.Subperm
import Mathlib.Data.List.Count
import Mathlib.Order.Nat
import Mathlib.Data.List.Forall2
/-! `TopoSortUnaries`. -/
namespace Cdec.Dec.Parser
variable {ι R φ : Type}

/-! ## The map from right-hand sides to rules -/

def KeysSorted (m : List (Int × List R)) : Prop := m.Pairwise fun x y => x.1 < y.1

theorem insertKey_keys (k : Int) (r : R) (m : List (Int × List R)) : ∀ x ∈ insertKey k r m, x.1 = k ∨ ∃ y ∈ m, y.1 = x.1 := by
  induction m with
  | nil => intro x hx; simp [insertKey] at hx; exact .inl (by rw [hx])
  | cons y m ih =>
    obtain ⟨k', l⟩ := y
    intro x hx
    unfold insertKey at hx
    split at hx
    · rcases List.mem_cons.1 hx with rfl | hx
      · exact .inl rfl
      · exact .inr ⟨x, hx, rfl⟩
    · split at hx
      · rcases List.mem_cons.1 hx with rfl | hx
        · exact .inr ⟨(k', l), by simp, rfl⟩
        · exact .inr ⟨x, by simp [hx], rfl⟩
      · rcases List.mem_cons.1 hx with rfl | hx
        · exact .inr ⟨(k', l), by simp, rfl⟩
        · rcases ih x hx with h | ⟨y, hy, e⟩
          · exact .inl h
          · exact .inr ⟨y, by simp [hy], e⟩

theorem insertKey_sorted (k : Int) (r : R) {m : List (Int × List R)} (h : KeysSorted m) : KeysSorted (insertKey k r m) := by
  induction m with
  | nil => simp [insertKey, KeysSorted]
  | cons y m ih =>
    obtain ⟨k', l⟩ := y
    have h' := List.pairwise_cons.1 h
    unfold insertKey
    split
    · rename_i hlt
      refine List.pairwise_cons.2 ⟨?_, h⟩
      intro x hx
      rcases List.mem_cons.1 hx with rfl | hx
      · exact hlt
      · have := h'.1 x hx
        simp only [] at this ⊢
        omega
    · split
      · exact List.pairwise_cons.2 ⟨fun x hx => h'.1 x hx, h'.2⟩
      · rename_i h1 h2
        refine List.pairwise_cons.2 ⟨?_, ih h'.2⟩
        intro x hx
        rcases insertKey_keys k r m x hx with e | ⟨y, hy, e⟩
        · simp only []
          omega
        · rw [← e]
          exact h'.1 y hy

theorem findKey_nil_of_lt {m : List (Int × List R)} {c : Int} (h : ∀ x ∈ m, c < x.1) : findKey m c = [] := by
  unfold findKey
  have : (m.find? fun x => decide (x.1 = c)) = none := by
    rw [List.find?_eq_none]
    intro x hx
    have := h x hx
    simp
    omega
  rw [this]

theorem findKey_cons (x : Int × List R) (m : List (Int × List R)) (c : Int) : findKey (x :: m) c = if x.1 = c then x.2 else findKey m c := by
  unfold findKey
  rw [List.find?_cons]
  by_cases h : x.1 = c
  · simp [h]
  · simp [h]

theorem findKey_insertKey (k : Int) (r : R) {m : List (Int × List R)} (h : KeysSorted m) (c : Int) :
    findKey (insertKey k r m) c = findKey m c ++ if k = c then [r] else [] := by
  induction m with
  | nil =>
    unfold insertKey
    rw [findKey_cons]
    by_cases h : k = c <;> simp [h, findKey]
  | cons y m ih =>
    obtain ⟨k', l⟩ := y
    have h' := List.pairwise_cons.1 h
    unfold insertKey
    split
    · rename_i hlt
      rw [findKey_cons]
      by_cases hk : k = c
      · have : findKey ((k', l) :: m) c = [] := findKey_nil_of_lt (by
          intro x hx
          rcases List.mem_cons.1 hx with rfl | hx
          · rw [← hk]; exact hlt
          · have := h'.1 x hx
            simp only [] at this
            omega)
        simp [hk, this]
      · simp [hk]
    · split
      · rename_i h1 h2
        rw [findKey_cons, findKey_cons]
        by_cases hk : k = c
        · simp [← h2, hk]
        · have : ¬ k' = c := by omega
          simp [hk, this]
      · rename_i h1 h2
        rw [findKey_cons, findKey_cons, ih h'.2]
        by_cases hk : k' = c
        · have : ¬ k = c := by omega
          simp [hk, this]
        · simp [hk]

theorem unaryMap_spec (p : Env ι R φ) : KeysSorted (unaryMap p) ∧ (unaryMap p).length ≤ p.unaries.length ∧
    (∀ c, findKey (unaryMap p) c = p.unaries.filter fun r => decide (p.rhs r = c)) ∧ ∀ r ∈ p.unaries, ∃ x ∈ unaryMap p, x.1 = p.rhs r := by
  unfold unaryMap
  have gen : ∀ (us : List R) (m : List (Int × List R)), KeysSorted m → KeysSorted (us.foldl (fun m r => insertKey (p.rhs r) r m) m) ∧
      (us.foldl (fun m r => insertKey (p.rhs r) r m) m).length ≤ m.length + us.length ∧
      (∀ c, findKey (us.foldl (fun m r => insertKey (p.rhs r) r m) m) c = findKey m c ++ us.filter fun r => decide (p.rhs r = c)) ∧
      (∀ r, (r ∈ us ∨ ∃ x ∈ m, x.1 = p.rhs r) → ∃ x ∈ us.foldl (fun m r => insertKey (p.rhs r) r m) m, x.1 = p.rhs r) := by
    intro us
    induction us with
    | nil => intro m hm; exact ⟨hm, by simp, fun c => by simp, fun r hr => by simpa using hr⟩
    | cons r us ih =>
      intro m hm
      obtain ⟨i1, i2, i3, i4⟩ := ih _ (insertKey_sorted (p.rhs r) r hm)
      have hlen : ∀ m : List (Int × List R), (insertKey (p.rhs r) r m).length ≤ m.length + 1 := by
        intro m
        induction m with
        | nil => simp [insertKey]
        | cons y m ih =>
          obtain ⟨k', l⟩ := y
          unfold insertKey
          split
          · simp
          · split
            · simp
            · simp; exact ih
      have hkeep : ∀ (m : List (Int × List R)) x, x ∈ m → ∃ y ∈ insertKey (p.rhs r) r m, y.1 = x.1 := by
        intro m
        induction m with
        | nil => intro x hx; simp at hx
        | cons y m ih =>
          obtain ⟨k', l⟩ := y
          intro x hx
          unfold insertKey
          split
          · exact ⟨x, List.mem_cons_of_mem _ hx, rfl⟩
          · split
            · rcases List.mem_cons.1 hx with rfl | hx
              · exact ⟨_, List.mem_cons_self, rfl⟩
              · exact ⟨x, List.mem_cons_of_mem _ hx, rfl⟩
            · rcases List.mem_cons.1 hx with rfl | hx
              · exact ⟨_, List.mem_cons_self, rfl⟩
              · obtain ⟨y, hy, e⟩ := ih x hx
                exact ⟨y, List.mem_cons_of_mem _ hy, e⟩
      have hnew : ∀ (m : List (Int × List R)), ∃ y ∈ insertKey (p.rhs r) r m, y.1 = p.rhs r := by
        intro m
        induction m with
        | nil => exact ⟨(p.rhs r, [r]), by simp [insertKey], rfl⟩
        | cons y m ih =>
          obtain ⟨k', l⟩ := y
          unfold insertKey
          split
          · exact ⟨_, List.mem_cons_self, rfl⟩
          · split
            · rename_i h
              exact ⟨_, List.mem_cons_self, h.symm⟩
            · obtain ⟨y, hy, e⟩ := ih
              exact ⟨y, List.mem_cons_of_mem _ hy, e⟩
      refine ⟨i1, ?_, ?_, ?_⟩
      · have := hlen m
        simp only [List.foldl_cons, List.length_cons]
        omega
      · intro c
        rw [List.foldl_cons, i3 c, findKey_insertKey _ _ hm, List.filter_cons]
        by_cases h : p.rhs r = c <;> simp [h]
      · intro r' hr'
        rw [List.foldl_cons]
        apply i4
        rcases hr' with hr' | ⟨x, hx, e⟩
        · rcases List.mem_cons.1 hr' with rfl | hr'
          · exact .inr (hnew m)
          · exact .inl hr'
        · obtain ⟨y, hy, e'⟩ := hkeep m x hx
          exact .inr ⟨y, hy, e'.trans e⟩
  obtain ⟨g1, g2, g3, g4⟩ := gen p.unaries [] (by simp [KeysSorted])
  exact ⟨g1, by simpa using g2, fun c => by rw [g3 c]; simp [findKey], fun r hr => g4 r (.inl hr)⟩

/-! ## The visit -/

/-- The rules in `u` go from finished to finished categories, and there is an order of finishing. -/
structure TInv (lhs rhs : R → Int) (t : Topo R) : Prop where
  le : ∀ c, t.mark c ≤ 2
  rank : ∃ (f : Int → Nat) (N : Nat), (∀ c, t.mark c = 2 → f c < N) ∧ ∀ r ∈ t.u, t.mark (lhs r) = 2 ∧ t.mark (rhs r) = 2 ∧ f (lhs r) < f (rhs r)

/-- Marks only go up, and what is on the way stays. -/
structure TGrow (t t' : Topo R) : Prop where
  keep : ∀ c, t.mark c ≠ 0 → t'.mark c = t.mark c
  new : ∀ c, t.mark c = 0 → t'.mark c = 0 ∨ t'.mark c = 2

theorem TGrow.refl (t : Topo R) : TGrow t t := ⟨fun _ _ => rfl, fun _ h => .inl h⟩
theorem TGrow.trans {t1 t2 t3 : Topo R} (h1 : TGrow t1 t2) (h2 : TGrow t2 t3) : TGrow t1 t3 := by
  refine ⟨fun c hc => ?_, fun c hc => ?_⟩
  · have := h1.keep c hc
    rw [h2.keep c (by rw [this]; exact hc), this]
  · rcases h1.new c hc with h | h
    · exact h2.new c h
    · right
      rw [h2.keep c (by rw [h]; simp), h]

/-- The number of keys not visited yet. -/
def unseen (m : List (Int × List R)) (t : Topo R) : Nat := (m.filter fun x => decide (t.mark x.1 = 0)).length

theorem unseen_mono {m : List (Int × List R)} {t t' : Topo R} (h : TGrow t t') : unseen m t' ≤ unseen m t := by
  unfold unseen
  rw [← List.countP_eq_length_filter, ← List.countP_eq_length_filter]
  apply List.countP_mono_left
  intro x _ hx
  have hx := of_decide_eq_true hx
  apply decide_eq_true
  by_contra hc
  rw [h.keep x.1 hc] at hx
  exact hc hx

theorem mark_setMark (t : Topo R) (c : Int) (n : Nat) (d : Int) : (t.setMark c n).mark d = if d = c then n else t.mark d := rfl
theorem u_setMark (t : Topo R) (c : Int) (n : Nat) : (t.setMark c n).u = t.u := rfl

theorem unseen_set {m : List (Int × List R)} {t : Topo R} {c : Int} (hc : t.mark c = 0) (hk : ∃ x ∈ m, x.1 = c) : unseen m (t.setMark c 1) + 1 ≤ unseen m t := by
  unfold unseen
  induction m with
  | nil => simp at hk
  | cons y m ih =>
    have hmono : ((m.filter fun x => decide ((t.setMark c 1).mark x.1 = 0)).length) ≤ (m.filter fun x => decide (t.mark x.1 = 0)).length := by
      rw [← List.countP_eq_length_filter, ← List.countP_eq_length_filter]
      apply List.countP_mono_left
      intro x _ hx
      have hx := of_decide_eq_true hx
      rw [mark_setMark] at hx
      split at hx
      · simp at hx
      · exact decide_eq_true hx
    rw [List.filter_cons, List.filter_cons]
    by_cases hy : y.1 = c
    · have h1 : (t.setMark c 1).mark y.1 ≠ 0 := by rw [mark_setMark, if_pos hy]; simp
      have h2 : t.mark y.1 = 0 := by rw [hy]; exact hc
      simp only [h1, h2, decide_false, decide_true, if_true, List.length_cons]
      simpa using hmono
    · have hk' : ∃ x ∈ m, x.1 = c := by
        obtain ⟨x, hx, e⟩ := hk
        rcases List.mem_cons.1 hx with rfl | hx
        · exact absurd e hy
        · exact ⟨x, hx, e⟩
      have := ih hk'
      rw [mark_setMark, if_neg hy]
      split <;> (try simp only [List.length_cons]) <;> omega

theorem findKey_mem {m : List (Int × List R)} {c : Int} {r : R} (h : r ∈ findKey m c) : ∃ x ∈ m, x.1 = c := by
  unfold findKey at h
  split at h
  · rename_i x hx
    exact ⟨x, List.mem_of_find?_eq_some hx, by simpa using List.find?_some hx⟩
  · simp at h

open Classical in
/-- Rules are listed no more often than they are given, and only those of finished categories. -/
def CntLe (us : List R) (rhs : R → Int) (c0 : Int) (t : Topo R) : Prop :=
  ∀ r, t.u.count r ≤ if t.mark (rhs r) = 2 ∧ rhs r ≠ c0 then us.count r else 0

/-- What holds of the marks and the list at any time. -/
structure VInv (us : List R) (lhs rhs : R → Int) (c0 : Int) (t : Topo R) : Prop where
  ranked : TInv lhs rhs t
  cnt : CntLe us rhs c0 t
  goal : t.mark c0 = 2

/-- What a visit does. -/
structure Visited (us : List R) (lhs rhs : R → Int) (c0 : Int) (t : Topo R) (c : Int) (ok : Bool) (t' : Topo R) : Prop where
  inv : VInv us lhs rhs c0 t'
  grow : TGrow t t'
  good : ok = true → t'.mark c = 2
  bad : ok = false → t.mark c = 1

theorem okRules_sublist (rs : List R) : ∀ oks, (okRules rs oks).Sublist rs := by
  induction rs with
  | nil => intro oks; simp [okRules]
  | cons r rs ih =>
    intro oks
    cases oks with
    | nil => simp [okRules]
    | cons ok oks =>
      unfold okRules
      split
      · exact (ih oks).cons₂ r
      · exact (ih oks).cons r

theorem okRules_good {P : R → Prop} {rs : List R} {oks : List Bool} (h : List.Forall₂ (fun r ok => ok = true → P r) rs oks) : ∀ r ∈ okRules rs oks, P r := by
  induction h with
  | nil => intro r hr; simp [okRules] at hr
  | @cons r ok rs oks h1 _ ih =>
    intro x hx
    unfold okRules at hx
    split at hx
    · rename_i hok
      rcases List.mem_cons.1 hx with rfl | hx
      · exact h1 hok
      · exact ih x hx
    · exact ih x hx

theorem okRules_all {rs : List R} {oks : List Bool} (h : List.Forall₂ (fun (_ : R) ok => ok = true) rs oks) : okRules rs oks = rs := by
  induction h with
  | nil => rfl
  | cons h1 _ ih => unfold okRules; rw [if_pos h1, ih]

section
variable {us : List R} {lhs rhs : R → Int} {c0 : Int} {m : List (Int × List R)}

theorem vinv_enter {t : Topo R} (h : VInv us lhs rhs c0 t) {c : Int} (hc : t.mark c = 0) : VInv us lhs rhs c0 (t.setMark c 1) ∧ TGrow (t.setMark c 1) (t.setMark c 1) := by
  obtain ⟨⟨hle, f, N, h1, h2⟩, h3, h4⟩ := h
  refine ⟨⟨⟨?_, f, N, ?_, ?_⟩, ?_, ?_⟩, TGrow.refl _⟩
  · intro d
    rw [mark_setMark]
    split
    · omega
    · exact hle d
  · intro d hd
    rw [mark_setMark] at hd
    split at hd
    · omega
    · exact h1 d hd
  · intro r hr
    have := h2 r hr
    rw [mark_setMark, mark_setMark, if_neg, if_neg]
    · exact this
    · rintro e; rw [e] at this; omega
    · rintro e; rw [e] at this; omega
  · intro r
    have := h3 r
    rw [u_setMark, mark_setMark]
    by_cases e : rhs r = c
    · rw [e, hc] at this
      rw [if_pos e]
      simpa using this
    · rw [if_neg e]
      exact this
  · rw [mark_setMark, if_neg]
    · exact h4
    · rintro rfl; omega

theorem vinv_leave (hm : ∀ c, findKey m c = us.filter fun r => decide (rhs r = c)) {t : Topo R} (h : VInv us lhs rhs c0 t) {c : Int} (hc : t.mark c = 1) {oks : List Bool}
    (hoks : List.Forall₂ (fun r ok => ok = true → t.mark (lhs r) = 2) (findKey m c) oks) :
    VInv us lhs rhs c0 (({ t with u := t.u ++ okRules (findKey m c) oks }).setMark c 2) := by
  classical
  obtain ⟨⟨hle, f, N, h1, h2⟩, h3, h4⟩ := h
  have hgood := okRules_good hoks
  have hsub := okRules_sublist (findKey m c) oks
  have hrhs : ∀ r ∈ okRules (findKey m c) oks, rhs r = c := by
    intro r hr
    have := hsub.subset hr
    rw [hm c] at this
    exact of_decide_eq_true (List.mem_filter.1 this).2
  refine ⟨⟨?_, fun d => if d = c then N else f d, N + 1, ?_, ?_⟩, ?_, ?_⟩
  · intro d
    rw [mark_setMark]
    split
    · omega
    · exact hle d
  · intro d hd
    rw [mark_setMark] at hd
    beta_reduce
    split
    · omega
    · rename_i hne
      rw [if_neg hne] at hd
      have := h1 d hd
      omega
  · intro r hr
    rw [u_setMark] at hr
    simp only [mark_setMark]
    rcases List.mem_append.1 hr with hr | hr
    · have := h2 r hr
      have e1 : lhs r ≠ c := by rintro e; rw [e] at this; omega
      have e2 : rhs r ≠ c := by rintro e; rw [e] at this; omega
      rw [if_neg e1, if_neg e2, if_neg e1, if_neg e2]
      exact this
    · have hl := hgood r hr
      have e1 : lhs r ≠ c := by rintro e; rw [e] at hl; omega
      rw [if_neg e1, if_pos (hrhs r hr), if_neg e1, if_pos (hrhs r hr)]
      exact ⟨hl, rfl, h1 _ hl⟩
  · intro r
    have hr := h3 r
    rw [u_setMark, mark_setMark]
    simp only [List.count_append]
    have hc0 : c ≠ c0 := by rintro rfl; omega
    by_cases e : rhs r = c
    · rw [if_pos e, if_pos ⟨rfl, by rw [e]; exact hc0⟩]
      rw [e, hc] at hr
      have : (okRules (findKey m c) oks).count r ≤ us.count r := by
        refine (hsub.count_le r).trans ?_
        rw [hm c]
        exact (List.filter_sublist).count_le r
      simp at hr
      omega
    · rw [if_neg e]
      have : (okRules (findKey m c) oks).count r = 0 := by
        rw [List.count_eq_zero]
        intro hx
        exact e (hrhs r hx)
      omega
  · rw [mark_setMark]
    split
    · rfl
    · exact h4

theorem visitAll_spec {v : Int → Topo R → Option (Bool × Topo R)} {B : Nat}
    (hv : ∀ c t, VInv us lhs rhs c0 t → unseen m t < B → ∃ ok t', v c t = some (ok, t') ∧ Visited us lhs rhs c0 t c ok t') (rs : List R) : ∀ t, VInv us lhs rhs c0 t → (rs ≠ [] → unseen m t < B) →
    ∃ oks t', visitAll lhs v rs t = some (oks, t') ∧ VInv us lhs rhs c0 t' ∧ TGrow t t' ∧ List.Forall₂ (fun r ok => ok = true → t'.mark (lhs r) = 2) rs oks := by
  induction rs with
  | nil => intro t h _; exact ⟨[], t, rfl, h, TGrow.refl _, .nil⟩
  | cons r rs ih =>
    intro t h hb
    obtain ⟨ok, t1, e1, v1⟩ := hv (lhs r) t h (hb (by simp))
    obtain ⟨oks, t2, e2, i2, g2, f2⟩ := ih t1 v1.inv (fun _ => Nat.lt_of_le_of_lt (unseen_mono v1.grow) (hb (by simp)))
    refine ⟨ok :: oks, t2, ?_, i2, v1.grow.trans g2, .cons ?_ f2⟩
    · unfold visitAll
      rw [e1]
      simp only []
      rw [e2]
    · intro hok
      have := v1.good hok
      rw [g2.keep _ (by rw [this]; simp), this]

theorem visit_spec (hm : ∀ c, findKey m c = us.filter fun r => decide (rhs r = c)) (fuel : Nat) : ∀ c t, VInv us lhs rhs c0 t → unseen m t < fuel →
    ∃ ok t', visit lhs m fuel c t = some (ok, t') ∧ Visited us lhs rhs c0 t c ok t' := by
  induction fuel with
  | zero => intro c t _ h; omega
  | succ fuel ih =>
    intro c t h hb
    unfold visit
    by_cases h1 : t.mark c = 1
    · rw [if_pos h1]
      exact ⟨false, t, rfl, h, TGrow.refl _, by simp, fun _ => h1⟩
    · rw [if_neg h1]
      by_cases h2 : t.mark c = 2
      · rw [if_pos h2]
        exact ⟨true, t, rfl, h, TGrow.refl _, fun _ => h2, by simp⟩
      · rw [if_neg h2]
        have h0 : t.mark c = 0 := by
          have := h.ranked.le c
          omega
        obtain ⟨oks, t1, e1, i1, g1, f1⟩ := visitAll_spec (fun c t ht hb => ih c t ht hb) (findKey m c) (t.setMark c 1) (vinv_enter h h0).1 (by
          intro hne
          obtain ⟨r, hr⟩ := List.exists_mem_of_ne_nil _ hne
          have := unseen_set h0 (findKey_mem hr)
          omega)
        rw [e1]
        simp only []
        have hc1 : t1.mark c = 1 := by
          rw [g1.keep c (by rw [mark_setMark, if_pos rfl]; simp), mark_setMark, if_pos rfl]
        refine ⟨true, _, rfl, vinv_leave hm i1 hc1 f1, ?_, ?_, by simp⟩
        · refine ⟨?_, ?_⟩
          · intro d hd
            have hdc : d ≠ c := by rintro rfl; exact hd h0
            rw [mark_setMark, if_neg hdc]
            change t1.mark d = t.mark d
            rw [g1.keep d (by rw [mark_setMark, if_neg hdc]; exact hd), mark_setMark, if_neg hdc]
          · intro d hd
            rw [mark_setMark]
            split
            · exact .inr rfl
            · rename_i hdc
              exact g1.new d (by rw [mark_setMark, if_neg hdc]; exact hd)
        · intro _
          rw [mark_setMark, if_pos rfl]

theorem sortLoop_spec (hm : ∀ c, findKey m c = us.filter fun r => decide (rhs r = c)) (fuel : Nat) (xs : List (Int × List R)) : ∀ t, VInv us lhs rhs c0 t → (∀ c, t.mark c ≠ 1) → unseen m t < fuel →
    ∃ t', sortLoop lhs m fuel xs t = some t' ∧ VInv us lhs rhs c0 t' ∧ TGrow t t' ∧ (∀ c, t'.mark c ≠ 1) ∧ ∀ x ∈ xs, t'.mark x.1 = 2 := by
  induction xs with
  | nil => intro t h h1 hb; exact ⟨t, rfl, h, TGrow.refl _, h1, by simp⟩
  | cons x xs ih =>
    intro t h h1 hb
    have fin : ∀ t1, VInv us lhs rhs c0 t1 → TGrow t t1 → (∀ c, t1.mark c ≠ 1) → t1.mark x.1 = 2 →
        ∃ t', sortLoop lhs m fuel xs t1 = some t' ∧ VInv us lhs rhs c0 t' ∧ TGrow t t' ∧ (∀ c, t'.mark c ≠ 1) ∧ ∀ y ∈ x :: xs, t'.mark y.1 = 2 := by
      intro t1 v1 g1 h11 hx
      obtain ⟨t', e, v, g, h1', h2'⟩ := ih t1 v1 h11 (Nat.lt_of_le_of_lt (unseen_mono g1) hb)
      refine ⟨t', e, v, g1.trans g, h1', ?_⟩
      intro y hy
      rcases List.mem_cons.1 hy with rfl | hy
      · rw [g.keep _ (by rw [hx]; simp), hx]
      · exact h2' y hy
    unfold sortLoop
    split
    · rename_i hpos
      have := h.ranked.le x.1
      have := h1 x.1
      exact fin t h (TGrow.refl _) h1 (by omega)
    · rename_i hpos
      obtain ⟨ok, t1, e1, v1⟩ := visit_spec hm fuel x.1 t h hb
      rw [e1]
      simp only []
      refine fin t1 v1.inv v1.grow ?_ ?_
      · intro c hc
        by_cases h0 : t.mark c = 0
        · rcases v1.grow.new c h0 with h | h <;> omega
        · rw [v1.grow.keep c h0] at hc
          exact h1 c hc
      · cases ok with
        | true => exact v1.good rfl
        | false => exact absurd (v1.bad rfl) (h1 _)

/-! ## Acyclic rules are all kept -/

open Classical in
/-- All rules of finished categories are listed. -/
def CntEq (us : List R) (rhs : R → Int) (c0 : Int) (t : Topo R) : Prop := ∀ r, t.mark (rhs r) = 2 → rhs r ≠ c0 → t.u.count r = us.count r

theorem visit_all (hm : ∀ c, findKey m c = us.filter fun r => decide (rhs r = c)) {ρ : Int → Nat} (hρ : ∀ r ∈ us, rhs r ≠ c0 → ρ (rhs r) < ρ (lhs r)) (fuel : Nat) :
    ∀ c t, VInv us lhs rhs c0 t → CntEq us rhs c0 t → (∀ d, t.mark d = 1 → ρ d < ρ c) → ∀ ok t', visit lhs m fuel c t = some (ok, t') → unseen m t < fuel → ok = true ∧ CntEq us rhs c0 t' := by
  classical
  induction fuel with
  | zero => intro c t _ _ _ ok t' e; simp [visit] at e
  | succ fuel ih =>
    intro c t h hq hd ok t' e hb
    have h1 : t.mark c ≠ 1 := fun hc => Nat.lt_irrefl _ (hd c hc)
    unfold visit at e
    rw [if_neg h1] at e
    by_cases h2 : t.mark c = 2
    · rw [if_pos h2] at e
      simp only [Option.some.injEq, Prod.mk.injEq] at e
      rw [← e.1, ← e.2]
      exact ⟨rfl, hq⟩
    · rw [if_neg h2] at e
      have h0 : t.mark c = 0 := by
        have := h.ranked.le c
        omega
      have hc0 : c ≠ c0 := by
        rintro rfl
        exact h2 h.goal
      have hb' : findKey m c ≠ [] → unseen m (t.setMark c 1) < fuel := by
        intro hne
        obtain ⟨r, hr⟩ := List.exists_mem_of_ne_nil _ hne
        have := unseen_set h0 (findKey_mem hr)
        omega
      have inner : ∀ rs : List R, (∀ r ∈ rs, r ∈ findKey m c) → ∀ t1, VInv us lhs rhs c0 t1 → CntEq us rhs c0 t1 → TGrow (t.setMark c 1) t1 → ∀ oks t2, visitAll lhs (visit lhs m fuel) rs t1 = some (oks, t2) →
          List.Forall₂ (fun (_ : R) ok => ok = true) rs oks ∧ CntEq us rhs c0 t2 ∧ TGrow t1 t2 := by
        intro rs
        induction rs with
        | nil =>
          intro _ t1 _ hq1 _ oks t2 e2
          simp only [visitAll, Option.some.injEq, Prod.mk.injEq] at e2
          rw [← e2.1, ← e2.2]
          exact ⟨.nil, hq1, TGrow.refl _⟩
        | cons r rs ihr =>
          intro hrs t1 v1 hq1 g1 oks t2 e2
          have hr := hrs r (by simp)
          have hb1 : unseen m t1 < fuel := Nat.lt_of_le_of_lt (unseen_mono g1) (hb' (by intro hn; rw [hn] at hr; simp at hr))
          obtain ⟨ok1, t1', e1, vis⟩ := visit_spec hm fuel (lhs r) t1 v1 hb1
          unfold visitAll at e2
          rw [e1] at e2
          simp only [] at e2
          have hrr := hr
          rw [hm c] at hrr
          have hrr := List.mem_filter.1 hrr
          have hrc : rhs r = c := of_decide_eq_true hrr.2
          have hlt : ρ c < ρ (lhs r) := by
            have := hρ r hrr.1 (by rw [hrc]; exact hc0)
            rwa [hrc] at this
          obtain ⟨ok_t, hq1'⟩ := ih (lhs r) t1 v1 hq1 (by
            intro d hd1
            have : (t.setMark c 1).mark d = 1 := by
              by_cases hz : (t.setMark c 1).mark d = 0
              · rcases g1.new d hz with h | h <;> omega
              · rw [← g1.keep d hz]; exact hd1
            rw [mark_setMark] at this
            split at this
            · rename_i e; rw [e]; exact hlt
            · exact Nat.lt_trans (hd d this) hlt) ok1 t1' e1 hb1
          cases e3 : visitAll lhs (visit lhs m fuel) rs t1' with
          | none => rw [e3] at e2; simp at e2
          | some x =>
            obtain ⟨oks3, t3⟩ := x
            rw [e3] at e2
            simp only [Option.some.injEq, Prod.mk.injEq] at e2
            obtain ⟨f3, q3, g3⟩ := ihr (fun r' hr' => hrs r' (by simp [hr'])) t1' vis.inv hq1' (g1.trans vis.grow) oks3 t3 e3
            rw [← e2.1, ← e2.2]
            exact ⟨.cons ok_t f3, q3, vis.grow.trans g3⟩
      cases e3 : visitAll lhs (visit lhs m fuel) (findKey m c) (t.setMark c 1) with
      | none => rw [e3] at e; simp at e
      | some x =>
        obtain ⟨oks, t1⟩ := x
        rw [e3] at e
        simp only [Option.some.injEq, Prod.mk.injEq] at e
        have hq0 : CntEq us rhs c0 (t.setMark c 1) := by
          intro r hr1 hr2
          rw [mark_setMark] at hr1
          split at hr1
          · omega
          · exact hq r hr1 hr2
        obtain ⟨f1, q1, g1⟩ := inner (findKey m c) (fun _ h => h) (t.setMark c 1) (vinv_enter h h0).1 hq0 (TGrow.refl _) oks t1 e3
        refine ⟨e.1.symm, ?_⟩
        rw [← e.2]
        rw [okRules_all f1]
        intro r hr1 hr2
        rw [u_setMark]
        simp only [List.count_append]
        rw [mark_setMark] at hr1
        by_cases hrc : rhs r = c
        · obtain ⟨oks', t1', e1', v1', _⟩ := visitAll_spec (fun c t ht hb => visit_spec hm fuel c t ht hb) (findKey m c) (t.setMark c 1) (vinv_enter h h0).1 hb'
          rw [e3] at e1'
          simp only [Option.some.injEq, Prod.mk.injEq] at e1'
          rw [← e1'.2] at v1'
          have := v1'.cnt r
          have hc1 : t1.mark c = 1 := by
            rw [g1.keep c (by rw [mark_setMark, if_pos rfl]; simp), mark_setMark, if_pos rfl]
          rw [hrc, hc1] at this
          simp at this
          have hz : List.count r t1.u = 0 := this
          rw [hz, hm c, List.count_filter (by simpa using hrc), Nat.zero_add]
        · rw [if_neg hrc] at hr1
          have hz : List.count r (findKey m c) = 0 := by
            rw [List.count_eq_zero, hm c]
            intro hx
            exact hrc (of_decide_eq_true (List.mem_filter.1 hx).2)
          rw [hz, Nat.add_zero]
          exact q1 r hr1 hr2

theorem sortLoop_all (hm : ∀ c, findKey m c = us.filter fun r => decide (rhs r = c)) {ρ : Int → Nat} (hρ : ∀ r ∈ us, rhs r ≠ c0 → ρ (rhs r) < ρ (lhs r)) (fuel : Nat) (xs : List (Int × List R)) :
    ∀ t, VInv us lhs rhs c0 t → (∀ c, t.mark c ≠ 1) → unseen m t < fuel → CntEq us rhs c0 t → ∀ t', sortLoop lhs m fuel xs t = some t' → CntEq us rhs c0 t' := by
  induction xs with
  | nil =>
    intro t _ _ _ hq t' e
    simp only [sortLoop, Option.some.injEq] at e
    rw [← e]; exact hq
  | cons x xs ih =>
    intro t h h1 hb hq t' e
    unfold sortLoop at e
    split at e
    · exact ih t h h1 hb hq t' e
    · obtain ⟨ok, t1, e1, v1⟩ := visit_spec hm fuel x.1 t h hb
      have := visit_all hm hρ fuel x.1 t h hq (fun d hd => absurd hd (h1 d)) ok t1 e1 hb
      rw [e1] at e
      simp only [] at e
      refine ih t1 v1.inv ?_ (Nat.lt_of_le_of_lt (unseen_mono v1.grow) hb) this.2 t' e
      intro c hc
      by_cases h0 : t.mark c = 0
      · rcases v1.grow.new c h0 with h | h <;> omega
      · rw [v1.grow.keep c h0] at hc
        exact h1 c hc

end

/-- The sorted unary rules. -/
theorem sortUnaries_spec (p : Env ι R φ) : ∃ u, sortUnaries p = some u ∧ (∃ ρ : Int → Nat, ∀ r ∈ u, ρ (p.rhs r) < ρ (p.lhs r)) ∧
    List.Subperm u (p.unaries.filter fun r => decide (p.rhs r ≠ p.goalCat)) ∧
    ((∃ ρ : Int → Nat, ∀ r ∈ p.unaries, p.rhs r ≠ p.goalCat → ρ (p.rhs r) < ρ (p.lhs r)) → List.Perm u (p.unaries.filter fun r => decide (p.rhs r ≠ p.goalCat))) := by
  classical
  obtain ⟨m1, m2, m3, m4⟩ := unaryMap_spec p
  have v0 : VInv p.unaries p.lhs p.rhs p.goalCat ⟨fun c => if c = p.goalCat then 2 else 0, []⟩ := by
    refine ⟨⟨?_, fun _ => 0, 1, fun _ _ => Nat.one_pos, by simp⟩, ?_, by simp⟩
    · intro c; simp only []; split <;> omega
    · intro r; simp
  have h1 : ∀ c, (Topo.mk (R := R) (fun c => if c = p.goalCat then 2 else 0) []).mark c ≠ 1 := by
    intro c; simp only []; split <;> omega
  have hb : unseen (unaryMap p) (Topo.mk (R := R) (fun c => if c = p.goalCat then 2 else 0) []) < p.unaries.length + 2 := by
    have : unseen (unaryMap p) (Topo.mk (R := R) (fun c => if c = p.goalCat then 2 else 0) []) ≤ (unaryMap p).length := List.length_filter_le _ _
    omega
  obtain ⟨t, e, v, _, n1, n2⟩ := sortLoop_spec m3 (p.unaries.length + 2) (unaryMap p) _ v0 h1 hb
  refine ⟨t.u.reverse, ?_, ?_, ?_, ?_⟩
  · unfold sortUnaries
    rw [e]
    rfl
  · obtain ⟨f, N, f1, f2⟩ := v.ranked.rank
    refine ⟨fun c => N - f c, ?_⟩
    intro r hr
    have := f2 r (List.mem_reverse.1 hr)
    have := f1 _ this.2.1
    simp only []
    omega
  · rw [List.subperm_iff_count]
    intro r
    rw [List.count_reverse]
    have hr := v.cnt r
    split at hr
    · rename_i hx
      rw [List.count_filter (by simpa using hx.2)]
      exact hr
    · exact hr.trans (Nat.zero_le _)
  · rintro ⟨ρ, hρ⟩
    have hq := sortLoop_all m3 hρ (p.unaries.length + 2) (unaryMap p) _ v0 h1 hb (by
      intro r hr1 hr2
      simp only [] at hr1
      rw [if_neg hr2] at hr1
      omega) t e
    rw [List.perm_iff_count]
    intro r
    rw [List.count_reverse]
    by_cases hx : p.rhs r = p.goalCat
    · have hr := v.cnt r
      rw [if_neg (fun h => h.2 hx)] at hr
      have : List.count r (p.unaries.filter fun r => decide (p.rhs r ≠ p.goalCat)) = 0 := by
        rw [List.count_eq_zero]
        intro hy
        exact (of_decide_eq_true (List.mem_filter.1 hy).2) hx
      omega
    · rw [List.count_filter (by simpa using hx)]
      by_cases hmem : r ∈ p.unaries
      · obtain ⟨x, hx1, hx2⟩ := m4 r hmem
        exact hq r (by rw [← hx2]; exact n2 x hx1) hx
      · have hr := v.cnt r
        rw [List.count_eq_zero.2 hmem] at hr ⊢
        split at hr <;> omega

end Cdec.Dec.Parser
