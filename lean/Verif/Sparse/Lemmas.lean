import Verif.Sparse.Model
import Mathlib.Algebra.BigOperators.Group.Finset.Basic
import Mathlib.Algebra.BigOperators.Ring.Finset
import Mathlib.Data.List.Nodup
import Mathlib.Tactic.Ring
/-! Lemmas about sparse vectors. -/
namespace Cdec.Sparse
variable {T : Type}

theorem lookup_eq_none {l : List (Nat × T)} {k : Nat} : lookup l k = none ↔ k ∉ l.map Prod.fst := by
  induction l with
  | nil => simp [lookup]
  | cons p l ih =>
    obtain ⟨k', x⟩ := p
    simp only [lookup, List.map_cons, List.mem_cons, not_or]
    by_cases h : k' = k
    · simp [h]
    · simp only [h, if_false, ih, Ne.symm h, not_false_eq_true, true_and]

theorem lookup_modifyKey (l : List (Nat × T)) (k : Nat) (f : T → T) (k' : Nat) :
    lookup (modifyKey l k f) k' = if k' = k then (lookup l k).map f else lookup l k' := by
  induction l with
  | nil => simp [lookup, modifyKey]
  | cons p l ih =>
    obtain ⟨a, x⟩ := p
    simp only [modifyKey]
    by_cases h : a = k
    · subst h
      by_cases h2 : a = k'
      · subst h2; simp [lookup]
      · simp [lookup, h2, Ne.symm h2]
    · simp only [h, if_false, lookup, ih]
      by_cases h2 : a = k'
      · subst h2; simp [h]
      · simp [h2]

theorem keys_modifyKey (l : List (Nat × T)) (k : Nat) (f : T → T) :
    (modifyKey l k f).map Prod.fst = l.map Prod.fst := by
  induction l with
  | nil => rfl
  | cons p l ih =>
    obtain ⟨a, x⟩ := p
    simp only [modifyKey]
    split <;> simp [ih]

theorem lookup_append (l : List (Nat × T)) (k : Nat) (x : T) (k' : Nat) (h : lookup l k = none) :
    lookup (l ++ [(k, x)]) k' = if k' = k then some x else lookup l k' := by
  induction l with
  | nil => simp [lookup, eq_comm]
  | cons p l ih =>
    obtain ⟨a, y⟩ := p
    simp only [lookup] at h
    have hak : a ≠ k := by intro hc; simp [hc] at h
    simp only [hak, if_false] at h
    simp only [List.cons_append, lookup, ih h]
    by_cases h2 : a = k'
    · subst h2; simp [hak]
    · simp [h2]

theorem lookup_mem {l : List (Nat × T)} (hnd : (l.map Prod.fst).Nodup) {k : Nat} {x : T} :
    lookup l k = some x ↔ (k, x) ∈ l := by
  induction l with
  | nil => simp [lookup]
  | cons p l ih =>
    obtain ⟨a, y⟩ := p
    simp only [List.map_cons, List.nodup_cons] at hnd
    simp only [lookup, List.mem_cons, Prod.mk.injEq]
    by_cases h : a = k
    · subst h
      simp only [if_true, Option.some.injEq, true_and]
      constructor
      · exact fun h => .inl h.symm
      · rintro (h | h)
        · exact h.symm
        · exact absurd (List.mem_map.2 ⟨_, h, rfl⟩) hnd.1
    · simp [h, Ne.symm h, ih hnd.2]

variable [Zero T]

/-- Representation invariant: keys are distinct. -/
def FSV.Inv (v : FSV T) : Prop := (v.entries.map Prod.fst).Nodup

theorem entries_update_cases (L : Nat) (v : FSV T) (k : Nat) (f : T → T) :
    (v.update L k f).entries =
      match lookup v.entries k with
      | some _ => modifyKey v.entries k f
      | none => v.entries ++ [(k, f 0)] := by
  cases v with
  | rem m => rfl
  | loc l =>
    simp only [FSV.update]
    change _ = match lookup l k with | some _ => modifyKey l k f | none => l ++ [(k, f 0)]
    cases h : lookup l k with
    | some x => rfl
    | none =>
      by_cases hl : l.length < L
      · simp [hl, FSV.entries]
      · simp [hl, FSV.entries, mapUpdate, h]

theorem update_inv (L : Nat) {v : FSV T} (hv : v.Inv) (k : Nat) (f : T → T) : (v.update L k f).Inv := by
  rw [FSV.Inv, entries_update_cases]
  cases h : lookup v.entries k with
  | some x => simp only [keys_modifyKey]; exact hv
  | none =>
    have := lookup_eq_none.1 h
    simp only [List.map_append, List.map_cons, List.map_nil]
    exact List.nodup_append.2 ⟨hv, by simp, fun a ha b hb => by
      simp only [List.mem_singleton] at hb; subst hb
      exact fun hc => this (hc ▸ ha)⟩

theorem value_update (L : Nat) (v : FSV T) (k : Nat) (f : T → T) (k' : Nat) :
    (v.update L k f).value k' = if k' = k then f (v.value k) else v.value k' := by
  rw [FSV.value, entries_update_cases]
  cases h : lookup v.entries k with
  | some x =>
    simp only [lookup_modifyKey]
    by_cases hk : k' = k
    · simp [hk, h, FSV.value]
    · simp [hk, FSV.value]
  | none =>
    simp only [lookup_append _ _ _ _ h]
    by_cases hk : k' = k
    · simp [hk, h, FSV.value]
    · simp [hk, FSV.value]

theorem foldl_update (L : Nat) (F : T → T → T) (es : List (Nat × T)) :
    ∀ v : FSV T, v.Inv → (es.map Prod.fst).Nodup →
      (es.foldl (fun v p => v.update L p.1 fun y => F y p.2) v).Inv ∧
      ∀ k, (es.foldl (fun v p => v.update L p.1 fun y => F y p.2) v).value k =
        match lookup es k with
        | some x => F (v.value k) x
        | none => v.value k := by
  induction es with
  | nil => exact fun v hv _ => ⟨hv, fun k => rfl⟩
  | cons p es ih =>
    obtain ⟨a, x⟩ := p
    intro v hv hnd
    simp only [List.map_cons, List.nodup_cons] at hnd
    obtain ⟨h1, h2⟩ := ih (v.update L a fun y => F y x) (update_inv L hv _ _) hnd.2
    refine ⟨h1, fun k => ?_⟩
    rw [List.foldl_cons, h2 k, value_update]
    simp only [lookup]
    by_cases hk : a = k
    · subst hk
      rw [lookup_eq_none.2 hnd.1]; simp
    · simp [hk, Ne.symm hk]

theorem lookup_map_vals (l : List (Nat × T)) (f : T → T) (k : Nat) :
    lookup (l.map fun p => (p.1, f p.2)) k = (lookup l k).map f := by
  induction l with
  | nil => rfl
  | cons p l ih =>
    simp only [List.map_cons, lookup, ih]
    split <;> simp

theorem entries_mapVals (v : FSV T) (f : T → T) :
    (v.mapVals f).entries = v.entries.map fun p => (p.1, f p.2) := by
  cases v <;> rfl

theorem mapVals_inv {v : FSV T} (hv : v.Inv) (f : T → T) : (v.mapVals f).Inv := by
  rw [FSV.Inv, entries_mapVals, List.map_map]; exact hv

theorem value_mapVals (v : FSV T) (f : T → T) (hf : f 0 = 0) (k : Nat) :
    (v.mapVals f).value k = f (v.value k) := by
  rw [FSV.value, entries_mapVals, lookup_map_vals, FSV.value]
  cases lookup v.entries k <;> simp [hf]

theorem eraseZeros_spec (L : Nat) (big : T → Bool) (v : FSV T) (hv : v.Inv) :
    (v.eraseZeros L big).Inv ∧ ∀ k, (v.eraseZeros L big).value k = if big (v.value k) then v.value k else 0 := by
  have key : ∀ (es : List (Nat × T)) (o : FSV T), o.Inv → (es.map Prod.fst).Nodup →
      (es.foldl (fun o p => if big p.2 then o.setValue L p.1 p.2 else o) o).Inv ∧
      ∀ k, (es.foldl (fun o p => if big p.2 then o.setValue L p.1 p.2 else o) o).value k =
        match lookup es k with
        | some x => if big x then x else o.value k
        | none => o.value k := by
    intro es
    induction es with
    | nil => exact fun o ho _ => ⟨ho, fun k => rfl⟩
    | cons p es ih =>
      obtain ⟨a, x⟩ := p
      intro o ho hnd
      simp only [List.map_cons, List.nodup_cons] at hnd
      have ho' : (if big x then o.setValue L a x else o).Inv := by
        split
        · exact update_inv L ho _ _
        · exact ho
      obtain ⟨h1, h2⟩ := ih _ ho' hnd.2
      refine ⟨h1, fun k => ?_⟩
      rw [List.foldl_cons, h2 k]
      simp only [lookup]
      by_cases hk : a = k
      · subst hk
        rw [lookup_eq_none.2 hnd.1]
        simp only [if_true]
        split
        · rw [FSV.setValue, value_update]; simp
        · rfl
      · have : (if big x then o.setValue L a x else o).value k = o.value k := by
          split
          · rw [FSV.setValue, value_update]; simp [Ne.symm hk]
          · rfl
        rw [this]; simp [hk]
  obtain ⟨h1, h2⟩ := key v.entries FSV.empty (by simp [FSV.Inv, FSV.empty, FSV.entries]) hv
  refine ⟨h1, fun k => ?_⟩
  rw [FSV.eraseZeros, h2 k]
  have h0 : (FSV.empty : FSV T).value k = 0 := by simp [FSV.value, FSV.empty, FSV.entries, lookup]
  rw [h0, FSV.value]
  cases lookup v.entries k with
  | none => simp
  | some x => simp

/-- Order-free form of a sum over the entries. -/
theorem sum_entries {M : Type} [AddCommMonoid M] (F : Nat → T → M) (hF : ∀ k, F k 0 = 0)
    (es : List (Nat × T)) (hnd : (es.map Prod.fst).Nodup) (S : Finset Nat)
    (hS : ∀ k ∈ es.map Prod.fst, k ∈ S) :
    (es.map fun p => F p.1 p.2).sum = ∑ k ∈ S, F k ((lookup es k).getD 0) := by
  induction es generalizing S with
  | nil => simp [lookup, hF]
  | cons p es ih =>
    obtain ⟨a, x⟩ := p
    simp only [List.map_cons, List.nodup_cons] at hnd
    have ha : a ∈ S := hS a (by simp)
    rw [List.map_cons, List.sum_cons, ih hnd.2 (S.erase a) fun k hk =>
      Finset.mem_erase.2 ⟨fun hc => hnd.1 (hc ▸ hk), hS k (by simp only [List.map_cons, List.mem_cons]; exact .inr hk)⟩]
    rw [← Finset.add_sum_erase S _ ha]
    congr 1
    · simp [lookup]
    · apply Finset.sum_congr rfl
      intro k hk
      have := (Finset.mem_erase.1 hk).1
      simp [lookup, Ne.symm this]

theorem foldl_add_map {β M : Type} [AddMonoid M] (l : List β) (f : β → M) (a : M) :
    l.foldl (fun s t => s + f t) a = a + (l.map f).sum := by
  induction l generalizing a with
  | nil => simp
  | cons t l ih => simp [ih, add_assoc]

section
variable {T : Type} [Field T]

theorem plus_spec (L : Nat) {v o : FSV T} (hv : v.Inv) (ho : o.Inv) :
    (v.plus L o).Inv ∧ ∀ k, (v.plus L o).value k = v.value k + o.value k := by
  rw [FSV.plus]
  split
  · rename_i h
    refine ⟨ho, fun k => ?_⟩
    have h0 : v.value k = 0 := by
      have : v.entries = [] := List.length_eq_zero_iff.1 h
      simp [FSV.value, this, lookup]
    rw [h0, zero_add]
  · obtain ⟨h1, h2⟩ := foldl_update L (fun y x => y + x) o.entries v hv ho
    refine ⟨h1, fun k => ?_⟩
    rw [h2 k]
    simp only [FSV.value]
    cases lookup o.entries k <;> simp

theorem dotDense_eq {v : FSV T} (hi : v.Inv) (w : List T) :
    v.dotDense w = ∑ k ∈ Finset.range w.length, v.value k * w.getD k 0 := by
  have h1 : v.dotDense w =
      (v.entries.map fun q => if q.1 < w.length then q.2 * w.getD q.1 0 else 0).sum := by
    rw [FSV.dotDense, ← zero_add (List.sum _), ← foldl_add_map]
    congr 1
    funext r q
    split <;> simp
  rw [h1, sum_entries (fun k x => if k < w.length then x * w.getD k 0 else 0) (by simp) _ hi
    (Finset.range w.length ∪ (v.entries.map Prod.fst).toFinset) (by intro k hk; simp at hk ⊢; exact .inr hk)]
  rw [← Finset.sum_subset (Finset.subset_union_left) (by
    intro k _ hk
    rw [if_neg (by simpa using hk)])]
  apply Finset.sum_congr rfl
  intro k hk
  rw [if_pos (Finset.mem_range.1 hk)]
  rfl
end

end Cdec.Sparse
