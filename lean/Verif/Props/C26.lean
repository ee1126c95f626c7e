import Verif.Sparse.Lemmas
/-! # C26: FastSparseVector::operator== -/
namespace Cdec.Sparse
variable {T : Type} [Zero T] [DecidableEq T]

/-- C26 (partial).  For vectors that store no explicit zero, `==` holds exactly when the two vectors have
the same value at every key.  Missing: vectors with stored zeros, see the `_fails` theorems. -/
theorem C26_eq_partial (v o : FSV T) (hv : v.Inv) (ho : o.Inv)
    (zv : ∀ p ∈ v.entries, p.2 ≠ 0) (zo : ∀ p ∈ o.entries, p.2 ≠ 0) :
    v.eq o = true ↔ ∀ k, v.value k = o.value k := by
  have key : ∀ (u : FSV T), u.Inv → (∀ p ∈ u.entries, p.2 ≠ 0) → ∀ k, u.value k ≠ 0 ↔ k ∈ u.entries.map Prod.fst := by
    intro u hu hz k
    rw [FSV.value]
    cases h : lookup u.entries k with
    | none => simpa using lookup_eq_none.1 h
    | some x =>
      have hm := (lookup_mem hu).1 h
      simp only [Option.getD_some, ne_eq]
      exact ⟨fun _ => List.mem_map.2 ⟨_, hm, rfl⟩, fun _ => hz _ hm⟩
  have hval : ∀ p ∈ v.entries, v.value p.1 = p.2 := by
    intro p hp
    rw [FSV.value, (lookup_mem hv).2 (show (p.1, p.2) ∈ v.entries from hp)]; rfl
  constructor
  · intro h
    rw [FSV.eq] at h
    split at h
    · cases h
    · rename_i hsz
      rw [List.all_eq_true] at h
      have hsz : o.entries.length = v.entries.length := not_not.1 hsz
      have hsub : v.entries.map Prod.fst ⊆ o.entries.map Prod.fst := by
        intro k hk
        obtain ⟨p, hp, rfl⟩ := List.mem_map.1 hk
        have := h p hp
        simp only [decide_eq_true_eq] at this
        exact (key o ho zo p.1).1 (by rw [this]; exact zv p hp)
      have hperm : (v.entries.map Prod.fst).Perm (o.entries.map Prod.fst) :=
        (List.subperm_of_subset hv hsub).perm_of_length_le (by simp [hsz])
      intro k
      by_cases hk : k ∈ v.entries.map Prod.fst
      · obtain ⟨p, hp, rfl⟩ := List.mem_map.1 hk
        have := h p hp
        simp only [decide_eq_true_eq] at this
        rw [this, hval p hp]
      · have h1 := (key v hv zv k).not.2 hk
        have h2 := (key o ho zo k).not.2 (fun hc => hk (hperm.mem_iff.2 hc))
        rw [not_not.1 h1, not_not.1 h2]
  · intro h
    have hperm : (v.entries.map Prod.fst).Perm (o.entries.map Prod.fst) :=
      (List.perm_ext_iff_of_nodup hv ho).2 fun k => by rw [← key v hv zv, ← key o ho zo, h k]
    have hlen := hperm.length_eq
    simp only [List.length_map] at hlen
    rw [FSV.eq, if_neg (by simp [FSV.size, hlen]), List.all_eq_true]
    intro p hp
    simp only [decide_eq_true_eq]
    rw [← h, hval p hp]

/-- C26 fails: two vectors that differ at keys 3 compare equal, in one order only. -/
theorem C26_eq_unsound_fails :
    let a : FSV Int := .loc [(1, 0), (2, 5)]
    let b : FSV Int := .loc [(2, 5), (3, 7)]
    a.eq b = true ∧ b.eq a = false ∧ a.value 3 = 0 ∧ b.value 3 = 7 := by decide

/-- C26 fails: two vectors with the same value at every key compare different. -/
theorem C26_eq_incomplete_fails :
    let a : FSV Int := .loc [(1, 0)]
    let b : FSV Int := .loc []
    a.eq b = false ∧ ∀ k, a.value k = b.value k := by
  refine ⟨by decide, fun k => ?_⟩
  by_cases h : 1 = k <;> simp [FSV.value, FSV.entries, lookup, h]

/-- Non-vacuity: equal vectors with different representations. -/
example : (FSV.loc [(1, (3 : Int)), (2, 5)]).eq (.rem [(2, 5), (1, 3)]) = true ∧
    (FSV.loc [(1, (3 : Int)), (2, 5)]).Inv := by
  refine ⟨by decide, by simp [FSV.Inv, FSV.entries]⟩

end Cdec.Sparse
