import Verif.Util.Dedup
import Mathlib.Data.List.Nodup
import Mathlib.Data.Fintype.EquivFin
import Mathlib.Data.List.Infix
/-!
# Lemmas about removing repeated lines
-/
namespace Cdec.Dedup

variable (hash : List UInt8 → Fin (2 ^ 64))

theorem loop_sublist : ∀ (ls : List (List UInt8)) seen, (loop hash ls seen).Sublist ls
  | [], _ => by simp [loop]
  | l :: ls, seen => by
    rw [loop]
    split
    · exact (loop_sublist ls seen).cons _
    · exact (loop_sublist ls _).cons_cons _

theorem loop_hashes : ∀ (ls : List (List UInt8)) seen, ((loop hash ls seen).map hash).Nodup ∧ ∀ l ∈ loop hash ls seen, hash l ∉ seen
  | [], _ => by simp [loop]
  | l :: ls, seen => by
    rw [loop]
    split
    · exact loop_hashes ls seen
    · rename_i h
      obtain ⟨a, b⟩ := loop_hashes ls (hash l :: seen)
      refine ⟨?_, ?_⟩
      · rw [List.map_cons, List.nodup_cons]
        refine ⟨?_, a⟩
        intro hm
        obtain ⟨x, hx, e⟩ := List.mem_map.1 hm
        exact b x hx (by rw [e]; simp)
      · intro x hx
        rcases List.mem_cons.1 hx with rfl | hx
        · exact h
        · exact fun hs => b x hx (List.mem_cons_of_mem _ hs)

theorem loop_covers : ∀ (ls : List (List UInt8)) seen, ∀ l ∈ ls, hash l ∈ seen ∨ ∃ m ∈ loop hash ls seen, hash m = hash l
  | [], _, _, h => by simp at h
  | x :: ls, seen, l, h => by
    rw [loop]
    split
    · rename_i hx
      rcases List.mem_cons.1 h with rfl | h
      · exact Or.inl hx
      · exact loop_covers ls seen l h
    · rcases List.mem_cons.1 h with rfl | h
      · exact Or.inr ⟨l, by simp, rfl⟩
      · rcases loop_covers ls (hash x :: seen) l h with hs | ⟨m, hm, e⟩
        · rcases List.mem_cons.1 hs with e | hs
          · exact Or.inr ⟨x, by simp, e.symm⟩
          · exact Or.inl hs
        · exact Or.inr ⟨m, by simp [hm], e⟩

/-- Nothing is dropped if all hashes are new. -/
theorem loop_id : ∀ (ls : List (List UInt8)) seen, (ls.map hash).Nodup → (∀ l ∈ ls, hash l ∉ seen) → loop hash ls seen = ls
  | [], _, _, _ => rfl
  | l :: ls, seen, hn, hs => by
    rw [List.map_cons, List.nodup_cons] at hn
    rw [loop, if_neg (hs l (by simp)), loop_id ls _ hn.2]
    intro x hx hm
    rcases List.mem_cons.1 hm with e | hm
    · exact hn.1 (e ▸ List.mem_map_of_mem hx)
    · exact hs x (by simp [hx]) hm

/-- A line that is printed is the first with its hash. -/
theorem loop_append (ys : List (List UInt8)) : ∀ (xs : List (List UInt8)) seen, ∃ seen', loop hash (xs ++ ys) seen = loop hash xs seen ++ loop hash ys seen' ∧
    ∀ h, h ∈ seen' ↔ h ∈ seen ∨ ∃ x ∈ xs, hash x = h
  | [], seen => ⟨seen, by simp [loop], by simp⟩
  | x :: xs, seen => by
    rw [List.cons_append, loop, loop]
    split
    · rename_i hx
      obtain ⟨s, e, hs⟩ := loop_append ys xs seen
      refine ⟨s, e, fun h => ?_⟩
      rw [hs]
      constructor
      · rintro (a | ⟨y, hy, rfl⟩)
        · exact Or.inl a
        · exact Or.inr ⟨y, by simp [hy], rfl⟩
      · rintro (a | ⟨y, hy, rfl⟩)
        · exact Or.inl a
        · rcases List.mem_cons.1 hy with rfl | hy
          · exact Or.inl hx
          · exact Or.inr ⟨y, hy, rfl⟩
    · obtain ⟨s, e, hs⟩ := loop_append ys xs (hash x :: seen)
      refine ⟨s, by rw [e]; rfl, fun h => ?_⟩
      rw [hs, List.mem_cons]
      constructor
      · rintro ((rfl | a) | ⟨y, hy, rfl⟩)
        · exact Or.inr ⟨x, by simp, rfl⟩
        · exact Or.inl a
        · exact Or.inr ⟨y, by simp [hy], rfl⟩
      · rintro (a | ⟨y, hy, rfl⟩)
        · exact Or.inl (Or.inr a)
        · rcases List.mem_cons.1 hy with rfl | hy
          · exact Or.inl (Or.inl rfl)
          · exact Or.inr ⟨y, hy, rfl⟩

end Cdec.Dedup
